import Verif.Core.Model
import Verif.Backend.Autograd

/-!
# Reverse-mode differentiation of the likelihood criteria (torch backend)

`core/likelihood.py` evaluated with tensors records a graph of matrix operations; `torch.autograd.grad`
(torch_backend.py 506-513, 617-700) walks it backwards.  The rules are those of PyTorch's `derivatives.yaml` and
`FunctionsManual.cpp`; `g` is the gradient arriving at the result of an operation.  The gradient arriving at an entry of
the covariance matrix is passed on to its own graph, `Backend/Autograd.lean`.

Simplifications: exact arithmetic in the matrix part, with inverses for the triangular solves; the contrast matrix and the data do not depend on the parameters.
-/

set_option autoImplicit false

namespace Verif.Core.Rev

open Verif Verif.Data Matrix

variable {n m q r : ℕ}

/-- `tril()`. -/
def tril (M : Mat n n) : Mat n n := Matrix.of fun i j => if j ≤ i then M i j else 0

/-- `tril(-1)`. -/
def trilStrict (M : Mat n n) : Mat n n := Matrix.of fun i j => if j < i then M i j else 0

/-- `triu()`. -/
def triu (M : Mat n n) : Mat n n := Matrix.of fun i j => if i ≤ j then M i j else 0

/-- Backward rule of `torch.linalg.cholesky`, `A = L Lᵀ`: with `Φ = Lᵀ gL`,
`gA = 1/2 L⁻ᵀ (tril(Φ) + tril(Φ, -1)ᵀ) L⁻¹`. -/
noncomputable def cholBack (L gL : Mat n n) : Mat n n :=
  let phi := Lᵀ * gL
  let S := tril phi + (trilStrict phi)ᵀ
  (1 / 2 : ℝ) • ((Lᵀ)⁻¹ * S * L⁻¹)

/-- Backward rule of `torch.linalg.solve_triangular`, `A X = B`: `gB = A⁻ᵀ gX`, `gA = -gB Xᵀ` on the triangle. -/
noncomputable def solveBack (upper : Bool) (A : Mat n n) (X gX : Mat n m) : Mat n n × Mat n m :=
  let gB := (Aᵀ)⁻¹ * gX
  let gA := -(gB * Xᵀ)
  (if upper then triu gA else tril gA, gB)

/-- `cholesky_solve`, torch_backend.py 879-885, backwards: `gx` and `gL` arrive at the solution and at the factor. -/
noncomputable def cholSolveBack (L : Mat n n) (y x gx : Mat n m) (gL : Mat n n) : Mat n n × Mat n m :=
  let (gLt, gy) := solveBack true Lᵀ x gx
  let (gL1, gb) := solveBack false L y gy
  (cholBack L (gL + gLtᵀ + gL1), gb)

/-- `negative_log_likelihood_zero_mean`, likelihood.py 18-52, backwards: gradients of `K` and of `zi`.  The rules are
`gx = g b`, `gb = g x` for a sum of products, and `gC_ii = g / C_ii` for the logarithms of the diagonal. -/
noncomputable def nllBack (la : LA) (K : Mat n n) (zi : Fin n → ℝ) (g : ℝ) : Py (Mat n n × (Fin n → ℝ)) :=
  match la.chol K with
  | .error e => .error e
  | .ok C =>
    let y := C⁻¹ * colVec zi
    let x := (Cᵀ)⁻¹ * y
    let gs := g * 0.5
    let gC := Matrix.diagonal fun i => gs * 2 / C i i
    let gx := colVec fun i => gs * zi i
    let (gK, gb) := cholSolveBack C y x gx gC
    .ok (gK, fun i => gs * x i 0 + gb i 0)

/-- `negative_log_likelihood`, likelihood.py 55-89, backwards: gradients of `K` and of the mean values. -/
noncomputable def nllMeanBack (la : LA) (K : Mat n n) (mi zi : Fin n → ℝ) (g : ℝ) : Py (Mat n n × (Fin n → ℝ)) := do
  let (gK, gz) ← nllBack la K (zi - mi) g
  return (gK, -gz)

/-- `negative_log_restricted_likelihood`, likelihood.py 92-129, backwards: gradient of `K`.  The rules of the two
products `W.T @ (K @ W)` are `gB = Aᵀ gC`, `gA = gC Bᵀ`. -/
noncomputable def remlBack (la : LA) (K : Mat (q + r) (q + r)) (P : Mat (q + r) q) (zi : Fin (q + r) → ℝ) (g : ℝ) :
    Py (Mat (q + r) (q + r)) := do
  let W := contrastMatrix la P
  let (gG, _) ← nllBack la (contrastCov W K) (Wᵀ *ᵥ zi) g
  let gKW := W * gG
  return gKW * Wᵀ

/-! ## The gradient with respect to the covariance parameters -/

/-- The number of a recorded entry; only used where it is finite. -/
noncomputable def number : Flt → ℝ
  | .num a => a.toReal
  | .nan => 0

open Verif.Torch in
/-- The recorded entries of `maternp_covariance(xi, xi, p, covparam)`, matern.py 67-94; the leaves are the entries of
`covparam`. -/
noncomputable def recorded {d : ℕ} (g : ℕ → ℝ) (bigf eps : ℝ) (p : ℕ) (x : Matrix (Fin n) (Fin d) ℝ) (i j : Fin n) :
    Ex (Fin (d + 1)) :=
  covIIE g bigf eps p (decide (i = j)) (.var 0) (fun k => .var k.succ) (fun k => .const (x i k)) (fun k => .const (x j k))

open Verif.Torch in
/-- The matrix of the values of recorded entries. -/
noncomputable def forward {κ : Type} (E : Fin n → Fin n → Ex κ) (v : κ → ℝ) : Mat n n :=
  Matrix.of fun i j => number (val v (E i j))

open Verif.Torch in
/-- The gradients of the entries passed on to a leaf and added. -/
noncomputable def leaf {κ : Type} (E : Fin n → Fin n → Ex κ) (v : κ → ℝ) (gK : Mat n n) (k : κ) : Flt :=
  (List.finRange n).foldr (fun i s => ((List.finRange n).foldr (fun j s => (back v (E i j) (Flt.fin (gK i j)) k).add s)
    (Flt.fin 0)).add s) (Flt.fin 0)

open Verif.Torch in
/-- `gnp.grad` of `negative_log_likelihood` with respect to the covariance parameters and to the mean values. -/
noncomputable def nllGrad {κ : Type} (la : LA) (E : Fin n → Fin n → Ex κ) (mi zi : Fin n → ℝ) (v : κ → ℝ) :
    Py ((κ → Flt) × (Fin n → ℝ)) := do
  let (gK, gm) ← nllMeanBack la (forward E v) mi zi 1
  return (leaf E v gK, gm)

open Verif.Torch in
/-- `gnp.grad` of `negative_log_restricted_likelihood` with respect to the covariance parameters. -/
noncomputable def remlGrad {κ : Type} (la : LA) (E : Fin (q + r) → Fin (q + r) → Ex κ) (P : Mat (q + r) q)
    (zi : Fin (q + r) → ℝ) (v : κ → ℝ) : Py (κ → Flt) := do
  let gK ← remlBack la (forward E v) P zi 1
  return leaf E v gK

end Verif.Core.Rev
