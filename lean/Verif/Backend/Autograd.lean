import Mathlib.Analysis.SpecialFunctions.Exp
import Mathlib.Data.Real.Sqrt
import Mathlib.Analysis.SpecialFunctions.Log.Basic
import Verif.FltOps

/-!
# Reverse-mode differentiation of a covariance entry (torch backend)

The entry of a covariance matrix is recorded by torch as a graph of elementary
operations, then `torch.autograd.grad` walks the graph backwards and multiplies
the incoming gradient by the local derivative of each operation.  The local rules
are those of PyTorch's `derivatives.yaml`; they are applied to floating-point
numbers, where `0/0` and `0*inf` give NaN, so a wrong rule or an unguarded square
root at zero is visible in the model.

Simplifications: one entry of the matrix at a time (the graph of a matrix is the
family of the graphs of its entries); a shared node is copied, its gradient being
the sum of the gradients of the copies; arithmetic is exact apart from infinities
and NaN.
-/

set_option autoImplicit false

namespace Verif.Torch

open Verif

/-- A recorded computation with leaves `K` (the entries of the tensor that
requires gradients).  `whr c x a b` is `torch.where(c(x), a, b)`, the mask being
computed from `x`; `inf` is `safe_inf()`, torch_backend.py 124-134. -/
inductive Ex (K : Type) where
  | var (k : K)
  | const (r : ℝ)
  | add (a b : Ex K)
  | sub (a b : Ex K)
  | mul (a b : Ex K)
  | exp (a : Ex K)
  | pow (a : Ex K) (n : ℕ)
  | sqrt (a : Ex K)
  | log (a : Ex K)
  | div (a b : Ex K)
  | maxi (a b : Ex K)
  | inf
  | clamp0 (a : Ex K)
  | whr (c : Flt → Prop) (x a b : Ex K)

variable {K : Type}

open Classical in
/-- `torch.sqrt`: negative numbers give NaN. -/
noncomputable def fsqrt : Flt → Flt
  | .num a => if a < 0 then .nan else if a = ⊤ then .num ⊤ else Flt.fin (Real.sqrt a.toReal)
  | .nan => .nan

open Classical in
/-- `torch.log`: `-inf` at zero, NaN below. -/
noncomputable def flog : Flt → Flt
  | .num a => if a < 0 then .nan else if a = 0 then .num ⊥ else if a = ⊤ then .num ⊤ else Flt.fin (Real.log a.toReal)
  | .nan => .nan

/-- `torch.maximum` on one entry; NaN is kept. -/
noncomputable def fmax : Flt → Flt → Flt
  | .num a, .num b => .num (max a b)
  | _, _ => .nan

/-- `x ** n` for an integer `n`, by repeated multiplication. -/
noncomputable def fpow (x : Flt) : ℕ → Flt
  | 0 => Flt.fin 1
  | n + 1 => (fpow x n).mul x

open Classical in
/-- `x.clamp(min=0.0)`; NaN is kept. -/
noncomputable def fclamp0 : Flt → Flt
  | .num a => .num (max a 0)
  | .nan => .nan

open Classical in
/-- `torch.where(c, a, b)` on one entry. -/
noncomputable def fwhere (c : Prop) (a b : Flt) : Flt := if c then a else b

/-- The forward pass: the value of the recorded computation. -/
noncomputable def val (v : K → ℝ) : Ex K → Flt
  | .var k => Flt.fin (v k)
  | .const r => Flt.fin r
  | .add a b => (val v a).add (val v b)
  | .sub a b => (val v a).sub (val v b)
  | .mul a b => (val v a).mul (val v b)
  | .exp a => (val v a).exp
  | .pow a n => fpow (val v a) n
  | .sqrt a => fsqrt (val v a)
  | .log a => flog (val v a)
  | .div a b => (val v a).div (val v b)
  | .maxi a b => fmax (val v a) (val v b)
  | .inf => .num ⊤
  | .clamp0 a => fclamp0 (val v a)
  | .whr c x a b => fwhere (c (val v x)) (val v a) (val v b)

open Classical in
/-- The backward pass: contribution of the node to the gradient of leaf `k`, when
the gradient arriving at the node is `g`.  Rules of PyTorch's derivatives.yaml:
`exp`: `grad * result`; `pow`: zeros for exponent 0, else
`grad * (exponent * self.pow(exponent - 1))`; `sqrt`: `grad / (2 * result)`;
`log`: `grad / self`; `div`: `grad / other` and `-grad * ((self / other) / other)`; `maximum`:
`where(self == other, grad / 2, grad)`, zero for the smaller one; `clamp`: `where(self >= min, grad, 0)`; `where`: `where(c, grad, 0)` and
`where(c, 0, grad)`. -/
noncomputable def back (v : K → ℝ) : Ex K → Flt → K → Flt
  | .var j, g, k => if k = j then g else Flt.fin 0
  | .const _, _, _ => Flt.fin 0
  | .add a b, g, k => (back v a g k).add (back v b g k)
  | .sub a b, g, k => (back v a g k).add (back v b g.neg k)
  | .mul a b, g, k => (back v a (g.mul (val v b)) k).add (back v b (g.mul (val v a)) k)
  | .exp a, g, k => back v a (g.mul (val v (.exp a))) k
  | .pow a n, g, k =>
    if n = 0 then back v a (Flt.fin 0) k
    else back v a (g.mul ((Flt.fin n).mul (fpow (val v a) (n - 1)))) k
  | .sqrt a, g, k => back v a (g.div ((Flt.fin 2).mul (val v (.sqrt a)))) k
  | .log a, g, k => back v a (g.div (val v a)) k
  | .div a b, g, k => (back v a (g.div (val v b)) k).add
      (back v b (g.neg.mul (((val v a).div (val v b)).div (val v b))) k)
  | .maxi a b, g, k =>
    let h := fwhere (val v a = val v b) (g.div (Flt.fin 2)) g
    (back v a (fwhere (Flt.lt (val v a) (val v b)) (Flt.fin 0) h) k).add
      (back v b (fwhere (Flt.lt (val v b) (val v a)) (Flt.fin 0) h) k)
  | .inf, _, _ => Flt.fin 0
  | .clamp0 a, g, k => back v a (fwhere (Flt.le (Flt.fin 0) (val v a)) g (Flt.fin 0)) k
  | .whr c x a b, g, k =>
    (back v a (fwhere (c (val v x)) g (Flt.fin 0)) k).add
      (back v b (fwhere (c (val v x)) (Flt.fin 0) g) k)

/-- `gnp.grad(f)(v)`, torch_backend.py 506-513: the backward pass started with one. -/
noncomputable def grad (e : Ex K) (v : K → ℝ) : K → Flt := back v e (Flt.fin 1)

/-! ## The recorded computations -/

/-- Sum over one axis. -/
def sumE {d : ℕ} (f : Fin d → Ex K) : Ex K :=
  (List.finRange d).foldr (fun k e => .add (f k) e) (.const 0)

/-- `custom_sqrt`, torch_backend.py 783-788: the zeros are replaced by one before
the square root is taken, and put back after. -/
noncomputable def customSqrtE (x : Ex K) : Ex K :=
  let mask : Flt → Prop := fun a => a = Flt.fin 0
  let xcopy := Ex.whr mask x (.const 1) x
  .whr mask x (.const 0) (.sqrt xcopy)

/-- Entry of `cdist`, torch_backend.py 791-807; `diag` says that both arguments are
the same object and that the entry is on the diagonal. -/
noncomputable def cdistE {d : ℕ} (diag : Prop) (x y : Fin d → Ex K) : Ex K :=
  let xnorm := sumE fun k => .pow (x k) 2
  let ynorm := sumE fun k => .pow (y k) 2
  let dist := Ex.sub (.add xnorm ynorm) (.mul (.const 2) (sumE fun k => .mul (x k) (y k)))
  let r := customSqrtE (.clamp0 dist)
  .whr (fun _ => diag) r (.const 0) r

/-- Entry of `scaled_distance`, torch_backend.py 810-820. -/
noncomputable def scaledDistanceE {d : ℕ} (diag : Prop) (l x y : Fin d → Ex K) : Ex K :=
  cdistE diag (fun k => .mul (.exp (l k)) (x k)) (fun k => .mul (.exp (l k)) (y k))

/-- Entry of `scaled_distance_elementwise` for two different objects,
torch_backend.py 823-829. -/
noncomputable def scaledDistanceEltE {d : ℕ} (l x y : Fin d → Ex K) : Ex K :=
  .sqrt (sumE fun k => .pow (.mul (.exp (l k)) (.sub (x k) (y k))) 2)

/-- `inftobigf`, torch_backend.py 500-502. -/
noncomputable def inftobigfE (bigf : ℝ) (h : Ex K) : Ex K :=
  .whr (fun a => a = .num ⊤ ∨ a = .num ⊥) h (.const bigf) h

/-- The coefficients computed in the loop of `maternp_kernel`, matern.py 58-60, from
the table `g` of `gammaln`. -/
noncomputable def coefE (g : ℕ → ℝ) (p i : ℕ) : ℝ :=
  Real.exp (g (p + 1) - g (2 * p + 1) + g (p + i + 1) - g (i + 1) - g (p - i + 1))

/-- `maternp_kernel(p, h)` on one recorded distance, matern.py 32-64. -/
noncomputable def maternE (g : ℕ → ℝ) (bigf : ℝ) (p : ℕ) (h0 : Ex K) : Ex K :=
  let h := inftobigfE bigf h0
  let c := 2 * Real.sqrt (p + 0.5)
  let twoch := Ex.mul (.const (2 * c)) h
  let poly := (List.range p).foldl
    (fun acc i => .add acc (.mul (.const (coefE g p i)) (.pow twoch (p - i)))) (.const 1)
  .mul (.exp (.mul (.const (-c)) h)) poly

/-- Entry of `maternp_covariance_ii_or_tt`, matern.py 67-94; `diag`: diagonal entry. -/
noncomputable def covIIE {d : ℕ} (g : ℕ → ℝ) (bigf eps : ℝ) (p : ℕ) (diag : Bool) (s : Ex K)
    (l x y : Fin d → Ex K) : Ex K :=
  let sigma2 := Ex.exp s
  let nugget := Ex.mul (.mul (.const 10) sigma2) (.const eps)
  .add (.mul sigma2 (maternE g bigf p (scaledDistanceE (diag = true) l x y)))
    (.mul nugget (.const (if diag then 1 else 0)))

/-- Entry of `maternp_covariance_it`, matern.py 97-121. -/
noncomputable def covITE {d : ℕ} (g : ℕ → ℝ) (bigf : ℝ) (p : ℕ) (pairwise : Bool) (s : Ex K)
    (l x y : Fin d → Ex K) : Ex K :=
  let D := if pairwise then scaledDistanceEltE l x y else scaledDistanceE False l x y
  .mul (.exp s) (maternE g bigf p D)

end Verif.Torch
