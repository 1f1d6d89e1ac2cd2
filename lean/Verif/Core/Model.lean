import Verif.Py
import Verif.Data.Model
import Mathlib.LinearAlgebra.Matrix.NonsingularInverse
import Mathlib.LinearAlgebra.Matrix.PosDef
import Mathlib.LinearAlgebra.Matrix.Trace
import Mathlib.Data.Matrix.ColumnRowPartitioned
import Mathlib.Analysis.SpecialFunctions.Log.Basic
import Mathlib.Analysis.SpecialFunctions.Trigonometric.Basic
import Mathlib.Analysis.SpecialFunctions.Sqrt

/-!
# Model of `gpmp/core` (kriging, leave-one-out, likelihoods, Fisher, sample paths)

Exact real arithmetic, Mathlib matrices.  The linear-algebra routines of numpy,
scipy and torch are the fields of `LA`; what is assumed of them is `LA.Contract`
(shown to be satisfiable in `Verif.Core.Contract`).  The covariance and mean
functions are represented by the arrays they return (`Arrays`); vertical stacking
of blocks is a sum of index types.
-/

set_option autoImplicit false

namespace Verif.Core

open Verif Verif.Data Matrix

abbrev Mat (n m : ℕ) := Matrix (Fin n) (Fin m) ℝ

/-- The external linear-algebra routines used by `gpmp.core`. -/
structure LA where
  /-- `gnp.cholesky` (numpy.linalg / torch.linalg): lower factor. -/
  chol : {n : ℕ} → Mat n n → Py (Mat n n)
  /-- `gnp.solve` on a general or symmetric full system. -/
  solve : {ι κ : Type} → [Fintype ι] → [DecidableEq ι] → Matrix ι ι ℝ → Matrix ι κ ℝ →
    Py (Matrix ι κ ℝ)
  /-- `gnp.solve(A, B, assume_a="sym")`. -/
  solveSym : {n m : ℕ} → Mat n n → Mat n m → Py (Mat n m)
  /-- `gnp.qr(P, mode="complete")`. -/
  qr : {n q : ℕ} → Mat n q → Mat n n × Mat n q
  /-- `gnp.inv`. -/
  inv : {n : ℕ} → Mat n n → Py (Mat n n)

/-- `C` is the Cholesky factor of `A`. -/
structure IsChol {n : ℕ} (A C : Mat n n) : Prop where
  lower : ∀ i j, i < j → C i j = 0
  diag_pos : ∀ i, 0 < C i i
  mul : C * Cᵀ = A

/-- `(Q, R)` is a complete QR factorisation of `P`. -/
structure IsQR {n q : ℕ} (P : Mat n q) (Q : Mat n n) (R : Mat n q) : Prop where
  orth : Qᵀ * Q = 1
  upper : ∀ (i : Fin n) (j : Fin q), (j : ℕ) < (i : ℕ) → R i j = 0
  mul : Q * R = P

/-- The matrix seen by a symmetric solver that only reads the upper triangle. -/
def symUpper {n : ℕ} (A : Mat n n) : Mat n n :=
  Matrix.of fun i j => if i ≤ j then A i j else A j i

/-- The system actually solved by `gnp.solve(A, B, assume_a="sym")`: torch ignores
the flag (torch_backend.py 837-838), scipy reads the upper triangle only. -/
def symSystem {n : ℕ} : Backend → Mat n n → Mat n n
  | .numpy, A => symUpper A
  | .torch, A => A

/-- What is assumed of the routines (exact arithmetic): whatever the solvers
return is a solution (they may fail), Cholesky succeeds exactly on positive
definite matrices, QR and inversion are exact. -/
structure LA.Sound (be : Backend) (la : LA) : Prop where
  chol_ok : ∀ {n : ℕ} (A : Mat n n), A.PosDef → ∃ C, la.chol A = .ok C ∧ IsChol A C
  chol_err : ∀ {n : ℕ} (A : Mat n n), A.IsSymm → ¬ A.PosDef → la.chol A = .error .linAlgError
  solve_ok : ∀ {ι κ : Type} [Fintype ι] [DecidableEq ι] (A : Matrix ι ι ℝ) (B X : Matrix ι κ ℝ),
    la.solve A B = .ok X → A * X = B
  solveSym_ok : ∀ {n m : ℕ} (A : Mat n n) (B X : Mat n m),
    la.solveSym A B = .ok X → symSystem be A * X = B
  solveSym_total : ∀ {n m : ℕ} (A : Mat n n) (B : Mat n m),
    IsUnit (symSystem be A) → ∃ X, la.solveSym A B = .ok X
  qr_ok : ∀ {n q : ℕ} (P : Mat n q), q ≤ n → IsQR P (la.qr P).1 (la.qr P).2
  inv_ok : ∀ {n : ℕ} (A : Mat n n), IsUnit A → la.inv A = .ok A⁻¹
  inv_err : ∀ {n : ℕ} (A : Mat n n), ¬ IsUnit A → la.inv A = .error .linAlgError

/-- In addition, the general solver never fails on an invertible system. -/
structure LA.Contract (be : Backend) (la : LA) : Prop extends LA.Sound be la where
  solve_total : ∀ {ι κ : Type} [Fintype ι] [DecidableEq ι] (A : Matrix ι ι ℝ) (B : Matrix ι κ ℝ),
    IsUnit A → ∃ X, la.solve A B = .ok X

/-- `cholesky_solve`, numpy_backend.py 465-469 / torch_backend.py 879-885; the two
triangular solves are exact, so they multiply by the inverse triangles.  Returns
`(x, L)`. -/
noncomputable def choleskySolve (la : LA) {n m : ℕ} (A : Mat n n) (b : Mat n m) :
    Py (Mat n m × Mat n n) :=
  match la.chol A with
  | .error e => .error e
  | .ok L =>
    let y := L⁻¹ * b
    let x := (Lᵀ)⁻¹ * y
    .ok (x, L)

/-- A vector as a one-column matrix (`cholesky_solve` on 1-D right-hand sides). -/
def colVec {n : ℕ} (z : Fin n → ℝ) : Mat n 1 := Matrix.of fun i _ => z i

/-! ## `core/linalg.py` -/

/-- `diag_Kinv_from_chol`, linalg.py 17-46. -/
noncomputable def diagKinvFromChol {n : ℕ} (C : Mat n n) (lower : Bool) : Fin n → ℝ :=
  let T := C⁻¹
  if lower then fun i => ∑ r, T r i * T r i else fun i => ∑ r, T i r * T i r

/-- `compute_contrast_matrix`, linalg.py 49-70: the last `n - q` columns of `Q`;
`n = q + r`. -/
def contrastMatrix (la : LA) {q r : ℕ} (P : Mat (q + r) q) : Mat (q + r) r :=
  (la.qr P).1.submatrix id (Fin.natAdd q)

/-- `compute_contrast_covariance`, linalg.py 73-88. -/
def contrastCov {n r : ℕ} (W : Mat n r) (K : Mat n n) : Mat r r := Wᵀ * (K * W)

/-- `qr_nullspace`, linalg.py 92-110. -/
def qrNullspace (la : LA) {q r : ℕ} (P : Mat (q + r) q) : Mat (q + r) q × Mat (q + r) r × Mat q q :=
  let QR := la.qr P
  (QR.1.submatrix id (Fin.castAdd r), QR.1.submatrix id (Fin.natAdd q),
    QR.2.submatrix (Fin.castAdd r) id)

/-! ## `core/kriging.py` -/

/-- Result of `_compute_posterior_variance`. -/
inductive PostVar (m : ℕ) where
  | none
  | var (v : Fin m → ℝ)
  | cov (V : Mat m m)

/-- `_compute_posterior_variance`, kriging.py 170-199: `vt` is
`covariance(xt, None, pairwise=True)`, `Ktt` is `covariance(xt, None)`. -/
def posteriorVariance {ρ : Type} [Fintype ρ] {m : ℕ} (vt : Fin m → ℝ) (Ktt : Mat m m)
    (lm rhs : Matrix ρ (Fin m) ℝ) (returnType : ℤ) : Py (PostVar m) :=
  if returnType = -1 then .ok .none
  else if returnType = 0 then .ok (.var fun t => vt t - ∑ i, lm i t * rhs i t)
  else if returnType = 1 then .ok (.cov (Ktt - lmᵀ * rhs))
  else .error .valueError

/-- The arrays a model evaluates to at observation points `xi` and targets `xt`. -/
structure Arrays (n m q : ℕ) where
  /-- `covariance(xi, xi)` -/
  Kii : Mat n n
  /-- `covariance(xi, xt)` -/
  Kit : Mat n m
  /-- `covariance(xt, None, pairwise=True)` -/
  vt : Fin m → ℝ
  /-- `covariance(xt, None)` -/
  Ktt : Mat m m
  /-- `mean(xi)`, linear predictor -/
  Pi : Mat n q
  /-- `mean(xt)`, linear predictor -/
  Pt : Mat m q

variable {n m q : ℕ}

/-- `kriging_predictor_with_zero_mean`, kriging.py 35-67. -/
noncomputable def krigingZeroMean (la : LA) (a : Arrays n m q) (returnType : ℤ) :
    Py (Mat n m × PostVar m) := do
  let r ← choleskySolve la a.Kii a.Kit
  let v ← posteriorVariance a.vt a.Ktt r.1 a.Kit returnType
  return (r.1, v)

/-- Left-hand side of the universal kriging system, kriging.py 93-97. -/
def ukLHS (a : Arrays n m q) : Matrix (Fin n ⊕ Fin q) (Fin n ⊕ Fin q) ℝ :=
  Matrix.fromBlocks a.Kii a.Pi a.Piᵀ 0

/-- Right-hand side, kriging.py 100-102. -/
def ukRHS (a : Arrays n m q) : Matrix (Fin n ⊕ Fin q) (Fin m) ℝ :=
  Matrix.fromRows a.Kit a.Ptᵀ

/-- The body of the `try` in `kriging_predictor`, kriging.py 105-114 (the system
is symmetric, so `assume_a="sym"` is a plain solve). -/
noncomputable def ukDirect (la : LA) (a : Arrays n m q) (returnType : ℤ) :
    Py (Mat n m × PostVar m) := do
  let lm ← la.solve (ukLHS a) (ukRHS a)
  let v ← posteriorVariance a.vt a.Ktt lm (ukRHS a) returnType
  return (lm.toRows₁, v)

/-- `_kriging_predictor_nullspace`, kriging.py 202-257; `n = q + r`. -/
noncomputable def ukNullspace (la : LA) {r : ℕ} (a : Arrays (q + r) m q) (returnType : ℤ) :
    Py (Mat (q + r) m × PostVar m) := do
  let (Q1, W, Rq) := qrNullspace la a.Pi
  let G := Wᵀ * (a.Kii * W)
  let (alpha, _) ← choleskySolve la G (Wᵀ * a.Kit)
  let beta ← la.solveSym Rqᵀ a.Ptᵀ
  let lam := W * alpha + Q1 * beta
  let v ← posteriorVariance a.vt a.Ktt (Matrix.fromRows lam beta) (ukRHS a) returnType
  return (lam, v)

/-- `kriging_predictor`, kriging.py 70-116: block solve, any exception falls back
to the null-space route. -/
noncomputable def krigingUniversal (la : LA) {r : ℕ} (a : Arrays (q + r) m q) (returnType : ℤ) :
    Py (Mat (q + r) m × PostVar m) :=
  match ukDirect la a returnType with
  | .ok x => .ok x
  | .error _ => ukNullspace la a returnType

/-! ## `Model.predict` -/

/-- `model.meantype` together with what the mean callable returns. -/
inductive MeanType (n m : ℕ) where
  | zero
  /-- `meanparam is None` -/
  | parameterizedNone
  /-- mean vectors at `xi` and `xt` -/
  | parameterized (mi : Fin n → ℝ) (mt : Fin m → ℝ)
  | linearPredictor
  | invalid

/-- Extract the variance vector of a `return_type=0` result. -/
def PostVar.toVar {m : ℕ} : PostVar m → Fin m → ℝ
  | .var v => v
  | _ => 0

/-- `select_predictor`, kriging.py 119-164: centred data, prior mean at the
targets, weights, variance. -/
noncomputable def selectPredictor (la : LA) {r : ℕ} (mt : MeanType (q + r) m)
    (a : Arrays (q + r) m q) (zi : Fin (q + r) → ℝ) :
    Py ((Fin (q + r) → ℝ) × (Fin m → ℝ) × Mat (q + r) m × (Fin m → ℝ)) :=
  match mt with
  | .zero => do
    let r ← krigingZeroMean la a 0
    return (zi, 0, r.1, r.2.toVar)
  | .linearPredictor => do
    let r ← krigingUniversal la a 0
    return (zi, 0, r.1, r.2.toVar)
  | .parameterizedNone => .error .valueError
  | .parameterized mi mt => do
    let r ← krigingZeroMean la a 0
    return (zi - mi, mt, r.1, r.2.toVar)
  | .invalid => .error .valueError

/-- `Model.predict`, model.py 227-307 (after shape checks): posterior mean,
variance, weights. -/
noncomputable def predict (la : LA) {r : ℕ} (mt : MeanType (q + r) m) (a : Arrays (q + r) m q)
    (zi : Fin (q + r) → ℝ) (zeroNeg : Bool) : Py ((Fin m → ℝ) × (Fin m → ℝ) × Mat (q + r) m) := do
  let (zc, zm, lam, v) ← selectPredictor la mt a zi
  let v' := if zeroNeg then fun t => max (v t) 0 else v
  let mean := fun t => ∑ i, lam i t * zc i + zm t
  return (mean, v', lam)

/-! ## `core/loo.py` -/

/-- `_loo_with_zero_mean`, loo.py 65-83: `(zloo, sigma2loo, eloo)`. -/
noncomputable def looZeroMean (la : LA) (K : Mat n n) (zi : Fin n → ℝ) :
    Py ((Fin n → ℝ) × (Fin n → ℝ) × (Fin n → ℝ)) := do
  let (x, C) ← choleskySolve la K (colVec zi)
  let d := diagKinvFromChol C true
  let eloo : Fin n → ℝ := fun i => x i 0 / d i
  return (fun i => zi i - eloo i, fun i => 1 / d i, eloo)

/-- `_loo_with_parameterized_mean`, loo.py 89-97. -/
noncomputable def looParameterized (la : LA) (K : Mat n n) (mi zi : Fin n → ℝ) :
    Py ((Fin n → ℝ) × (Fin n → ℝ) × (Fin n → ℝ)) := do
  let (zl, s, e) ← looZeroMean la K (zi - mi)
  return (zl + mi, s, e)

/-- `_loo_with_linear_predictor_mean_cpd`, loo.py 103-130. -/
noncomputable def looCpd (la : LA) {r : ℕ} (K : Mat (q + r) (q + r)) (P : Mat (q + r) q)
    (zi : Fin (q + r) → ℝ) :
    Py ((Fin (q + r) → ℝ) × (Fin (q + r) → ℝ) × (Fin (q + r) → ℝ)) := do
  let W : Mat (q + r) r := (la.qr P).1.submatrix id (Fin.natAdd q)
  let G := Wᵀ * (K * W)
  let (S, _) ← choleskySolve la G Wᵀ
  let Qz := W *ᵥ (S *ᵥ zi)
  let Qd : Fin (q + r) → ℝ := fun i => ∑ j, W i j * S j i
  let eloo : Fin (q + r) → ℝ := fun i => Qz i / Qd i
  return (fun i => zi i - eloo i, fun i => 1 / Qd i, eloo)

/-- `_loo_with_linear_predictor_mean_spd`, loo.py 136-162. -/
noncomputable def looSpd (la : LA) (K : Mat n n) (P : Mat n q) (zi : Fin n → ℝ) :
    Py ((Fin n → ℝ) × (Fin n → ℝ) × (Fin n → ℝ)) := do
  let Kinv ← la.inv K
  let KinvP := Kinv * P
  let PtKinvP := Pᵀ * KinvP
  let R ← la.solve PtKinvP KinvPᵀ
  let Qinv := Kinv - KinvP * R
  let Qz := Qinv *ᵥ zi
  let eloo : Fin n → ℝ := fun i => Qz i / Qinv i i
  return (fun i => zi i - eloo i, fun i => 1 / Qinv i i, eloo)

/-- `loo`, loo.py 21-59: dispatch.  With a parameterised mean and `meanparam` `None` the
user's mean callable is applied to `None`; taken to raise `TypeError`. -/
noncomputable def loo (la : LA) {r : ℕ} (mt : MeanType (q + r) m) (K : Mat (q + r) (q + r))
    (P : Mat (q + r) q) (zi : Fin (q + r) → ℝ) :
    Py ((Fin (q + r) → ℝ) × (Fin (q + r) → ℝ) × (Fin (q + r) → ℝ)) :=
  match mt with
  | .zero => looZeroMean la K zi
  | .parameterized mi _ => looParameterized la K mi zi
  | .parameterizedNone => .error .typeError
  | .linearPredictor => looCpd la K P zi
  | .invalid => .error .valueError

/-! ## `core/likelihood.py` -/

/-- A criterion value: finite or `safe_inf()`. -/
inductive Crit where
  | finite (x : ℝ)
  | inf

/-- Is a `LinAlgError` caught by `except RuntimeError`?  torch's is a
`RuntimeError`, numpy's is a `ValueError`. -/
def catchesLinAlg : Backend → Bool
  | .torch => true
  | .numpy => false

/-- What `try … except RuntimeError: return safe_inf()` makes of an exception,
likelihood.py 45-48. -/
def onChol (be : Backend) (e : PyErr) : Py Crit :=
  if e = .runtimeError ∨ (e = .linAlgError ∧ catchesLinAlg be = true) then .ok .inf else .error e

/-- `negative_log_likelihood_zero_mean`, likelihood.py 18-52. -/
noncomputable def nllZeroMean (be : Backend) (la : LA) (K : Mat n n) (zi : Fin n → ℝ) : Py Crit :=
  match choleskySolve la K (colVec zi) with
  | .error e => onChol be e
  | .ok (x, C) =>
    let norm2 := ∑ i, zi i * x i 0
    let ldetK := 2 * ∑ i, Real.log (C i i)
    .ok (.finite (0.5 * (n * Real.log (2 * Real.pi) + ldetK + norm2)))

/-- `negative_log_likelihood`, likelihood.py 55-89. -/
noncomputable def nll (be : Backend) (la : LA) (K : Mat n n) (mi zi : Fin n → ℝ) : Py Crit :=
  nllZeroMean be la K (zi - mi)

/-- `negative_log_restricted_likelihood`, likelihood.py 92-129. -/
noncomputable def reml (be : Backend) (la : LA) {r : ℕ} (K : Mat (q + r) (q + r))
    (P : Mat (q + r) q) (zi : Fin (q + r) → ℝ) : Py Crit :=
  let W := contrastMatrix la P
  let Wz := Wᵀ *ᵥ zi
  let G := contrastCov W K
  match choleskySolve la G (colVec Wz) with
  | .error e => onChol be e
  | .ok (x, C) =>
    let norm2 := ∑ i, Wz i * x i 0
    let ldet := 2 * ∑ i, Real.log (C i i)
    .ok (.finite (0.5 * (r * Real.log (2 * Real.pi) + ldet + norm2)))

/-- `norm_k_sqrd_with_zero_mean`, linalg.py 113-118. -/
noncomputable def normKSqrdZeroMean (la : LA) (K : Mat n n) (zi : Fin n → ℝ) : Py ℝ := do
  let (x, _) ← choleskySolve la K (colVec zi)
  return ∑ i, zi i * x i 0

/-- `norm_k_sqrd`, linalg.py 132-141. -/
noncomputable def normKSqrd (la : LA) {r : ℕ} (K : Mat (q + r) (q + r)) (P : Mat (q + r) q)
    (zi : Fin (q + r) → ℝ) : Py ℝ := do
  let W := contrastMatrix la P
  let Wz := Wᵀ *ᵥ zi
  let (x, _) ← choleskySolve la (contrastCov W K) (colVec Wz)
  return ∑ i, Wz i * x i 0

/-- `k_inverses`, linalg.py 121-129 (`cholesky_inv`: numpy `inv`, torch
`cholesky_inverse`; both return the inverse, modelled by `inv`):
`(zᵀK⁻¹z, K⁻¹1, K⁻¹z)`. -/
noncomputable def kInverses (la : LA) (K : Mat n n) (zi : Fin n → ℝ) :
    Py (ℝ × (Fin n → ℝ) × (Fin n → ℝ)) := do
  let Kinv ← la.inv K
  let Kz := Kinv *ᵥ zi
  let K1 := Kinv *ᵥ (fun _ => 1)
  return (∑ i, zi i * Kz i, K1, Kz)

/-! ## `core/fisher.py`, `num/shared.py` -/

/-- `derivative_finite_diff`, shared.py 44-55, for matrix-valued `f`. -/
noncomputable def finiteDiff {V : Type} [AddCommGroup V] [Module ℝ V] (f : ℝ → V) (x h : ℝ) : V :=
  (12 * h)⁻¹ • (-f (x + 2 * h) + (8 : ℝ) • f (x + h) - (8 : ℝ) • f (x - h) + f (x - 2 * h))

/-- The double loop `for i in range(p): for j in range(i, p): I[i,j] = I[j,i] = term(i,j)`,
fisher.py 72-77 / 140-145: each entry is assigned from the ordered pair. -/
def symFill {p : ℕ} (term : Fin p → Fin p → ℝ) : Mat p p :=
  Matrix.of fun i j => if i ≤ j then term i j else term j i

/-- Derivative matrices by finite differences, fisher.py 59-69: `f` sets
coordinate `i` of a copy of `theta`. -/
noncomputable def dCov {p : ℕ} (cov : (Fin p → ℝ) → Mat n n) (theta : Fin p → ℝ) (eps : ℝ)
    (i : Fin p) : Mat n n :=
  finiteDiff (fun v => cov (Function.update theta i v)) (theta i) eps

/-- `fisher_information`, fisher.py 18-78. -/
noncomputable def fisher (la : LA) {p : ℕ} (cov : (Fin p → ℝ) → Mat n n) (theta : Fin p → ℝ)
    (eps : ℝ) : Py (Mat p p) :=
  match la.inv (cov theta) with
  | .error _ => .error .runtimeError
  | .ok Kinv =>
    .ok (symFill fun i j =>
      0.5 * Matrix.trace (Kinv * dCov cov theta eps i * Kinv * dCov cov theta eps j))

/-- `fisher_information_cpd` for a linear predictor, fisher.py 108-146. -/
noncomputable def fisherCpd (la : LA) {p r : ℕ} (cov : (Fin p → ℝ) → Mat (q + r) (q + r))
    (P : Mat (q + r) q) (theta : Fin p → ℝ) (eps : ℝ) : Py (Mat p p) := do
  let W : Mat (q + r) r := (la.qr P).1.submatrix id (Fin.natAdd q)
  let G := Wᵀ * (cov theta * W)
  let C ← la.chol G
  let dG : Fin p → Mat r r := fun i => Wᵀ * (dCov cov theta eps i * W)
  let solveG : Mat r r → Mat r r := fun A => (Cᵀ)⁻¹ * (C⁻¹ * A)
  return symFill fun i j => 0.5 * Matrix.trace (solveG (dG i) * solveG (dG j))

/-! ## `core/sample_paths.py` -/

/-- `sample_paths(method="chol")`, sample_paths.py 18-63; `E` are the normal draws. -/
noncomputable def samplePathsChol (la : LA) (K : Mat n n) (E : Mat n m) : Py (Mat n m) := do
  let C ← la.chol K
  return C * E

/-- `sample_paths(method="svd")`, sample_paths.py 54-58: `svd` returns `(U, s, Vt)`. -/
noncomputable def samplePathsSvd (U Vt : Mat n n) (s : Fin n → ℝ) (E : Mat n m) : Mat n m :=
  ((Matrix.of fun i j => U i j * Real.sqrt (s j)) * Vt) * E

/-- `conditional_sample_paths`, sample_paths.py 66-119. -/
def condPaths {N ni nt np : ℕ} (ztsim : Mat N np) (xiInd : Fin ni → Fin N) (zi : Fin ni → ℝ)
    (xtInd : Fin nt → Fin N) (lam : Mat ni nt) : Mat nt np :=
  let delta : Mat ni np := Matrix.of fun i k => zi i - ztsim (xiInd i) k
  Matrix.of fun j k => ztsim (xtInd j) k + ∑ i, lam i j * delta i k

/-- `conditional_sample_paths_parameterized_mean`, sample_paths.py 122-182. -/
def condPathsMean {N ni nt np : ℕ} (ztsim : Mat N np) (mi : Fin ni → ℝ) (xiInd : Fin ni → Fin N)
    (zi : Fin ni → ℝ) (mt : Fin nt → ℝ) (xtInd : Fin nt → Fin N) (lam : Mat ni nt) : Mat nt np :=
  let delta : Mat ni np := Matrix.of fun i k => (zi i - mi i) - ztsim (xiInd i) k
  Matrix.of fun j k => ztsim (xtInd j) k + ∑ i, lam i j * delta i k + mt j

end Verif.Core
