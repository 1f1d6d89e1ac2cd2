import Verif.Core.Model
import Verif.Backend.Criterion
import Mathlib.Analysis.Calculus.Deriv.Basic

/-!
# Model of `fisher_information_torch`, `logdet` and `log_prior_reference`

`/repo/gpmp/core/fisher.py` 154-193, `/repo/gpmp/kernel/priors.py` 131-165,
`logdet` of both backends.  Autograd is taken at its word: the derivatives it returns are
the partial derivatives of the computed value.
-/

set_option autoImplicit false

namespace Verif.Core

open Verif Verif.Data Verif.Backend Matrix

variable {n p : ℕ}

/-- The inner function `log_det_cov`, fisher.py 182-185. -/
noncomputable def logDetCov (la : LA) (cov : (Fin p → ℝ) → Mat n n) (params : Fin p → ℝ) : Py ℝ :=
  match la.chol (cov params) with
  | .ok L => .ok (2 * ∑ i, Real.log (L i i))
  | .error e => .error e

/-- The value as a plain function (0 where it raises). -/
noncomputable def pyVal (f : (Fin p → ℝ) → Py ℝ) (x : Fin p → ℝ) : ℝ :=
  match f x with
  | .ok v => v
  | .error _ => 0

/-- First partial derivatives. -/
noncomputable def gradOf (F : (Fin p → ℝ) → ℝ) (x : Fin p → ℝ) (i : Fin p) : ℝ :=
  deriv (fun s => F (Function.update x i s)) (x i)

/-- Second partial derivatives: row `i` differentiates the `i`-th first derivative. -/
noncomputable def hessOf (F : (Fin p → ℝ) → ℝ) (x : Fin p → ℝ) : Mat p p :=
  Matrix.of fun i j => deriv (fun s => gradOf F (Function.update x j s) i) (x j)

/-- The function given to `SecondOrderDifferentiableFunction`, fisher.py 187, with what
autograd makes of it. -/
noncomputable def logDetFun (la : LA) (cov : (Fin p → ℝ) → Mat n n) : Fun2 p :=
  ⟨logDetCov la cov, fun x => some (gradOf (pyVal (logDetCov la cov)) x),
    fun x => some (hessOf (pyVal (logDetCov la cov)) x)⟩

/-- `fisher_information_torch`, fisher.py 180-191.  The numpy backend has no
`SecondOrderDifferentiableFunction`, so the attribute lookup fails there. -/
noncomputable def fisherTorch (be : Backend) (la : LA) (cov : (Fin p → ℝ) → Mat n n)
    (theta : Fin p → ℝ) : Py (Mat p p) := do
  if be = .numpy then .error .attributeError
  let f := logDetFun la cov
  let r := fun2Eval f theta (Fun2State.init p)
  let _ ← r.1
  let g := fun2Grad f r.2
  let _ ← g.1
  let H ← fun2Hess f g.2
  return (0.5 : ℝ) • H

/-- `logdet` of the numpy backend, numpy_backend.py 450-456, from the sign and the log of
the absolute determinant that `slogdet` returns. -/
noncomputable def logdetNumpy {m : ℕ} (A : Mat m m) : Py ℝ :=
  if A.det ≤ 0 then .error .valueError else .ok (Real.log |A.det|)

/-- `torch.logdet` (re-exported, torch_backend.py 66-108): NaN for a negative determinant,
`-inf` for a zero one, never an exception. -/
noncomputable def logdetTorch {m : ℕ} (A : Mat m m) : Flt :=
  if A.det < 0 then .nan else if A.det = 0 then .num ⊥ else Flt.fin (Real.log A.det)

/-- `log_prior_reference`, priors.py 131-165, numpy backend, with the default step of
`fisher_information`. -/
noncomputable def logPriorReference (la : LA) (cov : (Fin p → ℝ) → Mat n n)
    (theta : Fin p → ℝ) (eps : ℝ) : Py ℝ := do
  let I ← fisher la cov theta eps
  let l ← logdetNumpy I
  return 0.5 * l

/-- `cholesky_inv` of the numpy backend, numpy_backend.py 458-463: a plain inverse. -/
noncomputable def cholInvNumpy (la : LA) {m : ℕ} (A : Mat m m) : Py (Mat m m) := la.inv A

/-- `cholesky_inv` of the torch backend, torch_backend.py 888-890. -/
noncomputable def cholInvTorch (la : LA) {m : ℕ} (A : Mat m m) : Py (Mat m m) :=
  match la.chol A with
  | .ok C => .ok ((Cᵀ)⁻¹ * C⁻¹)
  | .error e => .error e

end Verif.Core
