import Verif.Core.Object
import Verif.Backend.Arrays
import Verif.Core.FisherTorch

/-!
# Fisher information of a `Model` object: which parameters, and which element type

`Model.fisher_information` and `Model.fisher_information_cpd` (model.py 509-567) read the stored
parameters when none are given, and differentiate by storing shifted values in a copy of the
parameter array (fisher.py 61-66), which keeps its element type.

Simplifications: as `Verif.Core.Object`; the covariance of an integer parameter array is the one
of the same numbers.
-/

set_option autoImplicit false

namespace Verif.Core.Obj

open Verif Verif.Data Matrix

/-- What can be given or stored as `covparam`: nothing, a list of numbers (all integers or not), or an
array with integer or floating elements. -/
inductive CovArg (p : ℕ) where
  | none
  | list (isInt : Bool) (v : Fin p → ℝ)
  | arr (isInt : Bool) (v : Fin p → ℝ)

/-- `theta = model.covparam if covparam is None else gnp.asarray(covparam)`, then `theta.shape`,
fisher.py 49-50 and 108-109: `asarray` of integers is an integer array (numpy_backend.py 174-188,
torch_backend.py 217-244); the stored parameters are used as they are, and `None` and lists have no
`shape`. -/
def thetaArr {p : ℕ} (stored given : CovArg p) : Py (Bool × (Fin p → ℝ)) :=
  match given with
  | .none =>
    match stored with
    | .arr i v => .ok (i, v)
    | .none => .error .attributeError
    | .list _ _ => .error .attributeError
  | .list i v => .ok (i, v)
  | .arr i v => .ok (i, v)

/-- The derivative matrix of coordinate `i`, fisher.py 61-69: the shifted value is stored in a copy
of `theta`. -/
noncomputable def dCovAs {n p : ℕ} (isInt : Bool) (cov : (Fin p → ℝ) → Mat n n) (theta : Fin p → ℝ) (eps : ℝ)
    (i : Fin p) : Mat n n :=
  finiteDiff (fun v => cov (Function.update theta i (Backend.storeAs isInt v))) (theta i) eps

/-- `fisher_information`, fisher.py 50-78, once `theta` is known. -/
noncomputable def fisherAs {n p : ℕ} (la : LA) (isInt : Bool) (cov : (Fin p → ℝ) → Mat n n) (theta : Fin p → ℝ)
    (eps : ℝ) : Py (Mat p p) :=
  match la.inv (cov theta) with
  | .error _ => .error .runtimeError
  | .ok Kinv =>
    .ok (symFill fun i j =>
      0.5 * Matrix.trace (Kinv * dCovAs isInt cov theta eps i * Kinv * dCovAs isInt cov theta eps j))

/-- `fisher_information_cpd` for a linear predictor, fisher.py 108-148, once `theta` is known. -/
noncomputable def fisherCpdAs {p q r : ℕ} (la : LA) (isInt : Bool) (cov : (Fin p → ℝ) → Mat (q + r) (q + r))
    (P : Mat (q + r) q) (theta : Fin p → ℝ) (eps : ℝ) : Py (Mat p p) := do
  let W : Mat (q + r) r := (la.qr P).1.submatrix id (Fin.natAdd q)
  let G := Wᵀ * (cov theta * W)
  let C ← la.chol G
  let dG : Fin p → Mat r r := fun i => Wᵀ * (dCovAs isInt cov theta eps i * W)
  let solveG : Mat r r → Mat r r := fun A => (Cᵀ)⁻¹ * (C⁻¹ * A)
  return symFill fun i j => 0.5 * Matrix.trace (solveG (dG i) * solveG (dG j))

variable {d n q r p : ℕ} {M : Type}

/-- `Model.fisher_information(xi, covparam, epsilon)`, model.py 509-538; `stored` is
`model.covparam`. -/
noncomputable def fisherInformation (la : LA) (g : GP d q (Fin p → ℝ) M) (stored : CovArg p) (xi : Pts n d)
    (given : CovArg p) (eps : ℝ) : Py (Mat p p) := do
  let t ← thetaArr stored given
  fisherAs la t.1 (g.covMat xi xi) t.2 eps

/-- `Model.fisher_information_cpd(xi, covparam, epsilon)`, model.py 540-567, fisher.py 81-151: the
contrasts for a linear predictor, otherwise `fisher_information`. -/
noncomputable def fisherInformationCpd (la : LA) (g : GP d q (Fin p → ℝ) M) (stored : CovArg p) (xi : Pts (q + r) d)
    (given : CovArg p) (eps : ℝ) : Py (Mat p p) := do
  let t ← thetaArr stored given
  if g.meantype = "linear_predictor" then fisherCpdAs la t.1 (g.covMat xi xi) (g.mean xi g.meanparam) t.2 eps
  else fisherInformation la g stored xi (.arr t.1 t.2) eps

/-- `Model.k_inverses(xi, zi, covparam)`, model.py 452-478. -/
noncomputable def inverses (la : LA) (g : GP d q (Fin p → ℝ) M) (xi : Pts n d) (z : Fin n → ℝ) (θ : Fin p → ℝ) :
    Py (ℝ × (Fin n → ℝ) × (Fin n → ℝ)) :=
  kInverses la (g.covMat xi xi θ) z

/-- `log_prior_reference(model, covparam, xi)`, priors.py 131-165, with the default step. -/
noncomputable def logPriorReferenceAs (la : LA) (g : GP d q (Fin p → ℝ) M) (stored : CovArg p) (xi : Pts n d)
    (given : CovArg p) (eps : ℝ) : Py ℝ := do
  let I ← fisherInformation la g stored xi given eps
  let ld ← logdetNumpy I
  return 0.5 * ld

end Verif.Core.Obj
