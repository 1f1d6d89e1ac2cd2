import Verif.Kernel.Remap

/-!
# Model of the remaining selection procedures of `parameter_selection.py`
-/

set_option autoImplicit false

namespace Verif.Kernel

open Verif

/-- `update_parameters_with_ml_constant_mean`, parameter_selection.py 683-744: the selection
started at the parameters of the model. -/
noncomputable def updateMlConstant (isParam : Bool) (nll : Option (List ℝ) → List ℝ → Py Flt)
    (guess : Py (List ℝ × List ℝ)) (guessCov : Py (List ℝ)) (solver : List ℝ → Solver (List ℝ))
    (a : SelArgs) (m : MParams) : Py (MParams × OptResult (List ℝ)) :=
  selectMlConstant isParam nll guess guessCov solver { a with mean0 := m.mean, cov0 := m.cov } m

/-- `select_parameters_with_remap_with_power_laws_prior`, parameter_selection.py 969-1027; `post`
is the criterion `neg_log_restricted_posterior_power_laws_prior` of the data. -/
noncomputable def selectPowerLaw (post : List ℝ → Py Flt) (guess : Py (List ℝ))
    (solver : List ℝ → Solver (List ℝ)) (a : SelArgs) (m : MParams) :
    Py (MParams × OptResult (List ℝ)) :=
  selectWith (fun _ => post) guess solver { a with mean0 := none, parameterized := false, meanLen := 1 } m

/-- `update_parameters_with_remap_with_power_laws_prior`, parameter_selection.py 1030-1083. -/
noncomputable def updatePowerLaw (post : List ℝ → Py Flt) (guess : Py (List ℝ))
    (solver : List ℝ → Solver (List ℝ)) (a : SelArgs) (m : MParams) :
    Py (MParams × OptResult (List ℝ)) :=
  updateWith (fun _ => post) guess solver { a with parameterized := false, meanLen := 1 } m

/-- Several calls of an update one after the other, each with its own optimiser and arguments. -/
noncomputable def runUpdates (step : (List ℝ → Solver (List ℝ)) → SelArgs → MParams →
    Py (MParams × OptResult (List ℝ))) :
    List ((List ℝ → Solver (List ℝ)) × SelArgs) → MParams → Py MParams
  | [], m => .ok m
  | (sv, a) :: ops, m =>
    match step sv a m with
    | .error e => .error e
    | .ok (m', _) => runUpdates step ops m'

end Verif.Kernel
