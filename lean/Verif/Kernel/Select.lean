import Verif.Py
import Verif.Num

/-!
# Model of `kernel/parameter_selection.py` and `kernel/utils.py`

The external optimiser (`scipy.optimize.minimize`) is an arbitrary terminating
strategy: a well-founded tree of criterion evaluations ending in an answer.  Gradient
evaluations are pure and are not recorded by the code, so they are left out, as are
timing, printing and the options dictionary.
-/

set_option autoImplicit false

namespace Verif.Kernel

open Verif

/-- `check_xi_zi_or_loader`, utils.py 12-20; `true` is `"arrays"`. -/
def checkSource {X Z L : Type} (xi : Option X) (zi : Option Z) (loader : Option L) : Py Bool :=
  let arrays := xi.isSome && zi.isSome
  let ld := loader.isSome
  if arrays && ld then .error .valueError
  else if !arrays && !ld then .error .valueError
  else .ok arrays

/-- `seq[:k]` for a Python sequence. -/
def pyTo {α : Type} (l : List α) (k : Int) : List α :=
  if 0 ≤ k then l.take k.toNat else l.take (l.length + k).toNat

/-- `seq[k:]` for a Python sequence. -/
def pyFrom {α : Type} (l : List α) (k : Int) : List α :=
  if 0 ≤ k then l.drop k.toNat else l.drop (l.length + k).toNat

/-- The adapter `crit_` of `make_selection_criterion_with_gradient`,
parameter_selection.py 104-115; `none` as mean parameters when there are none. -/
def critAdapter {α R : Type} (crit : Option (List α) → List α → R) (parameterized : Bool)
    (meanLen : Int) (param : List α) : R :=
  if parameterized then crit (some (pyTo param meanLen)) (pyFrom param meanLen)
  else crit none param

/-- An optimiser: after each criterion value it asks for another one or answers. -/
inductive Solver (P : Type) where
  | stop (x : P) (f : Flt)
  | ask (p : P) (k : Flt → Solver P)

/-- The variables captured by `record`, parameter_selection.py 210-218. -/
structure Hist (P : Type) where
  params : List P
  values : List Flt
  bestP : Option P
  best : Flt

/-- Their initial values, parameter_selection.py 210-211. -/
noncomputable def Hist.init {P : Type} : Hist P := ⟨[], [], none, .num ⊤⟩

/-- `record`, parameter_selection.py 213-218. -/
noncomputable def Hist.record {P : Type} (h : Hist P) (p : P) (J : Flt) : Hist P :=
  open Classical in
  let h' : Hist P := { h with params := h.params ++ [p], values := h.values ++ [J] }
  if J.lt h.best then { h' with best := J, bestP := some p } else h'

/-- `criterion_with_history`, parameter_selection.py 222-231. -/
noncomputable def withHistory {P : Type} (crit : P → Py Flt) (p : P) (h : Hist P) :
    Py Flt × Hist P :=
  match crit p with
  | .ok J => (.ok J, h.record p J)
  | .error e =>
    if e = .linAlgError then (.ok (.num ⊤), h.record p (.num ⊤)) else (.error e, h)

/-- The call of `minimize`, parameter_selection.py 253-260. -/
noncomputable def runSolver {P : Type} (crit : P → Py Flt) :
    Solver P → Hist P → Py (P × Flt) × Hist P
  | .stop x f, h => (.ok (x, f), h)
  | .ask p k, h =>
    match withHistory crit p h with
    | (.error e, h') => (.error e, h')
    | (.ok J, h') => runSolver crit (k J) h'

/-- The fields of the result that the wrapper sets. -/
structure OptResult (P : Type) where
  x : Option P
  f : Flt
  bestReturned : Bool
  params : List P
  values : List Flt

/-- The optimisation methods accepted, parameter_selection.py 233-251. -/
inductive Method where
  | lbfgsb
  | slsqp
  | unknown

/-- `autoselect_parameters`, parameter_selection.py 128-276. -/
noncomputable def autoselect {P : Type} (crit : P → Py Flt) (sv : Solver P) (m : Method) :
    Py (OptResult P) :=
  open Classical in
  match m with
  | .unknown => .error .valueError
  | _ =>
    match runSolver crit sv .init with
    | (.error e, _) => .error e
    | (.ok (x, f), h) =>
      if h.best.lt f then .ok ⟨h.bestP, h.best, false, h.params, h.values⟩
      else .ok ⟨some x, f, true, h.params, h.values⟩

/-- The automatic bounds of one coordinate, parameter_selection.py 199-208. -/
noncomputable def autoBounds (delta p : ℝ) : ℝ × ℝ := (max (p - delta) (-500), min (p + delta) 500)

/-- The parameters held by a model. -/
structure MParams where
  mean : Option (List ℝ)
  cov : Option (List ℝ)

/-- Arguments of `select_parameters_with_criterion` that matter here; `solver` is the
optimiser started at a given vector. -/
structure SelArgs where
  xi : Option Unit
  zi : Option Unit
  loader : Option Unit
  mean0 : Option (List ℝ)
  cov0 : Option (List ℝ)
  parameterized : Bool
  meanLen : Int
  method : Method

/-- `select_parameters_with_criterion`, parameter_selection.py 367-437: the new
parameters of the model and the optimisation record, or an exception. -/
noncomputable def selectWith (crit : Option (List ℝ) → List ℝ → Py Flt)
    (guess : Py (List ℝ)) (solver : List ℝ → Solver (List ℝ)) (a : SelArgs) (m : MParams) :
    Py (MParams × OptResult (List ℝ)) := do
  let _ ← checkSource a.xi a.zi a.loader
  let cov0 ← match a.cov0 with
    | some c => pure c
    | none => guess
  let param0 ← if a.parameterized then
      match a.mean0 with
      | none => .error .valueError
      | some m0 => pure (m0 ++ cov0)
    else pure cov0
  let r ← autoselect (critAdapter crit a.parameterized a.meanLen) (solver param0) a.method
  match r.x with
  | none => .error .typeError
  | some x =>
    if a.parameterized then
      pure (⟨some (pyTo x a.meanLen), some (pyFrom x a.meanLen)⟩, r)
    else pure ({ m with cov := some x }, r)

/-- `update_parameters_with_criterion`, parameter_selection.py 440-506. -/
noncomputable def updateWith (crit : Option (List ℝ) → List ℝ → Py Flt)
    (guess : Py (List ℝ)) (solver : List ℝ → Solver (List ℝ)) (a : SelArgs) (m : MParams) :
    Py (MParams × OptResult (List ℝ)) :=
  selectWith crit guess solver
    { a with mean0 := if a.parameterized then m.mean else none, cov0 := m.cov } m

/-- `select_parameters_with_ml_constant_mean`, parameter_selection.py 641-681;
`isParam` is the test `model.meantype == "parameterized"`; `guess` the initial guess of
both parts (evaluated only when one is missing). -/
noncomputable def selectMlConstant (isParam : Bool)
    (nll : Option (List ℝ) → List ℝ → Py Flt) (guess : Py (List ℝ × List ℝ))
    (guessCov : Py (List ℝ)) (solver : List ℝ → Solver (List ℝ)) (a : SelArgs) (m : MParams) :
    Py (MParams × OptResult (List ℝ)) := do
  if !isParam then .error .valueError
  let mc ← match a.mean0, a.cov0 with
    | some x, some y => pure (x, y)
    | mo, co => do
      let g ← guess
      pure (mo.getD g.1, co.getD g.2)
  if mc.1.length ≠ 1 then .error .valueError
  selectWith nll guessCov solver
    { a with mean0 := some mc.1, cov0 := some mc.2, parameterized := true, meanLen := 1 } m

end Verif.Kernel
