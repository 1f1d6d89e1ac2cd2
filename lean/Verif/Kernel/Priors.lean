import Verif.Py
import Verif.Num
import Mathlib.Analysis.SpecialFunctions.Log.Basic
import Mathlib.Analysis.SpecialFunctions.Gamma.Basic
import Mathlib.Analysis.SpecialFunctions.Pow.Real
import Mathlib.Data.List.Sort

/-!
# Model of `kernel/priors.py`, `prior_defaults.py`, `prior_helpers.py`, `init.py`, `bounds.py`

Exact real arithmetic; infinities and NaN are explicit where the code can meet
them.
-/

set_option autoImplicit false

namespace Verif.Kernel

open Verif

/-! ## `priors.py` -/

/-- `log_prior_jeffreys_variance`, priors.py 43-69. -/
def logPriorJeffreys {d : ℕ} (cov : Fin (d + 1) → ℝ) (lambdaVar : ℝ) : ℝ := -lambdaVar * cov 0

/-- The keyword arguments of `log_prior_power_law`, priors.py 72-80. -/
structure PowerLaw where
  lambdaVar : ℝ
  cutVar : ℝ
  lambdaLen : ℝ
  cutLow : ℝ
  cutHigh : ℝ
  penalty : ℝ

/-- Their defaults, priors.py 74-79. -/
noncomputable def PowerLaw.default : PowerLaw := ⟨1, 9.21, 0, -9.21, 9.21, 100⟩

/-- `log_prior_power_law`, priors.py 72-128. -/
noncomputable def logPriorPowerLaw (a : PowerLaw) {d : ℕ} (cov : Fin (d + 1) → ℝ) : ℝ :=
  let logSigma2 := cov 0
  let p : Fin d → ℝ := fun j => cov j.succ
  let logPriorSigma2 := -a.lambdaVar * logSigma2
  let extraSigma2 := a.penalty * max (logSigma2 - a.cutVar) 0
  let extraLow : Fin d → ℝ := fun j => a.penalty * max (a.cutLow - p j) 0
  let extraHigh : Fin d → ℝ := fun j => a.penalty * max (p j - a.cutHigh) 0
  let logPriorLengths := -a.lambdaLen * ∑ j, p j - ∑ j, extraLow j - ∑ j, extraHigh j
  logPriorSigma2 + extraSigma2 + logPriorLengths

/-- `_logsigma2_prior_std`, priors.py 180-190; `invCdf` is `NormalDist().inv_cdf`. -/
noncomputable def logsigma2PriorStd (invCdf : ℝ → ℝ) (gamma coverage : ℝ) : Py ℝ :=
  open Classical in
  if gamma ≤ 1 then .error .valueError
  else if ¬ (0 < coverage ∧ coverage < 1) then .error .valueError
  else
    let q := 0.5 * (1 + coverage)
    let zq := invCdf q
    if zq ≤ 0 then .error .valueError
    else .ok (Real.log gamma / zq)

/-- `log_prior_gaussian_logsigma2`, priors.py 193-236, with both hyperparameters
given. -/
noncomputable def logPriorGaussian (invCdf : ℝ → ℝ) {d : ℕ} (cov : Fin (d + 1) → ℝ)
    (logSigma20 gamma coverage : ℝ) : Py ℝ := do
  let std ← logsigma2PriorStd invCdf gamma coverage
  let z := (cov 0 - logSigma20) / std
  return -0.5 * z * z

/-- The elementwise part of `neglog_f_logrho`, priors.py 272-278 (finite
arguments). -/
noncomputable def neglogF1 (alpha logrho logrhoMin logrho0 : ℝ) : Flt :=
  open Classical in
  let beta := alpha
  let alphaEff := beta * (logrho0 - logrhoMin)
  let shifted := logrho - logrhoMin
  let mask := 0 < shifted
  let shiftedSafe := if mask then shifted else 1
  let valid := -alphaEff * Real.log shiftedSafe + beta * shiftedSafe
  if mask then .fin valid else .num ⊤

/-- `neglog_f_logrho`, priors.py 239-278, finite arguments. -/
noncomputable def neglogF {d : ℕ} (alpha : ℝ) (logrho logrhoMin logrho0 : Fin d → ℝ) :
    Py (Fin d → Flt) :=
  open Classical in
  if alpha ≤ 0 then .error .valueError
  else if ∃ j, logrho0 j ≤ logrhoMin j then .error .valueError
  else .ok fun j => neglogF1 alpha (logrho j) (logrhoMin j) (logrho0 j)

/-! ## `prior_defaults.py` -/

/-- `_PriorDefaults`, prior_defaults.py 23-28. -/
structure Defaults where
  gamma : Flt
  coverage : Flt
  alpha : Flt
  factor : Flt

/-- Import-time defaults, prior_defaults.py 23-31. -/
noncomputable def Defaults.init : Defaults := ⟨.fin 1.5, .fin 0.95, .fin 1, .fin (1 / 20)⟩

/-- The four keyword arguments of `set_default_prior_hyperparameters`. -/
structure SetArgs where
  gamma : Option Flt := none
  coverage : Option Flt := none
  alpha : Option Flt := none
  factor : Option Flt := none

/-- One `if x is not None:` block: `bad` is the refusal test, `put` the assignment. -/
def setBlock (bad : Flt → Prop) [∀ x, Decidable (bad x)] (put : Flt → Defaults → Defaults)
    (a : Option Flt) (s : Defaults) : Py Unit × Defaults :=
  match a with
  | none => (.ok (), s)
  | some x => if bad x then (.error .valueError, s) else (.ok (), put x s)

/-- Sequencing of statements that may raise. -/
def thenDo (r : Py Unit × Defaults) (f : Defaults → Py Unit × Defaults) : Py Unit × Defaults :=
  match r with
  | (.error e, s) => (.error e, s)
  | (.ok _, s) => f s

/-- `set_default_prior_hyperparameters`, prior_defaults.py 66-110. -/
noncomputable def setDefaults (a : SetArgs) (s : Defaults) : Py Unit × Defaults :=
  open Classical in
  thenDo (setBlock (fun x => x.le (.fin 1)) (fun x s => { s with gamma := x }) a.gamma s) fun s =>
  thenDo (setBlock (fun x => ¬ (Flt.lt (.fin 0) x ∧ x.lt (.fin 1)))
    (fun x s => { s with coverage := x }) a.coverage s) fun s =>
  thenDo (setBlock (fun x => x.le (.fin 0)) (fun x s => { s with alpha := x }) a.alpha s) fun s =>
  setBlock (fun x => x.le (.fin 0)) (fun x s => { s with factor := x }) a.factor s

/-! ## `prior_helpers.py` -/

/-- `gnp.diff` of a list. -/
def diffs : List ℝ → List ℝ
  | a :: b :: l => (b - a) :: diffs (b :: l)
  | _ => []

/-- `_minimum_nonzero_gap_distance_1d`, prior_helpers.py 22-30 and bounds.py
12-20; `none` is `inf`. -/
noncomputable def minGap (x : List ℝ) : Option ℝ :=
  open Classical in
  if x.length < 2 then none
  else
    let xs := x.insertionSort (· ≤ ·)
    match (diffs xs).filter (fun t => 0 < t) with
    | [] => none
    | g :: gs => some (gs.foldl min g)

/-- `gnp.max(xj) - gnp.min(xj)` for one nonempty column. -/
noncomputable def colRange : List ℝ → ℝ
  | [] => 0
  | a :: l => l.foldl max a - l.foldl min a

/-- `compute_logrho_min_from_xi` for one coordinate, prior_helpers.py 33-95
(factor checked to be positive by the caller); `⊥` is `-inf`. -/
noncomputable def logrhoMin1 (factor : ℝ) (x : List ℝ) : EReal :=
  open Classical in
  let fromGap : EReal := match minGap x with
    | none => ⊥
    | some g => ((Real.log g : ℝ) : EReal)
  let r := colRange x * factor
  let fromRange : EReal := if 0 < r then ((Real.log r : ℝ) : EReal) else ⊥
  max fromGap fromRange

/-- `compute_logrho_min_from_xi`, prior_helpers.py 61-95; `cols` are the columns. -/
noncomputable def logrhoMin (factor : ℝ) (cols : List (List ℝ)) : Py (List EReal) :=
  open Classical in
  if factor ≤ 0 then .error .valueError else .ok (cols.map (logrhoMin1 factor))

/-- `resolve_covparam0_prior_and_init`, prior_helpers.py 98-149.  `guess k` is
the result of the `k`-th call of the (deterministic or not) initial guess; the
third component counts the calls. -/
def resolvePriorInit {V : Type} (guess : ℕ → V) (cov0 prior init : Option V) : V × V × ℕ :=
  match init, cov0 with
  | some i, _ =>
    match prior, cov0 with
    | some p, _ => (p, i, 0)
    | none, some c => (c, i, 0)
    | none, none => (guess 0, i, 1)
  | none, some c => (prior.getD c, c, 0)
  | none, none =>
    match prior with
    | some p => (p, guess 0, 1)
    | none => (guess 0, guess 0, 1)

/-- `resolve_covparam0_roles_for_update`, prior_helpers.py 152-217; the Boolean
says whether a warning is emitted. -/
def resolveRoles {V : Type} (guess : ℕ → V) (modelCov cov0 prior init : Option V) (warn : Bool) :
    V × V × ℕ × Bool :=
  match init, cov0, modelCov with
  | some i, _, _ =>
    match prior, cov0, modelCov with
    | some p, _, _ => (p, i, 0, false)
    | none, some c, _ => (c, i, 0, warn)
    | none, none, some m => (m, i, 0, warn)
    | none, none, none => (guess 0, i, 1, false)
  | none, some c, _ =>
    match prior with
    | some p => (p, c, 0, false)
    | none => (c, c, 0, warn)
  | none, none, some m =>
    match prior with
    | some p => (p, m, 0, false)
    | none => (m, m, 0, warn)
  | none, none, none =>
    match prior with
    | some p => (p, guess 0, 1, false)
    | none => (guess 0, guess 0, 1, false)

/-! ## `init.py` -/

/-- The length-scale factor `exp(gammaln(d/2 + 1)/d) / sqrt(pi)`, init.py 29, 40,
59. -/
noncomputable def rhoFactor (d : ℕ) : ℝ :=
  Real.exp (Real.log (Real.Gamma (d / 2 + 1)) / d) / Real.pi ^ (0.5 : ℝ)

/-- The initial `logrho` of one coordinate, `log(rho_j)`, init.py 57-60, 66: `-inf` for
a constant column. -/
noncomputable def logrhoGuess (d : ℕ) (x : List ℝ) : EReal :=
  open Classical in
  let rho := rhoFactor d * colRange x
  if 0 < rho then ((Real.log rho : ℝ) : EReal) else ⊥

/-- The refusal of `neglog_f_logrho` (priors.py 269-270) at the default reference
and minimum of `resolve_logsigma2_logrho_prior_args` (prior_helpers.py 254-280),
when the anchor is the initial guess: every evaluation of the default REMAP
criterion starts with this test. -/
noncomputable def remapRefuses (factor : ℝ) (cols : List (List ℝ)) : Py Unit :=
  open Classical in
  match logrhoMin factor cols with
  | .error e => .error e
  | .ok mins =>
    if ∃ p ∈ (cols.map (logrhoGuess cols.length)).zip mins, p.1 ≤ p.2 then .error .valueError
    else .ok ()

/-! ## `bounds.py` -/

/-- The bounds of one length scale in `empirical_bounds_factory`, bounds.py 35-41. -/
noncomputable def lengthBounds (factor : ℝ) (x : List ℝ) : EReal × EReal :=
  match minGap x with
  | none => (⊥, ⊤)
  | some g => (⊥, ((-Real.log (factor * g) : ℝ) : EReal))

/-- The bounds of the log variance, bounds.py 33-34, for a positive empirical variance. -/
noncomputable def varBounds (lo hi empVar : ℝ) : ℝ × ℝ :=
  (Real.log (lo * empVar), Real.log (hi * empVar))

end Verif.Kernel
