import Verif.FltOps
import Verif.Kernel.Priors
import Verif.Kernel.Select
import Verif.Data.Batch

/-!
# Model of the REMAP selection procedures

The rest of `kernel/priors.py`, `kernel/prior_defaults.py`, `kernel/prior_helpers.py`
and the wrappers at the end of `kernel/parameter_selection.py`.  Covariance parameters
are lists of real numbers; hyperparameters, which the user may set to anything, can be
infinite or NaN.  `nlrl θ` is `model.negative_log_restricted_likelihood(θ, xi, zi)`.
Scalars given for vectors are vectors with one entry.
-/

set_option autoImplicit false

namespace Verif.Kernel

open Verif

/-! ## Elementwise operations -/

open Classical in
/-- `log(a)`: NaN below zero, `-inf` at zero. -/
noncomputable def fltLog : Flt → Flt
  | .nan => .nan
  | .num a =>
    if a < 0 then .nan else if a = 0 then .num ⊥ else if a = ⊤ then .num ⊤
    else .fin (Real.log a.toReal)

/-- Length of the broadcast of vectors with `a` and `b` entries. -/
def bcLen (a b : ℕ) : Py ℕ :=
  if a = b then .ok a else if a = 1 then .ok b else if b = 1 then .ok a else .error .valueError

/-- A vector repeated to `n` entries when it has just one. -/
def bcTo {α : Type} (n : ℕ) : List α → List α
  | [x] => List.replicate n x
  | l => l

/-- A binary elementwise operation with broadcasting. -/
def bc2 {α β : Type} (f : α → α → β) (a b : List α) : Py (List β) := do
  let n ← bcLen a.length b.length
  return List.zipWith f (bcTo n a) (bcTo n b)

/-! ## `prior_defaults.py` -/

/-- An array of points: its number of axes and, when that is two, its columns. -/
structure XArr where
  ndim : ℕ
  cols : List (List ℝ)

/-- `_validate_xi_shape`, prior_defaults.py 34-38 (arrays have a shape). -/
def validateXi : Option XArr → Py Unit
  | some x => if x.ndim ≠ 2 then .error .valueError else .ok ()
  | none => .ok ()

/-- `get_default_prior_hyperparameters`, prior_defaults.py 41-63. -/
def getDefaults (s : Defaults) (xi : Option XArr) : Py Defaults := do
  validateXi xi
  return s

/-- The keys recognised by `set_default_prior_hyperparameters_from_kwargs` with the
argument each one sets, prior_defaults.py 122-135. -/
def kwKeys : List (String × (Flt → SetArgs)) :=
  [("prior_logsigma2_gamma", fun x => { gamma := some x }),
   ("prior_logsigma2_coverage", fun x => { coverage := some x }),
   ("prior_logrho_alpha", fun x => { alpha := some x }),
   ("prior_logrho_min_range_factor", fun x => { factor := some x })]

/-- `set_default_prior_hyperparameters_from_kwargs`, prior_defaults.py 113-135, for the
remaining blocks `ks`: the result, the defaults and the dictionary afterwards. -/
noncomputable def setFromKwargs : List (String × (Flt → SetArgs)) → Defaults →
    List (String × Flt) → Py Unit × Defaults × List (String × Flt)
  | [], s, kw => (.ok (), s, kw)
  | (k, put) :: ks, s, kw =>
    match kw.lookup k with
    | none => setFromKwargs ks s kw
    | some v =>
      let kw' := kw.filter (fun p => p.1 ≠ k)
      match setDefaults (put v) s with
      | (.error e, s') => (.error e, s', kw')
      | (.ok _, s') => setFromKwargs ks s' kw'

/-- What `dataloader.dataset` offers. -/
inductive LoaderX where
  | noDataset
  | noXList
  | shards (l : List XArr)
  | array (a : XArr)

/-- `gnp.concatenate(x_list, axis=0)`. -/
def concatX : List XArr → Py XArr
  | [] => .error .valueError
  | a :: l => l.foldlM (fun (acc : XArr) b =>
      if acc.ndim = b.ndim ∧ acc.cols.length = b.cols.length then
        .ok ⟨acc.ndim, List.zipWith (· ++ ·) acc.cols b.cols⟩
      else .error .valueError) a

/-- `xi_for_defaults`, prior_defaults.py 149-165. -/
def xiForDefaults (xi : Option XArr) (ld : Option LoaderX) : Py (Option XArr) :=
  match xi, ld with
  | some x, _ => .ok (some x)
  | none, some (.shards l) => (concatX l).map some
  | none, some (.array a) => .ok (some a)
  | none, _ => .ok none

/-- `resolve_prior_defaults_for_selection`, prior_defaults.py 138-176. -/
def resolveForSelection (s : Defaults) (xi : Option XArr) (ld : Option LoaderX) (a : SetArgs) :
    Py Defaults := do
  let x ← xiForDefaults xi ld
  let d ← getDefaults s x
  return ⟨a.gamma.getD d.gamma, a.coverage.getD d.coverage, a.alpha.getD d.alpha,
    a.factor.getD d.factor⟩

/-! ## `priors.py` -/

/-- `_logsigma2_prior_std`, priors.py 180-190, for any hyperparameters; `invCdf` is
`NormalDist().inv_cdf`. -/
noncomputable def stdF (invCdf : ℝ → ℝ) (gamma coverage : Flt) : Py Flt :=
  open Classical in
  if gamma.le (.fin 1) then .error .valueError
  else match coverage with
    | .nan => .error .valueError
    | .num c =>
      if ¬ (0 < c ∧ c < 1) then .error .valueError
      else
        let q := 0.5 * (1 + c.toReal)
        let zq := invCdf q
        if zq ≤ 0 then .error .valueError
        else .ok ((fltLog gamma).div (.fin zq))

/-- `log_prior_gaussian_logsigma2`, priors.py 193-236. -/
noncomputable def logPriorGaussF (invCdf : ℝ → ℝ) (s : Defaults) (cov : List ℝ) (logSigma20 : Flt)
    (gamma coverage : Option Flt) : Py Flt := do
  let g := gamma.getD s.gamma
  let c := coverage.getD s.coverage
  let logSigma2 ← pyGet cov 0
  let std ← stdF invCdf g c
  let z := ((Flt.fin logSigma2).sub logSigma20).div std
  return ((Flt.fin (-0.5)).mul z).mul z

/-- One entry of `neglog_f_logrho`, priors.py 272-278. -/
noncomputable def neglogFF1 (alpha logrho logrhoMin logrho0 : Flt) : Flt :=
  open Classical in
  let beta := alpha
  let alphaEff := beta.mul (logrho0.sub logrhoMin)
  let shifted := logrho.sub logrhoMin
  let mask := Flt.lt (.fin 0) shifted
  let shiftedSafe := if mask then shifted else .fin 1
  let valid := (alphaEff.neg.mul (fltLog shiftedSafe)).add (beta.mul shiftedSafe)
  if mask then valid else .num ⊤

/-- `neglog_f_logrho`, priors.py 239-278. -/
noncomputable def neglogFF (s : Defaults) (logrho logrhoMin logrho0 : List Flt) (alpha : Option Flt) :
    Py (List Flt) :=
  open Classical in
  let a := alpha.getD s.alpha
  if a.le (.fin 0) then .error .valueError
  else do
    let ref ← bc2 (fun r0 m => (r0, m)) logrho0 logrhoMin
    if ∃ p ∈ ref, Flt.le p.1 p.2 then .error .valueError
    else do
      let n ← bcLen logrho.length ref.length
      return List.zipWith (fun r p => neglogFF1 a r p.2 p.1) (bcTo n logrho) (bcTo n ref)

/-- `log_prior_logrho_barrier_linear`, priors.py 281-311. -/
noncomputable def logPriorBarrier (s : Defaults) (cov : List ℝ) (logrhoMin logrho0 : List Flt)
    (alpha : Option Flt) : Py Flt := do
  let a := alpha.getD s.alpha
  let logrho := (cov.drop 1).map fun t => Flt.fin (-t)
  let nlf ← neglogFF s logrho logrhoMin logrho0 (some a)
  return (nlf.foldl Flt.add (.fin 0)).neg

/-- `neg_log_restricted_posterior_logsigma2_prior`, priors.py 372-418. -/
noncomputable def postGauss (invCdf : ℝ → ℝ) (s : Defaults) (nlrl : List ℝ → Py Flt) (cov : List ℝ)
    (logSigma20 : Flt) (gamma coverage : Option Flt) : Py Flt := do
  let l ← nlrl cov
  let p ← logPriorGaussF invCdf s cov logSigma20 gamma coverage
  return l.sub p

/-- `neg_log_restricted_posterior_with_logrho_prior`, priors.py 420-464. -/
noncomputable def postBarrier (s : Defaults) (nlrl : List ℝ → Py Flt) (cov : List ℝ)
    (logrhoMin logrho0 : List Flt) (alpha : Option Flt) : Py Flt := do
  let l ← nlrl cov
  let p ← logPriorBarrier s cov logrhoMin logrho0 alpha
  return l.sub p

/-- `neg_log_restricted_posterior_logsigma2_and_logrho_prior`, priors.py 467-558; `xi`
is only checked for its shape. -/
noncomputable def postBoth (invCdf : ℝ → ℝ) (s : Defaults) (nlrl : List ℝ → Py Flt) (xi : Option XArr)
    (cov : List ℝ) (logSigma20 : Flt) (gamma coverage : Option Flt)
    (logrhoMin logrho0 : Option (List Flt)) (alpha : Option Flt) : Py Flt :=
  match logrhoMin, logrho0 with
  | some m, some r0 => do
    let d ← getDefaults s xi
    let g := gamma.getD d.gamma
    let c := coverage.getD d.coverage
    let a := alpha.getD d.alpha
    let l ← nlrl cov
    let p ← logPriorGaussF invCdf s cov logSigma20 (some g) (some c)
    let b ← logPriorBarrier s cov m r0 (some a)
    return (l.sub p).sub b
  | _, _ => .error .valueError

/-! ## `prior_helpers.py` -/

/-- One coordinate of `compute_logrho_min_from_xi`, prior_helpers.py 90-95, for any
factor. -/
noncomputable def logrhoMinF1 (factor : Flt) (x : List ℝ) : Flt :=
  open Classical in
  let fromGap : EReal := match minGap x with
    | none => ⊥
    | some g => ((Real.log g : ℝ) : EReal)
  let r := (Flt.fin (colRange x)).mul factor
  let fromRange : EReal := match r with
    | .nan => ⊥
    | .num v => if 0 < v then (if v = ⊤ then ⊤ else ((Real.log v.toReal : ℝ) : EReal)) else ⊥
  .num (max fromGap fromRange)

open Classical in
/-- `compute_logrho_min_from_xi`, prior_helpers.py 61-95: an array that is not
two-dimensional cannot be unpacked, an empty column has no maximum. -/
noncomputable def logrhoMinF (s : Defaults) (x : XArr) (factor : Option Flt) : Py (List Flt) := do
  let f ← match factor with
    | some f => pure f
    | none => do
      let d ← getDefaults s (some x)
      pure d.factor
  if f.le (.fin 0) then (.error .valueError : Py (List Flt))
  else if x.ndim ≠ 2 then .error .valueError
  else if [] ∈ x.cols then .error .valueError
  else .ok (x.cols.map (logrhoMinF1 f))

/-- The options of the REMAP selection with both priors that concern the prior. -/
structure PriorOpts where
  hyp : SetArgs := {}
  logSigma20 : Option Flt := none
  logrho0 : Option (List Flt) := none
  logrhoMin : Option (List Flt) := none

/-- The prior hyperparameters and reference values once resolved. -/
structure PriorSpec where
  hyp : Defaults
  logSigma20 : Flt
  logrho0 : List Flt
  logrhoMin : List Flt

/-- `xi_for_min`, prior_helpers.py 262-280. -/
def xiForMin (xi : Option XArr) (ld : Option LoaderX) : Py XArr :=
  match xi, ld with
  | some x, _ => .ok x
  | none, some (.shards l) => concatX l
  | none, some (.array a) => .ok a
  | none, _ => .error .valueError

/-- `resolve_logsigma2_logrho_prior_args`, prior_helpers.py 220-301. -/
noncomputable def resolvePriorArgs (s : Defaults) (anchor : List ℝ) (xi : Option XArr)
    (ld : Option LoaderX) (o : PriorOpts) : Py PriorSpec := do
  let hyp ← resolveForSelection s xi ld o.hyp
  let c ← match o.logSigma20 with
    | some c => pure c
    | none => (pyGet anchor 0).map Flt.fin
  let r0 := o.logrho0.getD ((anchor.drop 1).map fun t => Flt.fin (-t))
  let m ← match o.logrhoMin with
    | some m => pure m
    | none => do
      let x ← xiForMin xi ld
      logrhoMinF s x (some hyp.factor)
  return ⟨hyp, c, r0, m⟩

/-! ## `parameter_selection.py` -/

/-- Data and starting values of the REMAP procedures.  `nlrl` is the restricted
likelihood of the data, `guess` the anisotropic initial guess. -/
structure RemapArgs where
  xi : Option XArr
  zi : Option Unit
  loader : Option LoaderX
  cov0 : Option (List ℝ) := none
  covPrior : Option (List ℝ) := none
  covInit : Option (List ℝ) := none
  method : Method := .slsqp

/-- The anchor of the prior and the starting point of
`resolve_covparam0_prior_and_init`, with a guess that may raise. -/
def anchorStart (guess : Py (List ℝ)) (a : RemapArgs) : Py (List ℝ × List ℝ) := do
  let r := resolvePriorInit (fun _ => guess) (a.cov0.map .ok) (a.covPrior.map .ok)
    (a.covInit.map .ok)
  let p ← r.1
  let i ← r.2.1
  return (p, i)

/-- The call of `select_parameters_with_criterion` for covariance parameters. -/
noncomputable def selectCov (crit : List ℝ → Py Flt) (guess : Py (List ℝ))
    (solver : List ℝ → Solver (List ℝ)) (a : RemapArgs) (start : Option (List ℝ)) (m : MParams) :
    Py (MParams × OptResult (List ℝ)) :=
  selectWith (fun _ c => crit c) guess solver
    ⟨a.xi.map fun _ => (), a.zi, a.loader.map fun _ => (), none, start, false, 1, a.method⟩ m

/-- `select_parameters_with_reml`, parameter_selection.py 747-808. -/
noncomputable def selectReml (nlrl : List ℝ → Py Flt) (guess : Py (List ℝ))
    (solver : List ℝ → Solver (List ℝ)) (a : RemapArgs) (m : MParams) :
    Py (MParams × OptResult (List ℝ)) :=
  selectCov nlrl guess solver a a.cov0 m

/-- `update_parameters_with_reml`, parameter_selection.py 811-863. -/
noncomputable def updateReml (nlrl : List ℝ → Py Flt) (guess : Py (List ℝ))
    (solver : List ℝ → Solver (List ℝ)) (a : RemapArgs) (m : MParams) :
    Py (MParams × OptResult (List ℝ)) :=
  selectCov nlrl guess solver a m.cov m

/-- `select_parameters_with_remap_gaussian_logsigma2`, parameter_selection.py
1089-1201: the hyperparameters in force when it is called are passed to every
evaluation, where `sNow` are the defaults then in force. -/
noncomputable def selectGauss (invCdf : ℝ → ℝ) (s sNow : Defaults) (nlrl : List ℝ → Py Flt)
    (guess : Py (List ℝ)) (solver : List ℝ → Solver (List ℝ)) (a : RemapArgs)
    (gamma coverage : Option Flt) (m : MParams) : Py (MParams × OptResult (List ℝ)) := do
  let (anchor, start) ← anchorStart guess a
  let d ← resolveForSelection s a.xi a.loader { gamma := gamma, coverage := coverage }
  let c ← pyGet anchor 0
  selectCov (fun cov => postGauss invCdf sNow nlrl cov (.fin c) (some d.gamma) (some d.coverage))
    guess solver a (some start) m

/-- `select_parameters_with_remap_gaussian_logsigma2_and_logrho_prior`,
parameter_selection.py 1301-1483, also called `select_parameters_with_remap`
(867-919).  `xb` is the array of points handed to the criterion. -/
noncomputable def selectRemap (invCdf : ℝ → ℝ) (s sNow : Defaults) (nlrl : List ℝ → Py Flt)
    (xb : Option XArr) (guess : Py (List ℝ)) (solver : List ℝ → Solver (List ℝ)) (a : RemapArgs)
    (o : PriorOpts) (m : MParams) : Py (MParams × OptResult (List ℝ)) := do
  let (anchor, start) ← anchorStart guess a
  let p ← resolvePriorArgs s anchor a.xi a.loader o
  selectCov (fun cov => postBoth invCdf sNow nlrl xb cov p.logSigma20 (some p.hyp.gamma)
      (some p.hyp.coverage) (some p.logrhoMin) (some p.logrho0) (some p.hyp.alpha))
    guess solver a (some start) m

/-- The roles resolved by `resolve_covparam0_roles_for_update` and whether it warns. -/
def updateRoles (guess : Py (List ℝ)) (a : RemapArgs) (m : MParams) :
    Py (List ℝ × List ℝ × Bool) := do
  let r := resolveRoles (fun _ => guess) (m.cov.map .ok) (a.cov0.map .ok) (a.covPrior.map .ok)
    (a.covInit.map .ok) true
  let p ← r.1
  let i ← r.2.1
  return (p, i, r.2.2.2)

/-- `update_parameters_with_remap_gaussian_logsigma2`, parameter_selection.py
1204-1297. -/
noncomputable def updateGauss (invCdf : ℝ → ℝ) (s sNow : Defaults) (nlrl : List ℝ → Py Flt)
    (guess : Py (List ℝ)) (solver : List ℝ → Solver (List ℝ)) (a : RemapArgs)
    (gamma coverage : Option Flt) (m : MParams) : Py (MParams × OptResult (List ℝ)) := do
  let (p, i, _) ← updateRoles guess a m
  selectGauss invCdf s sNow nlrl guess solver { a with covPrior := some p, covInit := some i }
    gamma coverage m

/-- `update_parameters_with_remap_gaussian_logsigma2_and_logrho_prior`,
parameter_selection.py 1486-1577, also called `update_parameters_with_remap`
(922-965). -/
noncomputable def updateRemap (invCdf : ℝ → ℝ) (s sNow : Defaults) (nlrl : List ℝ → Py Flt)
    (xb : Option XArr) (guess : Py (List ℝ)) (solver : List ℝ → Solver (List ℝ)) (a : RemapArgs)
    (o : PriorOpts) (m : MParams) : Py (MParams × OptResult (List ℝ)) := do
  let (p, i, _) ← updateRoles guess a m
  selectRemap invCdf s sNow nlrl xb guess solver
    { a with covPrior := some p, covInit := some i } o m

end Verif.Kernel
