import Verif.Py
import Verif.Num
import Verif.Data.Model
import Mathlib.Analysis.SpecialFunctions.Trigonometric.Basic
import Mathlib.Analysis.SpecialFunctions.Log.Basic
import Mathlib.Data.Matrix.Mul
import Mathlib.Data.List.FinRange

/-!
# Model of `mcmc/mh.py`

Exact real arithmetic; log-targets are `Flt` so that infinities and NaN are explicit.
The random draws are an arbitrary function of iteration and chain.  `gnp.empty` arrays
hold arbitrary contents until written.  Printing, timing and plotting are left out, as
is `replicate_initial_state=False`'s error text.
-/

set_option autoImplicit false

namespace Verif.MH

open Verif Verif.Data

/-! ## One step -/

/-- `try: gnp.to_scalar(self.log_target(x)) except Exception: -inf`, mh.py 389-393,
396-399. -/
noncomputable def evalTarget {X : Type} (logTarget : X → Py Flt) (x : X) : Flt :=
  match logTarget x with
  | .ok v => v
  | .error _ => .num ⊥

/-- The cached value if usable, mh.py 389-393. -/
noncomputable def currentTarget {X : Type} (logTarget : X → Py Flt) (x : X) :
    Option Flt → Flt
  | none => evalTarget logTarget x
  | some .nan => evalTarget logTarget x
  | some v => v

/-- `log_a`, mh.py 400-405; `logProp a b` is the log density of `b` given `a`. -/
noncomputable def logA {X : Type} (symmetric : Bool) (logProp : X → X → Py Flt) (x y : X)
    (lx ly : Flt) : Py Flt :=
  if symmetric then .ok (ly.sub lx)
  else do
    let b ← logProp y x
    let f ← logProp x y
    return (ly.sub lx).add (b.sub f)

/-- The floor `1e-300` of the uniform draw, mh.py 406. -/
noncomputable def uFloor : ℝ := (10⁻¹ : ℝ) ^ 300

/-- `mhstep`, mh.py 379-410; `propose` is the call of `prop_rnd`, `u` the uniform draw. -/
noncomputable def mhStep {X : Type} (logTarget : X → Py Flt) (symmetric : Bool)
    (logProp : X → X → Py Flt) (x : X) (cached : Option Flt) (propose : Py X) (u : ℝ) :
    Py (X × Bool × Flt × Flt) :=
  open Classical in do
  let lx := currentTarget logTarget x cached
  let y ← propose
  let ly := evalTarget logTarget y
  let la ← logA symmetric logProp x y lx ly
  let u' := max u uFloor
  if (Flt.fin (Real.log u')).lt la then return (y, true, ly, lx)
  return (x, false, lx, lx)

/-! ## Proposal parameters -/

/-- Points of the parameter space. -/
abbrev Pt (d : ℕ) := Fin d → ℝ

/-- Proposal parameters of one chain (mh.py 188-200): a diagonal, a matrix, or a matrix
of NaN (the covariance of fewer than two samples). -/
inductive PropPar (d : ℕ) where
  | diag (v : Pt d)
  | full (M : Matrix (Fin d) (Fin d) ℝ)
  | nanMat

/-- `_get_cov_parameter`, mh.py 188-200; `none` is a matrix of NaN. -/
def PropPar.cov {d : ℕ} : PropPar d → Option (Matrix (Fin d) (Fin d) ℝ)
  | .diag v => some (Matrix.diagonal v)
  | .full M => some M
  | .nanMat => none

/-- `params[c] *= k`, mh.py 467-469. -/
def PropPar.scale {d : ℕ} (k : ℝ) : PropPar d → PropPar d
  | .diag v => .diag (k • v)
  | .full M => .full (k • M)
  | .nanMat => .nanMat

/-- The attempts of `sample_multivariate_normal_with_jitter`, mh.py 59-78: `rvs` is
the backend's sampler, which may raise; the `k`-th attempt uses the `k`-th draw. -/
noncomputable def sampleJitterLoop {d : ℕ} (rvs : Matrix (Fin d) (Fin d) ℝ → ℕ → Py (Pt d))
    (cov : Matrix (Fin d) (Fin d) ℝ) (initialJitter : ℝ) : ℕ → ℕ → ℝ → Py (Pt d)
  | 0, _, _ => .error .runtimeError
  | k + 1, i, jitter =>
    open Classical in
    match rvs (if jitter = 0 then cov else cov + jitter • 1) i with
    | .ok s => .ok s
    | .error _ =>
      sampleJitterLoop rvs cov initialJitter k (i + 1)
        (if jitter = 0 then initialJitter else 10 * jitter)

/-- `sample_multivariate_normal_with_jitter`, mh.py 59-78. -/
noncomputable def sampleJitter {d : ℕ} (rvs : Matrix (Fin d) (Fin d) ℝ → ℕ → Py (Pt d))
    (cov : Matrix (Fin d) (Fin d) ℝ) (initialJitter : ℝ) (maxAttempts : ℕ) : Py (Pt d) :=
  sampleJitterLoop rvs cov initialJitter (maxAttempts + 1) 0 0

/-! ## The sampler -/

/-- `adaptation_method.lower()`. -/
inductive Method where
  | rm
  | haario
  | other
  deriving DecidableEq

/-- The fields of `MHOptions` used, mh.py 86-112. -/
structure Opts (d : ℕ) where
  symmetric : Bool := true
  target : ℝ := 0.3
  tol : ℝ := 0.15
  method : Method := .haario
  interval : ℕ := 50
  freeze : Bool := true
  discard : Bool := false
  nPool : ℕ := 1
  rmFactor : ℝ := 1
  rmDiminishing : Bool := true
  hBurnin : ℝ := 1
  hSampling : ℝ := 0.5
  hInit : Option ℝ := some 1
  width : ℤ := 200

/-- What the run depends on besides the options: the target, the proposal (given
parameters, state and a draw), its log density, the draws, and the initial contents of
`gnp.empty`. -/
structure Env (d m : ℕ) (W : Type) where
  logTarget : Pt d → Py Flt
  prop : PropPar d → Pt d → W → Py (Pt d)
  logProp : PropPar d → Pt d → Pt d → Py Flt
  noise : ℕ → Fin m → W × ℝ
  junk : Fin m → ℕ → Pt d

/-- Sampler attributes, mh.py 129-176 and 654-672. -/
structure St (d m : ℕ) where
  x : Fin m → ℕ → Pt d
  accept : Fin m → ℕ → Bool
  logT : Fin m → ℕ → Flt
  size : ℕ
  iter : ℕ
  burnin : ℕ
  params : Fin m → PropPar d
  scale : Fin m → ℝ
  hFactor : ℝ

/-- `a[c, t] = v`. -/
def set2 {m : ℕ} {α : Type} (a : Fin m → ℕ → α) (c : Fin m) (t : ℕ) (v : α) : Fin m → ℕ → α :=
  fun c' t' => if c' = c ∧ t' = t then v else a c' t'

/-- `a[c] = v`. -/
def set1 {m : ℕ} {α : Type} (a : Fin m → α) (c : Fin m) (v : α) : Fin m → α :=
  fun c' => if c' = c then v else a c'

variable {d m : ℕ} {W : Type}

/-- The body of the inner loop of `run_samples`, mh.py 425-437. -/
noncomputable def stepChain (o : Opts d) (env : Env d m W) (t : ℕ) (s : St d m) (c : Fin m) :
    Py (St d m) := do
  if s.size ≤ t then .error .indexError
  let r ← mhStep env.logTarget o.symmetric (env.logProp (s.params c)) (s.x c (t - 1))
    (some (s.logT c (t - 1))) (env.prop (s.params c) (s.x c (t - 1)) (env.noise t c).1)
    (env.noise t c).2
  return { s with
    x := set2 s.x c t r.1
    accept := set2 s.accept c t r.2.1
    logT := set2 s.logT c t r.2.2.1 }

/-- The body of the outer loop, mh.py 424-438. -/
noncomputable def stepAll (o : Opts d) (env : Env d m W) (s : St d m) (t : ℕ) : Py (St d m) := do
  let s ← (List.finRange m).foldlM (stepChain o env t) s
  return { s with iter := s.iter + 1 }

/-- `run_samples`, mh.py 412-443, without the returned rates. -/
noncomputable def runSamples (o : Opts d) (env : Env d m W) (n : ℕ) (s : St d m) :
    Py (St d m) :=
  (List.range' (s.iter + 1) n).foldlM (stepAll o env) s

/-- Number of accepted moves of chain `c` at iterations `i0 ≤ t < i1`. -/
def acceptCount (s : St d m) (c : Fin m) (i0 i1 : ℕ) : ℕ :=
  ((List.range' i0 (i1 - i0)).filter (fun t => s.accept c t)).length

/-- `gnp.mean(self.accept[:, i0:i1], axis=1)` after a block of `n ≥ 1` steps, mh.py
442. -/
noncomputable def blockRate (s : St d m) (n : ℕ) (c : Fin m) : ℝ :=
  acceptCount s c (s.iter - n + 1) (s.iter + 1) / n

/-- `_diminishing_adaptation_schedule`, mh.py 250-263. -/
noncomputable def schedule (n total : ℕ) (base finalFrac : ℝ) : Py ℝ :=
  if total = 0 then .error .zeroDivisionError
  else .ok (base * (finalFrac + (1 - finalFrac) * Real.cos (Real.pi * n / total)))

/-- The adaptation rate of a Robbins-Monro block, mh.py 460-465. -/
noncomputable def rmGamma (o : Opts d) (diminishing : Bool) (s : St d m) : Py ℝ :=
  if diminishing then schedule s.iter s.burnin o.rmFactor 0.1 else .ok o.rmFactor

/-- `run_adaptive_RM`, mh.py 445-469. -/
noncomputable def runRM (o : Opts d) (env : Env d m W) (n : ℕ) (diminishing : Bool)
    (s : St d m) : Py (St d m) := do
  let s ← runSamples o env n s
  let gamma ← rmGamma o diminishing s
  return { s with
    params := fun c => (s.params c).scale (Real.exp (gamma * (blockRate s n c - o.target))) }

/-- The rows of one group of chains over a block, `x_block[start:start+n_pool]`
flattened, mh.py 245. -/
def groupRows (s : St d m) (i0 i1 start nPool : ℕ) : List (Pt d) :=
  (((List.finRange m).drop start).take nPool).flatMap fun c =>
    (List.range' i0 (i1 - i0)).map (s.x c)

/-- Mean of a list of points. -/
noncomputable def meanRows (l : List (Pt d)) : Pt d := (l.length : ℝ)⁻¹ • l.sum

/-- `gnp.cov(x.T, ddof=1)`; `none` (NaN) for fewer than two rows. -/
noncomputable def covRows (l : List (Pt d)) : Option (Matrix (Fin d) (Fin d) ℝ) :=
  if l.length < 2 then none
  else
    let mu := meanRows l
    some (((l.length : ℝ) - 1)⁻¹ •
      (l.map fun r => Matrix.of fun i j => (r i - mu i) * (r j - mu j)).sum)

/-- `update_proposal_covariance_from_samples` with `raw_cov`, mh.py 330-341. -/
noncomputable def haarioCov (scaling eps : ℝ) : Option (Matrix (Fin d) (Fin d) ℝ) → PropPar d
  | none => .nanMat
  | some C => .full (scaling • C + eps • 1)

/-- `run_adaptive_Haario`, mh.py 471-504. -/
noncomputable def runHaario (o : Opts d) (env : Env d m W) (n : ℕ) (s : St d m) :
    Py (St d m) := do
  let s ← runSamples o env n s
  if o.nPool = 0 then .error .zeroDivisionError
  if m % o.nPool ≠ 0 then .error .valueError
  let scale : Fin m → ℝ := fun c =>
    s.scale c * Real.exp (s.hFactor * (blockRate s n c - o.target))
  return { s with
    scale := scale
    params := fun c => haarioCov (scale c) 1e-6
      (covRows (groupRows s (s.iter - n + 1) (s.iter + 1) (c / o.nPool * o.nPool) o.nPool)) }

/-- One adaptation block with the chosen method, mh.py 519-527, 560-569. -/
noncomputable def runBlock (o : Opts d) (env : Env d m W) (diminishing : Bool) (s : St d m) :
    Py (St d m) :=
  match o.method with
  | .rm => runRM o env o.interval diminishing s
  | .haario => runHaario o env o.interval s
  | .other => .error .valueError

/-- The blocks of `run_adaptive`, mh.py 518-527. -/
noncomputable def adaptBlocks (o : Opts d) (env : Env d m W) : ℕ → St d m → Py (St d m)
  | 0, s => .ok s
  | k + 1, s => do
    let s ← runBlock o env false s
    adaptBlocks o env k s

/-- `run_adaptive`, mh.py 506-532. -/
noncomputable def runAdaptive (o : Opts d) (env : Env d m W) (n : ℕ) (s : St d m) :
    Py (St d m) := do
  if o.interval = 0 then .error .zeroDivisionError
  let s ← adaptBlocks o env (n / o.interval) s
  if 0 < n % o.interval then runSamples o env (n % o.interval) s else return s

/-! ## Diagnostics -/

/-- The window `min(max(1, int(n_block_size)), n_max)`, mh.py 366. -/
def rateWindow (width : ℤ) (nMax : ℕ) : ℕ := min (max 1 width).toNat nMax

/-- One entry of `compute_sliding_rates`, mh.py 369-375: cumulative sums of
`accept[c, :n_max]`. -/
noncomputable def slidingRate (s : St d m) (width : ℤ) (c : Fin m) (t : ℕ) : ℝ :=
  let w := rateWindow width s.iter
  if t < w then (acceptCount s c 0 (t + 1) : ℝ) / (t + 1)
  else ((acceptCount s c 0 (t + 1) : ℝ) - acceptCount s c 0 (t - w + 1)) / w

/-- Mean of `f` over `i0 ≤ t < i1`. -/
noncomputable def meanOver (i0 i1 : ℕ) (f : ℕ → ℝ) : ℝ :=
  (∑ t ∈ Finset.Ico i0 i1, f t) / ((i1 - i0 : ℕ) : ℝ)

/-- Variance with `ddof=1` over `i0 ≤ t < i1` (two or more values). -/
noncomputable def varOver (i0 i1 : ℕ) (f : ℕ → ℝ) : ℝ :=
  (∑ t ∈ Finset.Ico i0 i1, (f t - meanOver i0 i1 f) ^ 2) / (((i1 - i0 : ℕ) : ℝ) - 1)

/-- Mean over the chains. -/
noncomputable def meanChains (f : Fin m → ℝ) : ℝ := (∑ c, f c) / m

/-- Variance over the chains, `ddof=1`. -/
noncomputable def varChains (f : Fin m → ℝ) : ℝ :=
  (∑ c, (f c - meanChains f) ^ 2) / ((m : ℝ) - 1)

/-- `a / b` of nonnegative numbers: `0/0` is NaN, `a/0` is `inf`. -/
noncomputable def divNonneg (a b : ℝ) : Flt :=
  open Classical in
  if b = 0 then (if a = 0 then .nan else .num ⊤) else .fin (a / b)

/-- `sqrt` of a nonnegative number, infinity or NaN. -/
noncomputable def Flt.sqrt : Flt → Flt
  | .nan => .nan
  | .num ⊤ => .num ⊤
  | .num x => .fin (Real.sqrt x.toReal)

/-- The statistic of one coordinate, mh.py 806-815. -/
noncomputable def rhat1 (i0 i1 : ℕ) (x : Fin m → ℕ → ℝ) : Flt :=
  let n : ℝ := ((i1 - i0 : ℕ) : ℝ)
  let w := meanChains fun c => varOver i0 i1 (x c)
  let b := n * varChains fun c => meanOver i0 i1 (x c)
  let varPost := (n - 1) / n * w + 1 / n * b
  Flt.sqrt (divNonneg varPost w)

/-- The first index of the slice, mh.py 734-738 and 796-800. -/
def sliceStart (s : St d m) (burnin : ℕ) : Option ℕ → ℕ
  | none => burnin
  | some last => s.iter - last

/-- `compute_gelman_rubin_rhat`, mh.py 769-815. -/
noncomputable def rhat (s : St d m) (burnin : ℕ) (last : Option ℕ) : Py (Fin d → Flt) :=
  if m < 2 then .error .valueError
  else if s.iter - sliceStart s burnin last ≤ 1 then .error .valueError
  else .ok fun j => rhat1 (sliceStart s burnin last) s.iter fun c t => s.x c t j

/-- `check_convergence_gelman_rubin`, mh.py 817-853: the `ok` entry. -/
noncomputable def checkGR (s : St d m) (burnin : ℕ) (last : Option ℕ) (threshold : ℝ) : Py Bool :=
  open Classical in do
  let r ← rhat s burnin last
  return decide (∀ j, (r j).lt (.fin threshold))

/-- `check_acceptance_rates` with the given rates, mh.py 702-767: the `ok` entry. -/
noncomputable def checkAccept (s : St d m) (burnin : ℕ) (last : Option ℕ)
    (rates : Fin m → ℕ → ℝ) (lo hi : ℝ) : Py Bool :=
  open Classical in
  if s.iter - sliceStart s burnin last ≤ 1 then .error .valueError
  else .ok (decide (∀ c, ∀ t ∈ Finset.Ico (sliceStart s burnin last) s.iter,
    lo ≤ rates c t ∧ rates c t ≤ hi))

/-- The early stopping test, mh.py 571-588. -/
noncomputable def earlyStop (o : Opts d) (nDiag : ℕ) (s : St d m) : Py Bool :=
  open Classical in do
  let gr ← checkGR s 0 (some nDiag) 1.1
  return decide (∀ c, ∀ t ∈ Finset.Ico (s.iter - nDiag) s.iter,
    o.target - o.tol < slidingRate s o.width c t ∧
    slidingRate s o.width c t < o.target + o.tol) && gr

/-- The block loop of `run_burnin`, mh.py 558-600; the Boolean is `converged_early`. -/
noncomputable def burninBlocks (o : Opts d) (env : Env d m W) (diag : Bool) (nDiag : ℕ) :
    ℕ → St d m → Py (St d m × Bool)
  | 0, s => .ok (s, false)
  | k + 1, s => do
    let s ← runBlock o env o.rmDiminishing s
    if diag && decide (nDiag ≤ s.iter) then do
      let stop ← earlyStop o nDiag s
      if stop then return ({ s with burnin := s.iter }, true)
      else burninBlocks o env diag nDiag k s
    else burninBlocks o env diag nDiag k s

/-- The steps that do not fill a block, mh.py 602-608. -/
noncomputable def burninRest (o : Opts d) (env : Env d m W) (burnin : ℕ) (r : St d m × Bool) :
    Py (St d m) :=
  if !r.2 && decide (0 < burnin % o.interval) then runSamples o env (burnin % o.interval) r.1
  else .ok r.1

/-- The diagnostics after burn-in, mh.py 610-618 (they may raise). -/
noncomputable def burninDiag (o : Opts d) (diag : Bool) (nDiag : ℕ) (s : St d m) : Py Unit :=
  if diag && decide (¬ s.iter ≤ 1) then do
    let _ ← checkAccept s s.burnin (some nDiag) (fun c t => slidingRate s o.width c t)
      (o.target - o.tol) (o.target + o.tol)
    if 2 ≤ m then do
      let _ ← checkGR s 0 (some nDiag) 1.1
      return ()
    else return ()
  else return ()

/-- `run_burnin`, mh.py 534-618. -/
noncomputable def runBurnin (o : Opts d) (env : Env d m W) (burnin : ℕ) (diag : Bool)
    (nBlocksDiag : ℕ) (s : St d m) : Py (St d m) := do
  if o.interval = 0 then .error .zeroDivisionError
  let r ← burninBlocks o env diag (nBlocksDiag * o.interval) (burnin / o.interval) s
  let s ← burninRest o env burnin r
  let _ ← burninDiag o diag (nBlocksDiag * o.interval) s
  return s

/-- The initial state array: any two-dimensional array (a one-dimensional one has one
row). -/
structure InitArr where
  rows : ℕ
  cols : ℕ
  val : ℕ → ℕ → ℝ

/-- The checks on the initial state, mh.py 634-650: the state of each chain. -/
def initStates (m d : ℕ) (a : InitArr) (replicate : Bool) : Py (Fin m → Pt d) :=
  if a.rows = 1 ∧ a.cols = d ∧ replicate = true ∧ 1 < m then .ok fun _ j => a.val 0 j
  else if a.rows = m ∧ a.cols = d then .ok fun c j => a.val c j
  else .error .valueError

/-- The attributes set up by `__init__` and `scheduler`, mh.py 145-163, 652-672 and
`set_mode("burnin")`. -/
noncomputable def initSt (o : Opts d) (env : Env d m W) (x0 : Fin m → Pt d)
    (params : Fin m → PropPar d) (scale : Fin m → ℝ) (n burnin : ℕ) : St d m where
  x := fun c t => if t = 0 then x0 c else env.junk c t
  accept := fun _ t => decide (t = 0)
  logT := fun _ _ => .nan
  size := 1 + n
  iter := 0
  burnin := burnin
  params := params
  scale := scale
  hFactor := o.hBurnin

/-- `haario_scaling_factors` after `__init__`, mh.py 154-163. -/
noncomputable def initScale (o : Opts d) : Fin m → ℝ := fun _ =>
  match o.hInit with
  | some v => v
  | none => 2.38 ^ 2 / d

/-- The two phases of `scheduler`, mh.py 652-691. -/
noncomputable def schedulerRun (o : Opts d) (env : Env d m W) (a : InitArr) (replicate : Bool)
    (params : Fin m → PropPar d) (scale : Fin m → ℝ) (n burnin : ℕ) : Py (St d m) := do
  let x0 ← initStates m d a replicate
  if n < burnin then .error .valueError
  let s ← runBurnin o env burnin true 20 (initSt o env x0 params scale n burnin)
  if o.freeze then runSamples o env (n - burnin) s
  else runAdaptive o env (n - burnin) { s with hFactor := o.hSampling }

/-- `scheduler`, mh.py 620-700: final attributes and the returned states of each
chain. -/
noncomputable def scheduler (o : Opts d) (env : Env d m W) (a : InitArr) (replicate : Bool)
    (params : Fin m → PropPar d) (scale : Fin m → ℝ) (n burnin : ℕ) :
    Py (St d m × (Fin m → List (Pt d))) := do
  let s ← schedulerRun o env a replicate params scale n burnin
  let i0 := if o.discard then s.burnin else 0
  return (s, fun c => (List.range' i0 (s.iter - i0)).map (s.x c))

/-! ## Kolmogorov-Smirnov check -/

/-- `pvalue_matrix < alpha` of `ks_statistics` for one dimension, mh.py 929-952: the
diagonal keeps its zeros. -/
def ksSignificant {B : ℕ} (pval : Fin B → Fin B → ℝ) (alpha : ℝ) (i j : Fin B) : Prop :=
  (if i < j then pval i j else if j < i then pval j i else 0) < alpha

/-- `gnp.sum(sig) / sig.size`, mh.py 1027, 1044; on torch `size` is a method and the
division raises `TypeError`. -/
noncomputable def ksFraction (be : Backend) {d B : ℕ} (pval : Fin d → Fin B → Fin B → ℝ)
    (alpha : ℝ) : Py ℝ :=
  open Classical in
  match be with
  | .torch => .error .typeError
  | .numpy => .ok
    ((Finset.univ.filter fun t : Fin d × Fin B × Fin B =>
      ksSignificant (pval t.1) alpha t.2.1 t.2.2).card / ((d * (B * B) : ℕ) : ℝ))

/-- `check_convergence_ks`, mh.py 963-1081: the `ok` entry.  `pv k` are the p-values of
the comparisons between all the blocks of all chains with `k` blocks per chain. -/
noncomputable def checkKS (be : Backend) (d m nSteps nBlocks blockSize : ℕ)
    (single : Option ℕ) (pv : (k : ℕ) → Fin d → Fin (k * m) → Fin (k * m) → ℝ)
    (alpha threshold : ℝ) : Py Bool :=
  open Classical in do
  if nSteps < nBlocks * blockSize then .error .valueError
  let fm ← ksFraction be (pv nBlocks) alpha
  if nSteps < single.getD (nBlocks * blockSize) then .error .valueError
  let fs ← ksFraction be (pv 1) alpha
  return decide (fm < threshold ∧ fs < threshold)

end Verif.MH
