import Verif.Mcmc.MH
import Verif.Mcmc.SMC
import Verif.Mcmc.Nuts
import Verif.Mcmc.SVGD

/-!
# Model of `mcmc/param_posterior.py`

Arguments that gpmp inspects by number of axes are modelled by `PArr`.  A criterion is a
function of a point of any dimension that may raise and may return NaN or an infinity.
Boxes are Python lists or tuples of two bounds (a box of another type is refused by
`_normalize_bounds`).  Random numbers are arbitrary arguments.  The samplers called are
the models of `mh.py`, `nuts.py`, `smc.py` and `svgd.py`.  Left out: plots and printed
messages, and the conversion of data types.
-/

set_option autoImplicit false

namespace Verif.Posterior

open Verif
open Verif.SVGD (Bound)

/-- A point of dimension `d`. -/
abbrev Pt (d : ℕ) := Fin d → ℝ

/-- A selection criterion, for parameters of any dimension. -/
abbrev Crit := ∀ d : ℕ, Pt d → Py Flt

/-- An array with its shape; entries outside of the shape are not used. -/
inductive PArr where
  | zero (a : ℝ)
  | one (n : ℕ) (x : ℕ → ℝ)
  | two (r c : ℕ) (x : ℕ → ℕ → ℝ)
  | more

/-- An attribute read by `getattr(info, name, None)`. -/
inductive Attr where
  | absent
  | notCallable
  | fn (f : Crit)

/-- The attributes of `info` that are read. -/
structure Info where
  covparam : PArr
  crit : Attr
  critNograd : Attr

/-- Which criterion attribute is taken, param_posterior.py 76-81. -/
def Info.pick (i : Info) (diff : Bool) : Attr :=
  if diff then i.crit
  else match i.critNograd with
    | .absent => i.crit
    | a => a

/-- `_resolve_selection_criterion`, param_posterior.py 64-97.  The last test (torch without
a differentiable criterion) comes after the same test. -/
def resolve (info : Option Info) (sel : Option Crit) (diff : Bool) : Py Crit :=
  match info, sel with
  | none, none => .error .valueError
  | some _, some _ => .error .valueError
  | none, some f => .ok f
  | some i, none =>
    match i.pick diff with
    | .fn f => .ok f
    | _ => .error .valueError

/-- The dimension read from the initial states, param_posterior.py 105-113. -/
def dimOf : PArr → Py ℕ
  | .zero _ => .ok 1
  | .one n _ => .ok n
  | .two _ c _ => .ok c
  | .more => .error .valueError

/-- `_infer_dim`, param_posterior.py 100-131. -/
def inferDim (info : Option Info) (init : Option PArr) (box : Option (List Bound)) : Py ℕ :=
  match init, info, box with
  | some a, _, _ => dimOf a
  | none, some i, _ =>
    match i.covparam with
    | .one n _ => .ok n
    | _ => .error .valueError
  | none, none, some [.vec l, _] => .ok l.length
  | none, none, _ => .error .valueError

/-- The replicated parameters of `info`, param_posterior.py 171-180. -/
def infoStates (info : Option Info) (m d : ℕ) : Py (Fin m → Pt d) :=
  match info with
  | none => .error .valueError
  | some i =>
    match i.covparam with
    | .zero a => if d = 1 then .ok fun _ _ => a else .error .valueError
    | .one n x => if n = d then .ok fun _ j => x j else .error .valueError
    | .two r c x => if r * c = d then .ok fun _ j => x (j / c) (j % c) else .error .valueError
    | .more => .error .valueError

/-- `_normalize_initial_states`, param_posterior.py 165-216.  The final shape test always
succeeds. -/
def normStates (info : Option Info) (init : Option PArr) (m d : ℕ) : Py (Fin m → Pt d) :=
  match init with
  | none => infoStates info m d
  | some (.zero a) => if d ≠ 1 then .error .valueError else .ok fun _ _ => a
  | some (.one n x) =>
    if n = d then .ok fun _ j => x j
    else if d = 1 ∧ n = m then .ok fun c _ => x c
    else .error .valueError
  | some (.two r c x) =>
    if r = m ∧ c = d then .ok fun i j => x i j
    else if r = 1 ∧ c = d then .ok fun _ j => x 0 j
    else if r = d ∧ c = m then .ok fun i j => x j i
    else .error .valueError
  | some .more => .error .valueError

/-- `_random_initial_states`, param_posterior.py 219-226, in the bounds of `init_box` if
given. -/
noncomputable def randomStates {m d : ℕ} (box : Option (Pt d × Pt d)) (u : Fin m → Pt d) :
    Py (Fin m → Pt d) :=
  match box with
  | none => .error .valueError
  | some (lo, hi) => SVGD.randunif m d lo hi u

open Classical in
/-- `_make_log_prob_mh` and `_make_log_prob_nuts`, param_posterior.py 229-278 (`safe_neginf`
is `-inf` with numpy). -/
noncomputable def logProb {d : ℕ} (f : Crit) (box : Option (Pt d × Pt d)) (T : ℝ) :
    Py (Pt d → Py Flt) :=
  if T ≤ 0 then .error .valueError
  else .ok fun p =>
    if ∃ b ∈ box, (∃ j, p j < b.1 j) ∨ (∃ j, b.2 j < p j) then .ok (.num ⊥)
    else
      match f d p with
      | .error _ => .ok (.num ⊥)
      | .ok v => .ok (v.neg.div (.fin T))

/-- What the preparation of the MH and NUTS samplers gives. -/
structure Setup (m : ℕ) where
  d : ℕ
  crit : Crit
  box : Option (Pt d × Pt d)
  theta0 : Fin m → Pt d

/-- The arguments shared by the MH and NUTS samplers. -/
structure Args where
  info : Option Info
  sel : Option Crit
  init : Option PArr
  randomInit : Bool
  initBox : Option (List Bound)
  samplingBox : Option (List Bound)

/-- `dim_box`, param_posterior.py 418, 597 and 887. -/
def Args.dimBox (a : Args) : Option (List Bound) :=
  match a.initBox with
  | some b => some b
  | none => a.samplingBox

/-- The initial states, param_posterior.py 434-439 and 613-618. -/
noncomputable def Args.states (a : Args) (m d : ℕ) (ib : Option (Pt d × Pt d)) (u : Fin m → Pt d) :
    Py (Fin m → Pt d) :=
  if a.randomInit then randomStates ib u else normStates a.info a.init m d

/-- The preparation, param_posterior.py 413-439 and 592-618; `_normalize_bounds`,
134-162, is the same function as in `svgd.py`.  `u` are the uniform draws. -/
noncomputable def setup (a : Args) (diff : Bool) (m : ℕ) (u : ∀ d, Fin m → Pt d) : Py (Setup m) := do
  let f ← resolve a.info a.sel diff
  let d ← inferDim a.info a.init a.dimBox
  let ib ← SVGD.normBox a.initBox d
  let sb ← SVGD.normBox a.samplingBox d
  let x ← a.states m d ib (u d)
  return { d := d, crit := f, box := sb, theta0 := x }

/-! ## Metropolis-Hastings -/

/-- The options passed to `MetropolisHastings`, param_posterior.py 447-466. -/
def mhOpts (d nPool : ℕ) : MH.Opts d where
  target := 0.3
  method := .haario
  interval := 50
  hBurnin := 1
  hSampling := 0.5
  freeze := false
  discard := false
  nPool := nPool

/-- The array passed to `scheduler`. -/
def toInit {m d : ℕ} (x : Fin m → Pt d) : MH.InitArr where
  rows := m
  cols := d
  val := fun i j => if h : i < m ∧ j < d then x ⟨i, h.1⟩ ⟨j, h.2⟩ else 0

/-- The checks when not silent, param_posterior.py 474-477 (they may raise). -/
noncomputable def mhReport {d m : ℕ} (silent : Bool) (o : MH.Opts d) (s : MH.St d m) : Py Unit :=
  if silent then return ()
  else do
    let _ ← MH.checkAccept s s.burnin none (fun c t => MH.slidingRate s o.width c t) 0.15 0.40
    let _ ← MH.checkGR s s.burnin none 1.1
    return ()

/-- Numbers of steps and of chains, pooling and verbosity. -/
structure MHArgs where
  temperature : ℝ
  nSteps : ℕ
  burnin : ℕ
  nChains : ℕ
  nPool : ℕ
  silent : Bool

/-- What the MH sampler returns: the sampler and, for each chain, the returned samples. -/
structure MHResult (m : ℕ) where
  d : ℕ
  st : MH.St d m
  samples : Fin m → List (Pt d)

/-- The run after the preparation, param_posterior.py 441-485. -/
noncomputable def runMH {W : Type} (k : MHArgs) (s : Setup k.nChains)
    (env : ∀ d, MH.Env d k.nChains W) : Py (MHResult k.nChains) := do
  if k.nSteps < k.burnin then .error .valueError
  let lp ← logProb s.crit s.box k.temperature
  let r ← MH.scheduler (mhOpts s.d k.nPool) { env s.d with logTarget := lp } (toInit s.theta0) true
    (fun _ => .diag fun _ => 0.1) (MH.initScale (mhOpts s.d k.nPool)) k.nSteps k.burnin
  let _ ← mhReport k.silent (mhOpts s.d k.nPool) r.1
  return { d := s.d, st := r.1, samples := fun c => (r.2 c).drop r.1.burnin }

/-- `sample_from_selection_criterion_mh`, param_posterior.py 336-485. -/
noncomputable def sampleMH {W : Type} (a : Args) (k : MHArgs) (u : ∀ d, Fin k.nChains → Pt d)
    (env : ∀ d, MH.Env d k.nChains W) : Py (MHResult k.nChains) := do
  let s ← setup a false k.nChains u
  runMH k s env

/-- `get_log_target_values`, param_posterior.py 281-328, once a sampler has run: one list
for each chain. -/
def logTargetValues {d m : ℕ} (s : MH.St d m) (discard : Bool) : Py (Fin m → List Flt) :=
  let all := fun c => (List.range s.size).map (s.logT c)
  if !discard then .ok all
  else if s.size < s.burnin then .error .valueError
  else .ok fun c => (all c).drop s.burnin

/-! ## NUTS -/

/-- A run of `nuts_sample` from given positions: the positions after each sampling
iteration, the step and the masses (`none`: it does not end). -/
abbrev NutsRun (m : ℕ) :=
  ∀ d, (Pt d → Py Flt) → (Fin m → Pt d) → Option (List (Fin m → Pt d) × ℝ × Pt d)

/-- The potential passed to NUTS, nuts.py 419-421 (a log-density made by `logProb` never
raises); its gradient is any function. -/
noncomputable def nutsTarget {d : ℕ} (lp : Pt d → Py Flt) (grad : Pt d → Pt d) : Nuts.Target d where
  U := fun p => match lp p with
    | .ok v => v.neg
    | .error _ => .nan
  g := grad

/-- The random draws of NUTS by iteration and chain: momentum noise, slice and tree. -/
structure NutsDraws (m d maxDepth : ℕ) where
  noise : ℕ → Fin m → Pt d
  slice : ℕ → Fin m → ℝ
  tree : ℕ → Fin m → Nuts.TDraws maxDepth 0

/-- The transition of each chain, nuts.py 651-764. -/
noncomputable def nutsKernel {m d maxDepth : ℕ} (tg : Nuts.Target d) (dmax : ℝ)
    (w : NutsDraws m d maxDepth) : Nuts.Kern m d := fun t c q step im =>
  let out := Nuts.transition tg im step maxDepth dmax (w.noise t c) (w.slice t c) (w.tree t c) q
  (out.q, out.accept)

/-- The call of `nuts_sample`, param_posterior.py 622-638.  `search` is the outcome of
the step size search. -/
noncomputable def nutsRun {m : ℕ} (maxDepth num : ℕ) (o : ∀ d, Nuts.Options d)
    (grad : ∀ d, (Pt d → Py Flt) → Pt d → Pt d) (search : ∀ d, (Pt d → Py Flt) → Pt d → Option ℝ)
    (w : ∀ d, NutsDraws m d maxDepth) : NutsRun m := fun d lp q0 =>
  Nuts.nutsSample (o d) (search d lp)
    (nutsKernel (nutsTarget lp (grad d lp)) (o d).deltaMax (w d)) num q0

/-- What the NUTS sampler returns. -/
structure NutsResult (m : ℕ) where
  d : ℕ
  samples : Fin m → List (Pt d)
  step : ℝ
  mass : Pt d

/-- `transpose(samples_raw, 0, 1)`, param_posterior.py 648-650. -/
def swap {m d : ℕ} (raw : List (Fin m → Pt d)) (c : Fin m) : List (Pt d) := raw.map fun q => q c

/-- `sample_from_selection_criterion_nuts`, param_posterior.py 493-650. -/
noncomputable def sampleNUTS (a : Args) (m : ℕ) (u : ∀ d, Fin m → Pt d) (run : NutsRun m) :
    Py (Option (NutsResult m)) := do
  let s ← setup a true m u
  let lp ← logProb s.crit s.box 1
  return (run s.d lp s.theta0).map fun r =>
    { d := s.d, samples := swap r.1, step := r.2.1, mass := r.2.2 }

/-! ## SMC -/

/-- Evaluate the criterion at every particle, in order. -/
def critAll {n d : ℕ} (f : Crit) (x : Fin n → Pt d) : Py (Fin n → Flt) :=
  SVGD.forFin n fun i => f d (x i)

/-- Whether numpy broadcasts `x >= lower_b` for points of dimension `d` and a bound of
length `e`: equal lengths or a length 1. -/
def bcast (d e : ℕ) : Bool := d = e ∨ d = 1 ∨ e = 1

open Classical in
/-- `logpdf_temp` for a two-dimensional array, param_posterior.py 751-757: all particles
are evaluated before the box is looked at.  The points have dimension `d`, the box
dimension `e`. -/
noncomputable def smcTarget {n d e : ℕ} (f : Crit) (box : Option (Pt e × Pt e)) :
    SMC.LogPdfP n d := fun x T => do
  let vals ← critAll f x
  match box with
  | none => return fun i => (vals i).neg.div (.fin T)
  | some b =>
    if bcast d e = false then .error .valueError
    else return fun i =>
      if ∀ k < max d e, ∃ (hd : (if d = 1 then 0 else k) < d) (he : (if e = 1 then 0 else k) < e),
          b.1 ⟨_, he⟩ ≤ x i ⟨_, hd⟩ ∧ x i ⟨_, hd⟩ ≤ b.2 ⟨_, he⟩
      then (vals i).neg.div (.fin T) else .num ⊥

/-- `len(init_box[0])`, smc.py 135: a scalar has no length. -/
def smcDim : List Bound → Py ℕ
  | .vec l :: _ => .ok l.length
  | _ => .error .typeError

/-- `np.broadcast_to(bound, d)` in `qmc.scale`. -/
def scaleBound (d : ℕ) (b : Bound) : Py (Pt d) :=
  let l := SVGD.tile1 d b.flat
  if l.length = d then .ok fun i => l.getD i 0 else .error .valueError

/-- The arguments of the SMC sampler. -/
structure SMCArgs where
  n : ℕ
  initial : ℝ
  final : ℝ
  minEss : ℝ
  mhSteps : ℕ

/-- The particles returned, with their dimension. -/
structure SMCResult (n : ℕ) where
  d : ℕ
  x : Fin n → Pt d

/-- The bounds of the initial particles, smc.py 135 and 465-467. -/
def smcBox (box : List Bound) : Py (Σ d, Pt d × Pt d) :=
  match box with
  | [l, h] => do
    let d ← smcDim box
    let lo ← scaleBound d l
    let hi ← scaleBound d h
    return ⟨d, lo, hi⟩
  | _ => .error .valueError

/-- The call of `run_smc_sampling`, param_posterior.py 761-772 and smc.py 1300-1342, with at
most `fuel` stages (`none`: not finished).  The dimension is that of `init_box[0]`. -/
noncomputable def runSMC {e : ℕ} (k : SMCArgs) (cfg : SMC.PConfig) (sc : SMC.SConfig)
    (brentq : (ℝ → Py Flt) → ℝ → ℝ → Py ℝ) (env : ∀ d, SMC.Env k.n d) (f : Crit)
    (initBox : List Bound) (box : Option (Pt e × Pt e)) (fuel : ℕ) :
    Py (Option (SMCResult k.n)) := do
  let b ← smcBox initBox
  let p ← SMC.newParts (env b.1) cfg b.2.1 b.2.2
  let r ← SMC.stepRestart brentq (env b.1) cfg sc (smcTarget f box) b.2.1 b.2.2 k.initial k.final
    k.minEss 0 fuel p
  return r.map fun p => ⟨b.1, p.x⟩

/-- `sample_from_selection_criterion_smc`, param_posterior.py 658-774. -/
noncomputable def sampleSMC (info : Option Info) (sel : Option Crit)
    (initBox samplingBox : Option (List Bound)) (k : SMCArgs)
    (brentq : (ℝ → Py Flt) → ℝ → ℝ → Py ℝ) (env : ∀ d, SMC.Env k.n d) (fuel : ℕ) :
    Py (Option (SMCResult k.n)) := do
  let f ← resolve info sel false
  match initBox with
  | none => .error .valueError
  | some ib =>
    let dim ← inferDim info none (some ib)
    let _ ← SVGD.normBounds ib dim
    let sb ← SVGD.normBox samplingBox dim
    runSMC k { scheme := .residual, cov := .normal } { useEss := true, mhSteps := k.mhSteps } brentq
      env f ib sb fuel

/-! ## SVGD -/

/-- Replicated particles with noise, param_posterior.py 910-914, 921-925, 929-933,
937-942; `g` are the normal draws. -/
noncomputable def jittered {d : ℕ} (n : ℕ) (jitter : ℝ) (x : Pt d) (g : ∀ n d, SVGD.Pts n d) :
    SVGD.Pts n d :=
  open Classical in
  if 1 < n ∧ 0 < jitter then fun i c => x c + jitter * g n d i c else fun _ => x

/-- A cloud of particles of known dimension. -/
structure Parts (d : ℕ) where
  n : ℕ
  pts : SVGD.Pts n d

/-- The initial cloud, param_posterior.py 896-945: `none` when `svgd_sample` draws it in
`init_box`. -/
noncomputable def svgdCloud (a : Args) (n : ℕ) (jitter : ℝ) (d : ℕ) (g : ∀ n d, SVGD.Pts n d) :
    Py (Option (Parts d)) :=
  match a.init with
  | none =>
    if a.randomInit then
      match a.initBox with
      | none => .error .valueError
      | some _ => .ok none
    else
      match infoStates a.info 1 d with
      | .error e => .error e
      | .ok x => .ok (some ⟨n, jittered n jitter (x 0) g⟩)
  | some (.zero v) =>
    if d ≠ 1 then .error .valueError else .ok (some ⟨n, jittered n jitter (fun _ => v) g⟩)
  | some (.one e x) =>
    if e ≠ d then .error .valueError
    else .ok (some ⟨n, jittered n jitter (fun j => x j) g⟩)
  | some (.two r c x) =>
    if c ≠ d then .error .valueError
    else if r = 1 ∧ 1 < n then .ok (some ⟨n, jittered n jitter (fun j => x 0 j) g⟩)
    else .ok (some ⟨r, fun i j => x i j⟩)
  | some .more => .error .valueError

/-- `gnp.clip(particles0, lower_b, upper_b)` and the number of particles,
param_posterior.py 947-955: the arguments `particles_initial` and `n_particles` of
`svgd_sample`. -/
noncomputable def svgdInit {d : ℕ} (box : Option (Pt d × Pt d)) (n : ℕ) :
    Option (Parts d) → Option SVGD.Init × ℤ
  | none => (none, n)
  | some c => (some (.twoD c.n d fun i => SVGD.project box (c.pts i)), c.n)

/-- A log-density of dimension `d` as a function of points of any dimension (only the
dimension `d` occurs: `svgd_sample` checks it). -/
noncomputable def anyDim {d : ℕ} (lp : Pt d → Py Flt) (e : ℕ) : Pt e → Py Flt := fun p =>
  if h : e = d then lp fun j => p (h ▸ j) else .error .valueError

/-- The options of `svgd_sample`, param_posterior.py 964-981: those given, or those built
from the keyword arguments `kw` with the sampling box. -/
def svgdOpts (a : Args) (given : Option SVGD.Opts) (kw : SVGD.Opts) : SVGD.Opts :=
  match given with
  | some o => o
  | none => { kw with box := a.samplingBox }

/-- The box passed for the initial draw, param_posterior.py 901, 915 and 945. -/
def svgdInitBox (a : Args) : Option (List Bound) :=
  match a.init with
  | none => if a.randomInit then a.initBox else none
  | some _ => none

/-- `sample_from_selection_criterion_svgd`, param_posterior.py 782-991. -/
noncomputable def sampleSVGD (a : Args) (n : ℕ) (jitter : ℝ) (given : Option SVGD.Opts)
    (kw : SVGD.Opts) (vg : ∀ d, SVGD.ValGrad d) (g rnd : ∀ n d, SVGD.Pts n d) :
    Py (Σ c : SVGD.Cloud, SVGD.Result c.n c.d) := do
  let f ← resolve a.info a.sel true
  let d ← inferDim a.info a.init a.dimBox
  let sb ← SVGD.normBox a.samplingBox d
  let c0 ← svgdCloud a n jitter d g
  let lp ← logProb f sb 1
  let i := svgdInit sb n c0
  SVGD.sample vg (anyDim lp) (svgdOpts a given kw) i.1 (some i.2) (some d) (svgdInitBox a) rnd

end Verif.Posterior
