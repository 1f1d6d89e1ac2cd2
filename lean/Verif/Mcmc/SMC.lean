import Verif.Py
import Verif.FltOps
import Verif.Mcmc.MH
import Mathlib.Algebra.Order.Floor.Ring

/-!
# Model of `mcmc/smc.py`

Exact real arithmetic with explicit infinities and NaN for log-densities and weights.
The log-density functions act on the whole particle array and may raise.  Random draws
are arbitrary functions of a clock kept in the particle set.  Left out: printing
and plotting; the log is in `Verif.Mcmc.SMCLog`.  Stopping in the interactive
debugger is modelled as an exception.
-/

set_option autoImplicit false

namespace Verif.SMC

open Verif

/-- Points. -/
abbrev Pt (d : ℕ) := Fin d → ℝ

/-- `resample_scheme`. -/
inductive Scheme where
  | multinomial
  | residual
  | other
  deriving DecidableEq

/-- `covariance_method`. -/
inductive CovMethod where
  | normal
  | knn
  | other
  deriving DecidableEq

/-- `ParticlesSetConfig`, smc.py 33-43. -/
structure PConfig where
  randunif : Bool := true
  scheme : Scheme := .multinomial
  s0 : ℝ := 0.5
  sUpper : ℝ := 100000
  sLower : ℝ := 0.001
  jitterIter : ℕ := 10
  cov : CovMethod := .normal

/-- The exception `ParticlesSetError`, smc.py 56-64. -/
def particlesSetError : PyErr := .other 21

/-- Stop in `pdb`, smc.py 276-277, 327-330. -/
def debuggerStop : PyErr := .other 22

/-- A log-density on arrays of particles. -/
abbrev LogPdf (n d : ℕ) := (Fin n → Pt d) → Py (Fin n → Flt)

/-- External behaviour: uniform draws, multinomial draws, Gaussian draws with a given
covariance, covariance estimates and the contents of `gnp.empty`; the first argument is
the clock. -/
structure Env (n d : ℕ) where
  init : ℕ → Fin n → Pt d
  mult : ℕ → ℕ → (Fin n → Flt) → Py (Fin n → ℕ)
  rvs : ℕ → Matrix (Fin d) (Fin d) ℝ → Py (Fin n → Pt d)
  unif : ℕ → Fin n → ℝ
  cov : CovMethod → (Fin n → Pt d) → Py (Matrix (Fin d) (Fin d) ℝ)
  junkX : ℕ → Fin n → Pt d
  junkL : ℕ → Fin n → Flt

/-- `ParticlesSet` attributes, smc.py 128-148. -/
structure Parts (n d : ℕ) where
  x : Fin n → Pt d
  logpx : Fin n → Flt
  w : Fin n → Flt
  wtmp : Fin n → Flt
  s : ℝ
  logpdf : LogPdf n d
  clock : ℕ

variable {n d : ℕ}

/-- `1 / n` weights, smc.py 190-191. -/
noncomputable def uniformW (n : ℕ) : Fin n → Flt := fun _ => .fin (1 / n)

/-- `qmc.scale(u, box[0], box[1])`: refused unless every lower bound is below the upper
bound. -/
noncomputable def scaleBox (u : Fin n → Pt d) (lo hi : Pt d) : Py (Fin n → Pt d) :=
  open Classical in
  if ∀ j, lo j < hi j then .ok fun i j => lo j + u i j * (hi j - lo j) else .error .valueError

/-- `particles_init`, smc.py 150-191. -/
noncomputable def particlesInit (env : Env n d) (cfg : PConfig) (lo hi : Pt d) (p : Parts n d) :
    Py (Parts n d) := do
  if !cfg.randunif then .error .notImplementedError
  let x ← scaleBox (env.init p.clock) lo hi
  return { p with
    x := x
    logpx := fun _ => .fin 0
    wtmp := uniformW n
    w := uniformW n
    clock := p.clock + 1 }

/-- `ParticlesSet.__init__`, smc.py 128-148; calling the missing log-density is a
`TypeError`. -/
noncomputable def newParts (env : Env n d) (cfg : PConfig) (lo hi : Pt d) : Py (Parts n d) :=
  particlesInit env cfg lo hi
    { x := fun _ _ => 0, logpx := fun _ => .fin 0, w := uniformW n, wtmp := uniformW n,
      s := cfg.s0, logpdf := fun _ => .error .typeError, clock := 0 }

/-- `set_logpdf`, smc.py 193-202. -/
def setLogpdf (l : LogPdf n d) (p : Parts n d) : Parts n d := { p with logpdf := l }

/-- `set_logpdf_with_parameter`, smc.py 204-219. -/
def setLogpdfParam (l : (Fin n → Pt d) → ℝ → Py (Fin n → Flt)) (param : ℝ) (p : Parts n d) :
    Parts n d :=
  setLogpdf (fun x => l x param) p

/-- `reweight`, smc.py 221-226. -/
noncomputable def reweight (update : Bool) (p : Parts n d) : Py (Parts n d) := do
  let new ← p.logpdf p.x
  let w := fun i => (p.w i).mul ((new i).sub (p.logpx i)).exp
  if update then return { p with wtmp := w, logpx := new, w := w }
  else return { p with wtmp := w }

/-- `ess`, smc.py 228-234. -/
noncomputable def ess (w : Fin n → Flt) : Flt :=
  open Classical in
  let norm := Flt.sum fun i => (w i).mul (w i)
  if norm = .fin 0 then .fin 0
  else ((Flt.sum w).mul (Flt.sum w)).div norm

/-- The resampling probabilities, smc.py 259-263, 302-306. -/
noncomputable def probs (w : Fin n → Flt) : Fin n → Flt :=
  open Classical in
  if Flt.sum w = .fin 0 then uniformW n
  else fun i => (w i).div (Flt.sum w)

/-- The arrays being filled and the position `i`, smc.py 277-285. -/
structure Buf (n d : ℕ) where
  i : ℕ
  x : Fin n → Pt d
  l : Fin n → Flt

/-- The inner loop, smc.py 280-284, 346-350: `c` copies of particle `j`. -/
def copyOne (x : Fin n → Pt d) (l : Fin n → Flt) (j : Fin n) : ℕ → Buf n d → Py (Buf n d)
  | 0, b => .ok b
  | c + 1, b =>
    if h : b.i < n then
      copyOne x l j c ⟨b.i + 1, Function.update b.x ⟨b.i, h⟩ (x j),
        Function.update b.l ⟨b.i, h⟩ (l j)⟩
    else .error .indexError

/-- The outer loop, smc.py 277-285, 343-351. -/
def copyLoop (x : Fin n → Pt d) (l : Fin n → Flt) (counts : Fin n → ℕ) (b : Buf n d) :
    Py (Buf n d) :=
  (List.finRange n).foldlM (fun b j => copyOne x l j (counts j) b) b

/-- Replace the particles by the copies, smc.py 254-255, 277-289, 300-301, 343-355. -/
noncomputable def copyParts (env : Env n d) (counts : Fin n → ℕ) (p : Parts n d) :
    Py (Parts n d) := do
  let b ← copyLoop p.x p.logpx counts ⟨0, env.junkX p.clock, env.junkL p.clock⟩
  return { p with
    x := b.x
    logpx := b.l
    wtmp := uniformW n
    w := uniformW n
    clock := p.clock + 1 }

/-- The counts of `multinomial_resample`, smc.py 256-270; a failed draw goes to the
debugger. -/
noncomputable def multinomialCounts (env : Env n d) (p : Parts n d) : Py (Fin n → ℕ) :=
  match env.mult p.clock n (probs p.wtmp) with
  | .ok c => .ok c
  | .error _ => .error debuggerStop

/-- Value of a finite number (0 otherwise). -/
noncomputable def toReal : Flt → ℝ
  | .num a => a.toReal
  | .nan => 0

/-- The counts of `residual_resample`, smc.py 299-338, for finite probabilities;
otherwise the code ends in the debugger or in an exception. -/
noncomputable def residualCounts (env : Env n d) (p : Parts n d) : Py (Fin n → ℕ) :=
  open Classical in
  if ∀ i, (probs p.wtmp i).IsFin then do
    let q := fun i => toReal (probs p.wtmp i)
    let det := fun i => ⌊(n : ℝ) * q i⌋₊
    let nRes := n - ∑ i, det i
    if 0 < nRes then do
      let res := fun i => max ((n : ℝ) * q i - det i) 0
      let total := ∑ i, res i
      let pv := fun i => if total = 0 then 1 / (n : ℝ) else res i / total
      let c ← env.mult p.clock nRes fun i => .fin (pv i)
      return fun i => det i + c i
    else return det
  else .error debuggerStop

/-- `resample`, smc.py 236-248: the message of the unknown-scheme branch refers to a
missing attribute. -/
noncomputable def resample (env : Env n d) (cfg : PConfig) (p : Parts n d) : Py (Parts n d) := do
  match cfg.scheme with
  | .multinomial => do
    let c ← multinomialCounts env p
    copyParts env c p
  | .residual => do
    let c ← residualCounts env p
    copyParts env c p
  | .other => .error .attributeError

/-- Subclasses of `ValueError` among the modelled exceptions. -/
def isValueError : PyErr → Bool
  | .valueError => true
  | .linAlgError => true
  | _ => false

/-- The Gaussian draw with its repair loop, smc.py 387-415: the loop body needs the
name `np`, which the module does not import. -/
noncomputable def drawEps (env : Env n d) (cfg : PConfig) (clock : ℕ)
    (C : Matrix (Fin d) (Fin d) ℝ) : Py (Fin n → Pt d) :=
  match env.rvs clock C with
  | .ok e => .ok e
  | .error e =>
    if isValueError e then
      (if cfg.jitterIter = 0 then .error .runtimeError else .error .nameError)
    else .error e

/-- The covariance of the proposals, smc.py 375-385. -/
noncomputable def baseCov (env : Env n d) (cfg : PConfig) (x : Fin n → Pt d) :
    Py (Matrix (Fin d) (Fin d) ℝ) :=
  match cfg.cov with
  | .other => .error .unboundLocalError
  | m => env.cov m x

/-- `perturb`, smc.py 357-417. -/
noncomputable def perturb (env : Env n d) (cfg : PConfig) (p : Parts n d) : Py (Fin n → Pt d) :=
  open Classical in do
  if cfg.sUpper < p.s ∨ p.s < cfg.sLower then .error particlesSetError
  let C ← baseCov env cfg p.x
  let eps ← drawEps env cfg p.clock (p.s • C)
  return fun i => p.x i + eps i

/-- Is proposal `i` accepted? smc.py 435-437. -/
noncomputable def accepts (env : Env n d) (p : Parts n d) (logpy : Fin n → Flt) (i : Fin n) :
    Prop :=
  (Flt.logU (env.unif p.clock i)).lt ((logpy i).sub (p.logpx i))

/-- `move`, smc.py 419-447, with the acceptance rate. -/
noncomputable def move (env : Env n d) (cfg : PConfig) (p : Parts n d) : Py (Parts n d × ℝ) :=
  open Classical in do
  let y ← perturb env cfg p
  let logpy ← p.logpdf y
  return ({ p with
      x := fun i => if accepts env p logpy i then y i else p.x i
      logpx := fun i => if accepts env p logpy i then logpy i else p.logpx i
      clock := p.clock + 1 },
    ((Finset.univ.filter fun i => accepts env p logpy i).card : ℝ) / n)

/-! ## The driver -/

/-- `SMCConfig`, smc.py 46-53; `p0` or `ess` for the tempering rule. -/
structure SConfig where
  useEss : Bool := false
  mhSteps : ℤ := 20
  accMin : ℝ := 0.15
  accMax : ℝ := 0.30
  factor : ℝ := 1.4
  maxIter : ℕ := 50

/-- `move_with_controlled_acceptation_rate`, smc.py 829-861; `k` iterations are left. -/
noncomputable def controlledMove (env : Env n d) (cfg : PConfig) (sc : SConfig) :
    ℕ → Parts n d → Py (Parts n d)
  | 0, p => .ok p
  | k + 1, p =>
    open Classical in
    match move env cfg p with
    | .error e => .error e
    | .ok (p, r) =>
      if r < sc.accMin then controlledMove env cfg sc k { p with s := p.s / sc.factor }
      else if sc.accMax < r then controlledMove env cfg sc k { p with s := p.s * sc.factor }
      else .ok p

/-- `k` calls of `move`. -/
noncomputable def moves (env : Env n d) (cfg : PConfig) : ℕ → Parts n d → Py (Parts n d)
  | 0, p => .ok p
  | k + 1, p => do
    let r ← move env cfg p
    moves env cfg k r.1

/-- Resample and move, the common part of `step` and `run_subset_simulation`,
smc.py 640-657, 1455-1458. -/
noncomputable def mutate (env : Env n d) (cfg : PConfig) (sc : SConfig) (p : Parts n d) :
    Py (Parts n d) := do
  let p ← resample env cfg p
  let p ← controlledMove env cfg sc sc.maxIter p
  moves env cfg (sc.mhSteps - 1).toNat p

/-- A parameterised log-density. -/
abbrev LogPdfP (n d : ℕ) := (Fin n → Pt d) → ℝ → Py (Fin n → Flt)

/-- `step`, smc.py 609-664. -/
noncomputable def step (env : Env n d) (cfg : PConfig) (sc : SConfig) (l : LogPdfP n d)
    (param : ℝ) (p : Parts n d) : Py (Parts n d) := do
  let p ← reweight true (setLogpdfParam l param p)
  mutate env cfg sc p

/-- `compute_p_value`, smc.py 954-984. -/
noncomputable def pValue (l : LogPdfP n d) (x : Fin n → Pt d) (new cur : ℝ) : Py Flt := do
  let a ← l x new
  let b ← l x cur
  return (Flt.sum fun i => ((a i).sub (b i)).exp).div (.fin n)

/-- The loop of `compute_next_logpdf_param_p0`, smc.py 1034-1055, for at most `k`
iterations (`none`: still running). -/
noncomputable def bisect (p : ℝ → Py Flt) (p0 tol : ℝ) : ℕ → ℝ → ℝ → Py (Option ℝ)
  | 0, _, _ => .ok none
  | k + 1, low, high =>
    open Classical in
    match p ((high + low) / 2) with
    | .error e => .error e
    | .ok v =>
      if (v.sub (.fin p0)).absLt tol then .ok (some ((high + low) / 2))
      else if v.lt (.fin p0) then bisect p p0 tol k low ((high + low) / 2)
      else bisect p p0 tol k ((high + low) / 2) high

/-- `compute_next_logpdf_param_p0`, smc.py 986-1057. -/
noncomputable def nextP0 (k : ℕ) (l : LogPdfP n d) (x : Fin n → Pt d) (cur target p0 : ℝ) :
    Py (Option ℝ) :=
  open Classical in do
  let v ← pValue l x target cur
  if (Flt.fin p0).le v then return some target
  bisect (fun t => pValue l x t cur) p0 0.05 k cur target

/-- `compute_delta_eta`, smc.py 905-922: `ESS/n - eta0`. -/
noncomputable def deltaEta (l : LogPdfP n d) (p : Parts n d) (eta0 t : ℝ) : Py Flt := do
  let q ← reweight false (setLogpdfParam l t p)
  return ((ess q.wtmp).div (.fin n)).sub (.fin eta0)

/-- `compute_next_logpdf_param_ess`, smc.py 863-952; `brentq f low high` is the external
root finder. -/
noncomputable def nextEss (brentq : (ℝ → Py Flt) → ℝ → ℝ → Py ℝ) (l : LogPdfP n d) (p : Parts n d)
    (cur target eta0 : ℝ) : Py ℝ :=
  open Classical in do
  let f := deltaEta l p eta0
  let ft ← f target
  if (Flt.fin 0).lt ft then return target
  let flow ← f (min target cur)
  let fhigh ← f (max target cur)
  if (Flt.fin 0).lt (flow.mul fhigh) then return target
  brentq f (min target cur) (max target cur)

/-- The log-density of `log_indicator_density`, smc.py 1345-1359: `-1e100` stands for
minus infinity. -/
noncomputable def logIndicator (f : Pt d → Flt) (logPx : Pt d → Flt) (upper : Bool)
    (u : Flt) : LogPdf n d :=
  open Classical in
  fun x => .ok fun i =>
    if (if upper then u.lt (f (x i)) else (f (x i)).lt u) then logPx (x i)
    else .fin (-(10 : ℝ) ^ 100)

/-- One level of `run_subset_simulation`, smc.py 1432-1461. -/
noncomputable def subsetLevel (env : Env n d) (cfg : PConfig) (sc : SConfig) (f : Pt d → Flt)
    (logPx : Pt d → Flt) (upper : Bool) (u : Flt) (p : Parts n d) : Py (Parts n d × Flt) := do
  let p ← reweight true (setLogpdf (logIndicator f logPx upper u) p)
  let wsum := Flt.sum p.w
  let p := { p with w := fun i => (p.w i).div wsum }
  let p ← mutate env cfg sc p
  return (p, wsum)

/-- The loop over the levels. -/
noncomputable def subsetLoop (env : Env n d) (cfg : PConfig) (sc : SConfig) (f : Pt d → Flt)
    (logPx : Pt d → Flt) (upper : Bool) : List Flt → Parts n d → Py (Parts n d × List Flt)
  | [], p => .ok (p, [])
  | u :: us, p => do
    let r ← subsetLevel env cfg sc f logPx upper u p
    let q ← subsetLoop env cfg sc f logPx upper us r.1
    return (q.1, r.2 :: q.2)

/-- `run_subset_simulation`, smc.py 1362-1468, for `tail` "upper" or "lower": the
estimate, the level probabilities and the particles. -/
noncomputable def subsetSimulation (env : Env n d) (cfg : PConfig) (sc : SConfig)
    (f : Pt d → Flt) (logPx : Pt d → Flt) (upper : Bool) (thresholds : List Flt) (lo hi : Pt d) :
    Py (Flt × List Flt × Parts n d) :=
  open Classical in
  match thresholds with
  | [] => .error .indexError
  | u0 :: us =>
    if u0 = (if upper then .num ⊥ else .num ⊤) then do
      let p ← newParts env cfg lo hi
      let p ← particlesInit env { cfg with randunif := true } lo hi p
      if us = [] then .error .indexError
      let r ← subsetLoop env cfg sc f logPx upper us p
      return (Flt.prod r.2, r.2, r.1)
    else .error .assertionError

/-- The tempering rule chosen by the configuration, smc.py 540-547. -/
noncomputable def nextParam (brentq : (ℝ → Py Flt) → ℝ → ℝ → Py ℝ) (sc : SConfig) (k : ℕ)
    (l : LogPdfP n d) (p : Parts n d) (cur target thr : ℝ) : Py (Option ℝ) :=
  if sc.useEss then do
    let t ← nextEss brentq l p cur target thr
    return some t
  else nextP0 k l p.x cur target thr

/-- The loop of `restart`, smc.py 796-823, for at most `k` stages and `k` steps per
search (`none`: still running).  Returns the stage parameters as well.  In the `ess`
rule the search leaves other temporary weights and log-density behind, which `step`
overwrites. -/
noncomputable def restartLoop (brentq : (ℝ → Py Flt) → ℝ → ℝ → Py ℝ) (env : Env n d) (cfg : PConfig)
    (sc : SConfig) (l : LogPdfP n d) (target thr : ℝ) (kb : ℕ) :
    ℕ → ℝ → Parts n d → Py (Option (Parts n d × List ℝ))
  | 0, _, _ => .ok none
  | k + 1, cur, p =>
    open Classical in
    if cur = target then .ok (some (p, []))
    else
      match nextParam brentq sc kb l p cur target thr with
      | .error e => .error e
      | .ok none => .ok none
      | .ok (some t) =>
        match step env cfg sc l t p with
        | .error e => .error e
        | .ok p =>
          match restartLoop brentq env cfg sc l target thr kb k t p with
          | .error e => .error e
          | .ok none => .ok none
          | .ok (some r) => .ok (some (r.1, t :: r.2))

/-- The threshold used by `restart`, smc.py 752-790. -/
noncomputable def restartThreshold (sc : SConfig) (minEss p0 : ℝ) (ratio : Flt) : ℝ :=
  open Classical in
  if sc.useEss then (if ratio.lt (.fin minEss) then min minEss (toReal ratio) else minEss) else p0

/-- `restart`, smc.py 727-827. -/
noncomputable def restart (brentq : (ℝ → Py Flt) → ℝ → ℝ → Py ℝ) (env : Env n d) (cfg : PConfig)
    (sc : SConfig) (l : LogPdfP n d) (lo hi : Pt d) (initial target minEss p0 : ℝ) (k : ℕ)
    (p : Parts n d) : Py (Option (Parts n d × List ℝ)) := do
  let p ← particlesInit env cfg lo hi p
  let q ← reweight false (setLogpdfParam l initial p)
  let ratio := (ess q.wtmp).div (.fin n)
  restartLoop brentq env cfg sc l target (restartThreshold sc minEss p0 ratio) k k initial q

/-- `step_with_possible_restart`, smc.py 666-725. -/
noncomputable def stepRestart (brentq : (ℝ → Py Flt) → ℝ → ℝ → Py ℝ) (env : Env n d) (cfg : PConfig)
    (sc : SConfig) (l : LogPdfP n d) (lo hi : Pt d) (initial target minEss p0 : ℝ) (k : ℕ)
    (p : Parts n d) : Py (Option (Parts n d)) :=
  open Classical in do
  let q ← reweight false (setLogpdfParam l target p)
  if ((ess q.wtmp).div (.fin n)).lt (.fin minEss) then do
    let r ← restart brentq env cfg sc l lo hi initial target minEss p0 k q
    return r.map Prod.fst
  else do
    let r ← step env cfg sc l target q
    return some r

end Verif.SMC
