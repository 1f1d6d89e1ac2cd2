import Verif.Py
import Verif.FltOps
import Verif.Mcmc.SMC
import Mathlib.Analysis.SpecialFunctions.Pow.Real
import Mathlib.Analysis.SpecialFunctions.Exp

/-!
# Model of `mcmc/nuts.py`

Exact real arithmetic.  The log-density may take the values NaN, `+inf` and `-inf`; its
gradient is a real vector.  Every call of `rand` is a separate argument, labelled by the
place in the tree where it is made.  Left out: logging, progress bars, plots and traces
that only repeat returned values.
-/

set_option autoImplicit false

namespace Verif.Nuts

open Verif
open Verif.SMC (Pt)

variable {d : ℕ}

/-! ## Options, nuts.py 171-269 -/

/-- `NUTSOptions`, nuts.py 182-220 (numerical fields). -/
structure Options (d : ℕ) where
  numWarmup : ℤ := 1000
  targetAccept : ℝ := 0.80
  maxDepth : ℤ := 10
  deltaMax : ℝ := 1000
  jitter : ℝ := 0.0001
  initStep : Option ℝ := none
  initMass : Option (Pt d) := none
  seed : Option ℤ := none
  progress : Bool := true
  verbose : ℤ := 1
  logEvery : ℤ := 50
  gamma : ℝ := 0.05
  t0 : ℝ := 10
  kappa : ℝ := 0.75
  muFactor : ℝ := 10
  minNoWindow : ℤ := 20
  largeThreshold : ℤ := 150
  largeInit : ℤ := 75
  largeTerm : ℤ := 50
  largeBase : ℤ := 25
  initRatio : ℝ := 0.15
  termRatio : ℝ := 0.10
  baseDivisor : ℝ := 3
  epsInit : ℝ := 1
  epsTarget : ℝ := 0.5
  epsScale : ℝ := 2
  epsMin : ℝ := 0.000001
  epsMax : ℝ := 100

/-- The keyword arguments of `nuts_sample`, nuts.py 772-788. -/
structure Args (d : ℕ) where
  numWarmup : ℤ := 1000
  targetAccept : ℝ := 0.80
  maxDepth : ℤ := 10
  deltaMax : ℝ := 1000
  jitter : ℝ := 0.0001
  initStep : Option ℝ := none
  initMass : Option (Pt d) := none
  seed : Option ℤ := none
  progress : Bool := true
  verbose : ℤ := 1
  logEvery : ℤ := 50

/-- A keyword argument overrides the option when it is not the default. -/
noncomputable def pick {α : Type} (dflt arg opt : α) : α :=
  open Classical in if arg ≠ dflt then arg else opt

/-- `_resolve_nuts_options`, nuts.py 223-269. -/
noncomputable def resolve (o : Option (Options d)) (a : Args d) : Options d :=
  match o with
  | none =>
    { numWarmup := a.numWarmup, targetAccept := a.targetAccept, maxDepth := a.maxDepth
      deltaMax := a.deltaMax, jitter := a.jitter, initStep := a.initStep, initMass := a.initMass
      seed := a.seed, progress := a.progress, verbose := a.verbose, logEvery := a.logEvery }
  | some o =>
    { o with
      numWarmup := pick 1000 a.numWarmup o.numWarmup
      targetAccept := pick 0.80 a.targetAccept o.targetAccept
      maxDepth := pick 10 a.maxDepth o.maxDepth
      deltaMax := pick 1000 a.deltaMax o.deltaMax
      jitter := pick 0.0001 a.jitter o.jitter
      initStep := pick none a.initStep o.initStep
      initMass := pick none a.initMass o.initMass
      seed := pick none a.seed o.seed
      progress := pick true a.progress o.progress
      verbose := pick 1 a.verbose o.verbose
      logEvery := pick 50 a.logEvery o.logEvery }

/-! ## Adaptation, nuts.py 297-396 -/

/-- `DualAveragingState`, nuts.py 298-303. -/
structure DA where
  mu : ℝ
  logEps : ℝ
  logEpsBar : ℝ
  hBar : ℝ
  t : ℕ

/-- `DualAveragingState.update`, nuts.py 305-320: the new state; the returned step is
`exp logEps`. -/
noncomputable def DA.update (s : DA) (accept target gamma t0 kappa : ℝ) : DA :=
  let t := s.t + 1
  let eta := 1 / ((t : ℝ) + t0)
  let hBar := (1 - eta) * s.hBar + eta * (target - accept)
  let logEps := s.mu - Real.sqrt t / gamma * hBar
  let w := (t : ℝ) ^ (-kappa)
  { mu := s.mu, logEps := logEps, logEpsBar := w * logEps + (1 - w) * s.logEpsBar
    hBar := hBar, t := t }

/-- `DualAveragingState.final`, nuts.py 322-323. -/
noncomputable def DA.final (s : DA) : ℝ := Real.exp s.logEpsBar

/-- `RunningDiagVar`, nuts.py 326-330. -/
structure RunVar (d : ℕ) where
  n : ℕ
  mean : Pt d
  m2 : Pt d

/-- `RunningDiagVar.__init__`, nuts.py 327-330. -/
def RunVar.init : RunVar d := ⟨0, fun _ => 0, fun _ => 0⟩

/-- `update_one`, nuts.py 332-337. -/
noncomputable def RunVar.update (s : RunVar d) (x : Pt d) : RunVar d :=
  let n := s.n + 1
  let delta := fun i => x i - s.mean i
  let mean := fun i => s.mean i + delta i / n
  let delta2 := fun i => x i - mean i
  ⟨n, mean, fun i => s.m2 i + delta i * delta2 i⟩

/-- `update_batch`, nuts.py 339-342. -/
noncomputable def RunVar.updates (s : RunVar d) (xs : List (Pt d)) : RunVar d :=
  xs.foldl RunVar.update s

/-- `var`, nuts.py 344-347. -/
noncomputable def RunVar.var (s : RunVar d) : Pt d :=
  if s.n < 2 then fun _ => 1 else fun i => s.m2 i / ((s.n : ℝ) - 1)

/-- The loop of `make_warmup_windows`, nuts.py 386-395; `fuel` bounds the iterations
(`end_middle - start` suffices). -/
def windowLoop (endMiddle : ℤ) : ℕ → ℤ → ℤ → List (ℤ × ℤ)
  | 0, _, _ => []
  | fuel + 1, start, win =>
    if start + win < endMiddle then
      (start, start + win) ::
        (let start' := start + win
         let win' := min (2 * win) (endMiddle - start')
         if win' ≤ 0 then (if start' < endMiddle then [(start', endMiddle)] else [])
         else windowLoop endMiddle fuel start' win')
    else if start < endMiddle then [(start, endMiddle)] else []

/-- The windows for given buffers, nuts.py 379-396. -/
def windowsOf (numWarmup initBuffer termBuffer baseWindow : ℤ) : List (ℤ × ℤ) :=
  let start := initBuffer
  let endMiddle := numWarmup - termBuffer
  if endMiddle ≤ start then []
  else windowLoop endMiddle (endMiddle - start).toNat start (min baseWindow (endMiddle - start))

/-- Python's `int(x)` of a real number. -/
noncomputable def truncZ (x : ℝ) : ℤ := if 0 ≤ x then ⌊x⌋ else ⌈x⌉

/-- The buffers and base window, nuts.py 367-377. -/
noncomputable def buffers (o : Options d) (numWarmup : ℤ) : ℤ × ℤ × ℤ :=
  if o.largeThreshold ≤ numWarmup then (o.largeInit, o.largeTerm, o.largeBase)
  else
    let a := max 1 (truncZ (o.initRatio * numWarmup))
    let b := max 1 (truncZ (o.termRatio * numWarmup))
    (a, b, max 1 (truncZ (((numWarmup - a - b : ℤ) : ℝ) / o.baseDivisor)))

/-- `make_warmup_windows`, nuts.py 350-396. -/
noncomputable def warmupWindows (o : Options d) (numWarmup : ℤ) : List (ℤ × ℤ) :=
  if numWarmup ≤ o.minNoWindow then []
  else windowsOf numWarmup (buffers o numWarmup).1 (buffers o numWarmup).2.1 (buffers o numWarmup).2.2

/-! ## Dynamics, nuts.py 412-492 -/

/-- `potential_and_grad`, nuts.py 412-421: potential energy and its gradient. -/
structure Target (d : ℕ) where
  U : Pt d → Flt
  g : Pt d → Pt d

/-- Position, momentum and gradient. -/
@[ext] structure Z (d : ℕ) where
  q : Pt d
  p : Pt d
  g : Pt d

/-- `kinetic`, nuts.py 424-425. -/
noncomputable def kinetic (p im : Pt d) : ℝ := 0.5 * ∑ i, p i * p i * im i

/-- `leapfrog`, nuts.py 428-440 (the potential at the new point is `tg.U` of its
position). -/
noncomputable def leapfrog (tg : Target d) (z : Z d) (eps : ℝ) (im : Pt d) : Z d :=
  let pHalf : Pt d := fun i => z.p i - 0.5 * eps * z.g i
  let q : Pt d := fun i => z.q i + eps * (pHalf i * im i)
  { q := q, p := fun i => pHalf i - 0.5 * eps * tg.g q i, g := tg.g q }

/-- Total energy, nuts.py 467, 523, 663. -/
noncomputable def energy (tg : Target d) (im : Pt d) (z : Z d) : Flt :=
  (tg.U z.q).add (.fin (kinetic z.p im))

/-- `is_uturn`, nuts.py 443-447. -/
noncomputable def uturn (im : Pt d) (zm zp : Z d) : Bool :=
  open Classical in
  decide (∑ i, (zp.q i - zm.q i) * (im i * zm.p i) < 0)
    || decide (∑ i, (zp.q i - zm.q i) * (im i * zp.p i) < 0)

/-- `exp(clip(x, max=0))`, nuts.py 474, 483, 534. -/
noncomputable def alphaOf : Flt → Flt
  | .nan => .nan
  | .num a => Flt.exp (.num (min a 0))

/-- The loop of `find_reasonable_step_size`, nuts.py 478-490, for at most `k` iterations
(`none`: still running); `alpha eps` is the acceptance statistic for the step `eps`. -/
noncomputable def stepLoop (alpha : ℝ → Flt) (target base lo hi : ℝ) (up : Bool) :
    ℕ → ℝ → Option ℝ
  | 0, _ => none
  | k + 1, eps =>
    open Classical in
    let eps := if up then eps * base else eps * base⁻¹
    if ((Flt.fin target).lt (alpha eps) ∧ up = false) ∨ ((alpha eps).lt (.fin target) ∧ up = true)
    then some eps
    else if eps < lo ∨ hi < eps then some eps
    else stepLoop alpha target base lo hi up k eps

/-- The acceptance statistic of one leapfrog step, nuts.py 470-474. -/
noncomputable def stepAlpha (tg : Target d) (im : Pt d) (z : Z d) (eps : ℝ) : Flt :=
  alphaOf ((energy tg im (leapfrog tg z eps im)).sub (energy tg im z)).neg

/-- Momentum `randn * sqrt(1 / inv_mass_diag)`, nuts.py 464, 660. -/
noncomputable def momentum (im noise : Pt d) : Pt d := fun i => noise i * Real.sqrt (1 / im i)

/-- `find_reasonable_step_size`, nuts.py 455-492. -/
noncomputable def findStep (tg : Target d) (im q noise : Pt d) (eps0 target base lo hi : ℝ)
    (k : ℕ) : Option ℝ :=
  open Classical in
  let z : Z d := ⟨q, momentum im noise, tg.g q⟩
  let alpha := stepAlpha tg im z
  stepLoop alpha target base lo hi (decide ((Flt.fin target).lt (alpha eps0))) k eps0

/-! ## Trees, nuts.py 500-648 -/

/-- Result of `build_tree`. -/
structure Tree (d : ℕ) where
  minus : Z d
  plus : Z d
  prop : Pt d
  nValid : ℕ
  cont : Bool
  alphaSum : ℝ
  nAlpha : ℕ
  nLeap : ℕ
  div : Bool

/-- The settings that stay fixed during one transition. -/
structure Ctx (d : ℕ) where
  tg : Target d
  im : Pt d
  eps : ℝ
  logu : Flt
  H0 : ℝ
  dmax : ℝ

/-- The uniform draws of a tree of depth `k`: one for each inner node. -/
def Draws : ℕ → Type
  | 0 => Unit
  | k + 1 => ℝ × Draws k × Draws k

/-- Value of a finite number. -/
noncomputable def finite? : Flt → Option ℝ
  | .nan => none
  | .num a => open Classical in if a = ⊤ ∨ a = ⊥ then none else some a.toReal

/-- Signed step, `eps * v`. -/
noncomputable def Ctx.step (c : Ctx d) (v : Bool) : ℝ := if v then c.eps else -c.eps

/-- A single leapfrog step, nuts.py 521-538. -/
noncomputable def leaf (c : Ctx d) (v : Bool) (z : Z d) : Tree d :=
  open Classical in
  let z1 := leapfrog c.tg z (c.step v) c.im
  match finite? (energy c.tg c.im z1) with
  | none =>
    { minus := z, plus := z, prop := z.q, nValid := 0, cont := false, alphaSum := 0, nAlpha := 0
      nLeap := 1, div := true }
  | some h =>
    { minus := z1, plus := z1, prop := z1.q
      nValid := if c.logu.le (.fin (-h)) then 1 else 0
      cont := decide (c.logu.lt (.fin (c.dmax - h))) && !decide (c.dmax < h - c.H0)
      alphaSum := Real.exp (min (-(h - c.H0)) 0)
      nAlpha := 1, nLeap := 1, div := decide (c.dmax < h - c.H0) }

/-- Choice between the two candidates, nuts.py 618-621. -/
noncomputable def choose (u : ℝ) (n1 n2 : ℕ) (q1 q2 : Pt d) : Pt d :=
  open Classical in
  if 0 < n1 + n2 then (if u < (n2 : ℝ) / ((n1 + n2 : ℕ) : ℝ) then q2 else q1) else q1

/-- Combination of two neighbouring subtrees, nuts.py 572-630. -/
noncomputable def join (c : Ctx d) (v : Bool) (u : ℝ) (a b : Tree d) : Tree d :=
  let minus := if v then a.minus else b.minus
  let plus := if v then b.plus else a.plus
  { minus := minus, plus := plus, prop := choose u a.nValid b.nValid a.prop b.prop
    nValid := a.nValid + b.nValid
    cont := b.cont && !uturn c.im minus plus
    alphaSum := a.alphaSum + b.alphaSum
    nAlpha := a.nAlpha + b.nAlpha
    nLeap := a.nLeap + b.nLeap
    div := a.div || b.div }

/-- `build_tree`, nuts.py 500-648. -/
noncomputable def buildTree (c : Ctx d) (v : Bool) : (k : ℕ) → Draws k → Z d → Tree d
  | 0, _, z => leaf c v z
  | k + 1, w, z =>
    let a := buildTree c v k w.2.1 z
    if a.cont && !a.div then
      join c v w.1 a (buildTree c v k w.2.2 (if v then a.plus else a.minus))
    else a

/-! ## Transition, nuts.py 651-764 -/

/-- The draws of the `n` doublings from depth `j` on: direction, tree and acceptance. -/
def TDraws : ℕ → ℕ → Type
  | 0, _ => Unit
  | n + 1, j => (ℝ × Draws j × ℝ) × TDraws n (j + 1)

/-- The state of the loop, nuts.py 669-684. -/
structure TState (d : ℕ) where
  minus : Z d
  plus : Z d
  prop : Pt d
  nValid : ℕ
  cont : Bool
  alphaSum : ℝ
  nAlpha : ℕ
  nLeap : ℕ
  div : Bool
  depth : ℕ

/-- Start of the loop, nuts.py 669-684. -/
def TState.start (z : Z d) : TState d :=
  { minus := z, plus := z, prop := z.q, nValid := 1, cont := true, alphaSum := 0, nAlpha := 0
    nLeap := 0, div := false, depth := 0 }

/-- One doubling at depth `j`, nuts.py 687-759. -/
noncomputable def double (c : Ctx d) (j : ℕ) (w : ℝ × Draws j × ℝ) (s : TState d) : TState d :=
  open Classical in
  let v : Bool := !decide (w.1 < 0.5)
  let t := buildTree c v j w.2.1 (if v then s.plus else s.minus)
  let minus := if v then s.minus else t.minus
  let plus := if v then t.plus else s.plus
  { minus := minus, plus := plus
    prop := if t.cont && !t.div then choose w.2.2 s.nValid t.nValid s.prop t.prop else s.prop
    nValid := s.nValid + t.nValid
    cont := t.cont && !uturn c.im minus plus
    alphaSum := s.alphaSum + t.alphaSum
    nAlpha := s.nAlpha + t.nAlpha
    nLeap := s.nLeap + t.nLeap
    div := s.div || t.div
    depth := j + 1 }

/-- The loop, nuts.py 686-759: at most `n` doublings from depth `j` on. -/
noncomputable def doubles (c : Ctx d) : (n j : ℕ) → TDraws n j → TState d → TState d
  | 0, _, _, s => s
  | n + 1, j, w, s => if s.cont then doubles c n (j + 1) w.2 (double c j w.1 s) else s

/-- Result of `nuts_transition`. -/
structure TransOut (d : ℕ) where
  q : Pt d
  accept : ℝ
  nLeap : ℕ
  depth : ℕ
  div : Bool

/-- `nuts_transition`, nuts.py 651-764; `r` is the slice draw. -/
noncomputable def transition (tg : Target d) (im : Pt d) (eps : ℝ) (maxDepth : ℕ) (dmax : ℝ)
    (noise : Pt d) (r : ℝ) (w : TDraws maxDepth 0) (q0 : Pt d) : TransOut d :=
  let z0 : Z d := ⟨q0, momentum im noise, tg.g q0⟩
  match finite? (energy tg im z0) with
  | none => { q := q0, accept := 0, nLeap := 0, depth := 0, div := true }
  | some h0 =>
    let c : Ctx d := { tg := tg, im := im, eps := eps, logu := (Flt.fin (-h0)).add (Flt.logU r)
                       H0 := h0, dmax := dmax }
    let s := doubles c maxDepth 0 w (TState.start z0)
    { q := s.prop, accept := s.alphaSum / ((max 1 s.nAlpha : ℕ) : ℝ), nLeap := s.nLeap
      depth := s.depth, div := s.div }

/-! ## Driver, nuts.py 772-1131 -/

/-- The repaired bounds, nuts.py 836-841, for finite options. -/
noncomputable def epsBounds (o : Options d) : ℝ × ℝ :=
  open Classical in
  let lo := if o.epsMin ≤ 0 then (10 : ℝ)⁻¹ ^ 12 else o.epsMin
  (lo, if o.epsMax ≤ lo then max 1 (10 * lo) else o.epsMax)

/-- `_clamp_step_size`, nuts.py 843-851. -/
noncomputable def clampStep (lo hi : ℝ) (eps : Flt) : ℝ :=
  open Classical in
  match finite? eps with
  | none => lo
  | some e => if e ≤ 0 then lo else if e < lo then lo else if hi < e then hi else e

/-- Fresh dual averaging around a step, nuts.py 895-903, 1012-1020. -/
noncomputable def restartDA (lo muFactor step : ℝ) : DA :=
  { mu := Real.log (max lo (muFactor * step)), logEps := Real.log step, logEpsBar := Real.log step
    hBar := 0, t := 0 }

/-- The adaptation state of the warm-up loop. -/
structure WState (m d : ℕ) where
  q : Fin m → Pt d
  step : ℝ
  mass : Pt d
  da : DA
  rv : RunVar d

/-- The transition of one chain: arbitrary (it is `transition` with its draws).  The
arguments are iteration, chain, position, step and inverse mass; the result is the new
position and its acceptance statistic. -/
abbrev Kern (m d : ℕ) := ℕ → Fin m → Pt d → ℝ → Pt d → Pt d × ℝ

/-- `gnp.clip(v, min=jitter)`. -/
noncomputable def clipMin (jitter : ℝ) (v : Pt d) : Pt d := fun i => max (v i) jitter

/-- The mass update at a window end, nuts.py 997-1020. -/
noncomputable def massUpdate (lo hi jitter muFactor : ℝ) {m : ℕ} (s : WState m d) : WState m d :=
  let step := clampStep lo hi (.fin s.step)
  { s with mass := clipMin jitter s.rv.var, rv := RunVar.init, step := step
           da := restartDA lo muFactor step }

/-- One warm-up iteration, nuts.py 953-1024. -/
noncomputable def warmStep (o : Options d) (lo hi : ℝ) (windows : List (ℤ × ℤ)) {m : ℕ}
    (ker : Kern m d) (t : ℕ) (s : WState m d) : WState m d :=
  let im : Pt d := fun i => 1 / s.mass i
  let out := fun c => ker t c (s.q c) s.step im
  let meanAcc := (∑ c, (out c).2) / m
  let da := s.da.update meanAcc o.targetAccept o.gamma o.t0 o.kappa
  let q := fun c => (out c).1
  let s1 : WState m d :=
    { q := q, step := clampStep lo hi (.fin (Real.exp da.logEps)), mass := s.mass, da := da
      rv := if windows.any (fun w => decide (w.1 ≤ (t : ℤ)) && decide ((t : ℤ) < w.2))
            then s.rv.updates (List.ofFn q) else s.rv }
  if windows.any (fun w => decide (w.2 = (t : ℤ) + 1)) then massUpdate lo hi o.jitter o.muFactor s1
  else s1

/-- The warm-up loop, iterations `t, …, t + k - 1`. -/
noncomputable def warmLoop (o : Options d) (lo hi : ℝ) (windows : List (ℤ × ℤ)) {m : ℕ}
    (ker : Kern m d) : ℕ → ℕ → WState m d → WState m d
  | 0, _, s => s
  | k + 1, t, s => warmLoop o lo hi windows ker k (t + 1) (warmStep o lo hi windows ker t s)

/-- The sampling loop, nuts.py 1061-1100: positions after each iteration. -/
noncomputable def sampleLoop (step : ℝ) (im : Pt d) {m : ℕ} (ker : Kern m d) :
    ℕ → ℕ → (Fin m → Pt d) → List (Fin m → Pt d)
  | 0, _, _ => []
  | k + 1, t, q =>
    let q' := fun c => (ker t c (q c) step im).1
    q' :: sampleLoop step im ker k (t + 1) q'

/-- Initial masses, nuts.py 867-875 (shape already checked). -/
noncomputable def initMassOf (o : Options d) : Pt d :=
  match o.initMass with
  | none => fun _ => 1
  | some v => clipMin o.jitter v

/-- `nuts_sample` after the shape checks: the samples, the final step and mass.
`search` is the outcome of the step-size search (`none`: it does not end). -/
noncomputable def nutsSample (o : Options d) {m : ℕ} (search : Pt d → Option ℝ) (ker : Kern m d)
    (num : ℕ) (q0 : Fin m → Pt d) : Option (List (Fin m → Pt d) × ℝ × Pt d) :=
  let b := epsBounds o
  let mass := initMassOf o
  let raw := match o.initStep with
    | none => search fun i => 1 / mass i
    | some e => some e
  raw.map fun e0 =>
    let eps0 := clampStep b.1 b.2 (.fin e0)
    let nw := o.numWarmup.toNat
    let s := warmLoop o b.1 b.2 (warmupWindows o o.numWarmup) ker nw 0
      { q := q0, step := eps0, mass := mass, da := restartDA b.1 o.muFactor eps0, rv := RunVar.init }
    let step := clampStep b.1 b.2 (.fin s.da.final)
    (sampleLoop step (fun i => 1 / s.mass i) ker num nw s.q, step, s.mass)

/-- `moving_average`, nuts.py 1139-1144: `convolve(y, ones(w)/w, mode="valid")`, which for
a window longer than the data exchanges the roles of the two sequences. -/
noncomputable def movingAverage (y : List ℝ) (w : ℕ) : List ℝ :=
  if w ≤ 1 then y
  else if w ≤ y.length then
    (List.range (y.length - w + 1)).map fun i => ((y.drop i).take w).sum / w
  else (List.range (w - y.length + 1)).map fun _ => y.sum / w

end Verif.Nuts
