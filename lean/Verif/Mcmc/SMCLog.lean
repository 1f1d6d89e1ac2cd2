import Verif.Mcmc.SMC

/-!
# The log of `SMC`

`/repo/gpmp/mcmc/smc.py` 554-607 (`update_log`, `log_snapshot`), the driver functions of the
same class with their logging (609-861) and what `plot_state` (1059-1154) draws.

The particle operations are those of `Verif.Mcmc.SMC`.  The state is kept when an operation
raises, except that the particles are then those before the operation.  Execution states are
the events whose text is formatted, with the stage number in front.  Time stamps are left
out.  `trace` is not part of the program: it collects what `ParticlesSet.move` returned.
-/

set_option autoImplicit false

namespace Verif.SMC.Log

open Verif Verif.SMC

variable {n d : ℕ}

/-- What the execution states say. -/
inductive Event where
  | start
  | initialEss
  | belowThreshold
  | acceptable
  | stepStart (t : ℝ)
  | reweight (t : ℝ)
  | resample (e : Flt)
  | moveControlled
  | entering
  | controlled (i : ℕ) (r : ℝ)
  | low (r s : ℝ)
  | high (r s : ℝ)
  | additional (i : ℕ) (r : ℝ)
  | restarting
  | reinit
  | iteration (k : ℕ) (t : ℝ)

/-- `log_data`, smc.py 558-566. -/
structure Data where
  cur : Option ℝ
  ess : Option Flt
  target : Option ℝ
  restartIter : ℕ
  params : List ℝ
  rates : List ℝ
  state : Option (ℕ × Event)

/-- A snapshot, smc.py 590-604. -/
structure Snap where
  stage : ℕ
  s : ℝ
  cur : Option ℝ
  ess : Option Flt
  target : Option ℝ
  restartIter : ℕ
  params : List ℝ
  rates : List ℝ
  state : Option (ℕ × Event)

/-- The attributes of `SMC` that change, and the trace of acceptance rates. -/
structure St (n d : ℕ) where
  p : Parts n d
  stage : ℕ
  data : Data
  log : List Snap
  trace : List ℝ

/-- `__init__`, smc.py 554-566. -/
def newLog (p : Parts n d) : St n d :=
  { p := p
    stage := 0
    data := { cur := none, ess := none, target := none, restartIter := 0, params := [],
              rates := [], state := none }
    log := []
    trace := [] }

/-- `update_log(logpdf_param=t, ess=e, acceptation_rate=r, state=v)`, smc.py 568-583. -/
def update (t : Option ℝ) (e : Option Flt) (r : Option ℝ) (v : Option Event) (st : St n d) :
    St n d :=
  { st with data := { st.data with
      cur := match t with
        | some t => some t
        | none => st.data.cur
      ess := match e with
        | some e => some e
        | none => st.data.ess
      rates := match r with
        | some r => st.data.rates ++ [r]
        | none => st.data.rates
      state := match v with
        | some v => some (st.stage, v)
        | none => st.data.state } }

/-- Only the execution state. -/
def say (v : Event) (st : St n d) : St n d := update none none none (some v) st

/-- The snapshot of a state, smc.py 590-604. -/
def shot (st : St n d) : Snap :=
  { stage := st.stage
    s := st.p.s
    cur := st.data.cur
    ess := st.data.ess
    target := st.data.target
    restartIter := st.data.restartIter
    params := st.data.params
    rates := st.data.rates
    state := st.data.state }

/-- `log_snapshot`, smc.py 585-607. -/
def snapshot (st : St n d) : St n d :=
  { st with
    log := st.log ++ [shot st]
    data := { st.data with rates := [] } }

/-- How a call ends: normally, with an exception, or not within the given number of steps. -/
inductive Out where
  | done
  | raised (e : PyErr)
  | running

/-- Continue after a normal end. -/
def andThen (r : Out × St n d) (f : St n d → Out × St n d) : Out × St n d :=
  match r with
  | (.done, st) => f st
  | (.raised e, st) => (.raised e, st)
  | (.running, st) => (.running, st)

/-- An operation on the particles. -/
def onParts (f : Parts n d → Py (Parts n d)) (st : St n d) : Out × St n d :=
  match f st.p with
  | .error e => (.raised e, st)
  | .ok p => (.done, { st with p := p })

/-- `self.particles.move()`, then the rest with the acceptance rate. -/
noncomputable def moveThen (env : Env n d) (cfg : PConfig) (st : St n d)
    (f : ℝ → St n d → Out × St n d) : Out × St n d :=
  match move env cfg st.p with
  | .error e => (.raised e, st)
  | .ok (p, r) => f r { st with p := p, trace := st.trace ++ [r] }

/-- The scale of the proposals is changed. -/
def setS (s : ℝ) (st : St n d) : St n d := { st with p := { st.p with s := s } }

/-- The loop of `move_with_controlled_acceptation_rate`, smc.py 839-861; `k` iterations are
left and `i` have been done. -/
noncomputable def controlledLoop (env : Env n d) (cfg : PConfig) (sc : SConfig) :
    ℕ → ℕ → St n d → Out × St n d
  | 0, _, st => (.done, st)
  | k + 1, i, st =>
    open Classical in
    moveThen env cfg st fun r st =>
      let st := update none none (some r) (some (.controlled (i + 1) r)) st
      if r < sc.accMin then
        controlledLoop env cfg sc k (i + 1)
          (say (.low r (st.p.s / sc.factor)) (setS (st.p.s / sc.factor) st))
      else if sc.accMax < r then
        controlledLoop env cfg sc k (i + 1)
          (say (.high r (st.p.s * sc.factor)) (setS (st.p.s * sc.factor) st))
      else (.done, st)

/-- `move_with_controlled_acceptation_rate`, smc.py 829-861. -/
noncomputable def controlledMoveL (env : Env n d) (cfg : PConfig) (sc : SConfig) (st : St n d) :
    Out × St n d :=
  controlledLoop env cfg sc sc.maxIter 0 (say .entering st)

/-- The additional moves of `step`, smc.py 653-658. -/
noncomputable def additional (env : Env n d) (cfg : PConfig) :
    ℕ → ℕ → St n d → Out × St n d
  | 0, _, st => (.done, st)
  | k + 1, i, st =>
    moveThen env cfg st fun r st =>
      additional env cfg k (i + 1) (update none none (some r) (some (.additional (i + 1) r)) st)

/-- `step`, smc.py 609-664 (without debugging output and plots). -/
noncomputable def stepL (env : Env n d) (cfg : PConfig) (sc : SConfig) (l : LogPdfP n d) (t : ℝ)
    (st : St n d) : Out × St n d :=
  let st := say (.stepStart t) st
  let st := say (.reweight t) { st with p := setLogpdfParam l t st.p }
  andThen (onParts (SMC.reweight true) st) fun st =>
  let e := SMC.ess st.p.wtmp
  let st := update (some t) (some e) none none st
  let st := say (.resample e) st
  andThen (onParts (SMC.resample env cfg) st) fun st =>
  let st := say .moveControlled st
  andThen (controlledMoveL env cfg sc st) fun st =>
  let st := snapshot st
  andThen (additional env cfg (sc.mhSteps - 1).toNat 0 st) fun st =>
  (.done, snapshot st)

/-- The loop of `restart`, smc.py 796-824; bounds as in `SMC.restartLoop`. -/
noncomputable def restartLoopL (brentq : (ℝ → Py Flt) → ℝ → ℝ → Py ℝ) (env : Env n d)
    (cfg : PConfig) (sc : SConfig) (l : LogPdfP n d) (target thr : ℝ) (kb : ℕ) :
    ℕ → ℝ → St n d → Out × St n d
  | 0, _, st => (.running, st)
  | k + 1, cur, st =>
    open Classical in
    if cur = target then (.done, st)
    else
      match nextParam brentq sc kb l st.p cur target thr with
      | .error e => (.raised e, st)
      | .ok none => (.running, st)
      | .ok (some t) =>
        let st := { st with data := { st.data with
          restartIter := st.data.restartIter + 1
          params := st.data.params ++ [t] } }
        let st := snapshot (say (.iteration st.data.restartIter t) st)
        andThen (stepL env cfg sc l t st) fun st =>
        restartLoopL brentq env cfg sc l target thr kb k t st

/-- `restart`, smc.py 742-827. -/
noncomputable def restartL (brentq : (ℝ → Py Flt) → ℝ → ℝ → Py ℝ) (env : Env n d)
    (cfg : PConfig) (sc : SConfig) (l : LogPdfP n d) (lo hi : Pt d)
    (initial target minEss p0 : ℝ) (k : ℕ) (st : St n d) : Out × St n d :=
  let st := snapshot (say .restarting st)
  let st := say .reinit st
  andThen (onParts (particlesInit env cfg lo hi) st) fun st =>
  andThen (onParts (fun p => SMC.reweight false (setLogpdfParam l initial p)) st) fun st =>
  let ratio := (SMC.ess st.p.wtmp).div (.fin n)
  let st := { st with data := { st.data with params := [initial] } }
  andThen (restartLoopL brentq env cfg sc l target (restartThreshold sc minEss p0 ratio) k k
    initial st) fun st =>
  (.done, { st with data := { st.data with params := [], restartIter := 0 } })

/-- `step_with_possible_restart`, smc.py 666-740. -/
noncomputable def stepRestartL (brentq : (ℝ → Py Flt) → ℝ → ℝ → Py ℝ) (env : Env n d)
    (cfg : PConfig) (sc : SConfig) (l : LogPdfP n d) (lo hi : Pt d)
    (initial target minEss p0 : ℝ) (k : ℕ) (st : St n d) : Out × St n d :=
  open Classical in
  let st := { st with stage := st.stage + 1 }
  let st := say .start st
  let st := { st with data := { st.data with cur := some target, target := some target } }
  let st := snapshot st
  let st := { st with p := setLogpdfParam l target st.p }
  let st := say .initialEss st
  andThen (onParts (SMC.reweight false) st) fun st =>
  let e := SMC.ess st.p.wtmp
  let st := update none (some e) none none st
  if (e.div (.fin n)).lt (.fin minEss) then
    restartL brentq env cfg sc l lo hi initial target minEss p0 k
      (snapshot (say .belowThreshold st))
  else stepL env cfg sc l target (snapshot (say .acceptable st))

/-! ## `plot_state` -/

/-- One column of the figure. -/
structure Column where
  stage : ℕ
  target : Option ℝ
  cur : Option ℝ
  ess : Option Flt
  rate : ℝ

/-- The columns of one snapshot, smc.py 1086-1097: one per acceptance rate, and one with rate
0 if there is none. -/
def columnsOf (s : Snap) : List Column :=
  (if s.rates.length = 0 then [0] else s.rates).map fun r =>
    { stage := s.stage, target := s.target, cur := s.cur, ess := s.ess, rate := r }

/-- All columns. -/
def columns (log : List Snap) : List Column := log.flatMap columnsOf

/-- `make_stairs(y)`, smc.py 1069-1075: abscissas and ordinates. -/
def stairs {α : Type} (y : List α) : List (ℕ × α) :=
  y.zipIdx.flatMap fun v => [(v.2, v.1), (v.2 + 1, v.1)]

/-- The vertical lines at stage changes, smc.py 1121-1126: the loop from index `i` with the
last stage seen. -/
def stageLines : ℕ → ℕ → List Column → List ℕ
  | _, _, [] => []
  | i, last, c :: cs =>
    if last < c.stage then i :: stageLines (i + 1) c.stage cs
    else stageLines (i + 1) last cs

end Verif.SMC.Log
