import Verif.Mcmc.SMCLog

/-!
# C233: the log of `SMC` and the figure made from it
-/

set_option autoImplicit false

namespace Verif.SMC.Log

open Verif Verif.SMC

variable {n d : ℕ}

/-! ## Relations kept by every operation -/

/-- A transitive relation between states that holds across each elementary operation of the
driver. -/
structure Steps (R : St n d → St n d → Prop) : Prop where
  refl : ∀ st, R st st
  trans : ∀ a b c, R a b → R b c → R a c
  parts : ∀ st p, R st { st with p := p }
  upd : ∀ t e v st, R st (update t e none v st)
  move : ∀ p r v st, R st (update none none (some r) v { st with p := p, trace := st.trace ++ [r] })
  snap : ∀ st, R st (snapshot st)

/-- Also across changes of the restart counters. -/
structure StepsR (R : St n d → St n d → Prop) : Prop extends Steps R where
  params : ∀ k ps st, R st { st with data := { st.data with restartIter := k, params := ps } }

variable {R : St n d → St n d → Prop}

theorem Steps.andThen (hR : Steps R) {st : St n d} {r : Out × St n d}
    {f : St n d → Out × St n d} (h : R st r.2) (hf : ∀ s, R s (f s).2) :
    R st (andThen r f).2 := by
  rcases r with ⟨o, s⟩
  cases o with
  | done => exact hR.trans _ _ _ h (hf s)
  | raised e => exact h
  | running => exact h

theorem Steps.onParts (hR : Steps R) (f : Parts n d → Py (Parts n d)) (st : St n d) :
    R st (onParts f st).2 := by
  unfold Log.onParts
  cases f st.p with
  | error e => exact hR.refl _
  | ok p => exact hR.parts _ _

theorem Steps.controlledLoop (hR : Steps R) (env : Env n d) (cfg : PConfig) (sc : SConfig)
    (k i : ℕ) (st : St n d) : R st (controlledLoop env cfg sc k i st).2 := by
  induction k generalizing i st with
  | zero => exact hR.refl _
  | succ k ih =>
    unfold Log.controlledLoop moveThen
    cases SMC.move env cfg st.p with
    | error e => exact hR.refl _
    | ok q =>
      obtain ⟨p, r⟩ := q
      have h := hR.move p r (some (.controlled (i + 1) r)) st
      dsimp only
      split_ifs
      · refine hR.trans _ _ _ h (hR.trans _ _ _ (hR.trans _ _ _ (hR.parts _ _) (hR.upd _ _ _ _))
          (ih _ _))
      · refine hR.trans _ _ _ h (hR.trans _ _ _ (hR.trans _ _ _ (hR.parts _ _) (hR.upd _ _ _ _))
          (ih _ _))
      · exact h

theorem Steps.additional (hR : Steps R) (env : Env n d) (cfg : PConfig) (k i : ℕ)
    (st : St n d) : R st (additional env cfg k i st).2 := by
  induction k generalizing i st with
  | zero => exact hR.refl _
  | succ k ih =>
    unfold Log.additional moveThen
    cases SMC.move env cfg st.p with
    | error e => exact hR.refl _
    | ok q => exact hR.trans _ _ _ (hR.move q.1 q.2 _ st) (ih _ _)

theorem Steps.stepL (hR : Steps R) (env : Env n d) (cfg : PConfig) (sc : SConfig)
    (l : LogPdfP n d) (t : ℝ) (st : St n d) : R st (stepL env cfg sc l t st).2 := by
  unfold Log.stepL
  refine hR.andThen (hR.trans _ _ _ (hR.upd _ _ _ _) (hR.trans _ _ _ (hR.parts _ _)
    (hR.trans _ _ _ (hR.upd _ _ _ _) (hR.onParts _ _)))) fun s => ?_
  refine hR.andThen (hR.trans _ _ _ (hR.upd _ _ _ _) (hR.trans _ _ _ (hR.upd _ _ _ _)
    (hR.onParts _ _))) fun s => ?_
  refine hR.andThen (hR.trans _ _ _ (hR.upd _ _ _ _) (hR.trans _ _ _ (hR.upd _ _ _ _)
    (hR.controlledLoop _ _ _ _ _ _))) fun s => ?_
  refine hR.andThen (hR.trans _ _ _ (hR.snap _) (hR.additional _ _ _ _ _)) fun s => ?_
  exact hR.snap _

theorem StepsR.restartLoopL (hR : StepsR R) (brentq : (ℝ → Py Flt) → ℝ → ℝ → Py ℝ)
    (env : Env n d) (cfg : PConfig) (sc : SConfig) (l : LogPdfP n d) (target thr : ℝ)
    (kb k : ℕ) (cur : ℝ) (st : St n d) :
    R st (restartLoopL brentq env cfg sc l target thr kb k cur st).2 := by
  induction k generalizing cur st with
  | zero => exact hR.refl _
  | succ k ih =>
    unfold Log.restartLoopL
    split_ifs
    · exact hR.refl _
    · cases nextParam brentq sc kb l st.p cur target thr with
      | error e => exact hR.refl _
      | ok o =>
        cases o with
        | none => exact hR.refl _
        | some t =>
          refine hR.toSteps.andThen (hR.trans _ _ _ (hR.params _ _ _) (hR.trans _ _ _
            (hR.upd _ _ _ _) (hR.trans _ _ _ (hR.snap _) (hR.toSteps.stepL _ _ _ _ _ _))))
            fun s => ?_
          exact ih _ _

theorem StepsR.restartL (hR : StepsR R) (brentq : (ℝ → Py Flt) → ℝ → ℝ → Py ℝ)
    (env : Env n d) (cfg : PConfig) (sc : SConfig) (l : LogPdfP n d) (lo hi : Pt d)
    (initial target minEss p0 : ℝ) (k : ℕ) (st : St n d) :
    R st (restartL brentq env cfg sc l lo hi initial target minEss p0 k st).2 := by
  unfold Log.restartL
  refine hR.toSteps.andThen (hR.trans _ _ _ (hR.upd _ _ _ _) (hR.trans _ _ _ (hR.snap _)
    (hR.trans _ _ _ (hR.upd _ _ _ _) (hR.toSteps.onParts _ _)))) fun s => ?_
  refine hR.toSteps.andThen (hR.toSteps.onParts _ _) fun s => ?_
  refine hR.toSteps.andThen (hR.trans _ _ _ (hR.params _ _ _) (hR.restartLoopL _ _ _ _ _ _ _ _ _
    _ _)) fun s => ?_
  exact hR.params _ _ _

/-- The state of `step_with_possible_restart` after its first snapshot. -/
def opened (target : ℝ) (st : St n d) : St n d :=
  snapshot { say .start { st with stage := st.stage + 1 } with
    data := { (say .start { st with stage := st.stage + 1 }).data with
      cur := some target, target := some target } }

theorem StepsR.stepRestartL (hR : StepsR R) (brentq : (ℝ → Py Flt) → ℝ → ℝ → Py ℝ)
    (env : Env n d) (cfg : PConfig) (sc : SConfig) (l : LogPdfP n d) (lo hi : Pt d)
    (initial target minEss p0 : ℝ) (k : ℕ) (st : St n d) :
    R (opened target st)
      (stepRestartL brentq env cfg sc l lo hi initial target minEss p0 k st).2 := by
  unfold Log.stepRestartL
  refine hR.toSteps.andThen (hR.trans _ _ _ (hR.parts _ _) (hR.trans _ _ _ (hR.upd _ _ _ _)
    (hR.toSteps.onParts _ _))) fun s => ?_
  dsimp only
  split_ifs
  · exact hR.trans _ _ _ (hR.upd _ _ _ _) (hR.trans _ _ _ (hR.upd _ _ _ _) (hR.trans _ _ _
      (hR.snap _) (hR.restartL _ _ _ _ _ _ _ _ _ _ _ _ _)))
  · exact hR.trans _ _ _ (hR.upd _ _ _ _) (hR.trans _ _ _ (hR.upd _ _ _ _) (hR.trans _ _ _
      (hR.snap _) (hR.toSteps.stepL _ _ _ _ _ _)))

/-! ## The two relations used -/

/-- Everything that `move` has returned is in the snapshots, in order, or waits for the next
snapshot. -/
def Complete (st : St n d) : Prop :=
  (st.log.flatMap Snap.rates) ++ st.data.rates = st.trace

theorem complete_steps : StepsR fun a b : St n d => Complete a → Complete b where
  refl _ h := h
  trans _ _ _ h1 h2 h := h2 (h1 h)
  parts _ _ h := h
  upd _ _ _ _ h := h
  move p r v st h := by
    unfold Complete at *
    simp only [update, ← h, List.append_assoc]
  snap st h := by
    unfold Complete at *
    simp only [snapshot, List.flatMap_append, List.flatMap_cons, List.flatMap_nil,
      List.append_nil]
    exact h
  params _ _ _ h := h

/-- The execution state names the current stage. -/
def Named (st : St n d) : Prop := ∃ v, st.data.state = some (st.stage, v)

/-- The log grows at its end, by snapshots of the current stage and target whose execution
states name the stage. -/
def Extends (a b : St n d) : Prop :=
  b.stage = a.stage ∧ b.data.target = a.data.target ∧ (Named a → Named b) ∧
    ∃ new, b.log = a.log ++ new ∧ ∀ e ∈ new, e.stage = a.stage ∧ e.target = a.data.target ∧
      (Named a → ∃ v, e.state = some (a.stage, v))

theorem named_update (t : Option ℝ) (e : Option Flt) (r : Option ℝ) (v : Option Event)
    (st : St n d) (h : Named st) : Named (update t e r v st) := by
  obtain ⟨w, h⟩ := h
  cases v with
  | none => exact ⟨w, h⟩
  | some v => exact ⟨v, rfl⟩

theorem extends_steps : StepsR (Extends : St n d → St n d → Prop) where
  refl st := ⟨rfl, rfl, id, [], by simp, by simp⟩
  trans a b c h1 h2 := by
    obtain ⟨s1, t1, v1, n1, e1, a1⟩ := h1
    obtain ⟨s2, t2, v2, n2, e2, a2⟩ := h2
    refine ⟨s2.trans s1, t2.trans t1, v2 ∘ v1, n1 ++ n2, by rw [e2, e1, List.append_assoc],
      fun e he => ?_⟩
    rcases List.mem_append.mp he with h | h
    · exact a1 e h
    · have := a2 e h
      rw [s1, t1] at this
      exact ⟨this.1, this.2.1, fun hn => this.2.2 (v1 hn)⟩
  parts st p := ⟨rfl, rfl, id, [], by simp, by simp⟩
  upd t e v st := ⟨rfl, rfl, named_update _ _ _ _ _, [], by simp [update], by simp⟩
  move p r v st := ⟨rfl, rfl, fun h => named_update _ _ _ _ _ h, [], by simp [update], by simp⟩
  snap st := ⟨rfl, rfl, id, _, rfl, by simp +contextual [shot, Named]⟩
  params k ps st := ⟨rfl, rfl, id, [], by simp, by simp⟩

/-! ## One call -/

/-- **C233.** Whatever `step_with_possible_restart` does, and even if it raises, the log then
holds every acceptance rate once and in order (with those waiting for the next snapshot). -/
theorem stepRestart_complete (brentq : (ℝ → Py Flt) → ℝ → ℝ → Py ℝ) (env : Env n d)
    (cfg : PConfig) (sc : SConfig) (l : LogPdfP n d) (lo hi : Pt d)
    (initial target minEss p0 : ℝ) (k : ℕ) (st : St n d) (h : Complete st) :
    Complete (stepRestartL brentq env cfg sc l lo hi initial target minEss p0 k st).2 := by
  refine complete_steps.stepRestartL _ _ _ _ _ _ _ _ _ _ _ _ _ ?_
  exact complete_steps.snap _ h

/-- The call opens a new stage, never alters earlier snapshots, and adds at least one, all
with the number of the new stage, also in the execution state, and with the target; the first
has the scale at the time of the call. -/
theorem stepRestart_stage (brentq : (ℝ → Py Flt) → ℝ → ℝ → Py ℝ) (env : Env n d)
    (cfg : PConfig) (sc : SConfig) (l : LogPdfP n d) (lo hi : Pt d)
    (initial target minEss p0 : ℝ) (k : ℕ) (st : St n d) :
    (stepRestartL brentq env cfg sc l lo hi initial target minEss p0 k st).2.stage =
        st.stage + 1 ∧
      ∃ first new,
        (stepRestartL brentq env cfg sc l lo hi initial target minEss p0 k st).2.log =
          st.log ++ first :: new ∧ first.s = st.p.s ∧
        ∀ e ∈ first :: new, e.stage = st.stage + 1 ∧ e.target = some target ∧
          ∃ v, e.state = some (st.stage + 1, v) := by
  obtain ⟨h1, -, -, new, h2, h3⟩ := extends_steps.stepRestartL brentq env cfg sc l lo hi initial
    target minEss p0 k st
  have hx : ∃ x, (opened target st).log = st.log ++ [x] ∧ x.s = st.p.s ∧
      x.stage = st.stage + 1 ∧ x.target = some target ∧ ∃ v, x.state = some (st.stage + 1, v) :=
    ⟨_, rfl, rfl, rfl, rfl, _, rfl⟩
  have hn : Named (opened target st) := ⟨_, rfl⟩
  obtain ⟨x, hx, hs, hr⟩ := hx
  refine ⟨h1, x, new, by rw [h2, hx, List.append_assoc]; rfl, hs, fun e he => ?_⟩
  rcases List.mem_cons.mp he with h | h
  · rw [h]; exact hr
  · obtain ⟨e1, e2, e3⟩ := h3 e h
    exact ⟨e1, e2, e3 hn⟩

/-! ## Forgetting the log -/

/-- The result without the log. -/
def erase (r : Out × St n d) : Py (Option (Parts n d)) :=
  match r with
  | (.done, st) => .ok (some st.p)
  | (.raised e, _) => .error e
  | (.running, _) => .ok none

theorem erase_andThen {r : Out × St n d} {f : St n d → Out × St n d}
    {g : Parts n d → Py (Option (Parts n d))} (hf : ∀ st, erase (f st) = g st.p) :
    erase (andThen r f) = match erase r with
      | .error e => .error e
      | .ok none => .ok none
      | .ok (some p) => g p := by
  rcases r with ⟨o, s⟩
  cases o with
  | done => exact hf s
  | raised e => rfl
  | running => rfl

theorem erase_onParts (f : Parts n d → Py (Parts n d)) (st : St n d) :
    erase (onParts f st) = (f st.p).map some := by
  unfold onParts
  cases f st.p <;> rfl

theorem erase_controlledLoop (env : Env n d) (cfg : PConfig) (sc : SConfig) (k i : ℕ)
    (st : St n d) :
    erase (controlledLoop env cfg sc k i st) = (controlledMove env cfg sc k st.p).map some := by
  induction k generalizing i st with
  | zero => rfl
  | succ k ih =>
    unfold controlledLoop moveThen controlledMove
    cases SMC.move env cfg st.p with
    | error e => rfl
    | ok q =>
      obtain ⟨p, r⟩ := q
      dsimp only
      split_ifs
      · rw [ih]; rfl
      · rw [ih]; rfl
      · rfl

theorem erase_additional (env : Env n d) (cfg : PConfig) (k i : ℕ) (st : St n d) :
    erase (additional env cfg k i st) = (moves env cfg k st.p).map some := by
  induction k generalizing i st with
  | zero => rfl
  | succ k ih =>
    unfold additional moveThen moves
    cases SMC.move env cfg st.p with
    | error e => rfl
    | ok q => simp only [ih, bind, Except.bind]; rfl

theorem erase_stepL (env : Env n d) (cfg : PConfig) (sc : SConfig) (l : LogPdfP n d) (t : ℝ)
    (st : St n d) :
    erase (stepL env cfg sc l t st) = (step env cfg sc l t st.p).map some := by
  unfold stepL step mutate
  rw [erase_andThen (g := fun p => (do
      let p ← SMC.resample env cfg p
      let p ← controlledMove env cfg sc sc.maxIter p
      moves env cfg (sc.mhSteps - 1).toNat p).map some)]
  · rw [erase_onParts]
    simp only [say, update, bind, Except.bind]
    cases SMC.reweight true (setLogpdfParam l t st.p) <;> rfl
  · intro s
    rw [erase_andThen (g := fun p => (do
      let p ← controlledMove env cfg sc sc.maxIter p
      moves env cfg (sc.mhSteps - 1).toNat p).map some)]
    · rw [erase_onParts]
      simp only [say, update, bind, Except.bind]
      cases SMC.resample env cfg s.p <;> rfl
    · intro s
      rw [erase_andThen (g := fun p => (moves env cfg (sc.mhSteps - 1).toNat p).map some)]
      · rw [controlledMoveL, erase_controlledLoop]
        simp only [say, update, bind, Except.bind]
        cases controlledMove env cfg sc sc.maxIter s.p <;> rfl
      · intro s
        rw [erase_andThen (g := fun p => .ok (some p))]
        · rw [erase_additional]
          simp only [snapshot]
          cases moves env cfg (sc.mhSteps - 1).toNat s.p <;> rfl
        · intro s; rfl

theorem erase_restartLoopL (brentq : (ℝ → Py Flt) → ℝ → ℝ → Py ℝ) (env : Env n d)
    (cfg : PConfig) (sc : SConfig) (l : LogPdfP n d) (target thr : ℝ) (kb k : ℕ) (cur : ℝ)
    (st : St n d) :
    erase (restartLoopL brentq env cfg sc l target thr kb k cur st) =
      (restartLoop brentq env cfg sc l target thr kb k cur st.p).map (Option.map Prod.fst) := by
  induction k generalizing cur st with
  | zero => rfl
  | succ k ih =>
    unfold restartLoopL restartLoop
    split_ifs
    · rfl
    · cases hN : nextParam brentq sc kb l st.p cur target thr with
      | error e => rfl
      | ok o =>
        cases o with
        | none => rfl
        | some t =>
          dsimp only
          rw [erase_andThen (g := fun p =>
            (restartLoop brentq env cfg sc l target thr kb k t p).map (Option.map Prod.fst))
            (fun s => ih t s), erase_stepL]
          simp only [snapshot, say, update]
          cases step env cfg sc l t st.p with
          | error e => rfl
          | ok p =>
            dsimp only [Except.map]
            cases restartLoop brentq env cfg sc l target thr kb k t p with
            | error e => rfl
            | ok o => cases o <;> rfl

/-- **C233.** The log does not interfere: without it `step_with_possible_restart` computes what
the model without logging computes. -/
theorem stepRestart_erase (brentq : (ℝ → Py Flt) → ℝ → ℝ → Py ℝ) (env : Env n d)
    (cfg : PConfig) (sc : SConfig) (l : LogPdfP n d) (lo hi : Pt d)
    (initial target minEss p0 : ℝ) (k : ℕ) (st : St n d) :
    erase (stepRestartL brentq env cfg sc l lo hi initial target minEss p0 k st) =
      stepRestart brentq env cfg sc l lo hi initial target minEss p0 k st.p := by
  classical
  unfold stepRestartL stepRestart
  rw [erase_andThen (g := fun q =>
    if ((SMC.ess q.wtmp).div (.fin n)).lt (.fin minEss) then
      (restart brentq env cfg sc l lo hi initial target minEss p0 k q).map (Option.map Prod.fst)
    else (step env cfg sc l target q).map some)]
  · rw [erase_onParts]
    simp only [snapshot, say, update, bind, Except.bind]
    cases SMC.reweight false (setLogpdfParam l target st.p) with
    | error e => rfl
    | ok q =>
      simp only [Except.map]
      split_ifs
      · cases restart brentq env cfg sc l lo hi initial target minEss p0 k q <;> rfl
      · cases step env cfg sc l target q <;> rfl
  · intro s
    simp only [update]
    split_ifs
    · unfold restartL restart
      rw [erase_andThen (g := fun p => (do
        let q ← SMC.reweight false (setLogpdfParam l initial p)
        restartLoop brentq env cfg sc l target (restartThreshold sc minEss p0
          ((SMC.ess q.wtmp).div (.fin n))) k k initial q).map (Option.map Prod.fst))]
      · rw [erase_onParts]
        simp only [snapshot, say, update, bind, Except.bind]
        cases particlesInit env cfg lo hi s.p <;> rfl
      · intro s
        rw [erase_andThen (g := fun q =>
          (restartLoop brentq env cfg sc l target (restartThreshold sc minEss p0
            ((SMC.ess q.wtmp).div (.fin n))) k k initial q).map (Option.map Prod.fst))]
        · rw [erase_onParts]
          simp only [bind, Except.bind]
          cases SMC.reweight false (setLogpdfParam l initial s.p) <;> rfl
        · intro s
          rw [erase_andThen (g := fun p => .ok (some p)) (fun s => rfl), erase_restartLoopL]
          cases restartLoop brentq env cfg sc l target (restartThreshold sc minEss p0
            ((SMC.ess s.p.wtmp).div (.fin n))) k k initial s.p with
          | error e => rfl
          | ok o => cases o <;> rfl
    · rw [erase_stepL]
      rfl

/-! ## A completed step -/

/-- What the controlled moves add. -/
theorem controlledLoop_done (env : Env n d) (cfg : PConfig) (sc : SConfig) (k i : ℕ)
    (st st' : St n d) (h : controlledLoop env cfg sc k i st = (.done, st')) :
    ∃ rs, st'.data.rates = st.data.rates ++ rs ∧ rs.length ≤ k ∧
      (∀ r ∈ rs.dropLast, r < sc.accMin ∨ sc.accMax < r) ∧
      (rs.length < k → ∃ r, rs.getLast? = some r ∧ sc.accMin ≤ r ∧ r ≤ sc.accMax) ∧
      st'.data.cur = st.data.cur ∧ st'.data.ess = st.data.ess ∧ st'.log = st.log ∧
      st'.data.params = st.data.params ∧ st'.data.restartIter = st.data.restartIter := by
  induction k generalizing i st with
  | zero =>
    cases h
    exact ⟨[], by simp⟩
  | succ k ih =>
    unfold controlledLoop moveThen at h
    cases hm : SMC.move env cfg st.p with
    | error e => rw [hm] at h; cases h
    | ok q =>
      obtain ⟨p, r⟩ := q
      rw [hm] at h
      dsimp only at h
      have key : ∀ (s : St n d) (_ : r < sc.accMin ∨ sc.accMax < r)
          (_ : controlledLoop env cfg sc k (i + 1) s = (.done, st'))
          (_ : s.data.rates = st.data.rates ++ [r]) (_ : s.data.cur = st.data.cur)
          (_ : s.data.ess = st.data.ess) (_ : s.log = st.log)
          (_ : s.data.params = st.data.params)
          (_ : s.data.restartIter = st.data.restartIter),
          ∃ rs, st'.data.rates = st.data.rates ++ rs ∧ rs.length ≤ k + 1 ∧
            (∀ r ∈ rs.dropLast, r < sc.accMin ∨ sc.accMax < r) ∧
            (rs.length < k + 1 → ∃ r, rs.getLast? = some r ∧ sc.accMin ≤ r ∧ r ≤ sc.accMax) ∧
            st'.data.cur = st.data.cur ∧ st'.data.ess = st.data.ess ∧ st'.log = st.log ∧
            st'.data.params = st.data.params ∧ st'.data.restartIter = st.data.restartIter := by
          intro s hr hs h1 h2 h3 h4 h5 h6
          obtain ⟨rs, a1, a2, a3, a4, a5, a6, a7, a8, a9⟩ := ih _ _ hs
          refine ⟨r :: rs, by rw [a1, h1]; simp, by simpa using a2, ?_, ?_, a5.trans h2,
            a6.trans h3, a7.trans h4, a8.trans h5, a9.trans h6⟩
          · intro q hq
            cases rs with
            | nil => simp at hq
            | cons b rs =>
              rw [List.dropLast_cons_of_ne_nil (by simp)] at hq
              rcases List.mem_cons.mp hq with e | e
              · rw [e]; exact hr
              · exact a3 q e
          · intro hl
            obtain ⟨q, hq, hb⟩ := a4 (by simpa using hl)
            refine ⟨q, ?_, hb⟩
            cases rs with
            | nil => simp at hq
            | cons b rs => simpa using hq
      split_ifs at h with c1 c2
      · exact key _ (.inl c1) h rfl rfl rfl rfl rfl rfl
      · exact key _ (.inr c2) h rfl rfl rfl rfl rfl rfl
      · have e := (Prod.ext_iff.mp h).2
        dsimp only at e
        rw [← e]
        refine ⟨[r], rfl, by simp, by simp, fun _ => ⟨r, rfl, not_lt.mp c1, not_lt.mp c2⟩, rfl,
          rfl, rfl, rfl, rfl⟩

theorem additional_done (env : Env n d) (cfg : PConfig) (k i : ℕ)
    (st st' : St n d) (h : additional env cfg k i st = (.done, st')) :
    ∃ rs, st'.data.rates = st.data.rates ++ rs ∧ rs.length = k ∧
      st'.data.cur = st.data.cur ∧ st'.data.ess = st.data.ess ∧ st'.log = st.log ∧
      st'.data.params = st.data.params ∧ st'.data.restartIter = st.data.restartIter := by
  induction k generalizing i st with
  | zero =>
    cases h
    exact ⟨[], by simp⟩
  | succ k ih =>
    unfold additional moveThen at h
    cases hm : SMC.move env cfg st.p with
    | error e => rw [hm] at h; cases h
    | ok q =>
      rw [hm] at h
      obtain ⟨rs, a1, a2, a3, a4, a5, a6, a7⟩ := ih _ _ h
      exact ⟨q.2 :: rs, by rw [a1]; simp [update], by simp [a2], a3, a4, a5, a6, a7⟩

theorem andThen_done {r : Out × St n d} {f : St n d → Out × St n d} {st' : St n d}
    (h : andThen r f = (.done, st')) : ∃ s, r = (.done, s) ∧ f s = (.done, st') := by
  rcases r with ⟨o, s⟩
  cases o with
  | done => exact ⟨s, rfl, h⟩
  | raised e => cases h
  | running => cases h

theorem onParts_done {f : Parts n d → Py (Parts n d)} {st st' : St n d}
    (h : onParts f st = (.done, st')) : ∃ p, f st.p = .ok p ∧ st' = { st with p := p } := by
  unfold onParts at h
  cases hf : f st.p with
  | error e => rw [hf] at h; cases h
  | ok p =>
    rw [hf] at h
    exact ⟨p, rfl, (Prod.ext_iff.mp h).2.symm⟩

/-- **C233.** A completed `step` adds two snapshots.  Both give the parameter of the step and
the effective sample size of the weights before resampling.  The first holds the rates of the
controlled moves, of which all but the last were outside the band, and also the last was
inside unless the allowed number was used up; the second those of the `mh_steps - 1`
additional moves. -/
theorem step_done (env : Env n d) (cfg : PConfig) (sc : SConfig) (l : LogPdfP n d) (t : ℝ)
    (st st' : St n d) (h : stepL env cfg sc l t st = (.done, st')) (h0 : st.data.rates = []) :
    ∃ a b q, SMC.reweight true (setLogpdfParam l t st.p) = .ok q ∧
      st'.log = st.log ++ [a, b] ∧ a.cur = some t ∧ b.cur = some t ∧
      a.ess = some (SMC.ess q.wtmp) ∧ b.ess = some (SMC.ess q.wtmp) ∧
      a.rates.length ≤ sc.maxIter ∧
      (∀ r ∈ a.rates.dropLast, r < sc.accMin ∨ sc.accMax < r) ∧
      (a.rates.length < sc.maxIter → ∃ r, a.rates.getLast? = some r ∧ sc.accMin ≤ r ∧
        r ≤ sc.accMax) ∧
      b.rates.length = (sc.mhSteps - 1).toNat ∧ st'.data.rates = [] ∧
      st'.data.cur = some t ∧
      a.params = st.data.params ∧ b.params = st.data.params ∧
      a.restartIter = st.data.restartIter ∧ b.restartIter = st.data.restartIter ∧
      st'.data.params = st.data.params ∧ st'.data.restartIter = st.data.restartIter ∧
      b.s = st'.p.s := by
  unfold stepL at h
  obtain ⟨s1, e1, h⟩ := andThen_done h
  obtain ⟨q, hq, rfl⟩ := onParts_done e1
  obtain ⟨s2, e2, h⟩ := andThen_done h
  obtain ⟨p2, hp2, rfl⟩ := onParts_done e2
  obtain ⟨s3, e3, h⟩ := andThen_done h
  obtain ⟨rs, a1, a2, a3, a4, a5, a6, a7, a8, a9⟩ := controlledLoop_done _ _ _ _ _ _ _ e3
  obtain ⟨s4, e4, h⟩ := andThen_done h
  obtain ⟨rs', b1, b2, b3, b4, b5, b6, b7⟩ := additional_done _ _ _ _ _ _ e4
  have e := (Prod.ext_iff.mp h).2
  dsimp only at e
  subst e
  have r1 : s3.data.rates = rs := by rw [a1]; simp [say, update, h0]
  have r2 : s4.data.rates = rs' := by rw [b1]; simp [snapshot]
  refine ⟨shot s3, shot s4, q, hq, ?_, ?_, ?_, ?_, ?_, ?_, ?_, ?_, ?_, rfl, ?_, ?_, ?_, ?_, ?_, ?_, ?_, rfl⟩
  · simp only [snapshot]
    rw [b5]
    simp only [snapshot]
    rw [a7]
    simp only [say, update, List.append_assoc]
    rfl
  · exact a5
  · exact b3.trans a5
  · exact a6
  · exact b4.trans a6
  · show s3.data.rates.length ≤ _
    rw [r1]; exact a2
  · show ∀ r ∈ s3.data.rates.dropLast, _
    rw [r1]; exact a3
  · show s3.data.rates.length < _ → ∃ r, s3.data.rates.getLast? = _ ∧ _
    rw [r1]; exact a4
  · show s4.data.rates.length = _
    rw [r2]; exact b2
  · exact b3.trans a5
  · exact a8
  · exact b6.trans a8
  · exact a9
  · exact b7.trans a9
  · exact b6.trans a8
  · exact b7.trans a9

/-- A step that completes, with one particle. -/
example : ∃ (env : Env 1 1) (l : LogPdfP 1 1) (st st' : St 1 1),
    stepL env {} { accMin := 0, accMax := 1, mhSteps := 3 } l 1 st = (.done, st') := by
  let env : Env 1 1 :=
    { init := fun _ _ => 0
      mult := fun _ k _ => .ok fun _ => k
      rvs := fun _ _ => .ok 1
      unif := fun _ _ => 1 / 2
      cov := fun _ _ => .ok 0
      junkX := fun _ _ => 0
      junkL := fun _ _ => .nan }
  let p : Parts 1 1 :=
    { x := fun _ => 0, logpx := fun _ => .fin 0, w := uniformW 1, wtmp := uniformW 1, s := 1 / 2,
      logpdf := fun _ => .error .typeError, clock := 0 }
  let l : LogPdfP 1 1 := fun _ _ => .ok fun _ => .fin 0
  let sc : SConfig := { accMin := 0, accMax := 1, mhSteps := 3 }
  have hL : List.finRange 1 = [0] := rfl
  have hm : ∀ q : Parts 1 1, q.s = 1 / 2 → (q.logpdf = fun x => l x 1) →
      ∃ q' r, SMC.move env {} q = .ok (q', r) ∧ q'.s = 1 / 2 ∧ (q'.logpdf = fun x => l x 1) ∧
        0 ≤ r ∧ r ≤ 1 := by
    intro q hs hl
    have hp : perturb env {} q = .ok fun i => q.x i + 1 := by
      simp only [perturb, hs, baseCov, drawEps, env, bind, Except.bind, pure, Except.pure]
      norm_num
    have hx : ∃ q' r, SMC.move env {} q = .ok (q', r) ∧ q'.s = q.s ∧ q'.logpdf = q.logpdf ∧
        ∃ t : Finset (Fin 1), r = (t.card : ℝ) / (1 : ℕ) := by
      simp only [SMC.move, hp, hl, l, bind, Except.bind, pure, Except.pure]
      exact ⟨_, _, rfl, rfl, rfl, _, rfl⟩
    obtain ⟨q', r, h1, h2, h3, t, rfl⟩ := hx
    refine ⟨q', _, h1, h2.trans hs, h3.trans hl, by positivity, ?_⟩
    rw [Nat.cast_one, div_one]
    exact_mod_cast (Finset.card_le_univ t).trans (by simp)
  have hmv : ∀ (k : ℕ) (q : Parts 1 1), q.s = 1 / 2 → (q.logpdf = fun x => l x 1) →
      ∃ q', moves env {} k q = .ok q' := by
    intro k
    induction k with
    | zero => exact fun q _ _ => ⟨q, rfl⟩
    | succ k ih =>
      intro q hs hl
      obtain ⟨q', r, h1, h2, h3, -⟩ := hm q hs hl
      obtain ⟨q'', h⟩ := ih q' h2 h3
      exact ⟨q'', by simp only [moves, h1, bind, Except.bind]; exact h⟩
  have h : ∃ q, step env {} sc l 1 p = .ok q := by
    have hr : ∃ q, SMC.resample env {} ({ p with
        logpdf := fun x => l x 1, wtmp := fun _ => .fin 1, w := fun _ => .fin 1 } : Parts 1 1) =
        .ok q ∧ q.s = 1 / 2 ∧ (q.logpdf = fun x => l x 1) := by
      refine ⟨_, by
        simp only [SMC.resample, multinomialCounts, env, copyParts, copyLoop, copyOne, hL, bind,
          Except.bind, pure, Except.pure, List.foldlM]
        rfl, rfl, rfl⟩
    obtain ⟨q, h1, h2, h3⟩ := hr
    obtain ⟨q', r, h4, h5, h6, h7, h8⟩ := hm q h2 h3
    obtain ⟨q'', h9⟩ := hmv 2 q' h5 h6
    have hc : controlledMove env {} sc sc.maxIter q = .ok q' := by
      show controlledMove env {} sc (49 + 1) q = .ok q'
      unfold controlledMove
      rw [h4]
      dsimp only
      rw [if_neg (not_lt.mpr h7), if_neg (not_lt.mpr h8)]
    have hw : SMC.reweight true (setLogpdfParam l 1 p) = .ok ({ p with
        logpdf := fun x => l x 1, wtmp := fun _ => .fin 1, w := fun _ => .fin 1 } : Parts 1 1) := by
      simp [SMC.reweight, setLogpdfParam, setLogpdf, l, p, bind, Except.bind, pure, Except.pure,
        uniformW]
    refine ⟨q'', ?_⟩
    simp only [step, hw, mutate, h1, hc, bind, Except.bind]
    exact h9
  obtain ⟨q, hq⟩ := h
  have e := erase_stepL env {} sc l 1 (newLog p)
  rw [show (newLog p).p = p from rfl, hq] at e
  rcases hs : stepL env {} sc l 1 (newLog p) with ⟨o, s⟩
  rw [hs] at e
  cases o with
  | done => exact ⟨env, l, newLog p, s, hs⟩
  | raised e' => cases e
  | running => cases e

/-! ## Restarts -/

/-- The snapshots of a restart loop count its iterations from `m` and list the parameters from
`initial`. -/
def Counts (initial : ℝ) (m : ℕ) (e : Snap) : Prop :=
  e.params.head? = some initial ∧ e.params.length + m = e.restartIter + 1

/-- The counters are not touched and every new snapshot has them. -/
def Keeps (a b : St n d) : Prop :=
  b.data.params = a.data.params ∧ b.data.restartIter = a.data.restartIter ∧
    ∃ new, b.log = a.log ++ new ∧
      ∀ e ∈ new, e.params = a.data.params ∧ e.restartIter = a.data.restartIter

theorem keeps_steps : Steps (Keeps : St n d → St n d → Prop) where
  refl st := ⟨rfl, rfl, [], by simp, by simp⟩
  trans a b c h1 h2 := by
    obtain ⟨s1, t1, n1, e1, a1⟩ := h1
    obtain ⟨s2, t2, n2, e2, a2⟩ := h2
    refine ⟨s2.trans s1, t2.trans t1, n1 ++ n2, by rw [e2, e1, List.append_assoc],
      fun e he => ?_⟩
    rcases List.mem_append.mp he with h | h
    · exact a1 e h
    · rw [(a2 e h).1, (a2 e h).2, s1, t1]
      exact ⟨rfl, rfl⟩
  parts st p := ⟨rfl, rfl, [], by simp, by simp⟩
  upd t e v st := ⟨rfl, rfl, [], by simp [update], by simp⟩
  move p r v st := ⟨rfl, rfl, [], by simp [update], by simp⟩
  snap st := ⟨rfl, rfl, _, rfl, by simp [shot]⟩

theorem restartLoop_counts (brentq : (ℝ → Py Flt) → ℝ → ℝ → Py ℝ) (env : Env n d)
    (cfg : PConfig) (sc : SConfig) (l : LogPdfP n d) (target thr : ℝ) (kb k : ℕ) (cur : ℝ)
    (initial : ℝ) (m : ℕ) (st : St n d) (h1 : st.data.params.head? = some initial)
    (h2 : st.data.params.length + m = st.data.restartIter + 1) :
    ∃ new, (restartLoopL brentq env cfg sc l target thr kb k cur st).2.log = st.log ++ new ∧
      ∀ e ∈ new, Counts initial m e := by
  induction k generalizing cur st with
  | zero => exact ⟨[], by simp [restartLoopL], by simp⟩
  | succ k ih =>
    unfold restartLoopL
    split_ifs
    · exact ⟨[], by simp, by simp⟩
    · cases nextParam brentq sc kb l st.p cur target thr with
      | error e => exact ⟨[], by simp, by simp⟩
      | ok o =>
        cases o with
        | none => exact ⟨[], by simp, by simp⟩
        | some t =>
          dsimp only
          generalize hs : snapshot (say (.iteration (st.data.restartIter + 1) t)
            { st with data := { st.data with
              restartIter := st.data.restartIter + 1
              params := st.data.params ++ [t] } }) = s
          have hp : s.data.params = st.data.params ++ [t] := by rw [← hs]; rfl
          have hi : s.data.restartIter = st.data.restartIter + 1 := by rw [← hs]; rfl
          have hl : ∃ x, s.log = st.log ++ [x] ∧ x.params = st.data.params ++ [t] ∧
              x.restartIter = st.data.restartIter + 1 := by
            rw [← hs]; exact ⟨_, rfl, rfl, rfl⟩
          obtain ⟨x, hx, hxp, hxi⟩ := hl
          have hc : s.data.params.head? = some initial := by
            rw [hp, List.head?_append, h1]; rfl
          have hc' : s.data.params.length + m = s.data.restartIter + 1 := by
            rw [hp, hi, List.length_append]; simp; omega
          have hX : Counts initial m x := by
            refine ⟨?_, ?_⟩
            · rw [hxp, ← hp]; exact hc
            · rw [hxp, hxi, ← hp, ← hi]; exact hc'
          obtain ⟨k1, k2, n1, k3, k4⟩ := keeps_steps.stepL env cfg sc l t s
          have hN : ∀ e ∈ n1, Counts initial m e := fun e he =>
            ⟨by rw [(k4 e he).1]; exact hc, by rw [(k4 e he).1, (k4 e he).2]; exact hc'⟩
          rcases hr : stepL env cfg sc l t s with ⟨o, s'⟩
          rw [hr] at k1 k2 k3
          cases o with
          | raised e =>
            refine ⟨x :: n1, ?_, ?_⟩
            · simp only [andThen]; rw [k3, hx, List.append_assoc]; rfl
            · intro e he
              rcases List.mem_cons.mp he with h | h
              · rw [h]; exact hX
              · exact hN e h
          | running =>
            refine ⟨x :: n1, ?_, ?_⟩
            · simp only [andThen]; rw [k3, hx, List.append_assoc]; rfl
            · intro e he
              rcases List.mem_cons.mp he with h | h
              · rw [h]; exact hX
              · exact hN e h
          | done =>
            obtain ⟨n2, q1, q2⟩ := ih t s' (by rw [k1]; exact hc) (by rw [k1, k2]; exact hc')
            refine ⟨x :: (n1 ++ n2), ?_, ?_⟩
            · simp only [andThen]
              rw [q1, k3, hx]; simp
            · intro e he
              rcases List.mem_cons.mp he with h | h
              · rw [h]; exact hX
              · rcases List.mem_append.mp h with h | h
                · exact hN e h
                · exact q2 e h

/-- A restart loop that ends has its last snapshot at the target. -/
theorem restartLoop_last (brentq : (ℝ → Py Flt) → ℝ → ℝ → Py ℝ) (env : Env n d)
    (cfg : PConfig) (sc : SConfig) (l : LogPdfP n d) (target thr : ℝ) (kb k : ℕ) (cur : ℝ)
    (st st' : St n d)
    (h : restartLoopL brentq env cfg sc l target thr kb k cur st = (.done, st'))
    (hc : cur ≠ target) :
    ∃ e, st'.log.getLast? = some e ∧ e.cur = some target ∧ e.params.getLast? = some target := by
  induction k generalizing cur st with
  | zero => cases h
  | succ k ih =>
    unfold restartLoopL at h
    rw [if_neg hc] at h
    cases hN : nextParam brentq sc kb l st.p cur target thr with
    | error e => rw [hN] at h; cases h
    | ok o =>
      rw [hN] at h
      cases o with
      | none => cases h
      | some t =>
        dsimp only at h
        obtain ⟨s, hs, h⟩ := andThen_done h
        obtain ⟨a, b, q, -, a1, -, a2, -, -, -, -, -, -, -, -, -, a3, -⟩ :=
          step_done _ _ _ _ _ _ _ hs rfl
        by_cases ht : t = target
        · cases k with
          | zero => cases h
          | succ k =>
            unfold restartLoopL at h
            rw [if_pos ht] at h
            cases h
            refine ⟨b, by rw [a1]; simp, by rw [a2, ht], ?_⟩
            rw [a3]
            simp [snapshot, say, update, ht]
        · exact ih t s h ht

/-- **C233.** In the snapshots of a restart after the one that announces it, the sequence of
parameters starts with the initial one and the iteration number is its length less one (more,
if the counter was not 0 before).  A restart that ends ends at the target and leaves the
counters as they are for a new one. -/
theorem restart_counts (brentq : (ℝ → Py Flt) → ℝ → ℝ → Py ℝ) (env : Env n d)
    (cfg : PConfig) (sc : SConfig) (l : LogPdfP n d) (lo hi : Pt d)
    (initial target minEss p0 : ℝ) (k : ℕ) (st : St n d) :
    (∃ a new, (restartL brentq env cfg sc l lo hi initial target minEss p0 k st).2.log =
        st.log ++ a :: new ∧ ∀ e ∈ new, Counts initial st.data.restartIter e) ∧
      ∀ st', restartL brentq env cfg sc l lo hi initial target minEss p0 k st = (.done, st') →
        st'.data.params = [] ∧ st'.data.restartIter = 0 ∧
          (initial ≠ target → ∃ e, st'.log.getLast? = some e ∧ e.cur = some target ∧
            e.params.getLast? = some target) := by
  constructor
  · unfold restartL
    simp only [onParts]
    cases h1 : particlesInit env cfg lo hi (say .reinit (snapshot (say .restarting st))).p with
    | error e => exact ⟨_, [], rfl, by simp⟩
    | ok p =>
      simp only [andThen]
      cases h2 : SMC.reweight false (setLogpdfParam l initial p) with
      | error e => exact ⟨_, [], rfl, by simp⟩
      | ok q =>
        dsimp only
        generalize hs : ({ (say .reinit (snapshot (say .restarting st))) with
          p := q
          data := { (say .reinit (snapshot (say .restarting st))).data with
            params := [initial] } } : St n d) = s
        obtain ⟨new, a1, a2⟩ := restartLoop_counts brentq env cfg sc l target
          (restartThreshold sc minEss p0 ((SMC.ess q.wtmp).div (.fin n))) k k initial initial
          st.data.restartIter s (by rw [← hs]; rfl) (by rw [← hs]; simp [say, update, snapshot]; omega)
        have hl : ∃ x, s.log = st.log ++ [x] := by rw [← hs]; exact ⟨_, rfl⟩
        obtain ⟨x, hx⟩ := hl
        refine ⟨x, new, ?_, a2⟩
        have e2 : (andThen (restartLoopL brentq env cfg sc l target
            (restartThreshold sc minEss p0 ((SMC.ess q.wtmp).div (.fin n))) k k initial s)
            fun st => (.done, { st with data := { st.data with params := [], restartIter := 0 } })).2.log
            = (restartLoopL brentq env cfg sc l target
            (restartThreshold sc minEss p0 ((SMC.ess q.wtmp).div (.fin n))) k k initial s).2.log := by
          rcases restartLoopL brentq env cfg sc l target
            (restartThreshold sc minEss p0 ((SMC.ess q.wtmp).div (.fin n))) k k initial s with ⟨o, u⟩
          cases o <;> rfl
        refine e2.trans ?_
        rw [a1, hx, List.append_assoc]
        rfl
  · intro st' h
    unfold restartL at h
    obtain ⟨s1, -, h⟩ := andThen_done h
    obtain ⟨s2, -, h⟩ := andThen_done h
    obtain ⟨s3, e3, h⟩ := andThen_done h
    have e := (Prod.ext_iff.mp h).2
    dsimp only at e
    subst e
    refine ⟨rfl, rfl, fun hne => ?_⟩
    have e4 := restartLoop_last _ _ _ _ _ _ _ _ _ _ _ _ e3 hne
    exact e4

theorem erase_raised {r : Out × St n d} {e : PyErr} (h : erase r = .error e) :
    r.1 = .raised e := by
  rcases r with ⟨o, s⟩
  cases o with
  | done => cases h
  | raised e' => cases h; rfl
  | running => cases h

/-- A restart whose first step raises leaves the counters as they are then. -/
theorem restart_interrupted (brentq : (ℝ → Py Flt) → ℝ → ℝ → Py ℝ) (env : Env n d)
    (cfg : PConfig) (sc : SConfig) (l : LogPdfP n d) (lo hi : Pt d)
    (initial target minEss p0 : ℝ) (k : ℕ) (st : St n d) (p q : Parts n d) (t : ℝ) (e : PyErr)
    (h1 : particlesInit env cfg lo hi st.p = .ok p)
    (h2 : SMC.reweight false (setLogpdfParam l initial p) = .ok q) (hne : initial ≠ target)
    (h3 : nextParam brentq sc (k + 1) l q initial target
      (restartThreshold sc minEss p0 ((SMC.ess q.wtmp).div (.fin n))) = .ok (some t))
    (h4 : step env cfg sc l t q = .error e) :
    ∃ st', restartL brentq env cfg sc l lo hi initial target minEss p0 (k + 1) st =
        (.raised e, st') ∧ st'.data.restartIter = st.data.restartIter + 1 ∧
      st'.data.params = [initial, t] := by
  unfold restartL
  simp only [onParts]
  have e1 : particlesInit env cfg lo hi (say .reinit (snapshot (say .restarting st))).p = .ok p :=
    h1
  rw [e1]
  simp only [andThen]
  rw [h2]
  dsimp only
  unfold restartLoopL
  rw [if_neg hne]
  dsimp only
  rw [h3]
  dsimp only
  generalize hs : snapshot (say (.iteration _ t) _) = s
  have a1 : s.data.params = [initial, t] := by rw [← hs]; rfl
  have a2 : s.data.restartIter = st.data.restartIter + 1 := by rw [← hs]; rfl
  have a3 : s.p = q := by rw [← hs]; rfl
  have a4 := erase_stepL env cfg sc l t s
  rw [a3, h4] at a4
  have a5 := erase_raised a4
  obtain ⟨k1, k2, -⟩ := keeps_steps.stepL env cfg sc l t s
  rcases hr : stepL env cfg sc l t s with ⟨o, s'⟩
  rw [hr] at a5 k1 k2
  dsimp only at a5
  subst a5
  exact ⟨s', rfl, k2.trans a2, k1.trans a1⟩

/-- **C233, false after an exception.** If a step of a restart raises, the iteration counter
keeps its value, and so the next restart does not number its iterations from 1. -/
theorem restart_counter_false :
    ∃ (env : Env 1 0) (st : St 1 0) (l : LogPdfP 1 0),
      st.data.restartIter = 0 ∧
      ∃ st', restartL (fun _ _ _ => .error .valueError) env {} {} l 0 0 0 1 2 (1 / 2) 5 st =
          (.raised .nameError, st') ∧ st'.data.restartIter = 1 := by
  let env : Env 1 0 :=
    { init := fun _ _ => 0
      mult := fun _ k _ => .ok fun _ => k
      rvs := fun _ _ => .error .valueError
      unif := fun _ _ => 1 / 2
      cov := fun _ _ => .ok 0
      junkX := fun _ _ => 0
      junkL := fun _ _ => .nan }
  let p : Parts 1 0 :=
    { x := fun _ => 0, logpx := fun _ => .fin 0, w := uniformW 1, wtmp := uniformW 1, s := 1 / 2,
      logpdf := fun _ => .error .typeError, clock := 0 }
  let l : LogPdfP 1 0 := fun _ _ => .ok fun _ => .fin 0
  have hd : (Flt.fin 1).div (Flt.fin ((1 : ℕ) : ℝ)) = Flt.fin 1 := by
    have h1 : (1 : EReal) ≠ ⊤ := EReal.coe_ne_top 1
    have h2 : (1 : EReal) ≠ ⊥ := EReal.coe_ne_bot 1
    simp [Flt.div, Flt.fin, h1, h2]
  have hlt : (Flt.fin (1 / 2)).le (Flt.fin 1) := by
    simp only [Flt.le, Flt.fin]
    exact_mod_cast (by norm_num : (1 / 2 : ℝ) ≤ 1)
  have hL : List.finRange 1 = [0] := rfl
  have hsum : Flt.sum (fun _ : Fin 1 => Flt.fin 1) = Flt.fin 1 := by
    simp [Flt.sum, hL]
  obtain ⟨st', h, h', -⟩ := restart_interrupted (fun _ _ _ => .error .valueError) env {} {} l 0 0 0 1
    2 (1 / 2) 4 (newLog p)
    { p with x := fun _ => 0, clock := 1 }
    { p with x := fun _ => 0, clock := 1, logpdf := fun x => l x 0,
             wtmp := fun _ => .fin 1 } 1 .nameError
    (by
      simp [particlesInit, scaleBox, newLog, p, env, bind, Except.bind, pure, Except.pure]
      ext i j; exact j.elim0)
    (by
      simp [SMC.reweight, setLogpdfParam, setLogpdf, l, p, bind, Except.bind, pure, Except.pure,
        uniformW])
    (by norm_num)
    (by
      have hv : pValue l (fun _ => 0) 1 0 = .ok (.fin 1) := by
        simp only [pValue, l, bind, Except.bind, pure, Except.pure, Flt.sub_fin, sub_zero,
          Flt.exp_fin, Real.exp_zero, hsum, hd]
      simp only [nextParam, nextP0, restartThreshold, Bool.false_eq_true, if_false, bind,
        Except.bind, pure, Except.pure, hv, hlt, if_true])
    (by
      simp [step, SMC.reweight, setLogpdfParam, setLogpdf, l, p, bind, Except.bind, pure,
        Except.pure, mutate, SMC.resample, multinomialCounts, env, copyParts, copyLoop, copyOne, hL,
        controlledMove, SMC.move, perturb, baseCov, drawEps, isValueError]
      norm_num)
  exact ⟨env, newLog p, l, rfl, st', h, h'⟩

/-! ## Many calls -/

/-- The arguments of a call of `step_with_possible_restart`. -/
structure Call (n d : ℕ) where
  brentq : (ℝ → Py Flt) → ℝ → ℝ → Py ℝ
  env : Env n d
  l : LogPdfP n d
  initial : ℝ
  target : ℝ
  minEss : ℝ
  p0 : ℝ
  k : ℕ

/-- The calls in turn, exceptions being caught by the caller. -/
noncomputable def callAll (cfg : PConfig) (sc : SConfig) (lo hi : Pt d) (st : St n d)
    (cs : List (Call n d)) : St n d :=
  cs.foldl (fun st c => (stepRestartL c.brentq c.env cfg sc c.l lo hi c.initial c.target c.minEss
    c.p0 c.k st).2) st

theorem callAll_snoc (cfg : PConfig) (sc : SConfig) (lo hi : Pt d) (st : St n d)
    (cs : List (Call n d)) (c : Call n d) :
    callAll cfg sc lo hi st (cs ++ [c]) = (stepRestartL c.brentq c.env cfg sc c.l lo hi c.initial
      c.target c.minEss c.p0 c.k (callAll cfg sc lo hi st cs)).2 := by
  simp [callAll]

/-- The columns of a nonempty list of snapshots. -/
theorem columnsOf_ne (s : Snap) : columnsOf s ≠ [] := by
  unfold columnsOf
  split_ifs with h
  · simp
  · simpa using h

theorem mem_columnsOf {s : Snap} {c : Column} (h : c ∈ columnsOf s) : c.stage = s.stage := by
  unfold columnsOf at h
  obtain ⟨r, -, rfl⟩ := List.mem_map.mp h
  rfl

theorem stageLines_const (i last : ℕ) (cs : List Column) (h : ∀ c ∈ cs, c.stage ≤ last) :
    stageLines i last cs = [] := by
  induction cs generalizing i with
  | nil => rfl
  | cons c cs ih =>
    have h1 := h c (by simp)
    unfold stageLines
    rw [if_neg (by omega)]
    exact ih _ fun c hc => h c (by simp [hc])

theorem stageLines_append (i last K : ℕ) (cs ds : List Column) (hl : last ≤ K)
    (h : ∀ c ∈ cs, c.stage ≤ K) (hd : ds ≠ []) (hds : ∀ c ∈ ds, c.stage = K + 1) :
    stageLines i last (cs ++ ds) = stageLines i last cs ++ [i + cs.length] := by
  induction cs generalizing i last with
  | nil =>
    cases ds with
    | nil => exact absurd rfl hd
    | cons c ds =>
      have h1 := hds c (by simp)
      simp only [List.nil_append, stageLines, h1]
      rw [if_pos (by omega), stageLines_const _ _ _ fun c hc => (hds c (by simp [hc])).le]
      simp
  | cons c cs ih =>
    have h1 := h c (by simp)
    simp only [List.cons_append, stageLines]
    have e : ∀ x, i + 1 + cs.length = x → i + (c :: cs).length = x := by
      intro x hx; simp; omega
    split_ifs
    · rw [ih _ _ h1 fun c hc => h c (by simp [hc])]
      simp [Nat.add_comm, Nat.add_left_comm]
    · rw [ih _ _ hl fun c hc => h c (by simp [hc])]
      simp [Nat.add_comm, Nat.add_left_comm]

/-- **C233.** After any number of calls on a new object, completed or not, with any arguments:
the stage is the number of calls; the snapshots are in the order of their stages, which are
1, 2, …; every acceptance rate is there once and in order; and the figure has one vertical
line per call. -/
theorem callAll_log (cfg : PConfig) (sc : SConfig) (lo hi : Pt d) (p : Parts n d)
    (cs : List (Call n d)) :
    (callAll cfg sc lo hi (newLog p) cs).stage = cs.length ∧
      ((callAll cfg sc lo hi (newLog p) cs).log.map Snap.stage).Pairwise (· ≤ ·) ∧
      (∀ m, m ∈ (callAll cfg sc lo hi (newLog p) cs).log.map Snap.stage ↔
        1 ≤ m ∧ m ≤ cs.length) ∧
      Complete (callAll cfg sc lo hi (newLog p) cs) ∧
      (stageLines 0 0 (columns (callAll cfg sc lo hi (newLog p) cs).log)).length = cs.length := by
  induction cs using List.reverseRecOn with
  | nil => exact ⟨rfl, by simp [callAll, newLog], by simp [callAll, newLog]; omega, rfl, rfl⟩
  | append_singleton cs c ih =>
    obtain ⟨i1, i2, i3, i4, i5⟩ := ih
    rw [callAll_snoc]
    set st := callAll cfg sc lo hi (newLog p) cs with hst
    obtain ⟨new, h1, h2, h3, h4⟩ : ∃ new, (stepRestartL c.brentq c.env cfg sc c.l lo hi c.initial
        c.target c.minEss c.p0 c.k st).2.stage = st.stage + 1 ∧ new ≠ [] ∧
        (stepRestartL c.brentq c.env cfg sc c.l lo hi c.initial
        c.target c.minEss c.p0 c.k st).2.log = st.log ++ new ∧
        ∀ e ∈ new, e.stage = st.stage + 1 := by
      obtain ⟨h1, x, new, h3, -, h4⟩ := stepRestart_stage c.brentq c.env cfg sc c.l lo hi c.initial
        c.target c.minEss c.p0 c.k st
      exact ⟨x :: new, h1, by simp, h3, fun e he => (h4 e he).1⟩
    have hle : ∀ e ∈ st.log, e.stage ≤ cs.length := fun e he =>
      ((i3 e.stage).mp (List.mem_map.mpr ⟨e, he, rfl⟩)).2
    rw [i1] at h4
    refine ⟨by rw [h1, i1]; simp, ?_, fun m => ?_, stepRestart_complete _ _ _ _ _ _ _ _ _ _ _ _ _
      i4, ?_⟩
    · rw [h3, List.map_append, List.pairwise_append]
      refine ⟨i2, ?_, ?_⟩
      · rw [List.pairwise_map]
        refine List.pairwise_of_forall_mem_list fun a ha b hb => ?_
        rw [h4 a ha, h4 b hb]
      · intro a ha b hb
        obtain ⟨x, hx, rfl⟩ := List.mem_map.mp ha
        obtain ⟨y, hy, rfl⟩ := List.mem_map.mp hb
        rw [h4 y hy]
        have := hle x hx
        omega
    · rw [h3, List.map_append, List.mem_append, i3]
      have hn : m ∈ new.map Snap.stage ↔ m = cs.length + 1 := by
        rw [List.mem_map]
        constructor
        · rintro ⟨e, he, rfl⟩
          exact h4 e he
        · rintro rfl
          obtain ⟨e, he⟩ := List.exists_mem_of_ne_nil new h2
          exact ⟨e, he, h4 e he⟩
      rw [hn]
      simp
      omega
    · rw [h3]
      have hc : columns (st.log ++ new) = columns st.log ++ columns new := by simp [columns]
      rw [hc, stageLines_append 0 0 cs.length _ _ (by omega)]
      · simp [i5]
      · intro c hc
        obtain ⟨e, he, hm⟩ := List.mem_flatMap.mp hc
        rw [mem_columnsOf hm]
        exact hle e he
      · obtain ⟨e, he⟩ := List.exists_mem_of_ne_nil new h2
        obtain ⟨c, hc⟩ := List.exists_mem_of_ne_nil _ (columnsOf_ne e)
        exact List.ne_nil_of_mem (List.mem_flatMap.mpr ⟨e, he, hc⟩)
      · intro c hc
        obtain ⟨e, he, hm⟩ := List.mem_flatMap.mp hc
        rw [mem_columnsOf hm]
        exact h4 e he

/-- The columns of the figure: each snapshot has one per acceptance rate, with its own values,
or a single one with rate 0. -/
theorem columns_spec (log : List Snap) (c : Column) :
    c ∈ columns log ↔ ∃ s ∈ log, c.stage = s.stage ∧ c.target = s.target ∧ c.cur = s.cur ∧
      c.ess = s.ess ∧ (c.rate ∈ s.rates ∨ s.rates = [] ∧ c.rate = 0) := by
  unfold columns
  rw [List.mem_flatMap]
  refine exists_congr fun s => and_congr_right fun _ => ?_
  unfold columnsOf
  rw [List.mem_map]
  constructor
  · rintro ⟨r, hr, rfl⟩
    refine ⟨rfl, rfl, rfl, rfl, ?_⟩
    split_ifs at hr with h
    · exact .inr ⟨List.eq_nil_of_length_eq_zero h, by simpa using hr⟩
    · exact .inl hr
  · rintro ⟨h1, h2, h3, h4, h5⟩
    refine ⟨c.rate, ?_, ?_⟩
    · rcases h5 with h | ⟨h, h'⟩
      · rw [if_neg (by intro h0; rw [List.eq_nil_of_length_eq_zero h0] at h; simp at h)]
        exact h
      · simp [h, h']
    · cases c
      simp only at h1 h2 h3 h4
      simp [h1, h2, h3, h4]

/-- The positive rates of the figure are those of the snapshots, in order. -/
theorem columns_rates (log : List Snap) :
    ((columns log).map Column.rate).filter (· ≠ 0) =
      (log.flatMap Snap.rates).filter (· ≠ 0) := by
  induction log with
  | nil => rfl
  | cons s log ih =>
    have hc : columns (s :: log) = columnsOf s ++ columns log := by simp [columns]
    rw [hc, List.map_append, List.filter_append, ih, List.flatMap_cons, List.filter_append]
    congr 1
    unfold columnsOf
    split_ifs with h
    · rw [List.eq_nil_of_length_eq_zero h]; simp
    · simp [Function.comp_def]

/-- A staircase holds each value from its index to the next. -/
theorem stairs_spec {α : Type} (y : List α) (x : ℕ) (v : α) :
    (x, v) ∈ stairs y ↔ y[x]? = some v ∨ ∃ i, x = i + 1 ∧ y[i]? = some v := by
  unfold stairs
  simp only [List.mem_flatMap, List.mem_cons, List.not_mem_nil, or_false, Prod.mk.injEq,
    Prod.exists, List.mem_zipIdx_iff_getElem?]
  constructor
  · rintro ⟨a, i, h, (⟨rfl, rfl⟩ | ⟨rfl, rfl⟩)⟩
    · exact .inl h
    · exact .inr ⟨i, rfl, h⟩
  · rintro (h | ⟨i, rfl, h⟩)
    · exact ⟨v, x, h, .inl ⟨rfl, rfl⟩⟩
    · exact ⟨v, i, h, .inr ⟨rfl, rfl⟩⟩

end Verif.SMC.Log
