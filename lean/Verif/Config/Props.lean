import Verif.Config.Model

/-!
# C20, C21, C75: configuration
-/

namespace Verif.Config

open Verif

/-- The two backends. -/
def IsBackend (b : Str) : Prop := b = ['n', 'u', 'm', 'p', 'y'] ∨ b = ['t', 'o', 'r', 'c', 'h']

/-- Invariant kept by every operation. -/
structure Inv (s : State) : Prop where
  backend : ∀ b, s.backend = some b → IsBackend b
  dtype : s.dtype = sFloat64

theorem normalizeDtype_value {a : DtypeArg} {d : Str} (h : normalizeDtype a = .ok d) :
    d = sFloat64 := by
  cases a with
  | none => cases h; rfl
  | pyFloat => cases h; rfl
  | str s =>
    simp only [normalizeDtype] at h
    split at h
    · cases h
    · split at h
      · cases h; rfl
      · cases h

theorem normalizeBackend_value {a : BackendArg} {b : Str} (h : normalizeBackend a = .ok (some b)) :
    IsBackend b := by
  cases a with
  | none => cases h
  | other => cases h
  | str s =>
    simp only [normalizeBackend] at h
    split at h
    · cases h
    · split at h
      · cases h
      · rename_i h2
        cases h
        unfold IsBackend
        by_cases h3 : lower s = sNumpy
        · exact Or.inl h3
        · right
          by_cases h4 : lower s = sTorch
          · exact h4
          · exact absurd ⟨h3, h4⟩ h2

theorem detect_value {torch : Bool} {env : Option Str} {b : Str} (h : detect torch env = .ok b) :
    IsBackend b := by
  unfold detect at h
  cases env with
  | none => cases torch <;> cases h <;> first | exact Or.inl rfl | exact Or.inr rfl
  | some e =>
    simp only [Option.map_some] at h
    split at h
    · cases h
    · split at h
      · rename_i h2; cases h; exact h2
      · cases torch <;> cases h <;> first | exact Or.inl rfl | exact Or.inr rfl

theorem initBackend_inv {torch : Bool} {s : State} (h : Inv s) : Inv (initBackend torch s).2 := by
  unfold initBackend
  cases hb : s.backend with
  | some b => exact h
  | none =>
    simp only
    cases hd : detect torch s.envBackend with
    | error e => exact h
    | ok b => exact ⟨fun b' hb' => by cases hb'; exact detect_value hd, h.dtype⟩

theorem step_inv {torch : Bool} {s : State} (h : Inv s) (op : Op) : Inv (step torch s op).2 := by
  cases op with
  | setBackend a =>
    simp only [step, setBackend]
    cases hn : normalizeBackend a with
    | error e => exact h
    | ok o =>
      cases o with
      | none => exact ⟨(fun b hb => by cases hb), h.dtype⟩
      | some b => exact ⟨fun b' hb => by cases hb; exact normalizeBackend_value hn, h.dtype⟩
  | setDtype a =>
    simp only [step, setDtype]
    cases hn : normalizeDtype a with
    | error e => exact h
    | ok d => exact ⟨h.backend, normalizeDtype_value hn⟩
  | getBackend =>
    simp only [step, getBackend]
    cases hb : s.backend with
    | some b => exact h
    | none => exact initBackend_inv h
  | initBackend => exact initBackend_inv h
  | update ba da =>
    have fin : ∀ (b : Option (Option Str)) (d : Option Str) (s' : State), Inv s' →
        (∀ c, b = some (some c) → IsBackend c) → (∀ c, d = some c → c = sFloat64) →
        Inv (assign b d s') := by
      intro b d s' h' hb hd
      constructor
      · intro c hc
        cases b with
        | none => exact h'.backend c hc
        | some o => simp only [assign, Option.getD_some] at hc; subst hc; exact hb c rfl
      · cases d with
        | none => exact h'.dtype
        | some c => exact hd c rfl
    have env : ∀ (b : Option Str), Inv (putEnvBackend b s) := by
      intro b; cases b <;> exact ⟨h.backend, h.dtype⟩
    have dt : ∀ (b : Option (Option Str)) (s1 : State), Inv s1 →
        (∀ c, b = some (some c) → IsBackend c) →
        Inv (updateRest b da s1).2 := by
      intro b s1 h1 hb
      cases da with
      | none => exact fin b _ _ h1 hb (fun c hc => by cases hc)
      | some a =>
        simp only [updateRest, updDtype]
        cases hn : normalizeDtype a with
        | error e => exact h1
        | ok d =>
          exact fin b (some d) _ ⟨h1.backend, h1.dtype⟩ hb
            (fun c hc => by cases hc; exact normalizeDtype_value hn)
    simp only [step, update]
    cases ba with
    | none => exact dt Option.none s h (fun c hc => by cases hc)
    | some a =>
      simp only [updBackend]
      cases hn : normalizeBackend a with
      | error e => exact h
      | ok b =>
        exact dt (some b) _ (env b) (fun c hc => by cases hc; exact normalizeBackend_value hn)

/-- **C20** Whatever sequence of configuration calls is made, failing or not,
the dtype is `float64` and the backend is unset, `numpy` or `torch`. -/
theorem run_inv {torch : Bool} {s : State} (h : Inv s) (ops : List Op) : Inv (run torch s ops) := by
  unfold run
  induction ops generalizing s with
  | nil => exact h
  | cons op ops ih => exact ih (step_inv h op)

theorem init_inv {eb ed : Option Str} {s : State} (h : init eb ed = .ok s) : Inv s := by
  unfold init at h
  cases hd : normalizeDtype (.str (ed.getD sFloat64)) with
  | error e => rw [hd] at h; cases h
  | ok d =>
    rw [hd] at h; cases h
    exact ⟨(fun b hb => by cases hb), normalizeDtype_value hd⟩

/-- Non-vacuity: importing with an empty environment works. -/
example : ∃ s, init Option.none Option.none = .ok s := ⟨_, rfl⟩

/-- **C20** Single-precision dtypes are always refused with `ValueError` and the
state is untouched. -/
theorem setDtype_rejects_float32 (s : State) (d : Str)
    (h : hasSub (lower d) sFloat32 = true ∨ endsWith (lower d) sF4 = true) :
    setDtype (.str d) s = (.error .valueError, s) := by
  unfold setDtype normalizeDtype
  simp only
  rw [if_pos (by rcases h with h | h <;> simp [h])]

example : hasSub (lower ['t','o','r','c','h','.','F','l','o','a','t','3','2']) sFloat32 = true := by decide

/-- **C20** A failing `set_backend` or `set_dtype` is a `ValueError` that leaves
the state unchanged, except `set_backend(None)`. -/
theorem set_failures (s : State) :
    (∀ a e s', setDtype a s = (.error e, s') → e = .valueError ∧ s' = s) ∧
    (∀ a e s', a ≠ .none → setBackend a s = (.error e, s') → e = .valueError ∧ s' = s) := by
  constructor
  · intro a e s' h
    unfold setDtype at h
    cases hn : normalizeDtype a with
    | ok d => rw [hn] at h; cases h
    | error e' =>
      rw [hn] at h; cases h
      refine ⟨?_, rfl⟩
      cases a with
      | none => cases hn
      | pyFloat => cases hn
      | str d =>
        simp only [normalizeDtype] at hn
        split at hn
        · cases hn; rfl
        · split at hn
          · cases hn
          · cases hn; rfl
  · intro a e s' ha h
    unfold setBackend at h
    cases hn : normalizeBackend a with
    | ok o =>
      rw [hn] at h
      cases o with
      | some b => cases h
      | none =>
        cases a with
        | none => exact absurd rfl ha
        | other => cases hn
        | str d =>
          simp only [normalizeBackend] at hn
          split at hn
          · cases hn
          · split at hn <;> cases hn
    | error e' =>
      rw [hn] at h; cases h
      refine ⟨?_, rfl⟩
      cases a with
      | none => cases hn
      | other => cases hn; rfl
      | str d =>
        simp only [normalizeBackend] at hn
        split at hn
        · cases hn; rfl
        · split at hn
          · cases hn; rfl
          · cases hn

/-- **C75** is false of the code: "a dtype specification is accepted only if it
names double-precision floats" — `int64` is accepted (and taken as float64). -/
theorem dtype_only_float64_false :
    ¬ (∀ d r, normalizeDtype (.str d) = .ok r →
        hasSub (lower d) ['f', 'l', 'o', 'a', 't', '6', '4'] = true ∨ hasSub (lower d) ['d', 'o', 'u', 'b', 'l', 'e'] = true ∨
          endsWith (lower d) ['f', '8'] = true) := by
  intro H
  have := H ['i','n','t','6','4'] sFloat64 (by rfl)
  revert this
  decide

/-- **C75** partial: exactly what is accepted: strings (case ignored) that contain
`float64` or `double` or end in `f8` or `64`, and neither contain `float32` nor end in
`f4` or `32`; the result is always `float64`.  Missing: other types ending in `64`. -/
theorem dtype_only_float64_partial (d r : Str) :
    normalizeDtype (.str d) = .ok r ↔
    r = ['f', 'l', 'o', 'a', 't', '6', '4'] ∧
    (hasSub (lower d) ['f', 'l', 'o', 'a', 't', '3', '2'] = false ∧ endsWith (lower d) ['f', '4'] = false ∧
      endsWith (lower d) ['3', '2'] = false) ∧
    (hasSub (lower d) ['f', 'l', 'o', 'a', 't', '6', '4'] = true ∨ hasSub (lower d) ['d', 'o', 'u', 'b', 'l', 'e'] = true ∨
      endsWith (lower d) ['f', '8'] = true ∨ endsWith (lower d) ['6', '4'] = true) := by
  change normalizeDtype (.str d) = .ok r ↔
      r = sFloat64 ∧
      (hasSub (lower d) sFloat32 = false ∧ endsWith (lower d) sF4 = false ∧
        endsWith (lower d) s32 = false) ∧
      (hasSub (lower d) sFloat64 = true ∨ hasSub (lower d) sDouble = true ∨
        endsWith (lower d) sF8 = true ∨ endsWith (lower d) s64 = true)
  simp only [normalizeDtype]
  cases hasSub (lower d) sFloat32 <;> cases endsWith (lower d) sF4 <;>
    cases endsWith (lower d) s32 <;> cases hasSub (lower d) sFloat64 <;>
    cases hasSub (lower d) sDouble <;> cases endsWith (lower d) sF8 <;>
    cases endsWith (lower d) s64 <;> simp [eq_comm]

/-- **C75** The refusal is always `ValueError`. -/
theorem dtype_refusal (d : Str) (e : PyErr) (h : normalizeDtype (.str d) = .error e) :
    e = .valueError := by
  simp only [normalizeDtype] at h
  split at h
  · exact (Except.error.inj h).symm
  · split at h
    · cases h
    · exact (Except.error.inj h).symm

/-- Concrete cases: `">f8"` is accepted, `"int32"` refused. -/
example : normalizeDtype (.str ['>', 'F', '8']) = .ok ['f', 'l', 'o', 'a', 't', '6', '4'] ∧
    normalizeDtype (.str ['i', 'n', 't', '3', '2']) = .error .valueError := ⟨rfl, rfl⟩

/-! ## C21 -/

/-- **C21** Detection: an explicit environment setting wins (case ignored),
otherwise torch if importable, otherwise numpy; `jax` raises `RuntimeError`. -/
theorem detect_spec (torch : Bool) (env : Option Str) :
    detect torch env =
      (if env.map lower = some ['j', 'a', 'x'] then .error .runtimeError
       else if env.map lower = some ['n', 'u', 'm', 'p', 'y'] then .ok ['n', 'u', 'm', 'p', 'y']
       else if env.map lower = some ['t', 'o', 'r', 'c', 'h'] then .ok ['t', 'o', 'r', 'c', 'h']
       else .ok (if torch then ['t', 'o', 'r', 'c', 'h'] else ['n', 'u', 'm', 'p', 'y'])) := by
  change detect torch env =
      (if env.map lower = some sJax then .error .runtimeError
       else if env.map lower = some sNumpy then .ok sNumpy
       else if env.map lower = some sTorch then .ok sTorch
       else .ok (if torch then sTorch else sNumpy))
  unfold detect
  cases env with
  | none => cases torch <;> rfl
  | some e =>
    simp only [Option.map_some, Option.some.injEq]
    by_cases h1 : lower e = sJax
    · simp [h1]
    · by_cases h2 : lower e = sNumpy
      · have : ¬ sNumpy = sJax := by decide
        simp [h2, this]
      · by_cases h3 : lower e = sTorch
        · have h4 : ¬ sTorch = sJax := by decide
          have h5 : ¬ sTorch = sNumpy := by decide
          simp [h3, h4, h5]
        · simp only [h1, h2, h3, if_false, or_self]
          cases torch <;> rfl

/-- **C21** Once a backend has been returned, asking again (any number of times,
by `get_backend` or `init_backend`, whether or not torch has become importable)
returns the same one and changes nothing. -/
theorem getBackend_stable (torch : Bool) (s s' : State) (b : Str)
    (h : getBackend torch s = (.ok b, s')) :
    s'.backend = some b ∧
    ∀ (t : Bool) (ops : List Op), (∀ op ∈ ops, op = .getBackend ∨ op = .initBackend) →
      run t s' ops = s' ∧ getBackend t (run t s' ops) = (.ok b, s') := by
  have hb : s'.backend = some b := by
    unfold getBackend at h
    cases hs : s.backend with
    | some c => rw [hs] at h; cases h; exact hs
    | none =>
      rw [hs] at h
      simp only [initBackend, hs] at h
      cases hd : detect torch s.envBackend with
      | error e => rw [hd] at h; cases h
      | ok c => rw [hd] at h; cases h; rfl
  refine ⟨hb, fun t ops hops => ?_⟩
  have hrun : run t s' ops = s' := by
    unfold run
    induction ops with
    | nil => rfl
    | cons op ops ih =>
      have h1 : (step t s' op).2 = s' := by
        rcases hops op (by simp) with rfl | rfl
        · simp only [step, getBackend, hb]
        · simp only [step, initBackend, hb]
      rw [List.foldl_cons, h1]
      exact ih (fun o ho => hops o (by simp [ho]))
  rw [hrun]
  refine ⟨rfl, ?_⟩
  simp only [getBackend, hb]

/-- **C21** What `set_backend` accepts is what `get_backend` then returns. -/
theorem setBackend_get (torch : Bool) (s s' : State) (a : Str)
    (h : setBackend (.str a) s = (.ok (), s')) :
    getBackend torch s' = (.ok (lower a), s') ∧ s'.envBackend = some (lower a) ∧
      IsBackend (lower a) := by
  unfold setBackend at h
  cases hn : normalizeBackend (.str a) with
  | error e => rw [hn] at h; cases h
  | ok o =>
    rw [hn] at h
    cases o with
    | none => cases h
    | some b =>
      have hb : b = lower a := by
        simp only [normalizeBackend] at hn
        split at hn
        · cases hn
        · split at hn <;> cases hn; rfl
      cases h
      subst hb
      exact ⟨rfl, rfl, normalizeBackend_value hn⟩

example (s : State) : ∃ s', setBackend (.str ['N','u','m','P','y']) s = (.ok (), s') := ⟨_, rfl⟩

/-! ## C76: agreement of the configuration and the environment -/

/-- The environment variable carries the configured backend. -/
def Agree (s : State) : Prop := ∀ b, s.backend = some b → s.envBackend = some b

/-- **C76** is false of the code: `update(backend="numpy", dtype="float32")` on a
torch session raises, leaves the configuration on torch, but has already set the
environment variable to numpy. -/
theorem env_agrees_false :
    ¬ (∀ (torch : Bool) (s : State) (ops : List Op), Inv s → Agree s → Agree (run torch s ops)) := by
  intro H
  have := H true ⟨some sTorch, sFloat64, some sTorch, Option.none⟩
    [.update (some (.str sNumpy)) (some (.str sFloat32))]
    ⟨(fun b hb => by cases hb; exact Or.inr rfl), rfl⟩ (fun b hb => by cases hb; rfl) sTorch rfl
  revert this
  decide

/-- **C76** partial: agreement is kept by every operation other than an
`update` that raises.  Missing: `update` calls that raise. -/
theorem env_agrees_partial (torch : Bool) (s : State) (h : Agree s) (op : Op)
    (hop : ∀ b d, op = .update b d → (step torch s op).1 = .ok ()) :
    Agree (step torch s op).2 := by
  have hi : Agree (initBackend torch s).2 := by
    unfold initBackend
    cases hb : s.backend with
    | some b => exact h
    | none =>
      simp only
      cases hd : detect torch s.envBackend with
      | error e => exact h
      | ok b => exact fun c hc => hc
  cases op with
  | setBackend a =>
    simp only [step, setBackend]
    cases hn : normalizeBackend a with
    | error e => exact h
    | ok o =>
      cases o with
      | none => exact fun b hb => by cases hb
      | some b => exact fun c hc => hc
  | setDtype a =>
    simp only [step, setDtype]
    cases hn : normalizeDtype a with
    | error e => exact h
    | ok d => exact h
  | getBackend =>
    simp only [step, getBackend]
    cases hb : s.backend with
    | some b => exact h
    | none => exact hi
  | initBackend => exact hi
  | update ba da =>
    have hok := hop ba da rfl
    simp only [step, update] at hok ⊢
    -- the dtype block changes neither the backend nor its variable
    have dt : ∀ (b : Option (Option Str)) (s1 : State),
        (updateRest b da s1).1 = .ok () →
        ∃ d ed, (updateRest b da s1).2 =
            ⟨b.getD s1.backend, d, s1.envBackend, ed⟩ := by
      intro b s1 hok
      cases da with
      | none => exact ⟨_, _, rfl⟩
      | some a =>
        simp only [updateRest, updDtype] at hok ⊢
        cases hn : normalizeDtype a with
        | error e => rw [hn] at hok; cases hok
        | ok d => exact ⟨_, _, rfl⟩
    cases ba with
    | none =>
      obtain ⟨d, ed, heq⟩ := dt Option.none s hok
      simp only [updBackend]
      rw [heq]
      exact h
    | some a =>
      simp only [updBackend] at hok ⊢
      cases hn : normalizeBackend a with
      | error e => rw [hn] at hok; cases hok
      | ok b =>
        rw [hn] at hok
        obtain ⟨d, ed, heq⟩ := dt (some b) _ hok
        simp only
        rw [heq]
        intro c hc
        cases b with
        | none => cases hc
        | some b => exact hc

example : (step true ⟨some sTorch, sFloat64, some sTorch, Option.none⟩
    (.update (some (.str sNumpy)) (some (.str sDouble)))).1 = .ok () := rfl

/-- **C76** `set_backend(None)` raises `TypeError` after having forgotten the
backend; the next `get_backend` recovers it from the environment. -/
theorem setBackend_none (torch : Bool) (s : State) (b : Str) (hI : Inv s) (h : Agree s)
    (hb : s.backend = some b) :
    (setBackend .none s).1 = .error .typeError ∧ (setBackend .none s).2.backend = Option.none ∧
    (getBackend torch (setBackend .none s).2).1 = .ok b := by
  refine ⟨rfl, rfl, ?_⟩
  simp only [setBackend, normalizeBackend, getBackend, initBackend]
  rw [h b hb, detect_spec]
  rcases hI.backend b hb with rfl | rfl <;> rfl

/-- **C20** A successful `set_dtype` changes the dtype and the environment, and nothing else. -/
theorem setDtype_writes (a : DtypeArg) (s s' : State) (h : setDtype a s = (.ok (), s')) :
    ∃ d, normalizeDtype a = .ok d ∧ s'.dtype = d ∧ s'.envDtype = some d ∧ s'.backend = s.backend ∧
      s'.envBackend = s.envBackend := by
  unfold setDtype at h
  cases hn : normalizeDtype a with
  | error e => rw [hn] at h; cases h
  | ok d => rw [hn] at h; cases h; exact ⟨d, rfl, rfl, rfl, rfl, rfl⟩

example (s : State) : ∃ s', setDtype (.str sFloat64) s = (.ok (), s') := ⟨_, rfl⟩

/-- **C20** `update(backend=None)` forgets the backend but keeps the environment: the next use takes the
backend from the environment. -/
theorem update_none (s : State) :
    update (some .none) Option.none s = (.ok (), { s with backend := Option.none }) := rfl

/-- Concrete case of `update_none`: a backend set before comes back. -/
example (s : State) (torch : Bool) : ∃ s1, setBackend (.str sNumpy) s = (.ok (), s1) ∧
    (getBackend torch (update (some .none) Option.none s1).2).1 = .ok sNumpy := ⟨_, rfl, rfl⟩

end Verif.Config
