import Verif.Config.Log


/-!
# C259: the level of the logger, how often messages are written, and caches
-/

set_option autoImplicit false

namespace Verif.Config.Log

open Verif Verif.Config

/-- The name of a level, in any case, in `GPMP_LOG_LEVEL` gives that level. -/
theorem level_env {s : Str} {z : Int} (h : levels.lookup (upper s) = some z) : initLevel (some s) = .ok z := by
  simp [initLevel, attrs, h, checkLevel]

/-- The eight names of the levels and their values, in any case. -/
theorem level_names {s : Str} {z : Int}
    (h : upper s = "CRITICAL".toList ∧ z = 50 ∨ upper s = "FATAL".toList ∧ z = 50 ∨ upper s = "ERROR".toList ∧ z = 40 ∨
      upper s = "WARNING".toList ∧ z = 30 ∨ upper s = "WARN".toList ∧ z = 30 ∨ upper s = "INFO".toList ∧ z = 20 ∨
      upper s = "DEBUG".toList ∧ z = 10 ∨ upper s = "NOTSET".toList ∧ z = 0) :
    initLevel (some s) = .ok z ∧ checkLevel (.str (upper s)) = .ok z := by
  unfold initLevel
  rw [Option.getD_some]
  rcases h with h | h | h | h | h | h | h | h <;> obtain ⟨h, rfl⟩ := h <;> rw [h] <;> exact ⟨rfl, rfl⟩

/-- Without the variable the level is `INFO`. -/
theorem level_default : initLevel none = .ok 20 := by
  rfl

/-- Any text that is not, in upper case, an attribute of `logging` gives `INFO`. -/
theorem level_unknown {s : Str} (h : ∀ p ∈ levels, p.1 ≠ upper s) (h1 : upper s ≠ "BASIC_FORMAT".toList)
    (h2 : upper s ≠ "_STYLES".toList) : initLevel (some s) = .ok 20 := by
  have : levels.lookup (upper s) = none := by
    rw [List.lookup_eq_none_iff]
    intro p hp
    exact bne_iff_ne.mpr fun h' => h p hp h'.symm
  unfold initLevel attrs
  rw [Option.getD_some, this]
  simp only []
  rw [if_neg h1, if_neg h2]
  rfl

/-- Not every text is accepted: two words that are no levels make the import fail. -/
theorem level_env_false :
    (lstep start (.importConfig (some "basic_format".toList))).1 = .error .valueError ∧
      (lstep start (.importConfig (some "_styles".toList))).1 = .error .typeError := by
  constructor <;> rfl

/-- `set_log_level` changes the level and nothing else, or refuses and changes nothing. -/
theorem set_level (l : Obj) (s : St) (h : s.loaded = true) :
    (∀ z, (l = .int z ∨ ∃ n, l = .str n ∧ levels.lookup n = some z) →
        lstep s (.setLogLevel l) = (.ok (), { s with level := z })) ∧
      ((∀ z, l ≠ .int z) → (∀ n z, l = .str n → levels.lookup n ≠ some z) →
        ∃ e, lstep s (.setLogLevel l) = (.error e, s)) := by
  refine ⟨?_, fun h1 h2 => ?_⟩
  · rintro z (rfl | ⟨n, rfl, hn⟩)
    · simp [lstep, setLogLevel, h, checkLevel]
    · simp [lstep, setLogLevel, h, checkLevel, hn]
  · cases l with
    | int z => exact absurd rfl (h1 z)
    | str n =>
      cases hn : levels.lookup n with
      | none => exact ⟨.valueError, by simp [lstep, setLogLevel, h, checkLevel, hn]⟩
      | some z => exact absurd hn (h2 n z rfl)
    | other => exact ⟨.typeError, by simp [lstep, setLogLevel, h, checkLevel]⟩

/-- The handlers after any actions: at most one, and one once the module is loaded. -/
theorem one_handler (ops : List LOp) :
    (lrun start ops).handlers ≤ 1 ∧ ((lrun start ops).loaded = true → (lrun start ops).handlers = 1) := by
  suffices h : ∀ s : St, (s.handlers ≤ 1 ∧ (s.loaded = true → s.handlers = 1)) →
      ((lrun s ops).handlers ≤ 1 ∧ ((lrun s ops).loaded = true → (lrun s ops).handlers = 1)) from
    h start ⟨by decide, by simp [start]⟩
  induction ops with
  | nil => exact fun s h => h
  | cons op ops ih =>
    intro s h
    refine ih _ ?_
    have hi : ∀ (env : Option Str), ((initLogger env s).2.handlers = 1 ∧ (initLogger env s).2.loaded = s.loaded) := by
      intro env
      have h1 := h.1
      simp only [initLogger]
      by_cases h0 : s.handlers = 0
      · rw [if_pos h0]; cases initLevel env <;> simp
      · rw [if_neg h0]; cases initLevel env <;> exact ⟨by simp only; omega, rfl⟩
    cases op with
    | importConfig env =>
      simp only [lstep, importConfig]
      split
      · exact h
      · have := hi env
        revert this
        cases initLogger env s with
        | mk r s1 => cases r <;> simp +contextual
    | reload env =>
      simp only [lstep]
      split
      · have := hi env
        exact ⟨Nat.le_of_eq this.1, fun _ => this.1⟩
      · exact h
    | setLogLevel l =>
      simp only [lstep, setLogLevel]
      split
      · cases checkLevel l <;> exact h
      · exact h
    | emit lvl msg =>
      simp only [lstep]
      split
      · simp only [emit]
        split <;> exact h
      · exact h
    | rootHandler => exact h
    | rootLevel z => exact h

/-- No action but a handler on the root logger adds one there. -/
theorem root_handlers (ops : List LOp) (h : LOp.rootHandler ∉ ops) (s : St) :
    (lrun s ops).rootHandlers = s.rootHandlers := by
  induction ops generalizing s with
  | nil => rfl
  | cons op ops ih =>
    refine (ih (fun h' => h (List.mem_cons_of_mem _ h')) _).trans ?_
    have hi : ∀ env, (initLogger env s).2.rootHandlers = s.rootHandlers := by
      intro env
      simp only [initLogger]
      by_cases h0 : s.handlers = 0
      · rw [if_pos h0]; cases initLevel env <;> rfl
      · rw [if_neg h0]; cases initLevel env <;> rfl
    cases op with
    | importConfig env =>
      simp only [lstep, importConfig]
      split
      · rfl
      · have := hi env
        revert this
        cases initLogger env s with
        | mk r s1 => cases r <;> simp
    | reload env =>
      simp only [lstep]
      split
      · exact hi env
      · rfl
    | setLogLevel l =>
      simp only [lstep, setLogLevel]
      split
      · cases checkLevel l <;> rfl
      · rfl
    | emit lvl msg =>
      simp only [lstep]
      split
      · simp only [emit]
        split <;> rfl
      · rfl
    | rootHandler => simp at h
    | rootLevel z => rfl

theorem emit_out {s : St} (h1 : s.handlers = 1) (h3 : s.rootHandlers = 0) (h0 : s.level ≠ 0) {lvl : Int}
    (hp : 0 < lvl) (msg : Str) : (emit lvl msg s).out = s.out ++ if s.level ≤ lvl then [(lvl, msg)] else [] := by
  simp only [emit, effective, h0, if_false, copies, h1, h3, hp, true_and]
  split <;> simp

/-- Without handlers on the root logger a message is written once if its level is at least that of the logger, and not
otherwise — whatever happened before, reloads included. -/
theorem written_once (ops : List LOp) (h : LOp.rootHandler ∉ ops) (hl : (lrun start ops).loaded = true)
    (h0 : (lrun start ops).level ≠ 0) {lvl : Int} (hp : 0 < lvl) (msg : Str) :
    (lrun start (ops ++ [.emit lvl msg])).out =
      (lrun start ops).out ++ if (lrun start ops).level ≤ lvl then [(lvl, msg)] else [] := by
  have h1 := (one_handler ops).2 hl
  have h2 := root_handlers ops h start
  have h3 : lrun start (ops ++ [.emit lvl msg]) = (lstep (lrun start ops) (.emit lvl msg)).2 := by
    simp [lrun, List.foldl_append]
  rw [h3]
  have h4 : (lstep (lrun start ops) (.emit lvl msg)).2 = emit lvl msg (lrun start ops) := by
    simp [lstep, hl]
  rw [h4]
  exact emit_out h1 h2 h0 hp msg

/-- Without any handler the handler of last resort writes what is at least a warning, once. -/
theorem last_resort {s : St} (h1 : s.handlers = 0) (h2 : s.rootHandlers = 0) {lvl : Int} (hp : 0 < lvl) (msg : Str) :
    (emit lvl msg s).out = s.out ++ if 30 ≤ lvl ∧ effective s ≤ lvl then [(lvl, msg)] else [] := by
  simp only [emit, copies, h1, h2, hp, true_and, Nat.add_zero, if_true]
  by_cases h : effective s ≤ lvl <;> by_cases h' : 30 ≤ lvl <;> simp [h, h']

/-- With a handler on the root logger, as `logging.basicConfig()` adds, every message is written twice. -/
theorem written_once_false :
    (lrun start [.rootHandler, .importConfig none, .emit 20 "Using backend: numpy".toList]).out =
      [(20, "Using backend: numpy".toList), (20, "Using backend: numpy".toList)] := by
  rfl

/-- A lower level other than `NOTSET` shows whatever a higher one shows. -/
theorem lower_shows_more {a b lvl : Int} (ha : 0 < a) (hab : a ≤ b) (s : St) (h : effective { s with level := b } ≤ lvl) :
    effective { s with level := a } ≤ lvl := by
  simp only [effective] at *
  rw [if_neg (by omega)] at *
  omega

/-- But `NOTSET`, the lowest, hides what `INFO` shows: the root logger's level is used. -/
theorem lower_shows_more_false :
    (lrun start [.importConfig (some "notset".toList), .emit 20 []]).out = [] ∧
      (lrun start [.importConfig (some "info".toList), .emit 20 []]).out = [(20, [])] := by
  constructor <;> rfl

/-- A level set by hand is kept by later imports, and lost in a reload. -/
theorem level_kept (z : Int) (env : Option Str) :
    (lrun start [.importConfig none, .setLogLevel (.int z), .importConfig env]).level = z ∧
      (lrun start [.importConfig none, .setLogLevel (.int z), .reload none]).level = 20 := by
  constructor <;> rfl

/-- `clear_caches(name)` removes that cache only, without failing when it is absent; `clear_caches()` removes all. -/
theorem caches_cleared {V : Type} (caches : List (Str × V)) (k n : Str) :
    (clearCaches (some k) caches).lookup n = (if n = k then none else caches.lookup n) ∧
      (clearCaches none caches).lookup n = none := by
  refine ⟨?_, rfl⟩
  induction caches with
  | nil => simp [clearCaches]
  | cons p l ih =>
    obtain ⟨a, v⟩ := p
    simp only [clearCaches, List.filter_cons] at *
    by_cases hn : n = k
    · subst hn
      by_cases ha : a = n
      · subst ha
        simpa using ih
      · rw [if_pos (by simpa using ha), List.lookup_cons]
        have : (n == a) = false := by simpa using fun h => ha h.symm
        rw [this]
        simpa using ih
    · rw [if_neg hn] at *
      by_cases ha : a = k
      · subst ha
        rw [if_neg (by simp), List.lookup_cons]
        have : (n == a) = false := by simpa using hn
        rw [this]
        exact ih
      · rw [if_pos (by simpa using ha), List.lookup_cons, List.lookup_cons, ih]

/-- What is stored is found, next to the caches of other names; a cleared cache is stored anew. -/
theorem cache_stored {V : Type} (caches : List (Str × V)) (k n : Str) (v : V) :
    (putCache k v caches).lookup n = if n = k then some v else caches.lookup n := by
  simp only [putCache, List.lookup_cons]
  by_cases hn : n = k
  · simp [hn]
  · have : (n == k) = false := by simpa using hn
    rw [this, if_neg hn]
    have h := (caches_cleared caches k n).1
    rw [if_neg hn] at h
    exact h

/-- Mixed case, a level set later, and a message below it. -/
example : (lrun start [.importConfig (some "Warning".toList), .emit 20 ['a'], .emit 30 ['b'],
    .setLogLevel (.str "DEBUG".toList), .emit 20 ['c'], .reload (some "error".toList), .emit 30 ['d']]).out =
    [(30, ['b']), (20, ['c'])] := by rfl

end Verif.Config.Log
