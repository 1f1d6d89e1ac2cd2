import Verif.Kernel.Select
import Mathlib.Tactic.Linarith
import Mathlib.Tactic.NormNum
import Mathlib.Data.List.Induction

/-!
# C41–C44, C93–C95: parameter selection
-/

set_option autoImplicit false

namespace Verif.Kernel

open Verif

/-! ## Specification of a search, independent of the bookkeeping -/

/-- The value an evaluation contributes: the criterion value, or `+inf` when the
criterion fails with a linear-algebra error. -/
def EvalsTo {P : Type} (crit : P → Py Flt) (p : P) (J : Flt) : Prop :=
  crit p = .ok J ∨ (crit p = .error .linAlgError ∧ J = .num ⊤)

/-- The optimiser evaluates the points of the trace, one after the other, and
answers `(x, f)`. -/
inductive Plays {P : Type} (crit : P → Py Flt) : Solver P → List (P × Flt) → P → Flt → Prop
  | stop (x : P) (f : Flt) : Plays crit (.stop x f) [] x f
  | ask (p : P) (k : Flt → Solver P) (J : Flt) (t : List (P × Flt)) (x : P) (f : Flt) :
      EvalsTo crit p J → Plays crit (k J) t x f → Plays crit (.ask p k) ((p, J) :: t) x f

/-- The optimiser reaches an evaluation that raises `e`, not a linear-algebra error. -/
inductive Raises {P : Type} (crit : P → Py Flt) : Solver P → PyErr → Prop
  | here (p : P) (k : Flt → Solver P) (e : PyErr) :
      crit p = .error e → e ≠ .linAlgError → Raises crit (.ask p k) e
  | later (p : P) (k : Flt → Solver P) (J : Flt) (e : PyErr) :
      EvalsTo crit p J → Raises crit (k J) e → Raises crit (.ask p k) e

theorem withHistory_cases {P : Type} (crit : P → Py Flt) (p : P) (h : Hist P) :
    (∃ J, EvalsTo crit p J ∧ withHistory crit p h = (.ok J, h.record p J)) ∨
    (∃ e, crit p = .error e ∧ e ≠ .linAlgError ∧ withHistory crit p h = (.error e, h)) := by
  unfold withHistory
  cases hc : crit p with
  | ok J => exact Or.inl ⟨J, Or.inl hc, rfl⟩
  | error e =>
    by_cases he : e = .linAlgError
    · subst he
      exact Or.inl ⟨.num ⊤, Or.inr ⟨hc, rfl⟩, rfl⟩
    · exact Or.inr ⟨e, rfl, he, by simp only [if_neg he]⟩

/-- Every search either plays a trace, and the captured variables have recorded it,
or raises. -/
theorem runSolver_cases {P : Type} (crit : P → Py Flt) (sv : Solver P) (h : Hist P) :
    (∃ t x f, Plays crit sv t x f ∧
      runSolver crit sv h = (.ok (x, f), t.foldl (fun h q => h.record q.1 q.2) h)) ∨
    (∃ e h', Raises crit sv e ∧ runSolver crit sv h = (.error e, h')) := by
  induction sv generalizing h with
  | stop x f => exact Or.inl ⟨[], x, f, .stop x f, rfl⟩
  | ask p k ih =>
    unfold runSolver
    rcases withHistory_cases crit p h with ⟨J, hJ, hw⟩ | ⟨e, he, hne, hw⟩
    · rw [hw]
      rcases ih J (h.record p J) with ⟨t, x, f, h1, h2⟩ | ⟨e, h', h1, h2⟩
      · exact Or.inl ⟨(p, J) :: t, x, f, .ask p k J t x f hJ h1, h2⟩
      · exact Or.inr ⟨e, h', .later p k J e hJ h1, h2⟩
    · rw [hw]
      exact Or.inr ⟨e, h, .here p k e he hne, rfl⟩

theorem evalsTo_unique {P : Type} {crit : P → Py Flt} {p : P} {J J' : Flt}
    (h : EvalsTo crit p J) (h' : EvalsTo crit p J') : J = J' := by
  rcases h with h | ⟨h, rfl⟩ <;> rcases h' with h' | ⟨h', rfl⟩
  · rw [h] at h'; exact Except.ok.inj h'
  · rw [h] at h'; cases h'
  · rw [h] at h'; cases h'
  · rfl

theorem plays_unique {P : Type} {crit : P → Py Flt} {sv : Solver P} {t t' : List (P × Flt)}
    {x x' : P} {f f' : Flt} (h : Plays crit sv t x f) (h' : Plays crit sv t' x' f') :
    t = t' ∧ x = x' ∧ f = f' := by
  induction h generalizing t' x' f' with
  | stop x f => cases h'; exact ⟨rfl, rfl, rfl⟩
  | ask p k J t x f hJ hp ih =>
    cases h' with
    | ask p k J' t' x' f' hJ' hp' =>
      obtain rfl := evalsTo_unique hJ hJ'
      obtain ⟨rfl, rfl, rfl⟩ := ih hp'
      exact ⟨rfl, rfl, rfl⟩

theorem plays_not_raises {P : Type} {crit : P → Py Flt} {sv : Solver P} {t : List (P × Flt)}
    {x : P} {f : Flt} {e : PyErr} (h : Plays crit sv t x f) : ¬ Raises crit sv e := by
  induction h with
  | stop x f => intro h; cases h
  | ask p k J t x f hJ hp ih =>
    intro h
    cases h with
    | here _ _ _ he hne =>
      rcases hJ with h | ⟨h, _⟩
      · rw [h] at he; cases he
      · rw [h] at he; exact hne (Except.error.inj he).symm
    | later _ _ J' _ hJ' hr =>
      obtain rfl := evalsTo_unique hJ hJ'
      exact ih hr

/-! ## The captured variables -/

theorem record_params {P : Type} (t : List (P × Flt)) (h : Hist P) :
    (t.foldl (fun h q => h.record q.1 q.2) h).params = h.params ++ t.map Prod.fst ∧
    (t.foldl (fun h q => h.record q.1 q.2) h).values = h.values ++ t.map Prod.snd := by
  induction t generalizing h with
  | nil => simp
  | cons q t ih =>
    obtain ⟨h1, h2⟩ := ih (h.record q.1 q.2)
    rw [List.foldl_cons, h1, h2]
    unfold Hist.record
    simp only
    split <;> simp

/-- What `best_params`, `best_criterion` are after recording a trace. -/
theorem record_best {P : Type} (t : List (P × Flt)) :
    let h := t.foldl (fun h q => h.record q.1 q.2) (Hist.init : Hist P)
    (∃ b, h.best = .num b ∧ (b < ⊤ → ∃ p, h.bestP = some p ∧ (p, .num b) ∈ t) ∧
      ∀ q ∈ t, ∀ v, q.2 = .num v → b ≤ v) := by
  induction t using List.reverseRecOn with
  | nil => exact ⟨⊤, rfl, fun h => absurd h (lt_irrefl _), by simp⟩
  | append_singleton t q ih =>
    obtain ⟨b, h1, h2, h3⟩ := ih
    simp only [List.foldl_append, List.foldl_cons, List.foldl_nil]
    generalize t.foldl (fun h q => h.record q.1 q.2) (Hist.init : Hist P) = h at h1 h2 h3 ⊢
    obtain ⟨p, J⟩ := q
    unfold Hist.record
    by_cases hlt : J.lt h.best
    · simp only [if_pos hlt]
      rw [h1] at hlt
      cases J with
      | nan => simp at hlt
      | num v =>
        refine ⟨v, rfl, fun _ => ⟨p, rfl, by simp⟩, ?_⟩
        intro q hq w hw
        rw [List.mem_append, List.mem_singleton] at hq
        rcases hq with hq | rfl
        · exact le_trans (le_of_lt hlt) (h3 q hq w hw)
        · simp only [Flt.num.injEq] at hw
          exact hw.le
    · simp only [if_neg hlt]
      rw [h1] at hlt
      refine ⟨b, h1, fun hb => ?_, ?_⟩
      · obtain ⟨p', h4, h5⟩ := h2 hb
        exact ⟨p', h4, List.mem_append_left _ h5⟩
      · intro q hq w hw
        rw [List.mem_append, List.mem_singleton] at hq
        rcases hq with hq | rfl
        · exact h3 q hq w hw
        · simp only at hw
          subst hw
          exact not_lt.mp hlt

/-! ## C41 -/

/-- **C41** The answer of the wrapper for a search that plays `t` and answers
`(x, f)`.  The recorded history is the trace.  If the answer is flagged as replaced it
is an evaluated point with its own value, strictly better than the optimiser's; if not
it is the optimiser's own answer.  If the optimiser's value is a number the value
returned is at most every value recorded. -/
theorem autoselect_best_partial {P : Type} (crit : P → Py Flt) (sv : Solver P) (m : Method)
    (hm : m ≠ .unknown) (t : List (P × Flt)) (x : P) (f : Flt) (hp : Plays crit sv t x f) :
    ∃ r y, autoselect crit sv m = .ok r ∧ r.x = some y ∧
      r.params = t.map Prod.fst ∧ r.values = t.map Prod.snd ∧
      (r.bestReturned = true → y = x ∧ r.f = f) ∧
      (r.bestReturned = false → (y, r.f) ∈ t ∧ r.f.lt f) ∧
      (∀ v, f = .num v → ∀ q ∈ t, ∀ w, q.2 = .num w → r.f.le (.num w)) := by
  rcases runSolver_cases crit sv .init with ⟨t', x', f', h1, h2⟩ | ⟨e, h', h1, h2⟩
  · obtain ⟨rfl, rfl, rfl⟩ := plays_unique hp h1
    obtain ⟨b, hb1, hb2, hb3⟩ := record_best t
    obtain ⟨hp1, hp2⟩ := record_params t (Hist.init : Hist P)
    have hA : autoselect crit sv m = (open Classical in
        if (t.foldl (fun h q => h.record q.1 q.2) (Hist.init : Hist P)).best.lt f then
          .ok ⟨(t.foldl (fun h q => h.record q.1 q.2) Hist.init).bestP,
            (t.foldl (fun h q => h.record q.1 q.2) (Hist.init : Hist P)).best, false,
            (t.foldl (fun h q => h.record q.1 q.2) Hist.init).params,
            (t.foldl (fun h q => h.record q.1 q.2) (Hist.init : Hist P)).values⟩
        else .ok ⟨some x, f, true,
            (t.foldl (fun h q => h.record q.1 q.2) Hist.init).params,
            (t.foldl (fun h q => h.record q.1 q.2) (Hist.init : Hist P)).values⟩) := by
      unfold autoselect
      cases m with
      | unknown => exact absurd rfl hm
      | lbfgsb => simp only [h2]
      | slsqp => simp only [h2]
    rw [hA]
    by_cases hlt : (t.foldl (fun h q => h.record q.1 q.2) (Hist.init : Hist P)).best.lt f
    · rw [if_pos hlt]
      rw [hb1] at hlt ⊢
      have hbt : b < ⊤ := by
        cases f with
        | nan => simp at hlt
        | num v => exact lt_of_lt_of_le hlt le_top
      obtain ⟨p, h4, h5⟩ := hb2 hbt
      refine ⟨_, p, rfl, h4, hp1, hp2,
        (fun h => by cases h), (fun _ => ⟨h5, hlt⟩), ?_⟩
      intro v _ q hq w hw
      exact hb3 q hq w hw
    · rw [if_neg hlt]
      refine ⟨_, x, rfl, rfl, hp1, hp2,
        fun _ => ⟨rfl, rfl⟩, (fun h => by cases h), ?_⟩
      rintro v rfl q hq w hw
      rw [hb1] at hlt
      exact le_trans (not_lt.mp hlt) (hb3 q hq w hw)
  · exact absurd h1 (plays_not_raises hp)

/-- **C41** is false when the optimiser's final value is NaN: the comparison is false,
so the NaN answer is returned although a finite value was recorded, and it is flagged
as best. -/
theorem autoselect_best_false :
    ∃ (crit : ℝ → Py Flt) (sv : Solver ℝ) (t : List (ℝ × Flt)) (x : ℝ),
      Plays crit sv t x .nan ∧ (∃ p, (p, Flt.fin 0) ∈ t) ∧
      ∃ r, autoselect crit sv .slsqp = .ok r ∧ r.x = some x ∧ r.f = .nan ∧ r.bestReturned = true := by
  classical
  have hp : Plays (fun p : ℝ => .ok (if p = 1 then Flt.fin 0 else .nan))
      (.ask 1 fun _ => .ask 2 fun J => .stop 2 J) [(1, .fin 0), (2, .nan)] 2 .nan := by
    refine .ask _ _ _ _ _ _ (Or.inl (by simp)) (.ask _ _ _ _ _ _ (Or.inl ?_) (.stop _ _))
    norm_num
  refine ⟨_, _, _, _, hp, ⟨1, by simp⟩, ?_⟩
  obtain ⟨r, y, h1, h2, _, _, h3, h4, _⟩ := autoselect_best_partial _ _ .slsqp (by simp) _ _ _ hp
  have hb : r.bestReturned = true := by
    cases hb : r.bestReturned with
    | true => rfl
    | false => simpa using (h4 hb).2
  obtain ⟨rfl, h5⟩ := h3 hb
  exact ⟨r, h1, h2, h5, hb⟩

/-- **C41** Consequence: constraints that hold of the optimiser's answer and of every
point it evaluates (bounds, say) hold of the point returned. -/
theorem autoselect_feasible {P : Type} (crit : P → Py Flt) (sv : Solver P) (m : Method)
    (t : List (P × Flt)) (x : P) (f : Flt) (hp : Plays crit sv t x f)
    (C : P → Prop) (hx : C x) (ht : ∀ q ∈ t, C q.1) (r : OptResult P)
    (hr : autoselect crit sv m = .ok r) : ∃ y, r.x = some y ∧ C y := by
  have hm : m ≠ .unknown := by rintro rfl; cases hr
  obtain ⟨r', y, h1, h2, _, _, h3, h4, _⟩ := autoselect_best_partial crit sv m hm t x f hp
  rw [hr] at h1
  obtain rfl := Except.ok.inj h1
  refine ⟨y, h2, ?_⟩
  cases hb : r.bestReturned with
  | true => rw [(h3 hb).1]; exact hx
  | false => exact ht _ (h4 hb).1

/-! ## C42 -/

/-- **C42** The search raises exactly when it reaches an evaluation that raises
something else than a linear-algebra error, and then raises just that; with a known
method it returns otherwise. -/
theorem autoselect_error {P : Type} (crit : P → Py Flt) (sv : Solver P) (m : Method)
    (hm : m ≠ .unknown) (e : PyErr) :
    autoselect crit sv m = .error e ↔ Raises crit sv e := by
  rcases runSolver_cases crit sv .init with ⟨t, x, f, h1, h2⟩ | ⟨e', h', h1, h2⟩
  · obtain ⟨r, y, h3, _⟩ := autoselect_best_partial crit sv m hm t x f h1
    rw [h3]
    constructor
    · intro h; cases h
    · intro h; exact absurd h (plays_not_raises h1)
  · have : autoselect crit sv m = .error e' := by
      unfold autoselect
      cases m with
      | unknown => exact absurd rfl hm
      | lbfgsb => simp only [h2]
      | slsqp => simp only [h2]
    rw [this]
    have uniq : ∀ {sv : Solver P} {e e' : PyErr}, Raises crit sv e → Raises crit sv e' → e = e' := by
      clear h1 h2 this
      intro sv e e' h h'
      induction h with
      | here p k e he hne =>
        cases h' with
        | here _ _ _ he' hne' => rw [he] at he'; exact Except.error.inj he'
        | later _ _ J _ hJ _ =>
          rcases hJ with h | ⟨h, _⟩
          · rw [h] at he; cases he
          · rw [h] at he; exact absurd (Except.error.inj he).symm hne
      | later p k J e hJ hr ih =>
        cases h' with
        | here _ _ _ he hne =>
          rcases hJ with h | ⟨h, _⟩
          · rw [h] at he; cases he
          · rw [h] at he; exact absurd (Except.error.inj he).symm hne
        | later _ _ J' _ hJ' hr' =>
          obtain rfl := evalsTo_unique hJ hJ'
          exact ih hr'
    constructor
    · intro h; cases h; exact h1
    · intro h; rw [uniq h h1]

/-- **C42** In particular no linear-algebra error of the criterion aborts the search. -/
theorem autoselect_no_linalg {P : Type} (crit : P → Py Flt) (sv : Solver P) (m : Method) :
    autoselect crit sv m ≠ .error .linAlgError := by
  by_cases hm : m = .unknown
  · subst hm
    intro h
    cases h
  · intro h
    have hr := (autoselect_error crit sv m hm .linAlgError).1 h
    have : ∀ {sv : Solver P} {e : PyErr}, Raises crit sv e → e ≠ .linAlgError := by
      intro sv e h
      induction h with
      | here _ _ _ _ hne => exact hne
      | later _ _ _ _ _ _ ih => exact ih
    exact this hr rfl

/-- Concrete case: a failing evaluation is recorded as `+inf` and the search goes on. -/
example : ∃ r, autoselect (fun p : Nat => if p = 0 then .error .linAlgError else .ok (.fin 3))
    (.ask 0 fun _ => .ask 1 fun J => .stop 1 J) .slsqp = .ok r ∧
    r.values = [.num ⊤, .fin 3] ∧ r.x = some 1 := by
  have hp : Plays (fun p : Nat => if p = 0 then .error .linAlgError else .ok (Flt.fin 3))
      (.ask 0 fun _ => .ask 1 fun J => .stop 1 J) [(0, .num ⊤), (1, .fin 3)] 1 (.fin 3) :=
    .ask _ _ _ _ _ _ (Or.inr ⟨by simp, rfl⟩) (.ask _ _ _ _ _ _ (Or.inl (by simp)) (.stop _ _))
  obtain ⟨r, y, h1, h2, _, h3, h4, h5, _⟩ := autoselect_best_partial _ _ .slsqp (by simp) _ _ _ hp
  refine ⟨r, h1, h3, ?_⟩
  cases hb : r.bestReturned with
  | true => rw [h2, (h4 hb).1]
  | false =>
    have := (h5 hb).1
    have h6 := (h5 hb).2
    simp only [List.mem_cons, Prod.mk.injEq, List.not_mem_nil, or_false] at this
    rcases this with ⟨_, h⟩ | ⟨h, _⟩
    · rw [h] at h6
      simp [Flt.fin] at h6
    · rw [h2, h]

/-! ## C44 -/

/-- **C44** is false: for a starting value beyond 510 (default width) the automatic
lower bound exceeds the upper bound. -/
theorem autoBounds_false :
    ¬ (∀ p : ℝ, (autoBounds 10 p).1 ≤ p ∧ p ≤ (autoBounds 10 p).2 ∧
      (autoBounds 10 p).1 ≤ (autoBounds 10 p).2) := by
  intro H
  have h := (H 600).2.2
  simp only [autoBounds] at h
  norm_num at h

/-- **C44** What holds: with a nonnegative width the start is feasible exactly when
its absolute value is at most 500, and the bounds are ordered exactly when it is at
most `500 + delta`; the width never exceeds `2 delta`. -/
theorem autoBounds_partial (delta p : ℝ) (hd : 0 ≤ delta) :
    (((autoBounds delta p).1 ≤ p ∧ p ≤ (autoBounds delta p).2) ↔ |p| ≤ 500) ∧
    ((autoBounds delta p).1 ≤ (autoBounds delta p).2 ↔ |p| ≤ 500 + delta) ∧
    -500 ≤ (autoBounds delta p).1 ∧ (autoBounds delta p).2 ≤ 500 ∧
    p - delta ≤ (autoBounds delta p).1 ∧ (autoBounds delta p).2 ≤ p + delta := by
  simp only [autoBounds, max_le_iff, le_min_iff, abs_le]
  refine ⟨⟨?_, ?_⟩, ⟨?_, ?_⟩, le_max_right _ _, min_le_right _ _, le_max_left _ _, min_le_left _ _⟩
  · rintro ⟨⟨_, h1⟩, _, h2⟩; exact ⟨h1, h2⟩
  · rintro ⟨h1, h2⟩; exact ⟨⟨by linarith, h1⟩, by linarith, h2⟩
  · rintro ⟨⟨h1, h2⟩, h3, h4⟩; constructor <;> linarith
  · rintro ⟨h1, h2⟩; refine ⟨⟨?_, ?_⟩, ?_, ?_⟩ <;> linarith

/-! ## C93: data source -/

/-- **C93** The arguments are accepted exactly when either both arrays are given and
no loader, or a loader is given and not both arrays; the arrays are then used only in
the first case (one array beside a loader is ignored). -/
theorem checkSource_spec {X Z L : Type} (xi : Option X) (zi : Option Z) (l : Option L) :
    (checkSource xi zi l = .ok true ↔ xi.isSome ∧ zi.isSome ∧ l = none) ∧
    (checkSource xi zi l = .ok false ↔ ¬ (xi.isSome ∧ zi.isSome) ∧ l.isSome) ∧
    (∀ e, checkSource xi zi l = .error e → e = .valueError) := by
  cases xi <;> cases zi <;> cases l <;> simp [checkSource]

/-! ## C43 -/

/-- Slices at the end of the first part split a concatenation. -/
theorem pyTo_append {α : Type} (a b : List α) : pyTo (a ++ b) (a.length : Int) = a := by
  simp [pyTo]

theorem pyFrom_append {α : Type} (a b : List α) : pyFrom (a ++ b) (a.length : Int) = b := by
  simp [pyFrom]

theorem pyTo_pyFrom {α : Type} (l : List α) (k : Int) : pyTo l k ++ pyFrom l k = l := by
  unfold pyTo pyFrom
  split <;> simp

/-- Unfolding of a successful selection. -/
theorem selectWith_ok {crit : Option (List ℝ) → List ℝ → Py Flt} {guess : Py (List ℝ)}
    {solver : List ℝ → Solver (List ℝ)} {a : SelArgs} {m : MParams}
    {m' : MParams} {r : OptResult (List ℝ)}
    (h : selectWith crit guess solver a m = .ok (m', r)) :
    ∃ src cov0 param0 x, checkSource a.xi a.zi a.loader = .ok src ∧
      (a.cov0 = some cov0 ∨ (a.cov0 = none ∧ guess = .ok cov0)) ∧
      ((a.parameterized = true ∧ ∃ m0, a.mean0 = some m0 ∧ param0 = m0 ++ cov0) ∨
        (a.parameterized = false ∧ param0 = cov0)) ∧
      autoselect (critAdapter crit a.parameterized a.meanLen) (solver param0) a.method = .ok r ∧
      r.x = some x ∧
      m' = (if a.parameterized then
        ⟨some (pyTo x a.meanLen), some (pyFrom x a.meanLen)⟩ else { m with cov := some x }) := by
  unfold selectWith at h
  cases hs : checkSource a.xi a.zi a.loader with
  | error e => rw [hs] at h; cases h
  | ok src =>
    rw [hs] at h
    have key : ∀ cov0 : List ℝ, (do
        let param0 ← if a.parameterized then
            match a.mean0 with
            | none => (.error .valueError : Py (List ℝ))
            | some m0 => pure (m0 ++ cov0)
          else pure cov0
        let r ← autoselect (critAdapter crit a.parameterized a.meanLen) (solver param0) a.method
        match r.x with
        | none => (.error .typeError : Py (MParams × OptResult (List ℝ)))
        | some x =>
          if a.parameterized then
            pure (⟨some (pyTo x a.meanLen), some (pyFrom x a.meanLen)⟩, r)
          else pure ({ m with cov := some x }, r)) = .ok (m', r) →
        ∃ param0 x, ((a.parameterized = true ∧ ∃ m0, a.mean0 = some m0 ∧ param0 = m0 ++ cov0) ∨
          (a.parameterized = false ∧ param0 = cov0)) ∧
        autoselect (critAdapter crit a.parameterized a.meanLen) (solver param0) a.method = .ok r ∧
        r.x = some x ∧
        m' = (if a.parameterized then
          ⟨some (pyTo x a.meanLen), some (pyFrom x a.meanLen)⟩ else { m with cov := some x }) := by
      intro cov0 h
      cases hpar : a.parameterized with
      | true =>
        simp only [hpar, if_true] at h
        cases hm : a.mean0 with
        | none => rw [hm] at h; cases h
        | some m0 =>
          simp only [hm] at h
          cases hau : autoselect (critAdapter crit true a.meanLen) (solver (m0 ++ cov0)) a.method with
          | error e =>
            rw [pure_bind, hau] at h; cases h
          | ok r0 =>
            rw [pure_bind, hau] at h
            change (match r0.x with
              | none => (.error .typeError : Py (MParams × OptResult (List ℝ)))
              | some x => pure (⟨some (pyTo x a.meanLen), some (pyFrom x a.meanLen)⟩, r0)) = _ at h
            cases hx : r0.x with
            | none => rw [hx] at h; cases h
            | some x =>
              rw [hx] at h
              obtain ⟨h1, h2⟩ := Prod.mk.inj (Except.ok.inj h)
              subst h2
              exact ⟨m0 ++ cov0, x, Or.inl ⟨rfl, m0, rfl, rfl⟩, hau, hx, by simp [← h1]⟩
      | false =>
        simp only [hpar, Bool.false_eq_true, if_false] at h
        cases hau : autoselect (critAdapter crit false a.meanLen) (solver cov0) a.method with
        | error e =>
          rw [pure_bind, hau] at h; cases h
        | ok r0 =>
          rw [pure_bind, hau] at h
          change (match r0.x with
            | none => (.error .typeError : Py (MParams × OptResult (List ℝ)))
            | some x => pure ({ m with cov := some x }, r0)) = _ at h
          cases hx : r0.x with
          | none => rw [hx] at h; cases h
          | some x =>
            rw [hx] at h
            obtain ⟨h1, h2⟩ := Prod.mk.inj (Except.ok.inj h)
            subst h2
            exact ⟨cov0, x, Or.inr ⟨rfl, rfl⟩, hau, hx, by simp [← h1]⟩
    cases hc : a.cov0 with
    | some c =>
      rw [hc] at h
      obtain ⟨p0, x, h1, h2, h3, h4⟩ := key c h
      exact ⟨src, c, p0, x, rfl, Or.inl rfl, h1, h2, h3, h4⟩
    | none =>
      rw [hc] at h
      cases hg : guess with
      | error e => rw [hg] at h; cases h
      | ok c =>
        rw [hg] at h
        obtain ⟨p0, x, h1, h2, h3, h4⟩ := key c h
        exact ⟨src, c, p0, x, rfl, Or.inr ⟨rfl, rfl⟩, h1, h2, h3, h4⟩

/-- **C43** Suppose the optimiser keeps the length of its vector and `meanparam_len`
is the number of mean parameters given.  Then the criterion sees the starting vector
as `(meanparam0, covparam0)`, the stored parameters have the lengths of the initial
ones, together they are the vector selected, and the criterion at the stored
parameters is the adapter's value at that vector. -/
theorem selectWith_split_partial (crit : Option (List ℝ) → List ℝ → Py Flt) (guess : Py (List ℝ))
    (solver : List ℝ → Solver (List ℝ)) (a : SelArgs) (m m' : MParams)
    (r : OptResult (List ℝ)) (h : selectWith crit guess solver a m = .ok (m', r))
    (hpar : a.parameterized = true) (m0 : List ℝ) (hm0 : a.mean0 = some m0)
    (hlen : a.meanLen = m0.length) :
    ∃ cov0 x mean cov,
      (a.cov0 = some cov0 ∨ (a.cov0 = none ∧ guess = .ok cov0)) ∧
      critAdapter crit true a.meanLen (m0 ++ cov0) = crit (some m0) cov0 ∧
      r.x = some x ∧ m'.mean = some mean ∧ m'.cov = some cov ∧ mean ++ cov = x ∧
      critAdapter crit true a.meanLen x = crit (some mean) cov ∧
      (x.length = (m0 ++ cov0).length → mean.length = m0.length ∧ cov.length = cov0.length) := by
  obtain ⟨src, cov0, p0, x, _, h1, h2, _, h4, h5⟩ := selectWith_ok h
  refine ⟨cov0, x, pyTo x a.meanLen, pyFrom x a.meanLen, h1, ?_, h4, ?_, ?_, pyTo_pyFrom _ _, ?_, ?_⟩
  · unfold critAdapter
    rw [if_pos rfl, hlen, pyTo_append, pyFrom_append]
  · rw [h5, hpar]; rfl
  · rw [h5, hpar]; rfl
  · unfold critAdapter
    rw [if_pos rfl]
  · intro hx
    rw [List.length_append] at hx
    rw [hlen]
    simp only [pyTo, pyFrom, Int.natCast_nonneg, if_true, Int.toNat_natCast, List.length_take,
      List.length_drop]
    omega

/-- **C43** Without mean parameters the mean of the model is untouched and the
covariance parameters are the vector selected. -/
theorem selectWith_cov_only (crit : Option (List ℝ) → List ℝ → Py Flt) (guess : Py (List ℝ))
    (solver : List ℝ → Solver (List ℝ)) (a : SelArgs) (m m' : MParams)
    (r : OptResult (List ℝ)) (h : selectWith crit guess solver a m = .ok (m', r))
    (hpar : a.parameterized = false) : m'.mean = m.mean ∧ m'.cov = r.x := by
  obtain ⟨src, cov0, p0, x, _, h1, h2, _, h4, h5⟩ := selectWith_ok h
  rw [h5, hpar, h4]
  exact ⟨rfl, rfl⟩

/-- **C43** is false in general: `meanparam_len` (default 1) is not checked against
the initial mean parameters, so updating a model with two mean parameters and default
arguments moves the second one to the covariance parameters, even if the optimiser
returns the starting point. -/
theorem update_split_false :
    ∃ (crit : Option (List ℝ) → List ℝ → Py Flt) (solver : List ℝ → Solver (List ℝ)) (m m' : MParams)
      (r : OptResult (List ℝ)),
      updateWith crit (.ok []) solver ⟨some (), some (), none, none, none, true, 1, .slsqp⟩ m =
        .ok (m', r) ∧
      m = ⟨some [1, 2], some [3, 4]⟩ ∧ r.x = some [1, 2, 3, 4] ∧
      m' = ⟨some [1], some [2, 3, 4]⟩ := by
  refine ⟨fun _ _ => .ok (.fin 0), fun p => .stop p (.fin 0), ⟨some [1, 2], some [3, 4]⟩,
    ⟨some [1], some [2, 3, 4]⟩, ⟨some [1, 2, 3, 4], .fin 0, true, [], []⟩, ?_, rfl, rfl, rfl⟩
  have hau : autoselect (critAdapter (fun _ _ => (.ok (.fin 0) : Py Flt)) true 1)
      ((fun p => .stop p (.fin 0)) ([1, 2] ++ [3, 4] : List ℝ)) .slsqp =
      .ok ⟨some [1, 2, 3, 4], .fin 0, true, [], []⟩ := by
    simp [autoselect, runSolver, Hist.init, Flt.fin]
  unfold updateWith selectWith
  simp only [if_true]
  change (autoselect (critAdapter (fun _ _ => (.ok (.fin 0) : Py Flt)) true 1)
      ((fun p => .stop p (.fin 0)) ([1, 2] ++ [3, 4] : List ℝ)) .slsqp >>= _) = _
  rw [hau]
  rfl

/-! ## C95: constant-mean maximum likelihood -/

/-- **C95** `select_parameters_with_ml_constant_mean` refuses a model whose mean is
not parameterised, and any initial mean with other than one entry; otherwise it keeps
the values given by the user, fills the missing ones from one initial guess, and
selects with one mean parameter. -/
theorem selectMlConstant_spec (isParam : Bool) (nll : Option (List ℝ) → List ℝ → Py Flt)
    (guess : Py (List ℝ × List ℝ)) (guessCov : Py (List ℝ))
    (solver : List ℝ → Solver (List ℝ)) (a : SelArgs) (m m' : MParams) (r : OptResult (List ℝ))
    (h : selectMlConstant isParam nll guess guessCov solver a m = .ok (m', r)) :
    isParam = true ∧ ∃ m0 c0, m0.length = 1 ∧
      (∀ u, a.mean0 = some u → m0 = u) ∧ (∀ u, a.cov0 = some u → c0 = u) ∧
      (a.mean0 = none → ∃ g, guess = .ok g ∧ m0 = g.1) ∧
      (a.cov0 = none → ∃ g, guess = .ok g ∧ c0 = g.2) ∧
      selectWith nll guessCov solver
        { a with mean0 := some m0, cov0 := some c0, parameterized := true, meanLen := 1 } m =
          .ok (m', r) := by
  unfold selectMlConstant at h
  cases isParam with
  | false => cases h
  | true =>
    refine ⟨rfl, ?_⟩
    have key : ∀ mc : List ℝ × List ℝ, (do
        if mc.1.length ≠ 1 then (.error .valueError : Py PUnit)
        selectWith nll guessCov solver
          { a with mean0 := some mc.1, cov0 := some mc.2, parameterized := true, meanLen := 1 } m) =
        .ok (m', r) → mc.1.length = 1 ∧ selectWith nll guessCov solver
          { a with mean0 := some mc.1, cov0 := some mc.2, parameterized := true, meanLen := 1 } m =
          .ok (m', r) := by
      intro mc h
      by_cases hl : mc.1.length = 1
      · refine ⟨hl, ?_⟩
        simp only [hl, ne_eq, not_true_eq_false, if_false] at h
        exact h
      · simp only [ne_eq, hl, not_false_eq_true, if_true] at h
        cases h
    cases hm : a.mean0 with
    | some u =>
      cases hc : a.cov0 with
      | some v =>
        rw [hm, hc] at h
        obtain ⟨h1, h2⟩ := key (u, v) h
        refine ⟨u, v, h1, ?_, ?_, ?_, ?_, h2⟩
        · intro w hw; exact Option.some.inj hw
        · intro w hw; exact Option.some.inj hw
        · intro hn; cases hn
        · intro hn; cases hn
      | none =>
        rw [hm, hc] at h
        cases hg : guess with
        | error e => rw [hg] at h; cases h
        | ok g =>
          rw [hg] at h
          obtain ⟨h1, h2⟩ := key (u, g.2) h
          refine ⟨u, g.2, h1, ?_, ?_, ?_, ?_, h2⟩
          · intro w hw; exact Option.some.inj hw
          · intro w hw; cases hw
          · intro hn; cases hn
          · intro _; exact ⟨g, rfl, rfl⟩
    | none =>
      rw [hm] at h
      cases hg : guess with
      | error e => rw [hg] at h; cases h
      | ok g =>
        rw [hg] at h
        obtain ⟨h1, h2⟩ := key (g.1, a.cov0.getD g.2) h
        refine ⟨g.1, a.cov0.getD g.2, h1, ?_, ?_, ?_, ?_, h2⟩
        · intro w hw; cases hw
        · intro w hw; rw [hw]; rfl
        · intro _; exact ⟨g, rfl, rfl⟩
        · intro hn; exact ⟨g, rfl, by rw [hn]; rfl⟩

/-- **C95** Refusals come before anything else is computed. -/
theorem selectMlConstant_refuses (nll : Option (List ℝ) → List ℝ → Py Flt)
    (guess : Py (List ℝ × List ℝ)) (guessCov : Py (List ℝ))
    (solver : List ℝ → Solver (List ℝ)) (a : SelArgs) (m : MParams) :
    selectMlConstant false nll guess guessCov solver a m = .error .valueError ∧
    (∀ u v, a.mean0 = some u → a.cov0 = some v → u.length ≠ 1 →
      selectMlConstant true nll guess guessCov solver a m = .error .valueError) := by
  refine ⟨rfl, ?_⟩
  intro u v hu hv hl
  unfold selectMlConstant
  rw [hu, hv]
  have : (pure (u, v) : Py (List ℝ × List ℝ)) = .ok (u, v) := rfl
  simp only [Bool.not_true, Bool.false_eq_true, if_false, this]
  change (if u.length ≠ 1 then _ else _) = _
  rw [if_pos hl]
  rfl

end Verif.Kernel
