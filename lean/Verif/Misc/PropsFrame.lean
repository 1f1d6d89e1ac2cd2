import Verif.Misc.DataFrame
import Mathlib.Tactic.Linarith
import Mathlib.Data.List.Basic

/-!
# Properties of data frames

Indexing, assignment, growth and display.  `Entry h f r c a` is the specification: the entry in
the first row named `r` and the first column named `c` is `a`.
-/

set_option autoImplicit false

namespace Verif.DataFrame

open Verif

variable {α : Type}

theorem bind_ok {β γ : Type} {a : Py β} {f : β → Py γ} {b : γ} (h : (a >>= f) = .ok b) :
    ∃ x, a = .ok x ∧ f x = .ok b := by
  cases a with
  | error e => cases h
  | ok x => exact ⟨x, rfl, h⟩

/-! ## Specification -/

/-- The position of the first occurrence of a name. -/
def FirstAt (l : List String) (s : String) (i : ℕ) : Prop :=
  l[i]? = some s ∧ ∀ j < i, l[j]? ≠ some s

/-- A frame whose data have two axes, with one name for each row and for each column, kept in
two different lists. -/
structure WF (h : Heap) (f : Frame α) (c : ℕ) (rows : List (List α)) : Prop where
  data : f.data = .mat c rows
  rect : ∀ row ∈ rows, row.length = c
  rown : (h.get f.rows).length = rows.length
  coln : (h.get f.cols).length = c
  ne : f.rows ≠ f.cols
  lr : f.rows < h.next
  lc : f.cols < h.next

/-- Entry at given positions. -/
def at2 (rows : List (List α)) (i j : ℕ) : Option α := rows[i]?.bind fun row => row[j]?

/-! ## Positions -/

theorem indexOf_iff (l : List String) (s : String) (i : ℕ) : indexOf l s = .ok i ↔ FirstAt l s i := by
  unfold indexOf FirstAt
  cases h : l.findIdx? (· = s) with
  | none =>
    rw [List.findIdx?_eq_none_iff] at h
    constructor
    · intro h'; cases h'
    · rintro ⟨h', _⟩
      have := h s (List.mem_of_getElem? h')
      simp at this
  | some k =>
    rw [List.findIdx?_eq_some_iff_getElem] at h
    obtain ⟨hk, h1, h2⟩ := h
    simp only [decide_eq_true_eq] at h1 h2
    have hk1 : l[k]? = some s := by rw [List.getElem?_eq_getElem hk, h1]
    have hk2 : ∀ j < k, l[j]? ≠ some s := by
      intro j hj e
      rw [List.getElem?_eq_getElem (hj.trans hk)] at e
      exact h2 j hj (Option.some.inj e)
    constructor
    · intro e
      injection e with e
      subst e
      exact ⟨hk1, hk2⟩
    · rintro ⟨h3, h4⟩
      refine congrArg Except.ok ?_
      rcases lt_trichotomy k i with hlt | heq | hgt
      · exact absurd hk1 (h4 k hlt)
      · exact heq
      · exact absurd h3 (hk2 i hgt)

theorem indexOf_error (l : List String) (s : String) : (∃ e, indexOf l s = .error e) ↔ s ∉ l := by
  unfold indexOf
  cases h : l.findIdx? (· = s) with
  | none =>
    rw [List.findIdx?_eq_none_iff] at h
    refine ⟨fun _ hm => ?_, fun _ => ⟨_, rfl⟩⟩
    have := h s hm
    simp at this
  | some k =>
    rw [List.findIdx?_eq_some_iff_getElem] at h
    obtain ⟨hk, h1, _⟩ := h
    simp only [decide_eq_true_eq] at h1
    constructor
    · rintro ⟨e, h'⟩; cases h'
    · intro hn; exact absurd (h1 ▸ List.getElem_mem hk) hn

theorem firstAt_lt {l : List String} {s : String} {i : ℕ} (h : FirstAt l s i) : i < l.length :=
  (List.getElem?_eq_some_iff.mp h.1).1

theorem firstAt_mem {l : List String} {s : String} {i : ℕ} (h : FirstAt l s i) : s ∈ l :=
  List.mem_of_getElem? h.1

/-! ## Slices -/

theorem bound_pos {n : ℕ} {v : Option ℤ} {d : ℤ} (hd : 0 ≤ d ∧ d ≤ n) :
    0 ≤ Sl.bound n 0 n d v ∧ Sl.bound n 0 n d v ≤ n := by
  unfold Sl.bound
  cases v with
  | none => exact hd
  | some v => dsimp only; split_ifs <;> omega

theorem bound_neg {n : ℕ} {v : Option ℤ} {d : ℤ} (hd : -1 ≤ d ∧ d ≤ n - 1) :
    -1 ≤ Sl.bound n (-1) (n - 1) d v ∧ Sl.bound n (-1) (n - 1) d v ≤ n - 1 := by
  unfold Sl.bound
  cases v with
  | none => exact hd
  | some v => dsimp only; split_ifs <;> omega

/-- **C64** A slice selects positions of the sequence only, each at most once. -/
theorem slice_valid {s : Sl} {n : ℕ} {l : List ℕ} (h : s.indices n = .ok l) :
    (∀ i ∈ l, i < n) ∧ l.Nodup := by
  unfold Sl.indices at h
  dsimp only at h
  generalize s.step.getD 1 = st at h
  by_cases h0 : st = 0
  · rw [if_pos h0] at h; cases h
  rw [if_neg h0] at h
  by_cases h1 : 0 < st
  · rw [if_pos h1] at h
    injection h with h
    obtain ⟨a0, a1⟩ := bound_pos (n := n) (v := s.start) (d := 0) (by omega)
    obtain ⟨b0, b1⟩ := bound_pos (n := n) (v := s.stop) (d := n) (by omega)
    generalize Sl.bound n 0 n 0 s.start = a at *
    generalize Sl.bound n 0 n n s.stop = b at *
    have key : ∀ k : ℕ, k < (if a < b then ((b - a - 1) / st + 1).toNat else 0) → 0 ≤ a + k * st ∧ a + k * st < b := by
      intro k hk
      split_ifs at hk with hab
      · have h2 : (k : ℤ) ≤ (b - a - 1) / st := by
          have := Int.ediv_nonneg (a := b - a - 1) (b := st) (by omega) h1.le
          omega
        have h3 : (k : ℤ) * st ≤ b - a - 1 := (Int.le_ediv_iff_mul_le h1).mp h2
        have h4 : 0 ≤ (k : ℤ) * st := mul_nonneg (by omega) h1.le
        omega
      · omega
    subst h
    constructor
    · intro i hi
      obtain ⟨k, hk, rfl⟩ := List.mem_map.mp hi
      have := key k (List.mem_range.mp hk)
      omega
    · refine List.Nodup.map_on ?_ List.nodup_range
      intro k hk k' hk' e
      have e1 := key k (List.mem_range.mp hk)
      have e2 := key k' (List.mem_range.mp hk')
      have e3 : (k : ℤ) * st = k' * st := by omega
      exact_mod_cast mul_right_cancel₀ h1.ne' e3
  · rw [if_neg h1] at h
    injection h with h
    obtain ⟨a0, a1⟩ := bound_neg (n := n) (v := s.start) (d := n - 1) (by omega)
    obtain ⟨b0, b1⟩ := bound_neg (n := n) (v := s.stop) (d := -1) (by omega)
    generalize Sl.bound n (-1) (n - 1) (n - 1) s.start = a at *
    generalize Sl.bound n (-1) (n - 1) (-1) s.stop = b at *
    have hst : 0 < -st := by omega
    have key : ∀ k : ℕ, k < (if b < a then ((a - b - 1) / (-st) + 1).toNat else 0) → b < a + k * st ∧ a + k * st ≤ a := by
      intro k hk
      split_ifs at hk with hab
      · have h2 : (k : ℤ) ≤ (a - b - 1) / (-st) := by
          have := Int.ediv_nonneg (a := a - b - 1) (b := -st) (by omega) hst.le
          omega
        have h3 : (k : ℤ) * (-st) ≤ a - b - 1 := (Int.le_ediv_iff_mul_le hst).mp h2
        have h4 : 0 ≤ (k : ℤ) * (-st) := mul_nonneg (by omega) hst.le
        have h5 : (k : ℤ) * (-st) = -(k * st) := by ring
        omega
      · omega
    subst h
    constructor
    · intro i hi
      obtain ⟨k, hk, rfl⟩ := List.mem_map.mp hi
      have := key k (List.mem_range.mp hk)
      omega
    · refine List.Nodup.map_on ?_ List.nodup_range
      intro k hk k' hk' e
      have e1 := key k (List.mem_range.mp hk)
      have e2 := key k' (List.mem_range.mp hk')
      have e3 : (k : ℤ) * st = k' * st := by omega
      exact_mod_cast mul_right_cancel₀ h0 e3

/-- `:` selects everything in order. -/
theorem slice_all (n : ℕ) : Sl.all.indices n = .ok (List.range n) := by
  unfold Sl.all Sl.indices
  simp only [Option.getD_none, one_ne_zero, if_false, zero_lt_one, if_true, Sl.bound, Int.ediv_one]
  congr 1
  have : (if (0 : ℤ) < n then ((n : ℤ) - 0 - 1 + 1).toNat else 0) = n := by
    split_ifs with h
    · simp
    · omega
  rw [this]
  conv_rhs => rw [← List.map_id (List.range n)]
  refine List.map_congr_left fun k _ => ?_
  simp

/-- `a:b` selects `a, …, b - 1`. -/
theorem slice_range {a b n : ℕ} (hab : a ≤ b) (hb : b ≤ n) :
    Sl.indices ⟨some a, some b, none⟩ n = .ok (List.range' a (b - a)) := by
  unfold Sl.indices
  simp only [Option.getD_none, one_ne_zero, if_false, zero_lt_one, if_true, Sl.bound, Int.ediv_one]
  have e1 : ¬ (a : ℤ) < 0 := by omega
  have e2 : ¬ (b : ℤ) < 0 := by omega
  have e3 : min (a : ℤ) n = a := min_eq_left (by omega)
  have e4 : min (b : ℤ) n = b := min_eq_left (by omega)
  rw [if_neg e1, if_neg e2, e3, e4]
  congr 1
  have : (if (a : ℤ) < b then ((b : ℤ) - a - 1 + 1).toNat else 0) = b - a := by
    split_ifs with h <;> omega
  rw [this, List.range'_eq_map_range]
  refine List.map_congr_left fun k _ => ?_
  omega

/-- `::-1` reverses. -/
example : Sl.indices ⟨none, none, some (-1)⟩ 3 = .ok [2, 1, 0] := by decide
/-- `1::2`. -/
example : Sl.indices ⟨some 1, none, some 2⟩ 6 = .ok [1, 3, 5] := by decide
/-- `-2:`. -/
example : Sl.indices ⟨some (-2), none, none⟩ 3 = .ok [1, 2] := by decide

theorem pick_valid {β : Type} (l : List β) {idx : List ℕ} (h : ∀ i ∈ idx, i < l.length) :
    (pick l idx).length = idx.length ∧
    ∀ k : ℕ, (pick l idx)[k]? = idx[k]?.bind fun i => l[i]? := by
  unfold pick
  induction idx with
  | nil => simp
  | cons i t ih =>
    have hi := h i List.mem_cons_self
    obtain ⟨h1, h2⟩ := ih fun j hj => h j (List.mem_cons_of_mem _ hj)
    rw [List.filterMap_cons, List.getElem?_eq_getElem hi]
    refine ⟨by simp [h1], fun k => ?_⟩
    cases k with
    | zero => simp [hi]
    | succ k => simpa using h2 k

theorem pick_range {β : Type} (l : List β) : pick l (List.range l.length) = l := by
  apply List.ext_getElem?
  intro k
  rw [(pick_valid l fun i hi => List.mem_range.mp hi).2]
  by_cases hk : k < l.length
  · rw [List.getElem?_range hk]; rfl
  · rw [List.getElem?_eq_none (by simpa using hk), List.getElem?_eq_none (by simpa using hk)]; rfl

end Verif.DataFrame
