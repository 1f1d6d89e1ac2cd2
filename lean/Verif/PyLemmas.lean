import Verif.Py
import Mathlib.Data.List.Forall2

/-! Generic lemmas about `Except`-valued list traversals. -/

namespace Verif

theorem mapM_ok {α β ε : Type} (f : α → Except ε β) (P : α → β → Prop) (l : List α)
    (h : ∀ a ∈ l, ∃ b, f a = .ok b ∧ P a b) :
    ∃ bs, l.mapM f = .ok bs ∧ List.Forall₂ P l bs := by
  induction l with
  | nil => exact ⟨[], rfl, .nil⟩
  | cons a l ih =>
    obtain ⟨b, hb, hP⟩ := h a List.mem_cons_self
    obtain ⟨bs, hbs, hF⟩ := ih (fun a' ha' => h a' (List.mem_cons_of_mem _ ha'))
    refine ⟨b :: bs, ?_, .cons hP hF⟩
    rw [List.mapM_cons, hb, hbs]; rfl

theorem mapM_ok_of_fun {α β ε : Type} (f : α → Except ε β) (g : α → β) (l : List α)
    (h : ∀ a ∈ l, f a = .ok (g a)) : l.mapM f = .ok (l.map g) := by
  induction l with
  | nil => rfl
  | cons a l ih =>
    rw [List.mapM_cons, h a List.mem_cons_self, ih (fun a' ha' => h a' (List.mem_cons_of_mem _ ha'))]
    rfl

theorem mapM_error_of_mem {α β ε : Type} (f : α → Except ε β) (l : List α) (a : α) (e : ε)
    (ha : a ∈ l) (h : f a = .error e) : ∃ e', l.mapM f = .error e' := by
  induction l with
  | nil => cases ha
  | cons b l ih =>
    rw [List.mapM_cons]
    cases hb : f b with
    | error e' => exact ⟨e', rfl⟩
    | ok v =>
      have : a ∈ l := by
        rcases List.mem_cons.mp ha with rfl | h'
        · rw [h] at hb; cases hb
        · exact h'
      obtain ⟨e', he'⟩ := ih this
      exact ⟨e', by rw [he']; rfl⟩

theorem pySlice_nat {α : Type _} (l : List α) (a b : Nat) :
    pySlice l (a : Int) (b : Int) = (l.take b).drop a := by
  simp only [pySlice, pyClamp, Int.natCast_nonneg, if_true, Int.toNat_natCast]
  apply List.ext_getElem?
  intro i
  simp only [List.getElem?_drop, List.getElem?_take]
  by_cases ha : a ≤ l.length
  · rw [Nat.min_eq_left ha]
    by_cases hb : b ≤ l.length
    · rw [Nat.min_eq_left hb]
    · rw [Nat.min_eq_right (by omega)]
      by_cases h1 : a + i < l.length
      · rw [if_pos h1, if_pos (by omega)]
      · rw [List.getElem?_eq_none (by omega)]; simp
  · rw [Nat.min_eq_right (by omega), List.getElem?_eq_none (i := l.length + i) (by omega),
      List.getElem?_eq_none (i := a + i) (by omega)]
    simp

theorem pyTake_nat {α : Type _} (l : List α) (b : Nat) : pyTake l (b : Int) = l.take b := by
  simp only [pyTake, pyClamp, Int.natCast_nonneg, if_true, Int.toNat_natCast]
  rw [List.take_eq_take_iff]; omega

theorem pyDrop_nat {α : Type _} (l : List α) (a : Nat) : pyDrop l (a : Int) = l.drop a := by
  simp only [pyDrop, pyClamp, Int.natCast_nonneg, if_true, Int.toNat_natCast]
  by_cases h : a ≤ l.length
  · rw [Nat.min_eq_left h]
  · rw [Nat.min_eq_right (by omega), List.drop_eq_nil_of_le (i := a) (by omega)]; simp

end Verif
