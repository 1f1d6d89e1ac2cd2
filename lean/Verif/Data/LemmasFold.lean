import Verif.Data.Lemmas2
import Mathlib.Algebra.BigOperators.Group.List.Basic
import Mathlib.Data.List.Nodup
import Mathlib.Tactic.Ring
import Mathlib.Tactic.Linarith

/-! Lemmas for k-fold index generation. -/

namespace Verif.Data

open Verif

theorem foldSizes_length (n k : Nat) (hk : 0 < k) : (foldSizes n k).length = k := by
  have := Nat.mod_lt n hk
  simp [foldSizes]; omega

theorem foldSizes_sum (n k : Nat) (hk : 0 < k) : (foldSizes n k).sum = n := by
  have h1 := Nat.mod_lt n hk
  have h2 := Nat.div_add_mod n k
  simp only [foldSizes, List.sum_append, List.sum_replicate_nat]
  obtain ⟨c, hc⟩ := Nat.exists_eq_add_of_lt h1
  rw [show k - n % k = c + 1 by omega]
  calc n % k * (n / k + 1) + (c + 1) * (n / k) = (n % k + c + 1) * (n / k) + n % k := by ring
    _ = k * (n / k) + n % k := by rw [← hc]
    _ = n := h2

theorem foldSizes_mem (n k s : Nat) (h : s ∈ foldSizes n k) : s = n / k ∨ s = n / k + 1 := by
  simp only [foldSizes, List.mem_append, List.mem_replicate] at h
  rcases h with h | h
  · exact Or.inr h.2
  · exact Or.inl h.2

theorem npSplit_spec {α : Type} (x : List α) (sizes : List Nat) (hne : sizes ≠ []) :
    ∀ p, x.length = p + sizes.sum →
      (npSplit x p (cumsum p sizes).dropLast).flatten = x.drop p ∧
      (npSplit x p (cumsum p sizes).dropLast).map List.length = sizes := by
  induction sizes with
  | nil => exact absurd rfl hne
  | cons s r ih =>
    intro p hp
    cases r with
    | nil =>
      simp [cumsum, npSplit]
      simp at hp; omega
    | cons s' r' =>
      have := ih (by simp) (p + s) (by simp at hp ⊢; omega)
      simp only [cumsum, List.dropLast_cons_cons, npSplit] at this ⊢
      rw [List.flatten_cons, this.1]
      refine ⟨?_, ?_⟩
      · have h3 : (x.take (p + s)).drop p ++ x.drop (p + s) = x.drop p := by
          have := List.take_append_drop s (x.drop p)
          rw [List.take_drop, List.drop_drop] at this
          exact this
        exact h3
      · rw [List.map_cons, this.2]
        congr 1
        simp at hp ⊢; omega

theorem sizesFromBounds_eq (sizes : List Nat) (hne : sizes ≠ []) (length : Nat) :
    ∀ p : Nat, length = p + sizes.sum →
      sizesFromBounds (p : Int) length (cumsum p sizes).dropLast = sizes.map Int.ofNat := by
  induction sizes with
  | nil => exact absurd rfl hne
  | cons s r ih =>
    intro p hp
    cases r with
    | nil =>
      simp [cumsum, sizesFromBounds]
      simp at hp; omega
    | cons s' r' =>
      have := ih (by simp) (p + s) (by simp at hp ⊢; omega)
      simp only [cumsum, List.dropLast_cons_cons, sizesFromBounds] at this ⊢
      rw [this]
      simp

theorem torchGo_eq {α : Type} (sizes : List Nat) (hne : sizes ≠ []) (x : List α) :
    ∀ p, x.length = p + sizes.sum →
      torchSplitSizes.go (x.drop p) (sizes.map Int.ofNat) =
        npSplit x p (cumsum p sizes).dropLast := by
  induction sizes with
  | nil => exact absurd rfl hne
  | cons s r ih =>
    intro p hp
    cases r with
    | nil =>
      simp [cumsum, npSplit, torchSplitSizes.go]
      simp at hp
      omega
    | cons s' r' =>
      have := ih (by simp) (p + s) (by simp at hp ⊢; omega)
      rw [List.map_cons]
      simp only [torchSplitSizes.go, Int.ofNat_eq_natCast, Int.toNat_natCast]
      rw [List.drop_drop]
      simp only [cumsum, List.dropLast_cons_cons, npSplit] at this ⊢
      rw [← this, List.take_drop]

theorem torchSplitSizes_ok {α : Type} (x : List α) (sizes : List Nat)
    (h : sizes.sum = x.length) :
    torchSplitSizes x (sizes.map Int.ofNat) = .ok (torchSplitSizes.go x (sizes.map Int.ofNat)) := by
  unfold torchSplitSizes
  rw [if_neg, if_neg]
  · simp only [ne_eq, not_not]
    rw [← h]
    have : ∀ l : List Nat, (l.map Int.ofNat).sum = (l.sum : Int) := by
      intro l; induction l with
      | nil => rfl
      | cons a l ih => simp only [List.map_cons, List.sum_cons, ih]; simp
    exact this sizes
  · simp

theorem torchGo_length {α : Type} (x : List α) (l : List Int) :
    (torchSplitSizes.go x l).length = l.length := by
  induction l generalizing x with
  | nil => rfl
  | cons a l ih => simp [torchSplitSizes.go, ih]

theorem cumsum_length (p : Nat) (l : List Nat) : (cumsum p l).length = l.length := by
  induction l generalizing p with
  | nil => rfl
  | cons a l ih => simp [cumsum, ih]

theorem npSplit_length {α : Type} (x : List α) (p : Nat) (l : List Nat) :
    (npSplit x p l).length = l.length + 1 := by
  induction l generalizing p with
  | nil => rfl
  | cons a l ih => simp [npSplit, ih]

theorem cumsum_append (p : Nat) (l m : List Nat) :
    cumsum p (l ++ m) = cumsum p l ++ cumsum (p + l.sum) m := by
  induction l generalizing p with
  | nil => simp [cumsum]
  | cons a l ih => simp [cumsum, ih, Nat.add_assoc]

theorem cumsum_replicate (p a m : Nat) :
    cumsum p (List.replicate m a) = (List.range m).map (fun j => p + (j + 1) * a) := by
  induction m generalizing p with
  | zero => rfl
  | succ m ih =>
    rw [List.replicate_succ, cumsum, ih, List.range_succ_eq_map, List.map_cons, List.map_map]
    congr 1
    · ring
    · apply List.map_congr_left
      intro j _; simp; ring

/-- closed form of the fold boundaries -/
theorem cumsum_foldSizes (n k : Nat) (hk : 0 < k) :
    cumsum 0 (foldSizes n k) =
      (List.range k).map (fun j => (j + 1) * (n / k) + min (j + 1) (n % k)) := by
  have h1 := Nat.mod_lt n hk
  unfold foldSizes
  rw [cumsum_append, cumsum_replicate, cumsum_replicate]
  have hr : List.range k = List.range (n % k) ++ (List.range (k - n % k)).map (n % k + ·) := by
    rw [← List.range_add]; congr 1; omega
  rw [hr, List.map_append, List.map_map]
  congr 1
  · apply List.map_congr_left
    intro j hj
    have := List.mem_range.mp hj
    rw [Nat.min_eq_left (by omega)]; ring
  · apply List.map_congr_left
    intro j hj
    simp only [List.sum_replicate_nat, Function.comp]
    rw [Nat.min_eq_right (by omega)]; ring

theorem bounds_closed (n k : Nat) (hk : 0 < k) :
    (cumsum 0 (foldSizes n k)).dropLast =
      (List.range (k - 1)).map (fun j => (j + 1) * (n / k) + min (j + 1) (n % k)) := by
  obtain ⟨m, rfl⟩ : ∃ m, k = m + 1 := ⟨k - 1, by omega⟩
  rw [cumsum_foldSizes n _ hk, List.range_succ, List.map_append]
  simp

/-- when the torch heuristic mistakes boundaries for sizes -/
theorem bounds_sum_eq_iff (n k : Nat) (hk : 2 ≤ k) :
    (cumsum 0 (foldSizes n k)).dropLast.sum = n ↔
      n = 0 ∨ (k = 2 ∧ n = 1) ∨ (k = 3 ∧ 3 ∣ n) := by
  rw [bounds_closed n k (by omega)]
  rcases Nat.eq_zero_or_pos n with hn | hn
  · subst hn; simp
  have h1 := Nat.mod_lt n (show 0 < k by omega)
  have h2 := Nat.div_add_mod n k
  rcases Nat.lt_or_ge k 4 with h | h
  · have : k = 2 ∨ k = 3 := by omega
    rcases this with rfl | rfl
    · simp [List.range_succ]; omega
    · simp [List.range_succ]; omega
  · obtain ⟨m, rfl⟩ : ∃ m, k = m + 4 := ⟨k - 4, by omega⟩
    rw [show m + 4 - 1 = (m + 1) + 1 + 1 by omega, List.range_succ, List.range_succ]
    simp only [List.map_append, List.sum_append, List.map_cons, List.map_nil, List.sum_cons,
      List.sum_nil, Nat.add_zero]
    set b := n / (m + 4) with hb
    set r := n % (m + 4) with hr
    have hf0 : 1 * b + min 1 r ≤
        ((List.range (m + 1)).map (fun j => (j + 1) * b + min (j + 1) r)).sum := by
      rw [List.range_succ_eq_map]; simp
    have h3 : n = m * b + 4 * b + r := by rw [← h2]; ring
    have e1 : (m + 1 + 1) * b = m * b + 2 * b := by ring
    have e2 : (m + 1 + 1 + 1) * b = m * b + 3 * b := by ring
    rw [e1, e2]
    generalize ((List.range (m + 1)).map (fun j => (j + 1) * b + min (j + 1) r)).sum = S at *
    have hmb : 0 ≤ m * b := Nat.zero_le _
    have hmb0 : b = 0 → m * b = 0 := by rintro h; rw [h]; simp
    have hm : min (m + 1 + 1 + 1) r = r := Nat.min_eq_right (by omega)
    rw [hm]
    constructor
    · intro h
      have : b = 0 := by omega
      have := hmb0 this
      omega
    · omega

theorem kFoldPairs_ok {α : Type} (folds : List (List α)) (k : Nat) (hl : folds.length = k)
    (hk : 2 ≤ k) :
    ∃ pairs, kFoldPairs folds k = .ok pairs ∧ pairs.map Prod.snd = folds ∧
      ∀ p ∈ pairs, (p.1 ++ p.2).Perm folds.flatten := by
  unfold kFoldPairs
  have hmain : ∀ j ∈ List.range k, (do
      let val ← pyGet folds (j : Int)
      let others ← ((List.range k).filter (fun i => i != j)).mapM
        (fun (i : Nat) => pyGet folds (i : Int))
      let train ← gnpConcat others
      return (train, val) : Py (List α × List α)) =
      .ok (((((List.range k).filter (fun i => i != j)).map (fun i => folds.getD i [])).flatten),
        folds.getD j []) := by
    intro j hj
    have hj' := List.mem_range.mp hj
    rw [pyGet_nat _ _ (by omega)]
    have : ((List.range k).filter (fun i => i != j)).mapM (fun (i : Nat) => pyGet folds (i : Int)) =
        .ok (((List.range k).filter (fun i => i != j)).map (fun i => folds.getD i [])) := by
      apply mapM_ok_of_fun
      intro i hi
      have := List.mem_range.mp (List.mem_filter.mp hi).1
      rw [pyGet_nat _ _ (by omega)]
      simp [show i < folds.length by omega]
    simp only [bind, Except.bind, this]
    have hne : ((List.range k).filter (fun i => i != j)).map (fun i => folds.getD i []) ≠ [] := by
      intro h
      have h' : (List.range k).filter (fun i => i != j) = [] := List.map_eq_nil_iff.mp h
      rw [List.filter_eq_nil_iff] at h'
      by_cases h0 : j = 0
      · have := h' 1 (List.mem_range.mpr (by omega)); simp at this; omega
      · have := h' 0 (List.mem_range.mpr (by omega)); simp at this; omega
    unfold gnpConcat
    rw [if_neg (by simpa using hne)]
    simp [pure, Except.pure, show j < folds.length by omega]
  rw [mapM_ok_of_fun _ _ _ hmain]
  refine ⟨_, rfl, ?_, ?_⟩
  · rw [List.map_map]
    apply List.ext_getElem
    · simp [hl]
    · intro i h1 h2
      simp [h2]
  · intro p hp
    obtain ⟨j, hj, rfl⟩ := List.mem_map.mp hp
    have hj' := List.mem_range.mp hj
    simp only []
    -- the others together with fold j are all folds
    have hall : folds = (List.range k).map (fun i => folds.getD i []) := by
      apply List.ext_getElem
      · simp [hl]
      · intro i h1 h2; simp [h1]
    have hp : ((List.range k).filter (fun i => i != j) ++ [j]).Perm (List.range k) := by
      have h1 := List.filter_append_perm (fun i => i != j) (List.range k)
      have h2 : (List.range k).filter (fun x => !(x != j)) = [j] := by
        have hn : (List.range k).Nodup := List.nodup_range
        have : (List.range k).filter (fun x => !(x != j)) = (List.range k).filter (fun x => x == j) := by
          apply List.filter_congr; intro x _; simp [bne]
        rw [this, List.filter_beq, List.count_eq_one_of_mem hn hj]; rfl
      rw [h2] at h1; exact h1
    have := (hp.map (fun i => folds.getD i [])).flatten
    rw [← hall] at this
    simpa using this

end Verif.Data
