import Verif.Data.LemmasFold

/-!
# Properties of k-fold index generation: C05 (numpy), C06 (torch)
-/

namespace Verif.Data

open Verif

/-- What a user expects of a list of `(train, val)` index pairs over `n` samples
with `k` folds: there are `k` of them; the validation sets together contain
every index exactly once (pairwise disjoint and covering); each training set is
the complement of its validation set; validation sizes are `⌊n/k⌋` or
`⌊n/k⌋ + 1`. -/
structure IsKFold (n k : Nat) (pairs : List (List Nat × List Nat)) : Prop where
  count : pairs.length = k
  cover : ((pairs.map Prod.snd).flatten).Perm (List.range n)
  compl : ∀ p ∈ pairs, (p.1 ++ p.2).Perm (List.range n)
  balanced : ∀ p ∈ pairs, p.2.length = n / k ∨ p.2.length = n / k + 1

/-- **C05** On the numpy backend, for every `n`, `k ≥ 2` and permutation,
`k_fold_indices` returns a balanced k-fold partition. -/
theorem kFold_numpy (n k : Nat) (hk : 2 ≤ k) (perm : List Nat)
    (hp : perm.Perm (List.range n)) :
    ∃ pairs, kFoldIndices .numpy perm n k = .ok pairs ∧ IsKFold n k pairs := by
  have hlen : perm.length = n := by rw [hp.length_eq, List.length_range]
  have hne : foldSizes n k ≠ [] := by
    intro h; have := foldSizes_length n k (by omega); rw [h] at this; simp at this; omega
  obtain ⟨s1, s2⟩ := npSplit_spec perm (foldSizes n k) hne 0
    (by rw [foldSizes_sum n k (by omega)]; omega)
  have hfl : (npSplit perm 0 (cumsum 0 (foldSizes n k)).dropLast).length = k := by
    have := congrArg List.length s2
    rw [List.length_map, foldSizes_length n k (by omega)] at this; exact this
  obtain ⟨pairs, h1, h2, h3⟩ := kFoldPairs_ok _ k hfl hk
  refine ⟨pairs, ?_, ?_, ?_, ?_, ?_⟩
  · unfold kFoldIndices
    rw [if_neg (by omega)]
    exact h1
  · have := congrArg List.length h2
    rw [List.length_map, hfl] at this; exact this
  · rw [h2, s1]; simpa using hp
  · intro p hpm
    have := h3 p hpm
    rw [s1] at this; exact this.trans (by simpa using hp)
  · intro p hpm
    have : p.2 ∈ npSplit perm 0 (cumsum 0 (foldSizes n k)).dropLast := by
      rw [← h2]; exact List.mem_map.mpr ⟨p, hpm, rfl⟩
    have h4 : p.2.length ∈ foldSizes n k := by
      rw [← s2]; exact List.mem_map.mpr ⟨_, this, rfl⟩
    exact foldSizes_mem n k _ h4

/-- Non-vacuity: 7 samples, 3 folds. -/
example : 2 ≤ 3 ∧ [6, 2, 0, 5, 1, 3, 4].Perm (List.range 7) := by decide

/-- **C06** `gnp.split` without split points (what `k_fold_indices` asks for with one fold):
numpy returns the array, torch raises. -/
theorem split_no_bounds {α : Type} (x : List α) :
    gnpSplit .numpy x [] = .ok [x] ∧ gnpSplit .torch x [] = .error .valueError := by
  refine ⟨?_, rfl⟩
  simp [gnpSplit, npSplit]

/-- **C05** `k = 1` raises on both backends (there is nothing to train on), and
`k = 0` raises. -/
theorem kFold_degenerate (be : Backend) (perm : List Nat) (n : Nat) :
    (∃ e, kFoldIndices be perm n 1 = .error e) ∧ (∃ e, kFoldIndices be perm n 0 = .error e) := by
  refine ⟨?_, ⟨_, rfl⟩⟩
  have hb : (cumsum 0 (foldSizes n 1)).dropLast = [] := by
    rw [bounds_closed n 1 (by omega)]; rfl
  cases be with
  | numpy =>
    refine ⟨.valueError, ?_⟩
    unfold kFoldIndices
    rw [if_neg (by omega)]
    simp only [hb]
    rfl
  | torch =>
    refine ⟨.valueError, ?_⟩
    unfold kFoldIndices
    rw [if_neg (by omega)]
    simp only [hb]
    rfl

/-- Validation indices of a list of pairs. -/
def valIndices (out : List (List Nat × List Nat)) : List Nat := (out.map Prod.snd).flatten

/-- **C05** Repeated k-fold: `r` repetitions give `r * k` pairs, each a
complementary train/validation pair, and every index is used for validation
exactly `r` times. -/
theorem repeatedKFold_numpy (n k : Nat) (hk : 2 ≤ k) (perms : List (List Nat))
    (hp : ∀ p ∈ perms, p.Perm (List.range n)) :
    ∃ out, repeatedKFold .numpy perms n k = .ok out ∧
      out.length = perms.length * k ∧
      (∀ p ∈ out, (p.1 ++ p.2).Perm (List.range n)) ∧
      (∀ i, i < n → (valIndices out).count i = perms.length) := by
  have gen : ∀ (perms : List (List Nat)) (acc : List (List Nat × List Nat)) (c : Nat),
      (∀ p ∈ perms, p.Perm (List.range n)) → acc.length = c * k →
      (∀ p ∈ acc, (p.1 ++ p.2).Perm (List.range n)) →
      (∀ i, i < n → (valIndices acc).count i = c) →
      ∃ out, perms.foldlM (fun out p => do
          let r ← kFoldIndices .numpy p n k
          return out ++ r) acc = .ok out ∧
        out.length = (c + perms.length) * k ∧
        (∀ p ∈ out, (p.1 ++ p.2).Perm (List.range n)) ∧
        (∀ i, i < n → (valIndices out).count i = c + perms.length) := by
    intro perms
    induction perms with
    | nil => intro acc c _ h1 h2 h3; exact ⟨acc, rfl, by simpa using h1, h2, by simpa using h3⟩
    | cons q qs ih =>
      intro acc c hq h1 h2 h3
      obtain ⟨pairs, e, hf⟩ := kFold_numpy n k hk q (hq q List.mem_cons_self)
      obtain ⟨out, o1, o2, o3, o4⟩ := ih (acc ++ pairs) (c + 1)
        (fun p hp => hq p (List.mem_cons_of_mem _ hp))
        (by rw [List.length_append, h1, hf.count]; ring)
        (by
          intro p hp
          rcases List.mem_append.mp hp with h | h
          · exact h2 p h
          · exact hf.compl p h)
        (by
          intro i hi
          unfold valIndices at h3 ⊢
          rw [List.map_append, List.flatten_append, List.count_append, h3 i hi,
            hf.cover.count_eq, List.count_eq_one_of_mem List.nodup_range (List.mem_range.mpr hi)])
      refine ⟨out, ?_, by rw [o2, List.length_cons]; ring, o3, ?_⟩
      · rw [List.foldlM_cons, e]; exact o1
      · intro i hi; rw [o4 i hi]; simp; omega
  obtain ⟨out, o1, o2, o3, o4⟩ := gen perms [] 0 hp (by simp) (by simp) (by simp [valIndices])
  exact ⟨out, o1, by simpa using o2, o3, by simpa using o4⟩

example : ∀ p ∈ [[2, 0, 1], [0, 1, 2]], p.Perm (List.range 3) := by decide

/-! ## C06 -/

/-- **C06** (exact behaviour) On the torch backend, for `k ≥ 2`,
`k_fold_indices` raises `IndexError` exactly when `n = 0`, or `k = 2` and
`n = 1`, or `k = 3` and `3 ∣ n`; otherwise it returns the same folds as numpy. -/
theorem kFold_torch_exact (n k : Nat) (hk : 2 ≤ k) (perm : List Nat)
    (hp : perm.Perm (List.range n)) :
    kFoldIndices .torch perm n k =
      if n = 0 ∨ (k = 2 ∧ n = 1) ∨ (k = 3 ∧ 3 ∣ n) then .error .indexError
      else kFoldIndices .numpy perm n k := by
  have hlen : perm.length = n := by rw [hp.length_eq, List.length_range]
  have hne : foldSizes n k ≠ [] := by
    intro h; have := foldSizes_length n k (by omega); rw [h] at this; simp at this; omega
  have hbl : (cumsum 0 (foldSizes n k)).dropLast.length = k - 1 := by
    rw [List.length_dropLast, cumsum_length, foldSizes_length n k (by omega)]
  have hbne : (cumsum 0 (foldSizes n k)).dropLast.isEmpty = false := by
    cases h : (cumsum 0 (foldSizes n k)).dropLast with
    | nil => rw [h] at hbl; simp at hbl; omega
    | cons a l => rfl
  unfold kFoldIndices
  have hk0 : ¬ k = 0 := by omega
  rw [if_neg hk0, if_neg hk0]
  simp only [gnpSplit, torchSplit, hbne, Bool.false_eq_true, if_false, hlen]
  by_cases h : n = 0 ∨ (k = 2 ∧ n = 1) ∨ (k = 3 ∧ 3 ∣ n)
  · rw [if_pos h]
    have hs := (bounds_sum_eq_iff n k hk).mpr h
    rw [if_pos hs, torchSplitSizes_ok _ _ (by rw [hs, hlen])]
    simp only [bind, Except.bind]
    have hgl := torchGo_length perm ((cumsum 0 (foldSizes n k)).dropLast.map Int.ofNat)
    rw [List.length_map, hbl] at hgl
    generalize torchSplitSizes.go perm _ = folds at *
    -- every pair needs fold number k-1, which does not exist; all errors are IndexErrors
    unfold kFoldPairs
    obtain ⟨m, rfl⟩ : ∃ m, k = m + 2 := ⟨k - 2, by omega⟩
    have hf0 : (List.range (m + 2)).filter (fun j => j != 0) = (List.range (m + 1)).map Nat.succ := by
      rw [List.range_succ_eq_map, List.filter_cons]
      simp only [bne_self_eq_false, Bool.false_eq_true, if_false, List.filter_map]
      congr 1
      exact List.filter_eq_self.mpr (by intro a _; simp)
    have hmm : ∀ l : List Nat, (∃ a ∈ l, folds.length ≤ a) →
        l.mapM (fun (i : Nat) => pyGet folds (i : Int)) = .error .indexError := by
      intro l
      induction l with
      | nil => rintro ⟨a, ha, _⟩; cases ha
      | cons b l ih =>
        rintro ⟨a, ha, hal⟩
        rw [List.mapM_cons]
        by_cases hb : b < folds.length
        · rw [pyGet_nat _ _ hb]
          have : a ∈ l := by
            rcases List.mem_cons.mp ha with rfl | h'
            · omega
            · exact h'
          rw [ih ⟨a, this, hal⟩]; rfl
        · rw [pyGet_nat_error _ _ (by omega)]; rfl
    rw [List.range_succ_eq_map, List.mapM_cons, ← List.range_succ_eq_map]
    rw [pyGet_nat folds 0 (by omega), hmm _ ⟨m + 1, by rw [hf0]; exact List.mem_map.mpr ⟨m, List.mem_range.mpr (by omega), rfl⟩, by omega⟩]
    rfl
  · rw [if_neg h, if_neg (fun hs => h ((bounds_sum_eq_iff n k hk).mp hs))]
    have e := sizesFromBounds_eq (foldSizes n k) hne n 0 (by rw [foldSizes_sum n k (by omega)]; omega)
    rw [show ((0 : Nat) : Int) = 0 from rfl] at e
    rw [e, torchSplitSizes_ok _ _ (by rw [foldSizes_sum n k (by omega), hlen])]
    have e2 := torchGo_eq (foldSizes n k) hne perm 0 (by rw [foldSizes_sum n k (by omega)]; omega)
    rw [List.drop_zero] at e2
    rw [e2]

/-- **C06** is false of the code: on torch, 3 folds of 6 samples raise. -/
theorem kFold_torch_false :
    ¬ (∀ (n k : Nat) (perm : List Nat), 2 ≤ k → k ≤ n → perm.Perm (List.range n) →
        ∃ pairs, kFoldIndices .torch perm n k = .ok pairs ∧ IsKFold n k pairs) := by
  intro H
  obtain ⟨pairs, h, _⟩ := H 6 3 (List.range 6) (by omega) (by omega) (List.Perm.refl _)
  rw [kFold_torch_exact 6 3 (by omega) _ (List.Perm.refl _), if_pos (by decide)] at h
  cases h

/-- **C06** partial: away from the inputs on which the size/boundary heuristic
guesses wrong, torch returns a balanced k-fold partition.  Missing: `n = 0`,
`k = 2, n = 1` and `k = 3, 3 ∣ n`, where the call raises (`kFold_torch_exact`). -/
theorem kFold_torch_partial (n k : Nat) (hk : 2 ≤ k) (perm : List Nat)
    (hp : perm.Perm (List.range n)) (hok : ¬ (n = 0 ∨ (k = 2 ∧ n = 1) ∨ (k = 3 ∧ 3 ∣ n))) :
    ∃ pairs, kFoldIndices .torch perm n k = .ok pairs ∧ IsKFold n k pairs := by
  rw [kFold_torch_exact n k hk perm hp, if_neg hok]
  exact kFold_numpy n k hk perm hp

example : ¬ (7 = 0 ∨ (3 = 2 ∧ 7 = 1) ∨ (3 = 3 ∧ 3 ∣ 7)) := by decide

end Verif.Data
