import Verif.Data.Lemmas2
import Mathlib.Tactic.Linarith
import Mathlib.Algebra.Order.Floor.Ring
import Mathlib.Tactic.NormNum

/-!
# Properties of `Dataset`: C01 (indexing), C02 (negative indices), C03 (subset),
C04 (split)
-/

namespace Verif.Data

open Verif

/-! ## C01 -/

/-- **C01** `ds[i]` is the `i`-th row of the concatenated data for every natural
number `i`, and `IndexError` when there is no such row. -/
theorem getItem_eq_concat_row {α β : Type} {xs : List (List α)} {zs : List (List β)}
    {ds : Dataset α β} (h : mkDataset xs zs = .ok ds) (i : Nat) :
    ds.getItem (i : Int) =
      match (rowsOf xs zs)[i]? with
      | some r => .ok r
      | none => .error .indexError := by
  obtain ⟨hl, hx, hz, hsz, hb⟩ := mkDataset_ok h
  obtain ⟨b1, b2, b3⟩ := bisectRight_spec ds.bounds (i : Int) (by rw [hb]; exact shardBounds_sorted xs)
  have hlen : xs.length = zs.length := by simpa using congrArg List.length hl
  have hfl : xs.flatten.length = zs.flatten.length := by
    rw [List.length_flatten, List.length_flatten, hl]
  unfold Dataset.getItem
  generalize bisectRight ds.bounds (i : Int) = k at *
  have hbl : ds.bounds.length = xs.length := by rw [hb, shardBounds_length]
  have hge : ∀ j (hj : j < ds.bounds.length), ds.bounds[j] = pre xs (j + 1) := by
    intro j hj
    have h' : j < (shardBounds 0 xs).length := by rw [← hb]; exact hj
    have := shardBounds_get 0 xs j h'
    simp only [Nat.zero_add] at this
    rw [← this]
    simp only [hb]
  -- the start offset
  have hstart : shardStart ds.bounds k = .ok (pre xs k) := by
    unfold shardStart
    by_cases h0 : k = 0
    · subst h0; simp
    · rw [if_neg h0]
      have : ((k : Int) - 1) = ((k - 1 : Nat) : Int) := by omega
      rw [this, pyGet_nat _ _ (by omega), hge (k - 1) (by omega)]
      congr 2; omega
  simp only [hstart, bind, Except.bind]
  have hpk : pre xs k ≤ i := by
    by_cases h0 : k = 0
    · subst h0; simp
    · have := b2 (k - 1) (by omega) (by omega)
      rw [hge (k - 1) (by omega), show k - 1 + 1 = k by omega] at this
      omega
  by_cases hk : k < xs.length
  · have hi : i < pre xs (k + 1) := by
      have := b3 k (by omega) (Nat.le_refl _)
      rw [hge k (by omega)] at this; omega
    rw [hx, hz, pyGet_nat xs k hk, pyGet_nat zs k (by omega)]
    simp only []
    have hloc : (i : Int) - (pre xs k : Int) = ((i - pre xs k : Nat) : Int) := by omega
    rw [hloc]
    have hpz : ∀ j, pre xs j = pre zs j := pre_congr _ _ hl
    have e1 := flatten_get xs k i hk hpk hi
    have e2 := flatten_get zs k i (by omega) (by rw [← hpz]; exact hpk) (by rw [← hpz]; exact hi)
    have hp := pre_succ xs k hk
    have hp' := pre_succ zs k (by omega)
    rw [← hpz, ← hpz] at hp'
    have l1 : i - pre xs k < xs[k].length := by omega
    have l2 : i - pre xs k < zs[k].length := by omega
    rw [pyGet_nat _ _ l1, pyGet_nat _ _ l2]
    rw [List.getElem?_eq_getElem l1] at e1
    rw [← hpz, List.getElem?_eq_getElem l2] at e2
    have e3 : (rowsOf xs zs)[i]? = some (xs[k][i - pre xs k], zs[k][i - pre xs k]) :=
      List.getElem?_zip_eq_some.mpr ⟨e1, e2⟩
    rw [e3]; rfl
  · have hk' : xs.length ≤ k := by omega
    rw [hx, pyGet_nat_error xs k hk']
    have : (rowsOf xs zs)[i]? = none := by
      rw [List.getElem?_eq_none]
      have h1 := pre_mono xs hk'
      rw [pre_length] at h1
      simp only [rowsOf, List.length_zip, ← hfl, Nat.min_self]; omega
    rw [this]

/-- **C01** `len(ds)` is the number of rows. -/
theorem len_eq_rows {α β : Type} {xs : List (List α)} {zs : List (List β)}
    {ds : Dataset α β} (h : mkDataset xs zs = .ok ds) :
    ds.len = (rowsOf xs zs).length := by
  obtain ⟨_, hx, hz, _, _⟩ := mkDataset_ok h
  have := (good_of_mk h).rows_len
  rw [← this, Dataset.rows, hx, hz]

/-- **C01** Construction fails (assertion) exactly when shard counts or shard
lengths of `x` and `z` differ. -/
theorem mkDataset_fails_iff {α β : Type} (xs : List (List α)) (zs : List (List β)) :
    mkDataset xs zs = .error .assertionError ↔ xs.map List.length ≠ zs.map List.length := by
  constructor
  · intro h hl
    rw [mkDataset_of_lengths hl] at h; cases h
  · exact mkDataset_error

/-- Non-vacuity: three shards, one of them empty. -/
example : ∃ ds, mkDataset [[10, 11], [], [12]] [['a', 'b'], [], ['c']] = .ok ds ∧
    ds.getItem 2 = .ok (12, 'c') ∧ ds.getItem 3 = .error .indexError ∧ ds.len = 3 := by
  refine ⟨_, rfl, ?_, ?_, rfl⟩
  · exact getItem_eq_concat_row (xs := [[10, 11], [], [12]]) (zs := [['a', 'b'], [], ['c']]) rfl 2
  · exact getItem_eq_concat_row (xs := [[10, 11], [], [12]]) (zs := [['a', 'b'], [], ['c']]) rfl 3

/-! ## C02 -/

/-- **C02** (exact behaviour) A negative index `-k` is looked up in the *first*
shard only: it returns row `len(shard₀) - k`, or `IndexError` when `k` exceeds
the length of the first shard. -/
theorem getItem_negative {α β : Type} {x0 : List α} {xs : List (List α)}
    {z0 : List β} {zs : List (List β)}
    {ds : Dataset α β} (h : mkDataset (x0 :: xs) (z0 :: zs) = .ok ds) (k : Nat) (hk : 1 ≤ k) :
    ds.getItem (-(k : Int)) =
      if k ≤ x0.length then
        match (rowsOf (x0 :: xs) (z0 :: zs))[x0.length - k]? with
        | some r => .ok r
        | none => .error .indexError
      else .error .indexError := by
  obtain ⟨hl, hx, hz, hsz, hb⟩ := mkDataset_ok h
  obtain ⟨b1, b2, b3⟩ := bisectRight_spec ds.bounds (-(k : Int)) (by rw [hb]; exact shardBounds_sorted _)
  have h0 : bisectRight ds.bounds (-(k : Int)) = 0 := by
    generalize bisectRight ds.bounds (-(k : Int)) = m at *
    rcases Nat.eq_zero_or_pos m with h | h
    · exact h
    · have := b2 0 (by omega) h
      omega
  have hlx : x0.length = z0.length := by simpa using (List.cons.inj hl).1
  unfold Dataset.getItem
  rw [h0]
  simp only [shardStart, if_true, bind, Except.bind, pure, Except.pure]
  rw [hx, hz, pyGet_nat _ 0 (by simp), pyGet_nat _ 0 (by simp)]
  simp only [List.getElem_cons_zero, Int.natCast_zero, Int.sub_zero]
  unfold pyGet
  have hneg : ¬ (0 ≤ -(k : Int)) := by omega
  simp only [if_neg hneg]
  by_cases hc : k ≤ x0.length
  · rw [if_pos (by omega), if_pos (by omega), if_pos hc]
    have e1 : ((x0.length : Int) + -(k : Int)).toNat = x0.length - k := by omega
    have e2 : ((z0.length : Int) + -(k : Int)).toNat = x0.length - k := by omega
    rw [e1, e2, List.getElem?_eq_getElem (l := x0) (by omega),
      List.getElem?_eq_getElem (l := z0) (by omega)]
    have e3 : (rowsOf (x0 :: xs) (z0 :: zs))[x0.length - k]? =
        some (x0[x0.length - k]'(by omega), z0[x0.length - k]'(by omega)) := by
      apply List.getElem?_zip_eq_some.mpr
      simp only [List.flatten_cons]
      rw [List.getElem?_append_left (by omega), List.getElem?_append_left (by omega)]
      exact ⟨List.getElem?_eq_getElem _, List.getElem?_eq_getElem _⟩
    rw [e3]
  · rw [if_neg (by omega), if_neg hc]

/-- **C02** is false of the code: with two shards `ds[-1]` is not the last row. -/
theorem getItem_negative_false :
    ¬ (∀ (xs : List (List Nat)) (zs : List (List Nat)) (ds : Dataset Nat Nat),
        mkDataset xs zs = .ok ds → ∀ k : Nat, 1 ≤ k → k ≤ ds.len →
        ds.getItem (-(k : Int)) = ds.getItem ((ds.len : Int) - k)) := by
  intro H
  have h := H [[1], [2]] [[1], [2]] _ rfl 1 (Nat.le_refl _) (by decide)
  have e1 := getItem_negative (x0 := [1]) (xs := [[2]]) (z0 := [1]) (zs := [[2]]) rfl 1 (Nat.le_refl _)
  have e2 := getItem_eq_concat_row (xs := [[1], [2]]) (zs := [[1], [2]]) rfl 1
  have e3 : ((1 : Nat) : Int) =
    (((⟨[[1], [2]], [[1], [2]], (List.map List.length [[1], [2]]).sum,
      shardBounds 0 [[1], [2]]⟩ : Dataset Nat Nat).len : Int) - (1 : Nat)) := by decide
  rw [← e3, e2, e1] at h
  revert h; decide

/-- **C02** partial: with a single shard negative indices count from the end.
Missing: several shards, where it is false (`getItem_negative_false`); the exact
behaviour there is `getItem_negative`. -/
theorem getItem_negative_partial {α β : Type} {x : List α} {z : List β}
    {ds : Dataset α β} (h : mkDataset [x] [z] = .ok ds) (k : Nat) (hk : 1 ≤ k) (hk' : k ≤ ds.len) :
    ds.getItem (-(k : Int)) = ds.getItem ((ds.len : Int) - k) := by
  have e1 := getItem_negative h k hk
  have hlen : ds.len = x.length := by
    obtain ⟨_, _, _, hs, _⟩ := mkDataset_ok h
    simpa [Dataset.len] using hs
  have e2 := getItem_eq_concat_row h (x.length - k)
  rw [e1, if_pos (by omega)]
  rw [← e2]
  congr 1; omega

example : ∃ ds, mkDataset [[10, 11, 12]] [['a', 'b', 'c']] = .ok ds ∧ 1 ≤ ds.len := ⟨_, rfl, by decide⟩

/-! ## C03 -/

/-- **C03** `subset` never fails on a valid data set and returns a valid data
set whose rows are, in increasing index order, the rows of `ds` at those
requested indices that are in range (with multiplicity). -/
theorem subset_rows {α β : Type} {xs : List (List α)} {zs : List (List β)}
    {ds : Dataset α β} (h : mkDataset xs zs = .ok ds) (idx : List Int)
    (js : List Int) (hperm : js.Perm (idx.filter (fun i => decide (0 ≤ i) && decide (i < (ds.len : Int)))))
    (hsort : js.Pairwise (· ≤ ·)) :
    ∃ xs' zs' ds', ds.subset idx = .ok ds' ∧ mkDataset xs' zs' = .ok ds' ∧
      (rowsOf xs' zs').map some = js.map (fun i => (rowsOf xs zs)[i.toNat]?) := by
  have g := good_of_mk h
  obtain ⟨_, hx, hz, _, _⟩ := mkDataset_ok h
  unfold Dataset.subset
  have hp := List.mergeSort_perm idx (fun a b => decide (a ≤ b))
  have hs : (idx.mergeSort (fun a b => decide (a ≤ b))).Pairwise (· ≤ ·) := by
    have := List.pairwise_mergeSort (le := fun a b : Int => decide (a ≤ b))
      (by intro a b c; simp; omega) (by intro a b; simp; omega) idx
    exact this.imp (by intro a b hab; simpa using hab)
  generalize idx.mergeSort (fun a b => decide (a ≤ b)) = sidx at *
  obtain ⟨xs', zs', B, h1, h2, h3, h4, h5, h6⟩ := g.pick sidx
  have hmk := mkDataset_of_lengths h2
  refine ⟨xs', zs', _, ?_, hmk, ?_⟩
  · simp only [bind, Except.bind, h1]; exact hmk
  · rw [h4, h6 hs, Dataset.rows, hx, hz]
    congr 1
    have hf : ∀ l : List Int, l.filter (fun i => decide (0 ≤ i) && decide (i < (ds.len : Int)))
        = l.filter (inR 0 ds.len) := by
      intro l; apply List.filter_congr; intro i _; simp [inR]
    rw [hf] at hperm
    apply List.Perm.eq_of_pairwise (le := (· ≤ ·))
    · intro a b _ _ hab hba; omega
    · exact hs.filter _
    · exact hsort
    · exact (hp.filter _).trans hperm.symm

/-- Non-vacuity: an index list with a duplicate, an out-of-range and a negative entry. -/
example : ∃ ds xs' zs' ds', mkDataset [[10, 11], [12]] [['a', 'b'], ['c']] = .ok ds ∧
    ds.subset [2, 7, 0, -1, 2] = .ok ds' ∧ mkDataset xs' zs' = .ok ds' ∧
    (rowsOf xs' zs').map some = [some (10, 'a'), some (12, 'c'), some (12, 'c')] := by
  obtain ⟨xs', zs', ds', h1, h2, h3⟩ := subset_rows (xs := [[10, 11], [12]])
    (zs := [['a', 'b'], ['c']]) rfl [2, 7, 0, -1, 2] [0, 2, 2] (by decide) (by decide)
  exact ⟨_, xs', zs', ds', rfl, h1, h2, h3⟩

/-! ## C04 -/

/-- **C04** For nonnegative ratios summing to one and any permutation returned
by the generator, `split` succeeds, the three parts together hold exactly the
rows of the data set (as a multiset of `(x, z)` pairs), and the first two have
`⌊r₀ n⌋` and `⌊r₁ n⌋` rows. -/
theorem split_partition {α β : Type} {xs : List (List α)} {zs : List (List β)}
    {ds : Dataset α β} (h : mkDataset xs zs = .ok ds)
    (r0 r1 r2 : ℚ) (h0 : 0 ≤ r0) (h1 : 0 ≤ r1) (h2 : 0 ≤ r2) (hsum : r0 + r1 + r2 = 1)
    (perm : List Nat) (hperm : perm.Perm (List.range ds.len)) :
    ∃ a b c, ds.split (r0, r1, r2) perm = .ok (a, b, c) ∧
      (a.rows ++ (b.rows ++ c.rows)).Perm (rowsOf xs zs) ∧
      (a.rows.length : Int) = ⌊r0 * ds.len⌋ ∧ (b.rows.length : Int) = ⌊r1 * ds.len⌋ := by
  have g := good_of_mk h
  obtain ⟨_, hx, hz, _, _⟩ := mkDataset_ok h
  unfold Dataset.split
  rw [if_neg (by simpa using hsum)]
  set n := ds.len with hn
  have hn0 : (0 : ℚ) ≤ (n : ℚ) := Nat.cast_nonneg n
  have p0 : 0 ≤ r0 * n := mul_nonneg h0 hn0
  have p1 : 0 ≤ r1 * n := mul_nonneg h1 hn0
  have f0 : 0 ≤ ⌊r0 * n⌋ := Int.floor_nonneg.mpr p0
  have f1 : 0 ≤ ⌊r1 * n⌋ := Int.floor_nonneg.mpr p1
  have hle : ⌊r0 * n⌋ + ⌊r1 * n⌋ ≤ (n : Int) := by
    have a1 := Int.floor_le (r0 * n)
    have a2 := Int.floor_le (r1 * n)
    have : ((⌊r0 * n⌋ + ⌊r1 * n⌋ : Int) : ℚ) ≤ ((n : Int) : ℚ) := by
      push_cast
      have : r0 * n + r1 * n + r2 * n = n := by rw [← add_mul, ← add_mul, hsum, one_mul]
      have : 0 ≤ r2 * n := mul_nonneg h2 hn0
      linarith
    exact_mod_cast this
  have i0 : pyInt (r0 * n) = ((⌊r0 * n⌋.toNat : Nat) : Int) := by
    simp [pyInt, p0, f0]
  have i1 : pyInt (r1 * n) = ((⌊r1 * n⌋.toNat : Nat) : Int) := by
    simp [pyInt, p1, f1]
  simp only [i0, i1, ← Int.natCast_add]
  rw [pyTake_nat, pySlice_nat, pyDrop_nat]
  set t := ⌊r0 * n⌋.toNat with ht
  set v := ⌊r1 * n⌋.toNat with hv
  have hidx : ValidIdx n (perm.map Int.ofNat) := by
    intro i hi
    obtain ⟨j, hj, rfl⟩ := List.mem_map.mp hi
    have := List.mem_range.mp (hperm.mem_iff.mp hj)
    simp; omega
  have hlen : (perm.map Int.ofNat).length = n := by
    rw [List.length_map, hperm.length_eq, List.length_range]
  -- subset on a valid list of indices
  have sub : ∀ l : List Int, ValidIdx n l → ∃ d, ds.subset l = .ok d ∧
      (d.rows.map some).Perm (l.map (fun i => (rowsOf xs zs)[i.toNat]?)) := by
    intro l hl
    have hfl : l.filter (fun i => decide (0 ≤ i) && decide (i < (ds.len : Int))) = l := by
      rw [List.filter_eq_self]; intro i hi; have := hl i hi; simp; omega
    obtain ⟨xs', zs', d, d1, d2, d3⟩ := subset_rows h l (l.mergeSort (fun a b => decide (a ≤ b)))
      (by rw [hfl]; exact List.mergeSort_perm _ _)
      ((List.pairwise_mergeSort (le := fun a b : Int => decide (a ≤ b))
        (by intro a b c; simp; omega) (by intro a b; simp; omega) l).imp
        (by intro a b hab; simpa using hab))
    obtain ⟨_, e1, e2, _, _⟩ := mkDataset_ok d2
    refine ⟨d, d1, ?_⟩
    rw [Dataset.rows, e1, e2, d3]
    exact (List.mergeSort_perm _ _).map _
  set idx := perm.map Int.ofNat with hidxdef
  obtain ⟨a, a1, a2⟩ := sub (idx.take t) (fun i hi => hidx i (List.mem_of_mem_take hi))
  obtain ⟨b, b1, b2⟩ := sub ((idx.take (t + v)).drop t)
    (fun i hi => hidx i (List.mem_of_mem_take (List.mem_of_mem_drop hi)))
  obtain ⟨c, c1, c2⟩ := sub (idx.drop (t + v)) (fun i hi => hidx i (List.mem_of_mem_drop hi))
  refine ⟨a, b, c, ?_, ?_, ?_, ?_⟩
  · rw [a1, b1, c1]; rfl
  · apply perm_of_map_some
    rw [List.map_append, List.map_append]
    refine (List.Perm.append a2 (List.Perm.append b2 c2)).trans ?_
    rw [← List.map_append, ← List.map_append]
    have : idx.take t ++ ((idx.take (t + v)).drop t ++ idx.drop (t + v)) = idx := by
      rw [← List.append_assoc]
      have h3 : idx.take t ++ (idx.take (t + v)).drop t = idx.take (t + v) := by
        have := List.take_append_drop t (idx.take (t + v))
        rw [List.take_take, Nat.min_eq_left (by omega)] at this
        exact this
      rw [h3, List.take_append_drop]
    rw [this, hidxdef]
    have hr : (rowsOf xs zs).length = n := by rw [hn, len_eq_rows h]
    refine ((hperm.map Int.ofNat).map _).trans ?_
    rw [← hr, map_rows_range]
  · have := a2.length_eq
    simp only [List.length_map, List.length_take, hlen] at this
    rw [this]; omega
  · have := b2.length_eq
    simp only [List.length_map, List.length_drop, List.length_take, hlen] at this
    rw [this]; omega

/-- Non-vacuity: 5 rows in two shards, ratios (3/5, 1/5, 1/5). -/
example : ∃ ds, mkDataset [[1, 2], [3, 4, 5]] [[1, 2], [3, 4, 5]] = .ok ds ∧
    (0 : ℚ) ≤ 3/5 ∧ (3/5 : ℚ) + 1/5 + 1/5 = 1 ∧ [3, 0, 4, 2, 1].Perm (List.range ds.len) :=
  ⟨_, rfl, by norm_num, by norm_num, by decide⟩

/-- **C04**, why the ratios have to be nonnegative: `split` does not check it.  With ratios
`(1, -1/2, 1/2)` and three rows the sizes are `3` and `int(-1.5) = -1`, so that the last row
is both in the training set and in the test set. -/
theorem split_negative_overlap : ∃ ds a b c,
    mkDataset [[10, 11, 12]] [['a', 'b', 'c']] = .ok ds ∧
    ds.split (1, -1/2, 1/2) [0, 1, 2] = .ok (a, b, c) ∧
    a.rows = [(10, 'a'), (11, 'b'), (12, 'c')] ∧ b.rows = [] ∧ c.rows = [(12, 'c')] := by
  obtain ⟨ds, h⟩ : ∃ ds, mkDataset [[10, 11, 12]] [['a', 'b', 'c']] = .ok ds := ⟨_, rfl⟩
  have hl : ds.len = 3 := by cases h; rfl
  have sub : ∀ (l : List Int) (L : List (ℕ × Char)),
      (l.filter (fun i => decide (0 ≤ i) && decide (i < (ds.len : Int)))) = l →
      l.Pairwise (· ≤ ·) →
      l.map (fun i => (rowsOf [[10, 11, 12]] [['a', 'b', 'c']])[i.toNat]?) = L.map some →
      ∃ d, ds.subset l = .ok d ∧ d.rows = L := by
    intro l L hf hs hL
    obtain ⟨xs', zs', d, d1, d2, d3⟩ := subset_rows h l l (by rw [hf]) hs
    obtain ⟨_, e1, e2, _, _⟩ := mkDataset_ok d2
    refine ⟨d, d1, ?_⟩
    rw [Dataset.rows, e1, e2]
    rw [hL] at d3
    exact List.map_injective_iff.mpr (Option.some_injective _) d3
  obtain ⟨a, a1, a2⟩ := sub [0, 1, 2] [(10, 'a'), (11, 'b'), (12, 'c')] (by rw [hl]; decide)
    (by decide) (by rfl)
  obtain ⟨b, b1, b2⟩ := sub [] [] rfl (by decide) rfl
  obtain ⟨c, c1, c2⟩ := sub [2] [(12, 'c')] (by rw [hl]; decide) (by decide) (by rfl)
  refine ⟨ds, a, b, c, h, ?_, a2, b2, c2⟩
  have e1 : pyInt ((1 : ℚ) * ((3 : ℕ) : ℚ)) = 3 := by norm_num [pyInt]
  have e2 : pyInt ((-1/2 : ℚ) * ((3 : ℕ) : ℚ)) = -1 := by
    norm_num [pyInt, Int.ceil_eq_iff]
  unfold Dataset.split
  rw [if_neg (by norm_num)]
  simp only [hl, e1, e2]
  change (do let a ← ds.subset [0, 1, 2]
             let b ← ds.subset []
             let c ← ds.subset [2]
             return (a, b, c)) = _
  rw [a1, b1, c1]; rfl

end Verif.Data
