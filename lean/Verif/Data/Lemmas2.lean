import Verif.Data.Lemmas
import Verif.Data.Spec
import Verif.PyLemmas
import Mathlib.Data.List.Perm.Basic

/-! Row-level consequences of the picking lemmas, and batch arithmetic. -/

namespace Verif.Data

open Verif

theorem zip_map_some {α β : Type} (X X0 : List α) (Z Z0 : List β) (B : List Int)
    (hX : X.map some = B.map (fun i => X0[i.toNat]?))
    (hZ : Z.map some = B.map (fun i => Z0[i.toNat]?)) :
    (X.zip Z).map some = B.map (fun i => (X0.zip Z0)[i.toNat]?) := by
  induction B generalizing X Z with
  | nil =>
    have : X = [] := by simpa using hX
    subst this; simp
  | cons i B ih =>
    cases X with
    | nil => simp at hX
    | cons x X =>
      cases Z with
      | nil => simp at hZ
      | cons z Z =>
        simp only [List.map_cons, List.cons.injEq] at hX hZ
        simp only [List.zip_cons_cons, List.map_cons]
        rw [ih X Z hX.2 hZ.2]
        congr 1
        exact (List.getElem?_zip_eq_some (z := (x, z)).mpr ⟨hX.1.symm, hZ.1.symm⟩).symm

/-- validity facts carried by a constructed data set -/
structure Good {α β : Type} (ds : Dataset α β) : Prop where
  lens : ds.xs.map List.length = ds.zs.map List.length
  size : ds.size = ds.xs.flatten.length
  bounds : ds.bounds = shardBounds 0 ds.xs

theorem good_of_mk {α β : Type} {xs : List (List α)} {zs : List (List β)}
    {ds : Dataset α β} (h : mkDataset xs zs = .ok ds) : Good ds := by
  obtain ⟨h1, rfl, rfl, h3, h4⟩ := mkDataset_ok h
  exact ⟨h1, h3, h4⟩

theorem Good.flat_len {α β : Type} {ds : Dataset α β} (g : Good ds) :
    ds.xs.flatten.length = ds.zs.flatten.length := by
  rw [List.length_flatten, List.length_flatten, g.lens]

theorem Good.rows_len {α β : Type} {ds : Dataset α β} (g : Good ds) :
    ds.rows.length = ds.len := by
  simp [Dataset.rows, rowsOf, Dataset.len, g.size, ← g.flat_len]

theorem Good.pick {α β : Type} {ds : Dataset α β} (g : Good ds) (idx : List Int) :
    ∃ xs' zs' B, pickLoop ds idx ds.shardRanges 0 = .ok (xs', zs') ∧
      xs'.map List.length = zs'.map List.length ∧
      (xs' = [] ↔ B = []) ∧
      (rowsOf xs' zs').map some = B.map (fun i => ds.rows[i.toNat]?) ∧
      B.Perm (idx.filter (inR 0 ds.len)) ∧
      (idx.Pairwise (· ≤ ·) → B = idx.filter (inR 0 ds.len)) := by
  obtain ⟨xs', zs', h1, h2, h3, h4, h5⟩ := pickLoop_ok ds g.lens idx ds.xs.length 0 (by omega)
  refine ⟨xs', zs', buckets ds.xs idx 0 ds.xs.length, ?_, h2, h3, ?_, ?_, ?_⟩
  · rw [shardRanges_eq g.bounds]; exact h1
  · exact zip_map_some _ _ _ _ _ h4 h5
  · have := buckets_perm ds.xs idx ds.xs.length 0
    rw [pre_zero, Nat.zero_add, pre_length, ← g.size] at this
    exact this
  · intro hs
    have := buckets_sorted ds.xs idx hs ds.xs.length 0
    rw [pre_zero, Nat.zero_add, pre_length, ← g.size] at this
    exact this

theorem filter_valid (n : Nat) (idx : List Int) (h : ValidIdx n idx) :
    idx.filter (inR 0 n) = idx := by
  rw [List.filter_eq_self]
  intro i hi
  have := h i hi
  simp [inR]; omega

theorem Good.fetch {α β : Type} {ds : Dataset α β} (g : Good ds) (idx : List Int)
    (hv : ValidIdx ds.len idx) (hne : idx ≠ []) :
    ∃ b, fetchBatch ds idx = .ok b ∧ b.1.length = idx.length ∧ b.2.length = idx.length ∧
      ((batchRows b).map some).Perm (idx.map (fun i => ds.rows[i.toNat]?)) ∧
      (idx.Pairwise (· ≤ ·) → (batchRows b).map some = idx.map (fun i => ds.rows[i.toNat]?)) := by
  obtain ⟨xs', zs', B, h1, h2, h3, h4, h5, h6⟩ := g.pick idx
  rw [filter_valid _ _ hv] at h5 h6
  have hB : B ≠ [] := by
    intro hB; rw [hB] at h5; exact hne (List.Perm.eq_nil (h5.symm))
  have hx : xs' ≠ [] := fun h => hB (h3.mp h)
  have hz : zs' ≠ [] := by
    intro h; rw [h] at h2; exact hx (by simpa using h2)
  have hfl : xs'.flatten.length = zs'.flatten.length := by
    rw [List.length_flatten, List.length_flatten, h2]
  have hlen : xs'.flatten.length = idx.length := by
    have := congrArg List.length h4
    simp [rowsOf, ← hfl] at this
    rw [List.length_flatten, this, h5.length_eq]
  refine ⟨(xs'.flatten, zs'.flatten), ?_, hlen, by rw [← hfl, hlen], ?_, ?_⟩
  · unfold fetchBatch
    rw [h1]
    simp only [gnpConcat, bind, Except.bind]
    have e1 : xs'.isEmpty = false := by simpa using hx
    have e2 : zs'.isEmpty = false := by simpa using hz
    simp [e1, e2, pure, Except.pure]
  · show ((rowsOf xs' zs').map some).Perm _
    rw [h4]; exact h5.map _
  · intro hs
    show (rowsOf xs' zs').map some = _
    rw [h4, h6 hs]

theorem perm_of_map_some {α : Type} {l l' : List α} (h : (l.map some).Perm (l'.map some)) :
    l.Perm l' := (List.map_perm_map_iff (fun _ _ h => Option.some.inj h)).mp h

theorem map_rows_range {γ : Type} (l : List γ) :
    ((List.range l.length).map Int.ofNat).map (fun i => l[i.toNat]?) = l.map some := by
  apply List.ext_getElem
  · simp
  · intro i h1 h2
    simp at h1 ⊢

/-! ### chunking -/

theorem epochLoop_eq {γ : Type} (idx : List γ) (b : Nat) (_hb : 0 < b) (dl : Bool) (m : Nat) :
    ∀ j, epochLoop idx idx.length b dl ((List.range' j m).map (· * b)) =
      (List.range' j (if dl then min m (idx.length / b - j) else m)).map
        (fun k => (idx.drop (k * b)).take b) := by
  induction m with
  | zero => intro j; simp [epochLoop]
  | succ m ih =>
    intro j
    rw [List.range'_succ, List.map_cons]
    simp only [epochLoop]
    have hslice : pySlice idx ((j * b : Nat) : Int) ((j * b : Nat) + (b : Nat) : Int) =
        (idx.drop (j * b)).take b := by
      rw [← Int.natCast_add, pySlice_nat, List.take_drop]
    by_cases h : j * b + b > idx.length ∧ dl = true
    · obtain ⟨h1, h2⟩ := h
      subst h2
      have : idx.length / b ≤ j := by
        have h3 : idx.length < (j + 1) * b := by rw [Nat.add_mul]; omega
        have := (Nat.div_lt_iff_lt_mul _hb).mpr h3
        omega
      simp [h1, show idx.length / b - j = 0 by omega]
    · have hc : (decide (j * b + b > idx.length) && dl) = false := by
        by_cases hd : dl = true
        · simp [hd] at h ⊢; omega
        · simp [Bool.eq_false_iff.mpr hd]
      have hc' : ((j * b + b > idx.length) && dl) = false := hc
      simp only [hc', Bool.false_eq_true, if_false]
      rw [ih (j + 1), Int.natCast_add, hslice]
      by_cases hd : dl = true
      · subst hd
        have h1 : j * b + b ≤ idx.length := by simp at h; omega
        have h2 : j + 1 ≤ idx.length / b := by
          rw [Nat.le_div_iff_mul_le _hb, Nat.add_mul]; omega
        simp only [if_true]
        rw [show min (m + 1) (idx.length / b - j) = min m (idx.length / b - (j + 1)) + 1 by omega,
          List.range'_succ, List.map_cons]
      · simp [Bool.eq_false_iff.mpr hd, List.range'_succ]

theorem chunks_flatten {γ : Type} (idx : List γ) (b : Nat) (m : Nat) :
    ((List.range m).map (fun k => (idx.drop (k * b)).take b)).flatten = idx.take (m * b) := by
  induction m with
  | zero => simp
  | succ m ih =>
    rw [List.range_succ, List.map_append, List.flatten_append, ih]
    simp only [List.map_cons, List.map_nil, List.flatten_cons, List.flatten_nil, List.append_nil]
    rw [Nat.add_mul, Nat.one_mul, List.take_add]

/-- the number of batches -/
def nBatches (n b : Nat) (dl : Bool) : Nat :=
  if dl then n / b else (n + b - 1) / b

theorem nBatches_len {α β : Type} (L : Loader α β) (hb : 0 < L.batchSize) :
    L.len = nBatches L.ds.len L.batchSize L.dropLast := by
  unfold Loader.len nBatches
  by_cases h : L.dropLast = true
  · simp [h]
  · simp only [Bool.eq_false_iff.mpr h, Bool.false_or, Bool.false_eq_true, if_false]
    generalize L.ds.len = n at *
    generalize L.batchSize = b at *
    have hdm := Nat.div_add_mod n b
    have hlt := Nat.mod_lt n hb
    by_cases h0 : n % b = 0
    · rw [if_pos (by simp [h0])]
      have : n + b - 1 = b * (n / b) + (b - 1) := by omega
      rw [this, Nat.mul_add_div hb, Nat.div_eq_of_lt (a := b - 1) (by omega)]; omega
    · rw [if_neg (by simp [h0])]
      have : n + b - 1 = b * (n / b + 1) + (n % b - 1) := by rw [Nat.mul_add]; omega
      rw [this, Nat.mul_add_div hb, Nat.div_eq_of_lt (a := n % b - 1) (by omega)]

theorem epochLoop_full {γ : Type} (idx : List γ) (b : Nat) (hb : 0 < b) (dl : Bool) :
    epochLoop idx idx.length b dl (pyRangeStep idx.length b) =
      (List.range (nBatches idx.length b dl)).map (fun k => (idx.drop (k * b)).take b) := by
  unfold pyRangeStep
  rw [List.range_eq_range', epochLoop_eq idx b hb dl, List.range_eq_range']
  congr 2
  unfold nBatches
  cases dl
  · simp
  · simp only [if_true, Nat.sub_zero]
    apply Nat.min_eq_right
    apply Nat.div_le_div_right; omega

end Verif.Data
