import Verif.Data.PropsLoader

/-!
# C09: slices of a `DataLoader`

`loader[a:b:step]`, dataloader.py 469-471, for arbitrary endpoints and steps.
-/

set_option autoImplicit false

namespace Verif.Data

open Verif

/-- One endpoint of `slice.indices(n)`: a missing endpoint is replaced by its default, negative
ones count from the end, then the endpoint is clipped to `[lower, upper]` (CPython,
`PySlice_AdjustIndices`). -/
def sliceEnd (n : ℕ) (lower upper dflt : ℤ) : Option ℤ → ℤ
  | none => dflt
  | some a => if a < 0 then max (a + n) lower else min a upper

/-- `slice(a, b, step).indices(n)`: a zero step raises `ValueError`. -/
def sliceIndices (a b step : Option ℤ) (n : ℕ) : Py (ℤ × ℤ × ℤ) :=
  let st := step.getD 1
  if st = 0 then .error .valueError
  else if 0 < st then .ok (sliceEnd n 0 n 0 a, sliceEnd n 0 n n b, st)
  else .ok (sliceEnd n (-1) (n - 1) (n - 1) a, sliceEnd n (-1) (n - 1) (-1) b, st)

/-- Number of terms of `range(start, stop, step)`. -/
def rangeLen (start stop step : ℤ) : ℕ :=
  if 0 < step then ((stop - start + step - 1) / step).toNat
  else if step < 0 then ((start - stop - step - 1) / (-step)).toNat
  else 0

/-- `list(range(start, stop, step))`. -/
def pyRange (start stop step : ℤ) : List ℤ :=
  (List.range (rangeLen start stop step)).map fun k : ℕ => start + (k : ℤ) * step

/-- `DataLoader.__getitem__` for a slice, dataloader.py 449-450 and 469-471. -/
def Loader.slice {α β : Type} (L : Loader α β) (a b step : Option ℤ) :
    Py (List (List α × List β)) :=
  if L.shuffle || L.infinite then .error .runtimeError
  else do
    let r ← sliceIndices a b step L.len
    (pyRange r.1 r.2.1 r.2.2).mapM L.getItem

/-- The terms of `range` are those of the definition: `start + k step`, before `stop`. -/
theorem mem_pyRange_pos {start stop step i : ℤ} (h : 0 < step) (hi : i ∈ pyRange start stop step) :
    start ≤ i ∧ i < stop := by
  obtain ⟨k, hk, rfl⟩ := List.mem_map.mp hi
  rw [List.mem_range, rangeLen, if_pos h] at hk
  have h1 : (k : ℤ) + 1 ≤ (stop - start + step - 1) / step := by omega
  rw [Int.le_ediv_iff_mul_le h] at h1
  have h2 : 0 ≤ (k : ℤ) * step := mul_nonneg (Int.natCast_nonneg k) h.le
  constructor <;> nlinarith

theorem mem_pyRange_neg {start stop step i : ℤ} (h : step < 0) (hi : i ∈ pyRange start stop step) :
    stop < i ∧ i ≤ start := by
  obtain ⟨k, hk, rfl⟩ := List.mem_map.mp hi
  rw [List.mem_range, rangeLen, if_neg (by omega), if_pos h] at hk
  have h1 : (k : ℤ) + 1 ≤ (start - stop - step - 1) / (-step) := by omega
  rw [Int.le_ediv_iff_mul_le (by omega)] at h1
  have h2 : 0 ≤ (k : ℤ) * (-step) := mul_nonneg (Int.natCast_nonneg k) (by omega)
  constructor <;> nlinarith

/-- All the terms are there. -/
theorem pyRange_pos_complete {start stop step : ℤ} (h : 0 < step) (k : ℕ)
    (hk : start + (k : ℤ) * step < stop) : start + (k : ℤ) * step ∈ pyRange start stop step := by
  refine List.mem_map.mpr ⟨k, ?_, rfl⟩
  rw [List.mem_range, rangeLen, if_pos h]
  have : (k : ℤ) + 1 ≤ (stop - start + step - 1) / step := by
    rw [Int.le_ediv_iff_mul_le h]; nlinarith
  omega

theorem pyRange_neg_complete {start stop step : ℤ} (h : step < 0) (k : ℕ)
    (hk : stop < start + (k : ℤ) * step) : start + (k : ℤ) * step ∈ pyRange start stop step := by
  refine List.mem_map.mpr ⟨k, ?_, rfl⟩
  rw [List.mem_range, rangeLen, if_neg (by omega), if_pos h]
  have : (k : ℤ) + 1 ≤ (start - stop - step - 1) / (-step) := by
    rw [Int.le_ediv_iff_mul_le (by omega)]; nlinarith
  omega

/-- The positions asked for by a slice exist. -/
theorem slice_positions {a b step : Option ℤ} {n : ℕ} {r : ℤ × ℤ × ℤ}
    (h : sliceIndices a b step n = .ok r) : ∀ i ∈ pyRange r.1 r.2.1 r.2.2, 0 ≤ i ∧ i < n := by
  unfold sliceIndices at h
  dsimp only at h
  split_ifs at h with h0 h1
  · cases h
    intro i hi
    have := mem_pyRange_pos h1 hi
    dsimp only at this
    have e1 : 0 ≤ sliceEnd n 0 n 0 a := by
      unfold sliceEnd; cases a <;> dsimp only <;> [exact le_rfl; split_ifs <;> omega]
    have e2 : sliceEnd n 0 n n b ≤ n := by
      unfold sliceEnd; cases b <;> dsimp only <;> [exact le_rfl; split_ifs <;> omega]
    omega
  · cases h
    intro i hi
    have := mem_pyRange_neg (by omega : step.getD 1 < 0) hi
    dsimp only at this
    have e1 : sliceEnd n (-1) (n - 1) (n - 1) a ≤ n - 1 := by
      unfold sliceEnd; cases a <;> dsimp only <;> [exact le_rfl; split_ifs <;> omega]
    have e2 : -1 ≤ sliceEnd n (-1) (n - 1) (-1) b := by
      unfold sliceEnd; cases b <;> dsimp only <;> [exact le_rfl; split_ifs <;> omega]
    omega

/-- Fetching a list of existing batch numbers. -/
theorem mapM_getItem {α β : Type} (L : Loader α β) (batches : List (List α × List β))
    (hg : ∀ i (hi : i < batches.length), L.getItem (i : ℤ) = .ok batches[i]) (l : List ℤ)
    (hl : ∀ i ∈ l, 0 ≤ i ∧ i < batches.length) :
    ∃ out, l.mapM L.getItem = .ok out ∧
      out.map some = l.map fun i => batches[i.toNat]? := by
  induction l with
  | nil => exact ⟨[], rfl, rfl⟩
  | cons i l ih =>
    obtain ⟨out, h1, h2⟩ := ih fun j hj => hl j (List.mem_cons_of_mem _ hj)
    have hi := hl i List.mem_cons_self
    have hn : i.toNat < batches.length := by omega
    have hgi := hg i.toNat hn
    rw [Int.toNat_of_nonneg hi.1] at hgi
    refine ⟨batches[i.toNat] :: out, ?_, ?_⟩
    · rw [List.mapM_cons, hgi, h1]; rfl
    · rw [List.map_cons, List.map_cons, h2, List.getElem?_eq_getElem hn]

section
variable {α β σ : Type} {xs : List (List α)} {zs : List (List β)} {ds : Dataset α β}

theorem loader_flags {bs : Option ℤ} {dropLast : Bool} {seed : Option ℤ} {L : Loader α β}
    (hL : mkLoader ds bs false dropLast seed false = .ok L) :
    (L.shuffle || L.infinite) = false := by
  obtain ⟨_, _, c, _, e, _⟩ := mkLoader_ok hL
  rw [c, e]; rfl

/-- **C09** A slice of an unshuffled finite loader never fails (for a non-zero step) and is the
list of the batches of one pass at the positions of the slice. -/
theorem slice_eq (h : mkDataset xs zs = .ok ds)
    (bs : Option ℤ) (dropLast : Bool) (seed : Option ℤ) {L : Loader α β}
    (hL : mkLoader ds bs false dropLast seed false = .ok L) (R : Rng σ) (s : σ)
    (a b step : Option ℤ) (hst : step ≠ some 0) :
    ∃ batches out r, (L.onePass R s).1 = .ok batches ∧ L.slice a b step = .ok out ∧
      sliceIndices a b step batches.length = .ok r ∧
      out.map some = (pyRange r.1 r.2.1 r.2.2).map fun i => batches[i.toNat]? := by
  obtain ⟨batches, h1, h2, h3, _⟩ := getItem_eq_batch h bs dropLast seed hL R s
  have hr : ∃ r, sliceIndices a b step batches.length = .ok r := by
    unfold sliceIndices
    dsimp only
    have : step.getD 1 ≠ 0 := by
      cases step with
      | none => exact one_ne_zero
      | some t => intro ht; exact hst (by rw [show t = 0 from ht])
    rw [if_neg this]
    split_ifs <;> exact ⟨_, rfl⟩
  obtain ⟨r, hr⟩ := hr
  obtain ⟨out, o1, o2⟩ := mapM_getItem L batches h3 _ (slice_positions hr)
  refine ⟨batches, out, r, h1, ?_, hr, o2⟩
  unfold Loader.slice
  rw [loader_flags hL, ← h2, hr]
  exact o1

/-- **C09** Slices with a step of one are the slices of the list of batches of one pass, with
negative and missing endpoints as for lists, and `loader[::-1]` is that list reversed. -/
theorem slice_list (h : mkDataset xs zs = .ok ds)
    (bs : Option ℤ) (dropLast : Bool) (seed : Option ℤ) {L : Loader α β}
    (hL : mkLoader ds bs false dropLast seed false = .ok L) (R : Rng σ) (s : σ) :
    ∃ batches, (L.onePass R s).1 = .ok batches ∧
      (∀ a b, L.slice (some a) (some b) none = .ok (pySlice batches a b)) ∧
      (∀ a, L.slice (some a) none none = .ok (pyDrop batches a)) ∧
      (∀ b, L.slice none (some b) none = .ok (pyTake batches b)) ∧
      L.slice none none none = .ok batches ∧
      L.slice none none (some (-1)) = .ok batches.reverse := by
  obtain ⟨batches, hp, _, _, _⟩ := getItem_eq_batch h bs dropLast seed hL R s
  -- a step of one between two positions
  have one : ∀ (a b : Option ℤ) (lo hi : ℕ), sliceEnd batches.length 0 batches.length 0 a = lo →
      sliceEnd batches.length 0 batches.length batches.length b = hi → hi ≤ batches.length →
      L.slice a b none = .ok ((batches.take hi).drop lo) := by
    intro a b lo hi ha hb hle
    obtain ⟨b', out, r, e1, e2, e3, e4⟩ := slice_eq h bs dropLast seed hL R s a b none (by simp)
    rw [hp] at e1
    cases e1
    rw [e2]
    congr 1
    have hr : r = ((lo : ℤ), (hi : ℤ), 1) := by
      unfold sliceIndices at e3
      simp only [Option.getD_none, one_ne_zero, if_false, zero_lt_one, if_true, ha, hb] at e3
      cases e3; rfl
    rw [hr] at e4
    apply List.map_injective_iff.mpr (Option.some_injective _)
    rw [e4]
    have hlen : rangeLen (lo : ℤ) (hi : ℤ) 1 = hi - lo := by
      unfold rangeLen; rw [if_pos one_pos, Int.ediv_one]; omega
    unfold pyRange
    dsimp only
    rw [hlen]
    apply List.ext_getElem
    · simp; omega
    · intro k h1 h2
      simp only [List.length_map, List.length_range] at h1
      simp only [List.getElem_map, List.getElem_range, mul_one, List.getElem_drop,
        List.getElem_take]
      rw [show ((lo : ℤ) + (k : ℤ)).toNat = lo + k by omega]
      exact List.getElem?_eq_getElem (by omega)
  have clamp : ∀ a : ℤ, sliceEnd batches.length 0 batches.length 0 (some a) =
      (pyClamp batches.length a : ℕ) ∧ sliceEnd batches.length 0 batches.length batches.length
        (some a) = (pyClamp batches.length a : ℕ) ∧ pyClamp batches.length a ≤ batches.length := by
    intro a
    unfold sliceEnd pyClamp
    refine ⟨?_, ?_, ?_⟩ <;> (try dsimp only) <;> split_ifs <;> omega
  refine ⟨batches, hp, ?_, ?_, ?_, ?_, ?_⟩
  · intro a b
    exact one _ _ _ _ (clamp a).1 (clamp b).2.1 (clamp b).2.2
  · intro a
    have := one (some a) none _ batches.length (clamp a).1 rfl le_rfl
    rw [List.take_length] at this
    exact this
  · intro b
    have := one none (some b) 0 _ rfl (clamp b).2.1 (clamp b).2.2
    rw [List.drop_zero] at this
    exact this
  · have := one none none 0 batches.length rfl rfl le_rfl
    rw [List.take_length, List.drop_zero] at this
    exact this
  · obtain ⟨b', out, r, e1, e2, e3, e4⟩ :=
      slice_eq h bs dropLast seed hL R s none none (some (-1)) (by simp)
    rw [hp] at e1
    cases e1
    rw [e2]
    congr 1
    have hr : r = ((batches.length : ℤ) - 1, -1, -1) := by
      unfold sliceIndices at e3
      rw [show (some (-1 : ℤ)).getD 1 = -1 from rfl, if_neg (by omega), if_neg (by omega)] at e3
      cases e3; rfl
    rw [hr] at e4
    apply List.map_injective_iff.mpr (Option.some_injective _)
    rw [e4]
    have hlen : rangeLen ((batches.length : ℤ) - 1) (-1) (-1) = batches.length := by
      unfold rangeLen; rw [if_neg (by omega), if_pos (by omega)]; simp
    unfold pyRange
    dsimp only
    rw [hlen]
    apply List.ext_getElem
    · simp
    · intro k h1 h2
      simp only [List.length_map, List.length_range] at h1
      simp only [List.getElem_map, List.getElem_range, List.getElem_reverse]
      rw [show ((batches.length : ℤ) - 1 + (k : ℤ) * -1).toNat = batches.length - 1 - k by omega]
      exact List.getElem?_eq_getElem (by omega)

end

/-- **C09** A zero step raises `ValueError`; a shuffled or infinite loader refuses slices. -/
theorem slice_errors {α β : Type} (L : Loader α β) (a b step : Option ℤ) :
    (L.shuffle = true ∨ L.infinite = true → L.slice a b step = .error .runtimeError) ∧
    (L.shuffle = false → L.infinite = false → L.slice a b (some 0) = .error .valueError) := by
  constructor
  · intro h
    unfold Loader.slice
    rw [if_pos (by rcases h with h | h <;> simp [h])]
  · intro h1 h2
    unfold Loader.slice
    rw [h1, h2]
    rfl

/-- The model of slices with non-negative endpoints is the same. -/
theorem getSlice_eq {α β : Type} (L : Loader α β) (a b : ℕ) :
    L.getSlice a b = L.slice (some a) (some b) none := by
  unfold Loader.getSlice Loader.slice
  split_ifs with hf
  · rfl
  · have e1 : sliceEnd L.len 0 L.len 0 (some (a : ℤ)) = (min a L.len : ℕ) := by
      unfold sliceEnd; dsimp only; split_ifs <;> omega
    have e2 : sliceEnd L.len 0 L.len L.len (some (b : ℤ)) = (min b L.len : ℕ) := by
      unfold sliceEnd; dsimp only; split_ifs <;> omega
    have e3 : sliceIndices (some (a : ℤ)) (some (b : ℤ)) none L.len =
        .ok (((min a L.len : ℕ) : ℤ), ((min b L.len : ℕ) : ℤ), 1) := by
      unfold sliceIndices
      simp only [Option.getD_none, one_ne_zero, if_false, zero_lt_one, if_true, e1, e2]
    rw [e3]
    have hlen : rangeLen ((min a L.len : ℕ) : ℤ) ((min b L.len : ℕ) : ℤ) 1 =
        min b L.len - min a L.len := by
      unfold rangeLen; rw [if_pos one_pos, Int.ediv_one]; omega
    change _ = (pyRange ((min a L.len : ℕ) : ℤ) ((min b L.len : ℕ) : ℤ) 1).mapM L.getItem
    unfold pyRange
    rw [hlen]
    simp

/-- Five rows in batches of two: the last two batches, and every second batch. -/
example : sliceIndices (some (-2)) none none 3 = .ok (1, 3, 1) ∧ pyRange 1 3 1 = [1, 2] ∧
    sliceIndices none none (some 2) 3 = .ok (0, 3, 2) ∧ pyRange 0 3 2 = [0, 2] := by decide

end Verif.Data
