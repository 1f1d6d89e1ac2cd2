import Verif.Backend.Reduce
import Mathlib.Algebra.BigOperators.Group.List.Basic
import Mathlib.Data.List.InsertIdx

/-!
# C232: reductions and constructors on the two backends
-/

set_option autoImplicit false

namespace Verif.Backend.Red

open Verif Verif.Backend

/-! ## Agreement -/

theorem tPosition_eq {r : ℕ} (hr : r ≠ 0) (a : ℤ) :
    tPosition r a = (position r a).map some := by
  unfold tPosition
  rw [if_neg hr]
  cases position r a <;> rfl

theorem torchReduce_eq (op : List ℝ → ℝ) (ty : DT → DT) (x : T) (a : ℤ) (hx : x.shape ≠ []) :
    torchReduce op ty x (some a) =
      (position x.shape.length a).map fun k => overAxis op ty x k := by
  have hr : x.shape.length ≠ 0 := by simpa using hx
  simp only [torchReduce, tPosition_eq hr]
  cases position x.shape.length a <;> rfl

/-- **C232.** Sums, products and `all` are the same function of the array and the axis on the
two backends, refusals included. -/
theorem reduce_agree (x : T) (axis : Option ℤ) (hx : axis = none ∨ x.shape ≠ []) :
    thSum x axis = npSum x axis ∧ thProd x axis = npProd x axis ∧
      thAll x axis = npAll x axis := by
  cases axis with
  | none => exact ⟨rfl, rfl, rfl⟩
  | some a =>
    have h : x.shape ≠ [] := by simpa using hx
    simp only [thSum, thProd, thAll, axisToDim, torchReduce_eq _ _ x a h, npSum, npProd, npAll]
    cases position x.shape.length a <;> exact ⟨rfl, rfl, rfl⟩

/-- Means of floating-point arrays agree. -/
theorem mean_agree (x : T) (axis : Option ℤ) (hx : axis = none ∨ x.shape ≠ [])
    (hf : x.dt.floating = true) : thMean x axis = npMean x axis := by
  have ht : meanType x.dt = id x.dt := by
    revert hf
    cases x.dt <;> simp [DT.floating, meanType]
  cases axis with
  | none => simp [thMean, axisToDim, torchMean, hf, torchReduce, npMean, overAll, ht]
  | some a =>
    have h : x.shape ≠ [] := by simpa using hx
    simp only [thMean, axisToDim, torchMean, hf, if_true, torchReduce_eq _ _ x a h, npMean,
      overAxis, ht]
    cases position x.shape.length a <;> rfl

/-- Running totals along an axis agree, and so do differences, with or without an axis. -/
theorem run_agree (x : T) (hx : x.shape ≠ []) :
    (∀ a, thCumsum x (some a) = npCumsum x (some a)) ∧ ∀ axis, thDiff x axis = npDiff x axis := by
  have hr : x.shape.length ≠ 0 := by simpa using hx
  refine ⟨fun a => ?_, fun axis => ?_⟩
  · simp only [thCumsum, axisToDim, torchCumsum, tPosition_eq hr, npCumsum]
    cases position x.shape.length a <;> rfl
  · cases axis <;> simp [thDiff, axisToDim, torchDiff, npDiff, hr]

/-- **C232, false in general.** The mean of integers is a number on numpy and an exception on
torch. -/
theorem mean_integers_false :
    ∃ x : T, x.dt = .int ∧ (∃ y, npMean x none = .ok y ∧ y.val [] = 2) ∧
      thMean x none = .error .runtimeError := by
  refine ⟨⟨.int, [2], fun l => 1 + 2 * (l.getD 0 0 : ℕ)⟩, rfl, ⟨_, rfl, ?_⟩, rfl⟩
  norm_num [overAll, avg, T.entries, indices, List.range_succ]

/-- **C232, false in general.** Running totals without an axis are those of the flattened
array on numpy and an exception on torch, for every array. -/
theorem cumsum_flat_false (x : T) :
    (∃ y, npCumsum x none = .ok y ∧ y.shape = [x.entries.length] ∧
      (∀ v, x.entries.head? = some v → y.val [0] = v) ∧
      ∀ i v, x.entries[i + 1]? = some v → y.val [i + 1] = y.val [i] + v) ∧
      thCumsum x none = .error .typeError := by
  refine ⟨⟨_, rfl, rfl, fun v h => ?_, fun i v h => ?_⟩, rfl⟩
  · simp only [runAll, List.getD_cons_zero]
    cases he : x.entries with
    | nil => rw [he] at h; cases h
    | cons a l => rw [he] at h; simpa using h
  · simp only [runAll, List.getD_cons_zero]
    rw [List.take_add_one (i := i + 1), h]
    simp

/-! ## What the reductions compute -/

theorem indices_nil : indices [] = [[]] := rfl

theorem indices_cons (n : ℕ) (s : List ℕ) :
    indices (n :: s) = (List.range n).flatMap fun i => (indices s).map fun l => i :: l := rfl

theorem sum_flatMap {α : Type} (l : List ℕ) (f : ℕ → List α) (g : α → ℝ) :
    ((l.flatMap f).map g).sum = (l.map fun i => ((f i).map g).sum).sum := by
  induction l with
  | nil => rfl
  | cons a l ih => simp [ih]

theorem prod_flatMap {α : Type} (l : List ℕ) (f : ℕ → List α) (g : α → ℝ) :
    ((l.flatMap f).map g).prod = (l.map fun i => ((f i).map g).prod).prod := by
  induction l with
  | nil => rfl
  | cons a l ih => simp [ih]

theorem sum_swap {α β : Type} (l : List α) (m : List β) (f : α → β → ℝ) :
    (l.map fun i => (m.map fun j => f i j).sum).sum =
      (m.map fun j => (l.map fun i => f i j).sum).sum := by
  induction l with
  | nil => simp
  | cons a l ih => simp [ih, List.sum_map_add]

theorem prod_swap {α β : Type} (l : List α) (m : List β) (f : α → β → ℝ) :
    (l.map fun i => (m.map fun j => f i j).prod).prod =
      (m.map fun j => (l.map fun i => f i j).prod).prod := by
  induction l with
  | nil => simp
  | cons a l ih => simp [ih, List.prod_map_mul]

theorem total_axis (s : List ℕ) (k : ℕ) (hk : k < s.length) (f : List ℕ → ℝ) :
    ((indices (s.eraseIdx k)).map fun l =>
        ((List.range (s.getD k 0)).map fun t => f (l.insertIdx k t)).sum).sum =
      ((indices s).map f).sum := by
  induction s generalizing k f with
  | nil => simp at hk
  | cons n s ih =>
    cases k with
    | zero =>
      simp only [List.eraseIdx_cons_zero, List.getD_cons_zero, List.insertIdx_zero, indices_cons,
        sum_flatMap, List.map_map]
      exact sum_swap _ _ _
    | succ k =>
      have hk' : k < s.length := by simpa using hk
      simp only [List.eraseIdx_cons_succ, List.getD_cons_succ, indices_cons, sum_flatMap,
        List.map_map]
      congr 1
      refine List.map_congr_left fun i _ => ?_
      exact ih k hk' fun l => f (i :: l)

theorem total_axis_prod (s : List ℕ) (k : ℕ) (hk : k < s.length) (f : List ℕ → ℝ) :
    ((indices (s.eraseIdx k)).map fun l =>
        ((List.range (s.getD k 0)).map fun t => f (l.insertIdx k t)).prod).prod =
      ((indices s).map f).prod := by
  induction s generalizing k f with
  | nil => simp at hk
  | cons n s ih =>
    cases k with
    | zero =>
      simp only [List.eraseIdx_cons_zero, List.getD_cons_zero, List.insertIdx_zero, indices_cons,
        prod_flatMap, List.map_map]
      exact prod_swap _ _ _
    | succ k =>
      have hk' : k < s.length := by simpa using hk
      simp only [List.eraseIdx_cons_succ, List.getD_cons_succ, indices_cons, prod_flatMap,
        List.map_map]
      congr 1
      refine List.map_congr_left fun i _ => ?_
      exact ih k hk' fun l => f (i :: l)

theorem length_axis (s : List ℕ) (k : ℕ) (hk : k < s.length) :
    (indices (s.eraseIdx k)).length * s.getD k 0 = (indices s).length := by
  have h := total_axis s k hk fun _ => (1 : ℝ)
  simp only [List.map_const', List.sum_replicate, List.length_range, nsmul_eq_mul,
    mul_one] at h
  exact_mod_cast h

theorem position_lt {r k : ℕ} {a : ℤ} (h : position r a = .ok k) : k < r := by
  unfold position at h
  split at h
  · rename_i h1
    have := Except.ok.inj h
    omega
  · split at h
    · rename_i h1
      have := Except.ok.inj h
      omega
    · cases h

/-- Every axis in `-r … r-1` is accepted and every other refused. -/
theorem position_ok_iff (r : ℕ) (a : ℤ) :
    (∃ k, position r a = .ok k ∧ (k : ℤ) % r = a % r) ↔ -(r : ℤ) ≤ a ∧ a < r := by
  constructor
  · rintro ⟨k, h, -⟩
    unfold position at h
    split at h
    · omega
    · split at h
      · omega
      · cases h
  · intro ⟨h1, h2⟩
    unfold position
    by_cases h0 : 0 ≤ a
    · rw [if_pos ⟨h0, h2⟩]
      exact ⟨_, rfl, by rw [Int.toNat_of_nonneg h0]⟩
    · rw [if_neg (by omega), if_pos ⟨h1, by omega⟩]
      refine ⟨_, rfl, ?_⟩
      rw [Int.toNat_of_nonneg (by omega)]
      simp

/-- **C232.** Summing along any axis and then over everything is summing over everything, on
either backend. -/
theorem sum_axis_total (x y : T) (a : ℤ) (hx : x.shape ≠ [])
    (h : thSum x (some a) = .ok y) :
    npSum x (some a) = .ok y ∧ y.shape.length + 1 = x.shape.length ∧
      ∃ u v, thSum x none = .ok u ∧ thSum y none = .ok v ∧ u.val [] = v.val [] := by
  have hn : npSum x (some a) = .ok y := by rw [← (reduce_agree x (some a) (.inr hx)).1]; exact h
  refine ⟨hn, ?_⟩
  simp only [npSum] at hn
  cases hp : position x.shape.length a with
  | error e => rw [hp] at hn; cases hn
  | ok k =>
    rw [hp] at hn
    have hy := (Except.ok.inj hn).symm
    have hk := position_lt hp
    subst hy
    refine ⟨?_, _, _, rfl, rfl, ?_⟩
    · simp only [overAxis]
      rw [List.length_eraseIdx_of_lt hk]
      omega
    · exact (total_axis x.shape k hk x.val).symm

/-- The same for products. -/
theorem prod_axis_total (x y : T) (a : ℤ) (hx : x.shape ≠ [])
    (h : thProd x (some a) = .ok y) :
    npProd x (some a) = .ok y ∧
      ∃ u v, thProd x none = .ok u ∧ thProd y none = .ok v ∧ u.val [] = v.val [] := by
  have hn : npProd x (some a) = .ok y := by
    rw [← (reduce_agree x (some a) (.inr hx)).2.1]; exact h
  refine ⟨hn, ?_⟩
  simp only [npProd] at hn
  cases hp : position x.shape.length a with
  | error e => rw [hp] at hn; cases hn
  | ok k =>
    rw [hp] at hn
    have hy := (Except.ok.inj hn).symm
    have hk := position_lt hp
    subst hy
    exact ⟨_, _, rfl, rfl, (total_axis_prod x.shape k hk x.val).symm⟩

theorem entries_length (x : T) : x.entries.length = (indices x.shape).length := by
  simp [T.entries]

/-- The mean of the means along an axis is the mean of all entries. -/
theorem mean_axis_total (x y : T) (a : ℤ) (hx : x.shape ≠ []) (hf : x.dt.floating = true)
    (h0 : ∀ n ∈ x.shape, n ≠ 0) (h : thMean x (some a) = .ok y) :
    npMean x (some a) = .ok y ∧
      ∃ u v, thMean x none = .ok u ∧ thMean y none = .ok v ∧ u.val [] = v.val [] := by
  have hn : npMean x (some a) = .ok y := by rw [← mean_agree x (some a) (.inr hx) hf]; exact h
  refine ⟨hn, ?_⟩
  simp only [npMean] at hn
  cases hp : position x.shape.length a with
  | error e => rw [hp] at hn; cases hn
  | ok k =>
    rw [hp] at hn
    have hy := (Except.ok.inj hn).symm
    have hk := position_lt hp
    subst hy
    have hfy : (overAxis avg meanType x k).dt.floating = true := by
      revert hf; cases hd : x.dt <;> simp [overAxis, meanType, DT.floating, hd]
    refine ⟨_, _, by rw [mean_agree x none (.inl rfl) hf]; rfl,
      by rw [mean_agree _ none (.inl rfl) hfy]; rfl, ?_⟩
    have h1 := total_axis x.shape k hk x.val
    have h2 := length_axis x.shape k hk
    have hm : x.shape.getD k 0 ≠ 0 := by
      have e : x.shape.getD k 0 = x.shape[k] := by simp [List.getD_eq_getElem?_getD, hk]
      rw [e]
      exact h0 _ (List.getElem_mem hk)
    simp only [overAll, avg, entries_length]
    have h3 : (overAxis avg meanType x k).entries.sum =
        ((indices x.shape).map x.val).sum / (x.shape.getD k 0 : ℕ) := by
      simp only [T.entries, overAxis, avg, T.line, List.length_map, List.length_range]
      rw [← h1, div_eq_mul_inv, ← List.sum_map_mul_right]
      rfl
    rw [h3]
    simp only [overAxis, T.entries]
    rw [← h2, div_div]
    push_cast
    rw [mul_comm]

/-- Differences of running totals along an axis give back the entries after the first. -/
theorem diff_cumsum (x y z : T) (a : ℤ) (hx : x.shape ≠ [])
    (hc : thCumsum x (some a) = .ok y) (hd : thDiff y (some a) = .ok z) (l : List ℕ)
    (hl : l.length = x.shape.length) :
    ∃ k, position x.shape.length a = .ok k ∧ y.shape = x.shape ∧
      z.shape = x.shape.set k (x.shape.getD k 0 - 1) ∧
      z.val l = x.val (l.set k (l.getD k 0 + 1)) := by
  rw [(run_agree x hx).1 a] at hc
  simp only [npCumsum] at hc
  cases hp : position x.shape.length a with
  | error e => rw [hp] at hc; cases hc
  | ok k =>
    rw [hp] at hc
    have hy := (Except.ok.inj hc).symm
    subst hy
    have hk := position_lt hp
    rw [(run_agree _ (by simpa [runAxis] using hx)).2] at hd
    have hr : x.shape.length ≠ 0 := by simpa using hx
    simp only [npDiff, runAxis, hr, if_false, Option.getD_some, hp] at hd
    have hz := (Except.ok.inj hd).symm
    subst hz
    refine ⟨k, rfl, rfl, rfl, ?_⟩
    have hlk : k < l.length := by omega
    simp only [diffAxis, List.set_set]
    have h1 : (l.set k (l.getD k 0 + 1)).getD k 0 = l.getD k 0 + 1 := by
      simp [List.getD_eq_getElem?_getD, hlk]
    rw [h1, List.range_succ (n := l.getD k 0 + 1), List.map_append, List.sum_append]
    simp

/-! ## Constructors -/

/-- **C232.** With the number of points given by position `linspace` is the same on both
backends, starts at the first bound and ends at the second. -/
theorem linspace_agree (a b : ℝ) (n : ℕ) (hn : 2 ≤ n) :
    thLinspace a b (.positional n) = npLinspace a b (.positional n) ∧
      ∃ y, npLinspace a b (.positional n) = .ok y ∧ y.shape = [n] ∧ y.val [0] = a ∧
        y.val [n - 1] = b ∧
        ∀ i j, y.val [i + 1] - y.val [i] = y.val [j + 1] - y.val [j] := by
  have h : ((n : ℝ) - 1) ≠ 0 := by
    have : (2 : ℝ) ≤ n := by exact_mod_cast hn
    linarith
  refine ⟨rfl, _, rfl, rfl, by simp [spaced], ?_, fun i j => ?_⟩
  · simp only [spaced, List.getD_cons_zero]
    rw [Nat.cast_sub (by omega)]
    field_simp
    push_cast
    ring
  · simp only [spaced, List.getD_cons_zero]
    push_cast
    ring

/-- **C232, false in general.** With the keyword `num`, or without a number of points, numpy
gives an array and torch raises; with the keyword `steps` it is the other way round. -/
theorem linspace_keyword_false (a b : ℝ) (n : ℕ) :
    (∃ y, npLinspace a b (.numKeyword n) = .ok y) ∧
      thLinspace a b (.numKeyword n) = .error .typeError ∧
      (∃ y, npLinspace a b .omitted = .ok y ∧ y.shape = [50]) ∧ thLinspace a b .omitted = .error .typeError ∧
      npLinspace a b (.stepsKeyword n) = .error .typeError ∧
      ∃ y, thLinspace a b (.stepsKeyword n) = .ok y :=
  ⟨⟨_, rfl⟩, rfl, ⟨_, rfl, rfl⟩, rfl, rfl, ⟨_, rfl⟩⟩

/-- `full` agrees exactly when the value is a Python float. -/
theorem full_agree_iff (s : List ℕ) (ty : DT) (v : ℝ) :
    thFull s ty v = npFull s ty v ↔ ty.floating = true := by
  cases ty <;> simp [thFull, npFull, DT.floating]

/-- **C232, false in general.** The two grids of `meshgrid` are the transposes of each other,
so they have different shapes unless the vectors have the same length. -/
theorem meshgrid_transposed_false (x y : List ℝ) :
    (∃ u v, npTranspose (thMeshgrid x y).1 0 1 = .ok u ∧
      npTranspose (thMeshgrid x y).2 0 1 = .ok v ∧
      u.shape = (npMeshgrid x y).1.shape ∧ v.shape = (npMeshgrid x y).2.shape ∧
      ∀ i j, u.val [i, j] = (npMeshgrid x y).1.val [i, j] ∧
        v.val [i, j] = (npMeshgrid x y).2.val [i, j]) ∧
      ((thMeshgrid x y).1.shape = (npMeshgrid x y).1.shape ↔ x.length = y.length) :=
  ⟨⟨_, _, rfl, rfl, rfl, rfl, fun _ _ => ⟨rfl, rfl⟩⟩, by
    simp [thMeshgrid, npMeshgrid, eq_comm]⟩

/-- What each grid of numpy holds: the first vector along the columns, the second along the
rows. -/
theorem npMeshgrid_values (x y : List ℝ) (i j : ℕ) :
    (npMeshgrid x y).1.val [i, j] = x.getD j 0 ∧ (npMeshgrid x y).2.val [i, j] = y.getD i 0 :=
  ⟨rfl, rfl⟩

/-- One new axis of length one is inserted alike, with refusals, and the entries are kept; a
tuple of axes is refused by torch only. -/
theorem expandDims_agree (x : T) (a : ℤ) :
    thExpandDims x [a] = npExpandDims x [a] ∧
      ∀ y, npExpandDims x [a] = .ok y → ∃ k, position (x.shape.length + 1) a = .ok k ∧
        y.dt = x.dt ∧ y.shape = x.shape.insertIdx k 1 ∧
        ∀ l : List ℕ, l.length = x.shape.length → y.val (l.insertIdx k 0) = x.val l := by
  refine ⟨rfl, fun y hy => ?_⟩
  simp only [npExpandDims] at hy
  cases hp : position (x.shape.length + 1) a with
  | error e => rw [hp] at hy; cases hy
  | ok k =>
    rw [hp] at hy
    cases hy
    refine ⟨k, rfl, rfl, rfl, fun l hl => ?_⟩
    simp only [expandAt]
    rw [List.eraseIdx_insertIdx_self]

/-- `all` is true along the lines (or of the whole array) where no entry is zero, that is
where the product is not zero. -/
theorem all_values (x : T) (axis : Option ℤ) {y z : T} (h : npAll x axis = .ok y)
    (hp : npProd x axis = .ok z) (l : List ℕ) :
    y.shape = z.shape ∧ y.dt = .bool ∧ (y.val l = 1 ↔ z.val l ≠ 0) ∧
      (y.val l = 0 ↔ z.val l = 0) := by
  have key : ∀ v : List ℝ, (allNonzero v = 1 ↔ v.prod ≠ 0) ∧ (allNonzero v = 0 ↔ v.prod = 0) := by
    intro v
    unfold allNonzero
    by_cases hv : v.prod = 0
    · have : ¬ ∀ u ∈ v, u ≠ 0 := fun h => h 0 (List.prod_eq_zero_iff.1 hv) rfl
      simp [if_neg this, hv]
    · have : ∀ u ∈ v, u ≠ 0 := fun u hu h0 => hv (List.prod_eq_zero_iff.2 (h0 ▸ hu))
      simp [if_pos this, hv]
  cases axis with
  | none =>
    cases h; cases hp
    exact ⟨rfl, rfl, key _⟩
  | some a =>
    simp only [npAll, npProd] at h hp
    cases hq : position x.shape.length a with
    | error e => rw [hq] at h; cases h
    | ok k =>
      rw [hq] at h hp
      cases h; cases hp
      exact ⟨rfl, rfl, key _⟩

/-- A concrete case: three numbers of which one is zero. -/
example : ∃ y z, npAll ⟨.int, [3], fun l => (l.getD 0 0 : ℕ)⟩ none = .ok y ∧
    npProd ⟨.int, [3], fun l => (l.getD 0 0 : ℕ)⟩ none = .ok z ∧ z.val [] = 0 := by
  refine ⟨_, _, rfl, rfl, ?_⟩
  norm_num [overAll, T.entries, indices, List.range_succ]

theorem expandDims_tuple_false :
    ∃ x : T, (∃ y, npExpandDims x [0, 1] = .ok y ∧ y.shape = [1, 1, 3]) ∧
      thExpandDims x [0, 1] = .error .typeError :=
  ⟨⟨.float64, [3], fun _ => 0⟩, ⟨_, rfl, rfl⟩, rfl⟩

theorem swapPos_swapPos (l : List ℕ) (i j : ℕ) (hi : i < l.length) (hj : j < l.length) :
    swapPos (swapPos l i j) i j = l := by
  apply List.ext_getElem
  · simp [swapPos]
  · intro n h1 h2
    simp only [swapPos, List.getElem_set, List.getD_eq_getElem?_getD]
    by_cases hij : i = j
    · subst hij
      by_cases hn : i = n <;> simp [hn]
      subst hn; simp [hi]
    · by_cases hjn : j = n
      · subst hjn
        simp [hi, hj, Ne.symm hij]
      · by_cases hin : i = n
        · subst hin
          simp [hi, hj, Ne.symm hij]
        · simp [hjn, hin]

/-- Transposition agrees on arrays with an axis, and doing it twice restores the shape and
every entry. -/
theorem transpose_agree (x : T) (a b : ℤ) (hx : x.shape ≠ []) :
    thTranspose x a b = npTranspose x a b ∧
      ∀ y, npTranspose x a b = .ok y → ∃ z, npTranspose y a b = .ok z ∧ z.shape = x.shape ∧
        z.dt = x.dt ∧ ∀ l : List ℕ, l.length = x.shape.length → z.val l = x.val l := by
  have hr : x.shape.length ≠ 0 := by simpa using hx
  refine ⟨by simp [thTranspose, npTranspose, hr], fun y hy => ?_⟩
  simp only [npTranspose] at hy
  cases hp : position x.shape.length a with
  | error e => rw [hp] at hy; cases hy
  | ok i =>
    cases hq : position x.shape.length b with
    | error e => rw [hp, hq] at hy; cases hy
    | ok j =>
      rw [hp, hq] at hy
      have := (Except.ok.inj hy).symm
      subst this
      have hl : (swapPos x.shape i j).length = x.shape.length := by simp [swapPos]
      simp only [npTranspose, hl, hp, hq]
      refine ⟨_, rfl, ?_, rfl, fun l hl => ?_⟩
      · exact swapPos_swapPos _ _ _ (position_lt hp) (position_lt hq)
      · show x.val (swapPos (swapPos l i j) i j) = x.val l
        rw [swapPos_swapPos _ _ _ (hl ▸ position_lt hp) (hl ▸ position_lt hq)]

/-- A 2 × 3 integer array summed along its last axis. -/
example : ∃ y, thSum ⟨.bool, [2, 3], fun l => (l.getD 0 0 : ℕ)⟩ (some (-1)) = .ok y ∧
    y.shape = [2] ∧ y.dt = .int ∧ y.val [1] = 3 := by
  refine ⟨_, rfl, rfl, rfl, ?_⟩
  norm_num [overAxis, T.line, List.range_succ]

end Verif.Backend.Red
