import Verif.Backend.Arrays
import Verif.Core.PropsFisher
import Mathlib.Probability.Distributions.Gaussian.Real
import Mathlib.Data.List.Perm.Subperm
import Mathlib.Data.List.Range
import Mathlib.Data.List.Nodup
import Mathlib.Tactic.Linarith

/-!
# C174-C179: array helpers of the two backends
-/

set_option autoImplicit false

namespace Verif.Backend

open Verif

/-! ## C174: `asarray` -/

/-- The argument that a previous result is. -/
def ArrRes.again (r : ArrRes) : Src := .array r.dt r.shape

/-- **C174** On both backends `asarray` turns every floating type into float64, leaves
integers and booleans alone, keeps the shape of arrays and lists, shares memory with an
array argument exactly when no conversion was needed, and is idempotent (a second call
returns the same array). -/
theorem asarray_spec (x : Src) :
    ((asarrayNumpy x).dt = (asarrayTorch x).dt) ∧
    (∀ dt s, (x = .array dt s ∨ x = .list dt s) →
      (asarrayNumpy x).shape = s ∧ (asarrayTorch x).shape = s ∧
      (asarrayNumpy x).dt = if dt.floating then .float64 else dt) ∧
    (∀ dt s, x = .array dt s →
      ((asarrayNumpy x).shares = true ↔ dt ≠ .float32) ∧
      ((asarrayTorch x).shares = true ↔ dt ≠ .float32)) ∧
    asarrayNumpy (asarrayNumpy x).again = ⟨(asarrayNumpy x).dt, (asarrayNumpy x).shape, true⟩ ∧
    asarrayTorch (asarrayTorch x).again = ⟨(asarrayTorch x).dt, (asarrayTorch x).shape, true⟩ := by
  refine ⟨?_, ?_, ?_, ?_, ?_⟩
  · rcases x with dt | ⟨dt, s⟩ | ⟨dt, s⟩ <;> cases dt <;> rfl
  · rintro dt s (rfl | rfl) <;> cases dt <;> exact ⟨rfl, rfl, rfl⟩
  · rintro dt s rfl
    cases dt <;> simp [asarrayNumpy, asarrayTorch, DT.floating]
  · rcases x with dt | ⟨dt, s⟩ | ⟨dt, s⟩ <;> cases dt <;> rfl
  · rcases x with dt | ⟨dt, s⟩ | ⟨dt, s⟩ <;> cases dt <;> rfl

/-- **C174** (negative) Numbers: numpy's version is a vector of length one, torch's has no
axis. -/
theorem asarray_number_false (dt : DT) :
    (asarrayNumpy (.number dt)).shape = [1] ∧ (asarrayTorch (.number dt)).shape = [] :=
  ⟨rfl, rfl⟩

/-! ## C175: `min`, `max`, `clip`, `inftobigf` -/

/-- The fold of `min` is the least entry. -/
theorem foldl_min_le (l : List ℝ) (a : ℝ) :
    l.foldl min a ≤ a ∧ (∀ x ∈ l, l.foldl min a ≤ x) ∧ (l.foldl min a = a ∨ l.foldl min a ∈ l) := by
  induction l generalizing a with
  | nil => simp
  | cons b l ih =>
    obtain ⟨h1, h2, h3⟩ := ih (min a b)
    simp only [List.foldl_cons, List.mem_cons]
    refine ⟨h1.trans (min_le_left _ _), ?_, ?_⟩
    · rintro x (rfl | hx)
      · exact h1.trans (min_le_right _ _)
      · exact h2 x hx
    · rcases h3 with h | h
      · rcases min_choice a b with hm | hm
        · left; rw [h, hm]
        · right; left; rw [h, hm]
      · right; right; exact h

/-- The fold of `max` is the greatest entry. -/
theorem le_foldl_max (l : List ℝ) (a : ℝ) :
    a ≤ l.foldl max a ∧ (∀ x ∈ l, x ≤ l.foldl max a) ∧ (l.foldl max a = a ∨ l.foldl max a ∈ l) := by
  induction l generalizing a with
  | nil => simp
  | cons b l ih =>
    obtain ⟨h1, h2, h3⟩ := ih (max a b)
    simp only [List.foldl_cons, List.mem_cons]
    refine ⟨(le_max_left _ _).trans h1, ?_, ?_⟩
    · rintro x (rfl | hx)
      · exact (le_max_right _ _).trans h1
      · exact h2 x hx
    · rcases h3 with h | h
      · rcases max_choice a b with hm | hm
        · left; rw [h, hm]
        · right; left; rw [h, hm]
      · right; right; exact h

/-- **C175** `gnp.min` of a non-empty one-column array is its least entry, on torch per
column. -/
theorem reduce_min_spec {d : ℕ} (r : Fin d → ℝ) (rows : List (Fin d → ℝ)) :
    ∃ m, reduceAxis0 min (r :: rows) = .ok m ∧ ∀ j, (∀ s ∈ r :: rows, m j ≤ s j) ∧
      ∃ s ∈ r :: rows, m j = s j := by
  refine ⟨_, rfl, fun j => ?_⟩
  have e : rows.foldl (fun m r => min m (r j)) (r j) = (rows.map fun s => s j).foldl min (r j) := by
    rw [List.foldl_map]
  obtain ⟨h1, h2, h3⟩ := foldl_min_le (rows.map fun s => s j) (r j)
  simp only [e]
  refine ⟨?_, ?_⟩
  · intro s hs
    rcases List.mem_cons.mp hs with rfl | hs
    · exact h1
    · exact h2 _ (List.mem_map_of_mem hs)
  · rcases h3 with h | h
    · exact ⟨r, by simp, h⟩
    · obtain ⟨s, hs, he⟩ := List.mem_map.mp h
      exact ⟨s, by simp [hs], he.symm⟩

/-- **C175** Likewise `gnp.max`. -/
theorem reduce_max_spec {d : ℕ} (r : Fin d → ℝ) (rows : List (Fin d → ℝ)) :
    ∃ m, reduceAxis0 max (r :: rows) = .ok m ∧ ∀ j, (∀ s ∈ r :: rows, s j ≤ m j) ∧
      ∃ s ∈ r :: rows, m j = s j := by
  refine ⟨_, rfl, fun j => ?_⟩
  have e : rows.foldl (fun m r => max m (r j)) (r j) = (rows.map fun s => s j).foldl max (r j) := by
    rw [List.foldl_map]
  obtain ⟨h1, h2, h3⟩ := le_foldl_max (rows.map fun s => s j) (r j)
  simp only [e]
  refine ⟨?_, ?_⟩
  · intro s hs
    rcases List.mem_cons.mp hs with rfl | hs
    · exact h1
    · exact h2 _ (List.mem_map_of_mem hs)
  · rcases h3 with h | h
    · exact ⟨r, by simp, h⟩
    · obtain ⟨s, hs, he⟩ := List.mem_map.mp h
      exact ⟨s, by simp [hs], he.symm⟩

/-- **C175** On a single column both defaults agree. -/
theorem reduce_column (pick : ℝ → ℝ → ℝ) (a : ℝ) (l : List ℝ) :
    reduceAll pick ((a :: l).map fun x => [x]) = .ok (l.foldl pick a) ∧
    reduceAxis0 pick ((a :: l).map fun x => fun _ : Fin 1 => x) = .ok fun _ => l.foldl pick a := by
  have hf : ∀ l : List ℝ, (l.map fun x => [x]).flatten = l := by
    intro l; induction l with
    | nil => rfl
    | cons b l ih => simp only [List.map_cons, List.flatten_cons, ih, List.singleton_append]
  constructor
  · simp [reduceAll, hf]
  · simp [reduceAxis0, List.foldl_map]

/-- **C175** Without entries both raise, and only then. -/
theorem reduce_empty {d : ℕ} (pick : ℝ → ℝ → ℝ) :
    (∀ rows : List (List ℝ), (∃ e, reduceAll pick rows = .error e) ↔ ∀ r ∈ rows, r = []) ∧
    (∀ rows : List (Fin d → ℝ), (∃ e, reduceAxis0 pick rows = .error e) ↔ rows = []) := by
  constructor
  · intro rows
    rw [← List.flatten_eq_nil_iff]
    unfold reduceAll
    cases rows.flatten <;> simp
  · intro rows
    cases rows <;> simp [reduceAxis0]

/-- **C175** (negative) On a matrix the defaults differ: numpy gives the overall minimum,
torch the minimum of each column. -/
theorem reduce_default_axis_false :
    reduceAll min [[1, 2], [3, 0]] = .ok 0 ∧
    reduceAxis0 min [![1, 2], ![3, 0]] = .ok ![1, 0] := by
  constructor
  · simp [reduceAll]
  · simp only [reduceAxis0]
    congr 1
    funext j
    fin_cases j <;> simp

/-- **C175** `clip` with both bounds ordered returns the nearest point of the interval; on
float arrays the two backends agree. -/
theorem clip_spec (x lo hi : ℝ) (h : lo ≤ hi) :
    clipNumpy x (some lo) (some hi) = clipTorch false x (some lo) (some hi) ∧
    lo ≤ clipNumpy x (some lo) (some hi) ∧ clipNumpy x (some lo) (some hi) ≤ hi ∧
    (lo ≤ x → x ≤ hi → clipNumpy x (some lo) (some hi) = x) ∧
    ∀ y, lo ≤ y → y ≤ hi → |x - clipNumpy x (some lo) (some hi)| ≤ |x - y| := by
  simp only [clipNumpy, clipTorch, storeAs, Bool.false_eq_true, if_false]
  refine ⟨trivial, le_min (le_max_right _ _) h, min_le_right _ _, ?_, ?_⟩
  · intro h1 h2; rw [max_eq_left h1, min_eq_left h2]
  · intro y h1 h2
    rcases le_total x lo with hx | hx
    · rw [max_eq_right hx, min_eq_left h, abs_sub_comm, abs_of_nonneg (by linarith),
        abs_sub_comm, abs_of_nonneg (by linarith)]
      linarith
    · rw [max_eq_left hx]
      rcases le_total x hi with hx2 | hx2
      · rw [min_eq_left hx2]; simp
      · rw [min_eq_right hx2, abs_of_nonneg (by linarith), abs_of_nonneg (by linarith)]
        linarith

/-- **C175** With one bound missing only the other applies. -/
theorem clip_one_sided (x b : ℝ) :
    clipNumpy x (some b) none = max x b ∧ clipNumpy x none (some b) = min x b ∧
    clipNumpy x none none = x ∧ clipTorch false x (some b) none = max x b ∧
    clipTorch false x none (some b) = min x b :=
  ⟨rfl, rfl, rfl, by simp [clipTorch, storeAs], by simp [clipTorch, storeAs]⟩

/-- **C175** (negative) On integer tensors torch truncates the bounds: clipping 0 to
`[0.5, 2]` gives 0, which is outside; numpy gives 0.5. -/
theorem clip_integer_false : clipTorch true 0 (some 0.5) (some 2) = 0 ∧
    clipNumpy 0 (some 0.5) (some 2) = 0.5 := by
  have h1 : ⌊(0.5 : ℝ)⌋ = 0 := by rw [Int.floor_eq_iff]; norm_num
  have h2 : ⌊(2 : ℝ)⌋ = 2 := by rw [Int.floor_eq_iff]; norm_num
  constructor
  · simp only [clipTorch, storeAs, if_true]
    rw [if_pos (by norm_num), if_pos (by norm_num), h1, h2]
    norm_num
  · simp only [clipNumpy]
    norm_num

/-- **C175** `inftobigf` never returns an infinity, changes nothing else, keeps the order of
non-negative entries up to the big number. -/
theorem infToBig_spec (big : ℝ) (a : Flt) :
    infToBig big a ≠ .num ⊤ ∧ infToBig big a ≠ .num ⊥ ∧
    (a ≠ .num ⊤ → a ≠ .num ⊥ → infToBig big a = a) ∧ infToBig big (.num ⊤) = Flt.fin big ∧
    (∀ x y : EReal, 0 ≤ x → x ≤ y → x ≤ big ∨ x = ⊤ →
      (infToBig big (.num x)).le (infToBig big (.num y))) := by
  have hb1 : Flt.fin big ≠ .num ⊤ := by simp [Flt.fin]
  have hb2 : Flt.fin big ≠ .num ⊥ := by simp [Flt.fin]
  refine ⟨?_, ?_, ?_, ?_, ?_⟩
  · unfold infToBig; split
    · exact hb1
    · rename_i h; exact fun he => h (.inl he)
  · unfold infToBig; split
    · exact hb2
    · rename_i h; exact fun he => h (.inr he)
  · intro h1 h2; simp [infToBig, h1, h2]
  · simp [infToBig]
  · intro x y hx hxy hy
    have hxb : x ≠ ⊥ := by rintro rfl; simp at hx
    have hyb : y ≠ ⊥ := by rintro rfl; exact hxb (le_bot_iff.mp hxy)
    unfold infToBig
    simp only [Flt.num.injEq, hxb, hyb, or_false]
    by_cases h1 : x = ⊤
    · have : y = ⊤ := by rw [h1] at hxy; exact top_le_iff.mp hxy
      simp [h1, this]
    · by_cases h2 : y = ⊤
      · simp only [h1, h2, if_false, if_true]
        rcases hy with hy | hy
        · exact hy
        · exact absurd hy h1
      · simp only [h1, h2, if_false]
        exact hxy

/-- **C175** (negative) `-inf` becomes the large *positive* number. -/
theorem infToBig_negative_false (big : ℝ) : infToBig big (.num ⊥) = Flt.fin big := by
  simp [infToBig]

/-! ## C176: `choice` -/

theorem choice_positions {α : Type} (a : List α) (perm : List ℕ)
    (hp : perm.Perm (List.range a.length)) (k : ℕ) :
    ∃ idx : List ℕ, idx.Nodup ∧ (∀ i ∈ idx, i < a.length) ∧ idx.length = min k a.length ∧
      ((perm.take k).filterMap fun i => a[i]?) = idx.filterMap fun i => a[i]? := by
  refine ⟨perm.take k, ?_, ?_, ?_, rfl⟩
  · exact (hp.nodup_iff.mpr List.nodup_range).sublist (List.take_sublist _ _)
  · intro i hi
    have := hp.mem_iff.mp (List.mem_of_mem_take hi)
    simpa using this
  · rw [List.length_take, hp.length_eq, List.length_range]

theorem filterMap_get_length {α : Type} (a : List α) (idx : List ℕ) (h : ∀ i ∈ idx, i < a.length) :
    (idx.filterMap fun i => a[i]?).length = idx.length := by
  induction idx with
  | nil => rfl
  | cons i idx ih =>
    have hi := h i (by simp)
    rw [List.filterMap_cons_some (f := fun i => a[i]?) (b := a[i]) (by simp [hi])]
    simp [ih fun j hj => h j (by simp [hj])]

/-- **C176** Drawing without replacement, whatever permutation the generator returns: both
backends pick entries at distinct positions.  numpy returns `size` of them or raises
`ValueError` when there are not enough; torch returns `min(size, n)`. -/
theorem choice_noReplace {α : Type} (a : List α) (perm : List ℕ)
    (hp : perm.Perm (List.range a.length)) (size : ℕ) :
    (∃ idx : List ℕ, idx.Nodup ∧ (∀ i ∈ idx, i < a.length) ∧ idx.length = min size a.length ∧
      choiceTorch a (some size) perm = idx.filterMap fun i => a[i]?) ∧
    (choiceTorch a (some size) perm).length = min size a.length ∧
    (size ≤ a.length → choiceNumpy a size perm = .ok (choiceTorch a (some size) perm)) ∧
    (a.length < size → choiceNumpy a size perm = .error .valueError) := by
  obtain ⟨idx, h1, h2, h3, h4⟩ := choice_positions a perm hp size
  refine ⟨⟨idx, h1, h2, h3, h4⟩, ?_, ?_, ?_⟩
  · rw [← h3, ← filterMap_get_length a idx h2, ← h4]; rfl
  · intro h; simp [choiceNumpy, not_lt.mpr h, choiceTorch]
  · intro h; simp [choiceNumpy, h]

/-- **C176** With replacement torch returns `size` entries of `a`. -/
theorem choice_replace {α : Type} (a : List α) (ha : a ≠ []) (size : ℕ) (draws : ℕ → ℕ) :
    ∃ l, choiceTorchReplace a (some size) draws = .ok l ∧ l.length = size ∧ ∀ x ∈ l, x ∈ a := by
  have hl : 0 < a.length := List.length_pos_iff.mpr ha
  refine ⟨_, if_neg (fun h => hl.ne' h.1), ?_, ?_⟩
  · have : ((List.range size).filterMap fun i => a[draws i % a.length]?) =
        ((List.range size).map fun i => draws i % a.length).filterMap fun i => a[i]? := by
      rw [List.filterMap_map]; rfl
    simp only [Option.getD_some, this]
    rw [filterMap_get_length]
    · simp
    · intro i hi
      obtain ⟨j, _, rfl⟩ := List.mem_map.mp hi
      exact Nat.mod_lt _ hl
  · intro x hx
    simp only [List.mem_filterMap] at hx
    obtain ⟨i, -, hi⟩ := hx
    exact List.mem_of_getElem? hi

/-- **C176** Without `size` one entry is drawn. -/
theorem choice_default {α : Type} (a : List α) (ha : a ≠ []) (perm : List ℕ)
    (hp : perm.Perm (List.range a.length)) (draws : ℕ → ℕ) :
    (∃ x ∈ a, choiceTorch a none perm = [x]) ∧ ∃ x ∈ a, choiceTorchReplace a none draws = .ok [x] := by
  constructor
  · have h := (choice_noReplace a perm hp 1).2.1
    have e : choiceTorch a none perm = choiceTorch a (some 1) perm := rfl
    have hl : 0 < a.length := List.length_pos_iff.mpr ha
    rw [← e, min_eq_left hl] at h
    obtain ⟨x, hx⟩ := List.length_eq_one_iff.mp h
    refine ⟨x, ?_, hx⟩
    have : x ∈ choiceTorch a none perm := by rw [hx]; simp
    simp only [choiceTorch, List.mem_filterMap] at this
    obtain ⟨i, -, hi⟩ := this
    exact List.mem_of_getElem? hi
  · obtain ⟨l, h1, h2, h3⟩ := choice_replace a ha 1 draws
    obtain ⟨x, rfl⟩ := List.length_eq_one_iff.mp h2
    exact ⟨x, h3 x (by simp), h1⟩

/-- **C176** (negative) Too large a sample without replacement: torch silently returns
fewer entries than asked for. -/
theorem choice_short_false : choiceTorch [10, 20, 30] (some 5) [2, 0, 1] = [30, 10, 20] ∧
    choiceNumpy [10, 20, 30] 5 [2, 0, 1] = .error .valueError := by decide

/-- **C176** The weights are normalised: for non-negative weights with positive sum they are
a probability vector proportional to the argument. -/
theorem choiceWeights_spec {n : ℕ} (p : Fin n → ℝ) (h0 : ∀ i, 0 ≤ p i) (hs : 0 < ∑ i, p i) :
    (∀ i, 0 ≤ choiceWeights p i) ∧ ∑ i, choiceWeights p i = 1 ∧
    (∀ i j, choiceWeights p i * p j = choiceWeights p j * p i) ∧
    ∀ c, 0 < c → choiceWeights (fun i => c * p i) = choiceWeights p := by
  refine ⟨fun i => div_nonneg (h0 i) hs.le, ?_, ?_, ?_⟩
  · simp only [choiceWeights]
    rw [← Finset.sum_div, div_self hs.ne']
  · intro i j; simp only [choiceWeights]; ring
  · intro c hc
    funext i
    simp only [choiceWeights]
    rw [← Finset.mul_sum, mul_div_mul_left _ _ hc.ne']

/-! ## C177: the normal density of the torch backend -/

/-- **C177** `normal.logpdf` is the log of the normal density with the given location and
scale. -/
theorem logpdfTorch_spec (x loc : ℝ) (scale : NNReal) (hs : 0 < scale) :
    Real.exp (logpdfTorch x loc scale) = ProbabilityTheory.gaussianPDFReal loc (scale ^ 2) x := by
  have h2pi : 0 < Real.sqrt (2 * Real.pi) := Real.sqrt_pos.mpr (by positivity)
  have hs' : (0 : ℝ) < scale := by exact_mod_cast hs
  unfold logpdfTorch ProbabilityTheory.gaussianPDFReal
  rw [Real.exp_sub, Real.exp_sub, Real.exp_log hs', Real.exp_log h2pi]
  have : Real.sqrt (2 * Real.pi * ((scale ^ 2 : NNReal) : ℝ)) = Real.sqrt (2 * Real.pi) * scale := by
    push_cast
    rw [Real.sqrt_mul (by positivity), Real.sqrt_sq hs'.le]
  rw [this]
  push_cast
  field_simp

/-- **C177** `normal.pdf` is the density multiplied by the scale. -/
theorem pdfTorch_value (x loc : ℝ) (scale : NNReal) (hs : 0 < scale) :
    pdfTorch x loc scale = scale * ProbabilityTheory.gaussianPDFReal loc (scale ^ 2) x := by
  have hs' : (0 : ℝ) < scale := by exact_mod_cast hs
  unfold pdfTorch ProbabilityTheory.gaussianPDFReal
  have : Real.sqrt (2 * Real.pi * ((scale ^ 2 : NNReal) : ℝ)) = Real.sqrt (2 * Real.pi) * scale := by
    push_cast
    rw [Real.sqrt_mul (by positivity), Real.sqrt_sq hs'.le]
  have h2pi : 0 < Real.sqrt (2 * Real.pi) := Real.sqrt_pos.mpr (by positivity)
  rw [this]
  push_cast
  have he : -0.5 * ((x - loc) / scale) ^ 2 = -(x - loc) ^ 2 / (2 * (scale : ℝ) ^ 2) := by
    field_simp; ring
  rw [he]
  field_simp

/-- **C177** Right for unit scale (the only use inside the package). -/
theorem pdfTorch_unit_partial (x loc : ℝ) :
    pdfTorch x loc 1 = ProbabilityTheory.gaussianPDFReal loc 1 x := by
  have := pdfTorch_value x loc 1 one_pos
  simpa using this

/-- **C177** (negative) For any other scale `normal.pdf` is not a density: its integral is
the scale. -/
theorem pdfTorch_integral_false (loc : ℝ) (scale : NNReal) (hs : 0 < scale) :
    ∫ x, pdfTorch x loc scale = scale ∧
    (scale ≠ 1 → ∫ x, pdfTorch x loc scale ≠ 1) := by
  have h : ∫ x, pdfTorch x loc scale = scale := by
    simp only [pdfTorch_value _ loc scale hs]
    rw [MeasureTheory.integral_const_mul,
      ProbabilityTheory.integral_gaussianPDFReal_eq_one _ (pow_pos hs 2).ne', mul_one]
  refine ⟨h, fun hne he => hne ?_⟩
  rw [h] at he
  exact_mod_cast he

/-! ## C178: `grad` of numpy, `value_and_grad` of torch -/

/-- **C178** On float vectors numpy's `grad` is exact, whatever the step, for functions that
are polynomials of degree at most four in each coordinate. -/
theorem gradNumpy_exact {d : ℕ} (f : (Fin d → ℝ) → ℝ) (x : Fin d → ℝ) (i : Fin d) (h : ℝ)
    (hh : h ≠ 0) (P : Polynomial ℝ) (hP : P.natDegree ≤ 4)
    (hf : ∀ v, f (Function.update x i v) = P.eval v) :
    gradNumpy false f x h i = P.derivative.eval (x i) := by
  simp only [gradNumpy, storeAs, Bool.false_eq_true, if_false, hf]
  exact Core.finiteDiff_exact P hP _ _ hh

/-- **C178** (negative) On integer vectors the perturbed coordinates are truncated: the
"gradient" of the identity at 3 with the default step is 58333. -/
theorem gradNumpy_integer_false :
    gradNumpy (d := 1) true (fun v => v 0) (fun _ => 3) (1 / 100000) = fun _ => 58333 := by
  have f1 : ⌊(3 + 2 * (1 / 100000) : ℝ)⌋ = 3 := by rw [Int.floor_eq_iff]; norm_num
  have f2 : ⌊(3 + 1 / 100000 : ℝ)⌋ = 3 := by rw [Int.floor_eq_iff]; norm_num
  have f3 : ⌊(3 - 1 / 100000 : ℝ)⌋ = 2 := by rw [Int.floor_eq_iff]; norm_num
  have f4 : ⌊(3 - 2 * (1 / 100000) : ℝ)⌋ = 2 := by rw [Int.floor_eq_iff]; norm_num
  funext i
  have hi : i = 0 := Subsingleton.elim _ _
  subst hi
  simp only [gradNumpy, Core.finiteDiff, Function.update_self, storeAs, if_true, smul_eq_mul]
  rw [if_pos (show (0 : ℝ) ≤ 3 + 2 * (1 / 100000) by norm_num),
    if_pos (show (0 : ℝ) ≤ 3 + 1 / 100000 by norm_num),
    if_pos (show (0 : ℝ) ≤ 3 - 1 / 100000 by norm_num),
    if_pos (show (0 : ℝ) ≤ 3 - 2 * (1 / 100000) by norm_num), f1, f2, f3, f4]
  have f5 : ⌊((12 * (1 / 100000))⁻¹ * (-((3 : ℤ) : ℝ) + 8 * ((3 : ℤ) : ℝ) - 8 * ((2 : ℤ) : ℝ) +
      ((2 : ℤ) : ℝ)) : ℝ)⌋ = 58333 := by
    rw [Int.floor_eq_iff]; norm_num
  rw [if_pos (by norm_num), f5]
  norm_num

/-- **C178** torch's `value_and_grad` raises `ValueError` unless the function returns one
number, hands on its exceptions, returns the value and autograd's gradient when the value is
finite, and a zero gradient for a value that is not finite or does not depend on `x`. -/
theorem valueAndGradTorch_spec {d : ℕ} (f : (Fin d → ℝ) → Py (FOut d)) (x : Fin d → ℝ) :
    (∀ e, f x = .error e → valueAndGradTorch f x = .error e) ∧
    (f x = .ok .notTensor ∨ f x = .ok .many → valueAndGradTorch f x = .error .valueError) ∧
    (∀ r g, f x = .ok (.scalar (Flt.fin r) (some g)) →
      valueAndGradTorch f x = .ok (Flt.fin r, g)) ∧
    (∀ r, f x = .ok (.scalar (Flt.fin r) none) →
      valueAndGradTorch f x = .ok (Flt.fin r, fun _ => Flt.fin 0)) ∧
    (∀ v g, (∀ r, v ≠ Flt.fin r) → f x = .ok (.scalar v g) →
      valueAndGradTorch f x = .ok (v, fun _ => Flt.fin 0)) := by
  refine ⟨?_, ?_, ?_, ?_, ?_⟩
  · intro e h; simp [valueAndGradTorch, h]
  · rintro (h | h) <;> simp [valueAndGradTorch, h]
  · intro r g h
    simp only [valueAndGradTorch, h]
    rw [if_pos ⟨r, rfl⟩]; rfl
  · intro r h
    simp only [valueAndGradTorch, h]
    rw [if_pos ⟨r, rfl⟩]; rfl
  · intro v g hv h
    simp only [valueAndGradTorch, h]
    rw [if_neg (by rintro ⟨r, hr⟩; exact hv r hr)]

/-! ## C179: `multivariate_normal` -/

/-- **C179** For a `d × d` covariance with `d ≥ 2` and a mean that is a number or a vector of
length `d`, both backends return `n ≥ 2` draws as an `n × d` array, and a single draw has `d`
entries on both. -/
theorem rvs_shape_partial (m : MeanArg) (d n : ℕ) (hd : 2 ≤ d) (hm : m = .number ∨ m = .array d) :
    (2 ≤ n → rvsNumpy m (.array [d, d]) n = .ok [n, d] ∧ rvsTorch m (.array [d, d]) n = .ok [n, d]) ∧
    (∃ s t, rvsNumpy m (.array [d, d]) 1 = .ok s ∧ rvsTorch m (.array [d, d]) 1 = .ok t ∧
      s.prod = d ∧ t.prod = d) := by
  have hsz : ¬ (CovArg.array [d, d]).size = 1 := by
    simp only [CovArg.size, List.prod_cons, List.prod_nil, mul_one]
    intro h
    have := Nat.eq_one_of_mul_eq_one_right h
    omega
  have hM : meanNumpy m d = .ok () := by rcases hm with rfl | rfl <;> simp [meanNumpy]
  have hT : meanTorch m d = .ok () := by
    rcases hm with rfl | rfl <;> simp [meanTorch]; omega
  refine ⟨fun hn => ⟨?_, ?_⟩, [d], [1, d], ?_, ?_, by simp, by simp⟩
  · have : n ≠ 1 := by omega
    simp [rvsNumpy, hsz, squareDim, bind, Except.bind, hM, pure, Except.pure, this]
  · simp [rvsTorch, hsz, squareDim, bind, Except.bind, hT, pure, Except.pure]
  · simp [rvsNumpy, hsz, squareDim, bind, Except.bind, hM, pure, Except.pure]
  · simp [rvsTorch, hsz, squareDim, bind, Except.bind, hT, pure, Except.pure]

/-- **C179** (negative) A single draw has shape `(d,)` on numpy and `(1, d)` on torch. -/
theorem rvs_single_false : rvsNumpy .number (.array [3, 3]) 1 = .ok [3] ∧
    rvsTorch .number (.array [3, 3]) 1 = .ok [1, 3] := by decide

/-- **C179** In dimension one torch accepts a number or an array with one entry as mean, and nothing
else. -/
theorem rvs_one (m : MeanArg) (c : CovArg) (hc : c.size = 1) (n : ℕ) :
    (rvsTorch m c n = .ok [n] ↔ m = .number ∨ m = .array 1) ∧
    (rvsTorch m c n = .error .runtimeError ↔ ∃ k, k ≠ 1 ∧ m = .array k) := by
  unfold rvsTorch
  rw [if_pos hc]
  cases m with
  | number => simp
  | array k => by_cases h : k = 1 <;> simp [h]

/-- **C179** A covariance that is not a square matrix raises `ValueError` on both. -/
theorem rvs_bad_cov (m : MeanArg) (s : List ℕ) (n : ℕ) (hs : s.prod ≠ 1)
    (hq : ∀ d, s ≠ [d, d]) :
    rvsNumpy m (.array s) n = .error .valueError ∧ rvsTorch m (.array s) n = .error .valueError := by
  have h : squareDim (.array s) = .error .valueError := by
    match s, hq with
    | [], _ => rfl
    | [_], _ => rfl
    | [a, b], hq =>
      simp only [squareDim]
      rw [if_neg]
      rintro rfl
      exact hq a rfl
    | _ :: _ :: _ :: _, _ => rfl
  constructor
  · simp [rvsNumpy, CovArg.size, hs, h, bind, Except.bind]
  · simp [rvsTorch, CovArg.size, hs, h, bind, Except.bind]

/-- **C179** Means: both accept numbers and vectors of the right length and refuse longer
vectors of a wrong length. -/
theorem mean_spec (d k : ℕ) :
    meanNumpy .number d = .ok () ∧ meanTorch .number d = .ok () ∧
    (1 ≤ d → meanNumpy (.array d) d = .ok () ∧ meanTorch (.array d) d = .ok ()) ∧
    (1 < k → k ≠ d → meanNumpy (.array k) d = .error .valueError ∧
      meanTorch (.array k) d = .error .valueError) := by
  refine ⟨rfl, rfl, fun h => ⟨by simp [meanNumpy], ?_⟩, fun h1 h2 => ⟨?_, ?_⟩⟩
  · simp only [meanTorch]
    split
    · simp
    · rw [if_neg (by omega)]
  · simp [meanNumpy, h2]
  · simp [meanTorch, h1, h2]

/-- **C179** (negative) A mean with one entry for a covariance of size `d ≥ 2` is broadcast
by torch and refused by numpy. -/
theorem mean_one_entry_false (d : ℕ) (hd : 2 ≤ d) :
    meanNumpy (.array 1) d = .error .valueError ∧ meanTorch (.array 1) d = .ok () := by
  have : 1 ≠ d := by omega
  simp [meanNumpy, meanTorch, this]

/-! ## Concrete cases -/

example : asarrayNumpy (.array .float32 [2, 3]) = ⟨.float64, [2, 3], false⟩ := rfl

example : choiceTorch [10, 20, 30] (some 2) [2, 0, 1] = [30, 10] := by decide

example : clipNumpy 7 (some 0) (some 5) = 5 := by norm_num [clipNumpy]

end Verif.Backend
