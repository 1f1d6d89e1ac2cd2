import Verif.Data.Stats
import Verif.Data.PropsLoader
import Mathlib.Tactic.Linarith
import Mathlib.Tactic.FieldSimp
import Mathlib.Tactic.NormNum
import Mathlib.Algebra.BigOperators.Group.List.Basic

/-!
# C10 statistics, C11 `reduce_mean`, C12 scalers, C71 quantiles
-/

namespace Verif.Data

open Verif

/-- Spec: `m` is the least element of `l`. -/
def IsMinOf (m : ℝ) (l : List ℝ) : Prop := m ∈ l ∧ ∀ x ∈ l, m ≤ x
/-- Spec: `m` is the greatest element of `l`. -/
def IsMaxOf (m : ℝ) (l : List ℝ) : Prop := m ∈ l ∧ ∀ x ∈ l, x ≤ m

theorem foldl_min_spec (l : List ℝ) (a : ℝ) : IsMinOf (l.foldl min a) (a :: l) := by
  induction l generalizing a with
  | nil => exact ⟨by simp, by simp⟩
  | cons b l ih =>
    obtain ⟨h1, h2⟩ := ih (min a b)
    rw [List.foldl_cons]
    constructor
    · rcases List.mem_cons.mp h1 with h | h
      · rw [h]; rcases min_choice a b with h' | h' <;> rw [h'] <;> simp
      · simp [h]
    · have h3 := h2 (min a b) List.mem_cons_self
      intro x hx
      rcases List.mem_cons.mp hx with rfl | hx
      · exact h3.trans (min_le_left _ _)
      · rcases List.mem_cons.mp hx with rfl | hx
        · exact h3.trans (min_le_right _ _)
        · exact h2 x (List.mem_cons_of_mem _ hx)

theorem foldl_max_spec (l : List ℝ) (a : ℝ) : IsMaxOf (l.foldl max a) (a :: l) := by
  induction l generalizing a with
  | nil => exact ⟨by simp, by simp⟩
  | cons b l ih =>
    obtain ⟨h1, h2⟩ := ih (max a b)
    rw [List.foldl_cons]
    constructor
    · rcases List.mem_cons.mp h1 with h | h
      · rw [h]; rcases max_choice a b with h' | h' <;> rw [h'] <;> simp
      · simp [h]
    · have h3 := h2 (max a b) List.mem_cons_self
      intro x hx
      rcases List.mem_cons.mp hx with rfl | hx
      · exact (le_max_left _ _).trans h3
      · rcases List.mem_cons.mp hx with rfl | hx
        · exact (le_max_right _ _).trans h3
        · exact h2 x (List.mem_cons_of_mem _ hx)

theorem reduceMinGo_spec (ds : List (List ℝ)) (hne : ∀ d ∈ ds, d ≠ []) :
    ∀ (g : ℝ) (seen : List ℝ), IsMinOf g seen →
      ∃ m, reduceMinGo (some g) ds = .ok m ∧ IsMinOf m (seen ++ ds.flatten) := by
  induction ds with
  | nil => intro g seen h; exact ⟨g, rfl, by simpa using h⟩
  | cons d ds ih =>
    intro g seen h
    cases d with
    | nil => exact absurd rfl (hne [] List.mem_cons_self)
    | cons a l =>
      have hm := foldl_min_spec l a
      obtain ⟨m, h1, h2⟩ := ih (fun d hd => hne d (List.mem_cons_of_mem _ hd))
        (min g (l.foldl min a)) (seen ++ (a :: l)) (by
          constructor
          · rcases min_choice g (l.foldl min a) with h' | h' <;> rw [h', List.mem_append]
            · exact Or.inl h.1
            · exact Or.inr hm.1
          · intro x hx
            rcases List.mem_append.mp hx with hx | hx
            · exact (min_le_left _ _).trans (h.2 x hx)
            · exact (min_le_right _ _).trans (hm.2 x hx))
      refine ⟨m, ?_, ?_⟩
      · simp only [reduceMinGo, colMin]; exact h1
      · rw [List.flatten_cons, ← List.append_assoc]; exact h2

theorem reduceMaxGo_spec (ds : List (List ℝ)) (hne : ∀ d ∈ ds, d ≠ []) :
    ∀ (g : ℝ) (seen : List ℝ), IsMaxOf g seen →
      ∃ m, reduceMaxGo (some g) ds = .ok m ∧ IsMaxOf m (seen ++ ds.flatten) := by
  induction ds with
  | nil => intro g seen h; exact ⟨g, rfl, by simpa using h⟩
  | cons d ds ih =>
    intro g seen h
    cases d with
    | nil => exact absurd rfl (hne [] List.mem_cons_self)
    | cons a l =>
      have hm := foldl_max_spec l a
      obtain ⟨m, h1, h2⟩ := ih (fun d hd => hne d (List.mem_cons_of_mem _ hd))
        (max g (l.foldl max a)) (seen ++ (a :: l)) (by
          constructor
          · rcases max_choice g (l.foldl max a) with h' | h' <;> rw [h', List.mem_append]
            · exact Or.inl h.1
            · exact Or.inr hm.1
          · intro x hx
            rcases List.mem_append.mp hx with hx | hx
            · exact (h.2 x hx).trans (le_max_left _ _)
            · exact (hm.2 x hx).trans (le_max_right _ _))
      refine ⟨m, ?_, ?_⟩
      · simp only [reduceMaxGo, colMax]; exact h1
      · rw [List.flatten_cons, ← List.append_assoc]; exact h2

/-- **C10** With at least one shard and no empty shard, `x_min`/`z_min` is the
minimum of the concatenated column. -/
theorem reduceMin_spec (ds : List (List ℝ)) (h0 : ds ≠ []) (hne : ∀ d ∈ ds, d ≠ []) :
    ∃ m, reduceMin ds = .ok m ∧ IsMinOf m ds.flatten := by
  cases ds with
  | nil => exact absurd rfl h0
  | cons d ds =>
    cases d with
    | nil => exact absurd rfl (hne [] List.mem_cons_self)
    | cons a l =>
      obtain ⟨m, h1, h2⟩ := reduceMinGo_spec ds (fun d hd => hne d (List.mem_cons_of_mem _ hd))
        _ _ (foldl_min_spec l a)
      exact ⟨m, by simp only [reduceMin, reduceMinGo, colMin]; exact h1, h2⟩

/-- **C10** Same for the maximum. -/
theorem reduceMax_spec (ds : List (List ℝ)) (h0 : ds ≠ []) (hne : ∀ d ∈ ds, d ≠ []) :
    ∃ m, reduceMax ds = .ok m ∧ IsMaxOf m ds.flatten := by
  cases ds with
  | nil => exact absurd rfl h0
  | cons d ds =>
    cases d with
    | nil => exact absurd rfl (hne [] List.mem_cons_self)
    | cons a l =>
      obtain ⟨m, h1, h2⟩ := reduceMaxGo_spec ds (fun d hd => hne d (List.mem_cons_of_mem _ hd))
        _ _ (foldl_max_spec l a)
      exact ⟨m, by simp only [reduceMax, reduceMaxGo, colMax]; exact h1, h2⟩

/-- **C10** The minimum is not defined when a shard is empty: an empty shard
raises even if the other shards hold data. -/
theorem reduceMin_empty_shard (ds : List (List ℝ)) (h : [] ∈ ds) :
    reduceMin ds = .error .valueError := by
  have gen : ∀ (acc : Option ℝ), reduceMinGo acc ds = .error .valueError := by
    induction ds with
    | nil => cases h
    | cons d ds ih =>
      intro acc
      cases d with
      | nil => simp only [reduceMinGo, colMin]; rfl
      | cons a l =>
        have : [] ∈ ds := by simpa using h
        simp only [reduceMinGo, colMin]
        exact ih this _
  exact gen none

example : ([[1, 2], [3]] : List (List ℝ)) ≠ [] ∧ ∀ d ∈ ([[1, 2], [3]] : List (List ℝ)), d ≠ [] := by
  simp

theorem accum_some (f : ℝ → ℝ) (ds : List (List ℝ)) (t : ℝ) (n : Nat) :
    accum f (some t) n ds = (some (t + (ds.flatten.map f).sum), n + ds.flatten.length) := by
  induction ds generalizing t n with
  | nil => simp [accum]
  | cons d ds ih =>
    simp only [accum, ih, List.flatten_cons, List.map_append, List.sum_append, List.length_append]
    rw [add_assoc, add_assoc]

theorem accum_spec (f : ℝ → ℝ) (ds : List (List ℝ)) (h0 : ds ≠ []) :
    accum f none 0 ds = (some (ds.flatten.map f).sum, ds.flatten.length) := by
  cases ds with
  | nil => exact absurd rfl h0
  | cons d ds => simp [accum, accum_some]

/-- **C10** The mean is the mean of the concatenated column. -/
theorem reduceMean_spec (ds : List (List ℝ)) (hne : ds.flatten ≠ []) :
    reduceMean ds = .ok (some (ds.flatten.sum / ds.flatten.length)) := by
  have h0 : ds ≠ [] := by rintro rfl; exact hne rfl
  have hl : ds.flatten.length ≠ 0 := fun h => hne (List.length_eq_zero_iff.mp h)
  simp only [reduceMean, accum_spec id ds h0, npDiv, if_neg hl, List.map_id]

/-- **C10** The variance is the unbiased sample variance of the concatenated
column (two rows or more). -/
theorem reduceVar_spec (ds : List (List ℝ)) (hn : 2 ≤ ds.flatten.length) :
    reduceVar ds = .ok (some ((ds.flatten.map (fun x =>
      (x - ds.flatten.sum / ds.flatten.length) ^ 2)).sum / ((ds.flatten.length : ℝ) - 1))) := by
  have hne : ds.flatten ≠ [] := by intro h; rw [h] at hn; simp at hn
  have h0 : ds ≠ [] := by rintro rfl; exact hne rfl
  have hl : ds.flatten.length - 1 ≠ 0 := by omega
  unfold reduceVar
  rw [reduceMean_spec ds hne]
  simp only [bind, Except.bind, accum_spec _ ds h0, npDiv, if_neg hl, pure, Except.pure]
  rw [Nat.cast_sub (by omega), Nat.cast_one]

/-- **C10** With a single row the variance is not a number. -/
theorem reduceVar_single (x : ℝ) : reduceVar [[x]] = .ok none := by
  unfold reduceVar
  rw [reduceMean_spec [[x]] (by simp)]
  simp [bind, Except.bind, accum, npDiv, pure, Except.pure]

/-- **C10** The standard deviation is the nonnegative square root of that
variance. -/
theorem reduceStd_spec (ds : List (List ℝ)) (hn : 2 ≤ ds.flatten.length) :
    ∃ s v, reduceStd ds = .ok (some s) ∧ reduceVar ds = .ok (some v) ∧ 0 ≤ s ∧ s ^ 2 = v := by
  refine ⟨_, _, ?_, reduceVar_spec ds hn, Real.sqrt_nonneg _, Real.sq_sqrt ?_⟩
  · unfold reduceStd; rw [reduceVar_spec ds hn]; rfl
  · apply div_nonneg
    · apply List.sum_nonneg
      intro x hx
      obtain ⟨y, _, rfl⟩ := List.mem_map.mp hx
      exact sq_nonneg _
    · have : (2 : ℝ) ≤ (ds.flatten.length : ℝ) := by exact_mod_cast hn
      linarith

/-- **C10** None of these depends on how the rows are cut into shards. -/
theorem stats_shard_invariant (ds ds' : List (List ℝ)) (h : ds.flatten = ds'.flatten)
    (hn : 2 ≤ ds.flatten.length) :
    reduceMean ds = reduceMean ds' ∧ reduceVar ds = reduceVar ds' ∧ reduceStd ds = reduceStd ds' := by
  have hn' := hn; rw [h] at hn'
  have e1 : reduceVar ds = reduceVar ds' := by rw [reduceVar_spec ds hn, reduceVar_spec ds' hn', h]
  refine ⟨?_, e1, ?_⟩
  · rw [reduceMean_spec, reduceMean_spec, h]
    · intro h; rw [h] at hn'; simp at hn'
    · intro h; rw [h] at hn; simp at hn
  · unfold reduceStd; rw [e1]

example : (2 : Nat) ≤ ([[1, 2], [3]] : List (List ℝ)).flatten.length := by simp

/-! ## C11 -/

theorem loaderMeanGo_some {α β : Type} (f : List α × List β → ℝ) (bs : List (List α × List β))
    (t : ℝ) (n : Nat) :
    loaderMeanGo f (some t) n bs =
      (some (t + (bs.map (fun b => f b * b.1.length)).sum), n + (bs.map (fun b => b.1.length)).sum) := by
  induction bs generalizing t n with
  | nil => simp [loaderMeanGo]
  | cons b bs ih =>
    simp only [loaderMeanGo, ih, List.map_cons, List.sum_cons]
    rw [add_assoc, add_assoc]

/-- **C11** For any batch function, `reduce_mean` is the batch-size-weighted
mean of its values. -/
theorem loaderMean_weighted {α β : Type} (f : List α × List β → ℝ)
    (bs : List (List α × List β)) (h : 0 < (bs.map (fun b => b.1.length)).sum) :
    loaderMean f bs = .ok (some ((bs.map (fun b => f b * b.1.length)).sum /
      ((bs.map (fun b => b.1.length)).sum : Nat))) := by
  cases bs with
  | nil => simp at h
  | cons b bs =>
    unfold loaderMean
    have h' : ¬ ((0 + b.1.length) + (bs.map (fun b => b.1.length)).sum = 0) := by
      simp only [List.map_cons, List.sum_cons] at h; omega
    simp only [loaderMeanGo, loaderMeanGo_some, npDiv, if_neg h', List.map_cons, List.sum_cons]
    congr 3
    · ring
    · push_cast; ring

/-- **C11** If `f` averages a per-row quantity `φ`, `reduce_mean` over one epoch
without `drop_last` is the mean of `φ` over all rows of the data set: batch
size, sharding and row order do not matter. -/
theorem loaderMean_rows {α β : Type} (φ : α × β → ℝ) (f : List α × List β → ℝ)
    {rows : List (α × β)} {b : Nat} {sh : Bool} {bs : List (List α × List β)}
    (hE : IsEpoch rows b sh false bs) (hr : rows ≠ [])
    (hf : ∀ p ∈ bs, f p = ((batchRows p).map φ).sum / (batchRows p).length) :
    loaderMean f bs = .ok (some ((rows.map φ).sum / rows.length)) := by
  obtain ⟨sk, s1, s2, _⟩ := hE.visits
  rw [s2 rfl, List.append_nil] at s1
  have hlen : ∀ p ∈ bs, (batchRows p).length = p.1.length := by
    intro p hp
    simp [batchRows, ← hE.paired p hp]
  have e1 : (bs.map (fun b => b.1.length)).sum = rows.length := by
    rw [← s1.length_eq, List.length_flatMap]
    congr 1
    exact List.map_congr_left (fun p hp => (hlen p hp).symm)
  have e2 : (bs.map (fun b => f b * b.1.length)).sum = (rows.map φ).sum := by
    rw [← (s1.map φ).sum_eq]
    clear e1 s1 s2 hr
    have hpos := fun p hp => (hE.last p hp).1
    clear hE
    induction bs with
    | nil => simp
    | cons p bs ih =>
      simp only [List.map_cons, List.sum_cons, List.flatMap_cons, List.map_append, List.sum_append]
      rw [ih (fun q hq => hf q (List.mem_cons_of_mem _ hq))
        (fun q hq => hlen q (List.mem_cons_of_mem _ hq))
        (fun q hq => hpos q (List.mem_cons_of_mem _ hq)), hf p List.mem_cons_self,
        hlen p List.mem_cons_self]
      have : (p.1.length : ℝ) ≠ 0 := by
        have := hpos p List.mem_cons_self
        exact_mod_cast (by omega : p.1.length ≠ 0)
      rw [div_mul_cancel₀ _ this]
  have hr' : 0 < rows.length := List.length_pos_iff.mpr hr
  rw [loaderMean_weighted f bs (by rw [e1]; exact hr'), e1, e2]

/-- **C11** With no batch at all (`drop_last` and fewer rows than a batch) the
call raises `TypeError` (`None / 0`). -/
theorem loaderMean_no_batch {α β : Type} (f : List α × List β → ℝ) :
    loaderMean f [] = .error .typeError := rfl

/-! ## C12 -/

theorem scalerEps_pos : (0 : ℝ) < scalerEps := by unfold scalerEps; norm_num

theorem mkScaler_scale_pos (m s : ℝ) : 0 < (mkScaler m s).scale := by
  unfold mkScaler
  simp only
  split
  · norm_num
  · rename_i h; exact lt_of_lt_of_le scalerEps_pos (not_lt.mp h)

theorem mkMinMax_scale_pos (lo hi : ℝ) : 0 < (mkMinMax lo hi).scale := by
  unfold mkMinMax
  simp only
  split
  · norm_num
  · rename_i h; exact lt_of_lt_of_le scalerEps_pos (not_lt.mp h)

/-- **C12** Transform and inverse undo each other in both directions, for every
scaler the constructors can build (constant columns included). -/
theorem scaler_roundtrip (s : Scaler)
    (hs : (∃ m d, s = mkScaler m d) ∨ ∃ lo hi, s = mkMinMax lo hi) (x : ℝ) :
    s.inverse (s.transform x) = x ∧ s.transform (s.inverse x) = x := by
  have hp : s.scale ≠ 0 := by
    rcases hs with ⟨m, d, rfl⟩ | ⟨lo, hi, rfl⟩
    · exact (mkScaler_scale_pos m d).ne'
    · exact (mkMinMax_scale_pos lo hi).ne'
  unfold Scaler.inverse Scaler.transform
  constructor
  · field_simp; ring
  · field_simp; ring

/-- **C12** `MinMaxScaler` sends the fitted column into `[0,1]`. -/
theorem minMax_range (l : List ℝ) (hne : l ≠ []) :
    ∃ s, fitMinMax l = .ok s ∧ (∀ x ∈ l, 0 ≤ s.transform x ∧ s.transform x ≤ 1) ∧
      (∃ x ∈ l, s.transform x = 0) ∧
      ((∃ x ∈ l, ∃ y ∈ l, 1e-8 ≤ x - y) → ∃ x ∈ l, s.transform x = 1) := by
  cases l with
  | nil => exact absurd rfl hne
  | cons a l =>
    obtain ⟨lo1, lo2⟩ := foldl_min_spec l a
    obtain ⟨hi1, hi2⟩ := foldl_max_spec l a
    set lo := l.foldl min a
    set hi := l.foldl max a
    refine ⟨mkMinMax lo hi, rfl, ?_, ⟨lo, lo1, ?_⟩, ?_⟩
    · intro x hx
      have hp := mkMinMax_scale_pos lo hi
      have h1 := lo2 x hx
      have h2 := hi2 x hx
      have hsh : (mkMinMax lo hi).shift = lo := rfl
      unfold Scaler.transform
      rw [hsh]
      refine ⟨div_nonneg (by linarith) hp.le, (div_le_one hp).mpr ?_⟩
      unfold mkMinMax
      simp only
      split
      · rename_i h
        have : scalerEps < 1 := by unfold scalerEps; norm_num
        linarith
      · linarith
    · unfold Scaler.transform mkMinMax; simp
    · rintro ⟨x, hx, y, hy, hxy⟩
      change scalerEps ≤ x - y at hxy
      refine ⟨hi, hi1, ?_⟩
      have h1 := lo2 y hy
      have h2 := hi2 x hx
      have h3 : ¬ hi - lo < scalerEps := by linarith
      unfold Scaler.transform mkMinMax
      simp only [if_neg h3]
      exact div_self (by have := scalerEps_pos; linarith)

theorem list_sum_affine (l : List ℝ) (m d : ℝ) :
    (l.map (fun x => (x - m) / d)).sum = (l.sum - l.length * m) / d := by
  induction l with
  | nil => simp
  | cons a l ih =>
    simp only [List.map_cons, List.sum_cons, ih, List.length_cons]
    push_cast; ring

theorem list_sum_sq_div (l : List ℝ) (g : ℝ → ℝ) (d : ℝ) :
    (l.map (fun x => (g x / d) ^ 2)).sum = (l.map (fun x => g x ^ 2)).sum / d ^ 2 := by
  induction l with
  | nil => simp
  | cons a l ih =>
    simp only [List.map_cons, List.sum_cons, ih]
    rw [div_pow, add_div]

/-- **C12** `Normalizer`/`ObservationScaler`: the fitted column is sent to mean
zero; and to variance one (in the backend's own convention: `n` for numpy,
`n - 1` for torch) unless its standard deviation is below `1e-8`. -/
theorem normalizer_standardises (be : Backend) (l : List ℝ) (hne : l ≠ []) :
    let s := fitNormalizer be l
    colMean (l.map s.transform) = 0 ∧
    (1e-8 ≤ Real.sqrt (colVar be l) → colVar be (l.map s.transform) = 1) := by
  intro s
  have hlen : (l.length : ℝ) ≠ 0 := by
    exact_mod_cast (fun h => hne (List.length_eq_zero_iff.mp h))
  have hmean : colMean (l.map s.transform) = 0 := by
    unfold colMean
    have : (l.map s.transform).sum = (l.sum - l.length * s.shift) / s.scale :=
      list_sum_affine l s.shift s.scale
    rw [this]
    have : s.shift = l.sum / l.length := rfl
    rw [this, mul_div_cancel₀ _ hlen]; simp
  refine ⟨hmean, ?_⟩
  intro hv
  change scalerEps ≤ _ at hv
  have hsc : s.scale = Real.sqrt (colVar be l) := by
    show (if _ then _ else _) = _
    rw [if_neg (not_lt.mpr hv)]
  have hpos : 0 < Real.sqrt (colVar be l) := lt_of_lt_of_le scalerEps_pos hv
  have hvpos : 0 < colVar be l := Real.sqrt_pos.mp hpos
  unfold colVar at hvpos ⊢
  rw [hmean, List.map_map, List.length_map]
  have e : (l.map ((fun x => (x - 0) ^ 2) ∘ s.transform)).sum =
      (l.map (fun x => (x - colMean l) ^ 2)).sum / s.scale ^ 2 := by
    rw [← list_sum_sq_div]
    congr 1
    apply List.map_congr_left
    intro x _
    simp only [Function.comp, sub_zero]; rfl
  have hsq : s.scale ^ 2 = (l.map (fun x => (x - colMean l) ^ 2)).sum /
      stdDivisor be l.length := by
    rw [hsc, Real.sq_sqrt (by unfold colVar; exact hvpos.le)]
    rfl
  rw [e, hsq]
  generalize stdDivisor be l.length = c at *
  have hc : c ≠ 0 := by rintro rfl; simp at hvpos
  have hS : (l.map (fun x => (x - colMean l) ^ 2)).sum ≠ 0 := by
    intro h; rw [h] at hvpos; simp at hvpos
  field_simp

/-- Non-vacuity: the column `[0, 2]` has numpy standard deviation 1. -/
example : 1e-8 ≤ Real.sqrt (colVar .numpy [0, 2]) := by
  have : colVar .numpy [0, 2] = 1 := by
    unfold colVar colMean stdDivisor; norm_num
  rw [this, Real.sqrt_one]; norm_num

end Verif.Data
