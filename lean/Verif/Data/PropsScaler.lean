import Verif.Data.PropsStats
import Verif.FltOps

/-!
# C12: scalers fitted to few rows

`Normalizer.fit` and `ObservationScaler.fit` call the `mean` and `std` methods of the array.
The `std` of a torch tensor divides by `n - 1`, which for one row is `0/0`.  Here the fitted
scalers are modelled with NaN; with enough rows they are those of `Verif.Data.Stats`.
-/

set_option autoImplicit false

namespace Verif.Data

open Verif

/-- `x.mean(axis=0)`: NaN without rows. -/
noncomputable def meanF (l : List ℝ) : Flt := (Flt.fin l.sum).div (.fin l.length)

/-- The square of `x.std(axis=0)`: numpy divides by `n`, torch by `max(0, n - 1)`. -/
noncomputable def varF (be : Backend) (l : List ℝ) : Flt :=
  ((l.map fun x => ((Flt.fin x).sub (meanF l)).mul ((Flt.fin x).sub (meanF l))).foldl Flt.add
    (.fin 0)).div (.fin (max 0 (stdDivisor be l.length)))

/-- `sqrt`: NaN for negative numbers. -/
noncomputable def sqrtF : Flt → Flt
  | .nan => .nan
  | .num a =>
    open Classical in
    if a = ⊤ then .num ⊤ else if a < 0 then .nan else .fin (Real.sqrt a.toReal)

/-- `gnp.where(std < _EPS, 1.0, std)`, dataloader.py 543, and
`1.0 if std < _EPS else std`, dataloader.py 617: a comparison with NaN is false. -/
noncomputable def guardEps (s : Flt) : Flt :=
  open Classical in if s.lt (.fin scalerEps) then .fin 1 else s

/-- The attributes of a scaler. -/
structure FScaler where
  shift : Flt
  scale : Flt

/-- `transform`, dataloader.py 545-548, 619-622. -/
noncomputable def FScaler.transform (s : FScaler) (x : Flt) : Flt := (x.sub s.shift).div s.scale

/-- `inverse_transform`, dataloader.py 550-553, 624-627. -/
noncomputable def FScaler.inverse (s : FScaler) (y : Flt) : Flt := (y.mul s.scale).add s.shift

/-- `Normalizer.fit` / `ObservationScaler.fit`, dataloader.py 555-557, 629-631. -/
noncomputable def fitF (be : Backend) (l : List ℝ) : FScaler :=
  ⟨meanF l, guardEps (sqrtF (varF be l))⟩

theorem meanF_fin {l : List ℝ} (h : l ≠ []) : meanF l = .fin (colMean l) := by
  unfold meanF colMean
  have : (l.length : ℝ) ≠ 0 := by
    exact_mod_cast (fun h0 => h (List.length_eq_zero_iff.mp h0))
  exact Flt.div_fin this

theorem sqrtF_fin {r : ℝ} (h : 0 ≤ r) : sqrtF (.fin r) = .fin (Real.sqrt r) := by
  unfold sqrtF Flt.fin
  dsimp only
  rw [if_neg (EReal.coe_ne_top r), if_neg (by exact_mod_cast not_lt.mpr h), EReal.toReal_coe]

theorem varF_fin (be : Backend) {l : List ℝ} (h : l ≠ []) (hd : 0 < stdDivisor be l.length) :
    varF be l = .fin (colVar be l) := by
  unfold varF colVar
  rw [meanF_fin h, max_eq_right hd.le]
  have : (l.map fun x => ((Flt.fin x).sub (.fin (colMean l))).mul ((Flt.fin x).sub
      (.fin (colMean l)))) = (l.map fun x => (x - colMean l) ^ 2).map Flt.fin := by
    rw [List.map_map]
    refine List.map_congr_left fun x _ => ?_
    simp only [Flt.sub_fin, Flt.mul_fin, Function.comp, pow_two]
  rw [this, Flt.foldl_add_fin, zero_add, Flt.div_fin hd.ne']

theorem colVar_nonneg (be : Backend) {l : List ℝ} (hd : 0 < stdDivisor be l.length) :
    0 ≤ colVar be l := by
  unfold colVar
  refine div_nonneg (List.sum_nonneg ?_) hd.le
  intro y hy
  obtain ⟨x, _, rfl⟩ := List.mem_map.mp hy
  exact sq_nonneg _

/-- **C12** With at least one row (numpy) or two (torch) the fitted scaler is the one of the
exact model, and so are its two transformations. -/
theorem fitF_eq (be : Backend) {l : List ℝ} (h : l ≠ []) (hd : 0 < stdDivisor be l.length) :
    fitF be l = ⟨.fin (fitNormalizer be l).shift, .fin (fitNormalizer be l).scale⟩ ∧
    (∀ x, (fitF be l).transform (.fin x) = .fin ((fitNormalizer be l).transform x)) ∧
    (∀ y, (fitF be l).inverse (.fin y) = .fin ((fitNormalizer be l).inverse y)) := by
  have e : fitF be l = ⟨.fin (fitNormalizer be l).shift, .fin (fitNormalizer be l).scale⟩ := by
    unfold fitF fitNormalizer mkScaler guardEps
    rw [meanF_fin h, varF_fin be h hd, sqrtF_fin (colVar_nonneg be hd)]
    simp only [Flt.fin_lt]
    split_ifs <;> rfl
  have hp : (fitNormalizer be l).scale ≠ 0 := (mkScaler_scale_pos _ _).ne'
  refine ⟨e, fun x => ?_, fun y => ?_⟩
  · rw [e]
    unfold FScaler.transform Scaler.transform
    simp only [Flt.sub_fin]
    exact Flt.div_fin hp
  · rw [e]
    unfold FScaler.inverse Scaler.inverse
    simp only [Flt.mul_fin, Flt.add_fin]

/-- **C12** is false of the code: a `Normalizer` or `ObservationScaler` fitted to a single row
with the torch backend has NaN as its scale, and both transformations give NaN.  (The numpy
backend has scale one and sends the row to zero.) -/
theorem normalizer_one_row_false (x : ℝ) :
    (fitF .torch [x]).scale = .nan ∧
    (∀ y, (fitF .torch [x]).transform (.fin y) = .nan) ∧
    (∀ y, (fitF .torch [x]).inverse (.fin y) = .nan) ∧
    (fitF .numpy [x]).scale = .fin 1 ∧ (fitF .numpy [x]).transform (.fin x) = .fin 0 := by
  have hv : varF .torch [x] = .nan := by
    unfold varF
    rw [meanF_fin (by simp)]
    have : colMean [x] = x := by simp [colMean]
    rw [this]
    have e : ((Flt.fin x).sub (.fin x)).mul ((Flt.fin x).sub (.fin x)) = .fin 0 := by
      rw [Flt.sub_fin, Flt.mul_fin]; simp
    simp only [List.map_cons, List.map_nil, List.foldl_cons, List.foldl_nil, e, Flt.add_fin,
      List.length_singleton, stdDivisor, Nat.cast_one, sub_self, max_self, add_zero]
    simp [Flt.div, Flt.fin]
  have hs : (fitF .torch [x]).scale = .nan := by
    unfold fitF
    rw [hv]
    simp [sqrtF, guardEps]
  have hn := fitF_eq .numpy (l := [x]) (by simp) (by simp [stdDivisor])
  have hc : (fitNormalizer .numpy [x]).scale = 1 ∧ (fitNormalizer .numpy [x]).shift = x := by
    unfold fitNormalizer mkScaler colVar colMean stdDivisor
    norm_num [scalerEps]
  refine ⟨hs, fun y => ?_, fun y => ?_, ?_, ?_⟩
  · unfold FScaler.transform; rw [hs]; cases (Flt.fin y).sub (fitF .torch [x]).shift <;> rfl
  · unfold FScaler.inverse; rw [hs]; simp
  · rw [hn.1, hc.1]
  · rw [hn.2.1, Scaler.transform, hc.1, hc.2]; simp

/-- **C12** Without rows the fitted scaler is NaN with both backends. -/
theorem normalizer_no_rows (be : Backend) :
    (fitF be []).shift = .nan ∧ (fitF be []).scale = .nan := by
  have hm : meanF [] = .nan := by simp [meanF, Flt.div, Flt.fin]
  have hv : varF be [] = .nan := by
    cases be <;> simp [varF, stdDivisor, Flt.div, Flt.fin]
  refine ⟨hm, ?_⟩
  unfold fitF
  rw [hv]
  simp [sqrtF, guardEps]

/-- **C12** The two backends do not fit the same scale: for `n >= 2` rows that are not nearly
constant, the squared scales are in the ratio `n / (n - 1)`. -/
theorem normalizer_backends {l : List ℝ} (h : 2 ≤ l.length)
    (hv : 1e-8 ≤ Real.sqrt (colVar .numpy l)) :
    (fitNormalizer .torch l).scale ^ 2 * ((l.length : ℝ) - 1) =
      (fitNormalizer .numpy l).scale ^ 2 * l.length := by
  change scalerEps ≤ _ at hv
  have hn : (2 : ℝ) ≤ l.length := by exact_mod_cast h
  have hn1 : (0 : ℝ) < (l.length : ℝ) - 1 := by linarith
  set S := (l.map (fun x => (x - colMean l) ^ 2)).sum with hS
  have e1 : colVar .numpy l = S / l.length := rfl
  have e2 : colVar .torch l = S / ((l.length : ℝ) - 1) := rfl
  have h1 : 0 ≤ colVar .numpy l := colVar_nonneg .numpy (by simp only [stdDivisor]; linarith)
  have h2 : 0 ≤ colVar .torch l := colVar_nonneg .torch (by simp only [stdDivisor]; linarith)
  have hS0 : 0 ≤ S := by
    have := mul_nonneg h1 (by linarith : (0 : ℝ) ≤ l.length)
    rw [e1, div_mul_cancel₀ _ (by linarith)] at this
    exact this
  have hle : colVar .numpy l ≤ colVar .torch l := by
    rw [e1, e2]
    exact div_le_div_of_nonneg_left hS0 hn1 (by linarith)
  have g1 : (fitNormalizer .numpy l).scale = Real.sqrt (colVar .numpy l) := by
    change (if _ then _ else _) = _
    rw [if_neg (not_lt.mpr hv)]
  have g2 : (fitNormalizer .torch l).scale = Real.sqrt (colVar .torch l) := by
    change (if _ then _ else _) = _
    rw [if_neg (not_lt.mpr (hv.trans (Real.sqrt_le_sqrt hle)))]
  rw [g1, g2, Real.sq_sqrt h1, Real.sq_sqrt h2, e1, e2, div_mul_cancel₀ _ hn1.ne',
    div_mul_cancel₀ _ (by linarith)]

/-- Two rows `0` and `2`: scale `1` with numpy, `√2` with torch. -/
example : (fitNormalizer .numpy [0, 2]).scale = 1 ∧
    (fitNormalizer .torch [0, 2]).scale = Real.sqrt 2 := by
  have e1 : colVar .numpy [0, 2] = 1 := by unfold colVar colMean stdDivisor; norm_num
  have e2 : colVar .torch [0, 2] = 2 := by unfold colVar colMean stdDivisor; norm_num
  have h : (1 : ℝ) ≤ Real.sqrt 2 := Real.one_le_sqrt.mpr (by norm_num)
  constructor
  · change (if _ then _ else _) = _
    rw [e1, Real.sqrt_one, if_neg (by unfold scalerEps; norm_num)]
  · change (if _ then _ else _) = _
    rw [e2, if_neg (not_lt.mpr (le_trans (by unfold scalerEps; norm_num) h))]

/-- **C10** Statistics of nothing: without shards the mean and the variance raise `TypeError`;
shards without rows give NaN. -/
theorem reduceMean_cases (ds : List (List ℝ)) :
    (ds = [] → reduceMean ds = .error .typeError ∧ reduceVar ds = .error .typeError) ∧
    (ds ≠ [] → ds.flatten = [] → reduceMean ds = .ok none ∧ reduceVar ds = .ok none) := by
  constructor
  · rintro rfl
    exact ⟨rfl, rfl⟩
  · intro h0 hf
    have : reduceMean ds = .ok none := by
      simp only [reduceMean, accum_spec id ds h0, npDiv, hf, List.length_nil, if_true]
    refine ⟨this, ?_⟩
    unfold reduceVar
    rw [this]
    rfl

end Verif.Data
