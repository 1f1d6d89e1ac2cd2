import Verif.Misc.PropsScore
import Mathlib.MeasureTheory.Integral.Prod

/-!
# The truncated CRPS and the expected improvements
-/

set_option autoImplicit false

namespace Verif.Score

open Verif ProbabilityTheory MeasureTheory Set Filter Topology

/-- Contract of scipy's bivariate normal distribution function: the covariance `[[1, 1], [1, 2]]`
is that of `(-y₁, y₂ - y₁)` for independent standard normal `y₁`, `y₂`. -/
def IsBvn (bvn : Bvn) : Prop := ∀ t : ℝ, bvn (Flt.fin t) (Flt.fin 0) !![1, 1; 1, 2] =
  Flt.fin (((gaussianReal 0 1).prod (gaussianReal 0 1)).real {y | -y.1 ≤ t ∧ -y.1 + y.2 ≤ 0})

open Classical in
/-- Such functions exist. -/
theorem exists_bvn : ∃ bvn, IsBvn bvn :=
  ⟨fun t _ _ => match finite? t with
    | some t => Flt.fin (((gaussianReal 0 1).prod (gaussianReal 0 1)).real {y | -y.1 ≤ t ∧ -y.1 + y.2 ≤ 0})
    | none => .nan, fun t => by simp [finite?_fin]⟩

theorem D2_cov : D2 * D2.transpose = !![1, 1; 1, 2] := by
  unfold D2
  ext i j
  fin_cases i <;> fin_cases j <;> simp [Matrix.mul_apply, Fin.sum_univ_two]
  norm_num

theorem half_sq (t : ℝ) : IntegrableOn (fun x => phi x * Phi x) (Ioi (-t)) ∧
    ∫ x in Ioi (-t), phi x * Phi x = (1 - Phi (-t) ^ 2) / 2 := by
  have hd : ∀ x ∈ Ici (-t), HasDerivAt (fun x => Phi x ^ 2 / 2) (phi x * Phi x) x := by
    intro x _
    refine (((Phi_deriv x).pow 2).div_const 2).congr_deriv ?_
    simp
    ring
  have hp : ∀ x ∈ Ioi (-t), 0 ≤ phi x * Phi x := fun x _ => mul_nonneg (phi_pos x).le (Phi_nonneg x)
  have ht : Tendsto (fun x => Phi x ^ 2 / 2) atTop (𝓝 (1 / 2)) := by
    have := (Phi_top.pow 2).div_const 2
    simpa using this
  refine ⟨integrableOn_Ioi_deriv_of_nonneg' hd hp ht, ?_⟩
  rw [integral_Ioi_of_hasDerivAt_of_nonneg' hd hp ht]
  ring

/-- The probability of `y₁ ≥ -t` and `y₂ ≤ y₁`. -/
theorem bvn_value (t : ℝ) : ((gaussianReal 0 1).prod (gaussianReal 0 1)).real {y : ℝ × ℝ | -y.1 ≤ t ∧ -y.1 + y.2 ≤ 0} =
    (1 - Phi (-t) ^ 2) / 2 := by
  have hm : MeasurableSet {y : ℝ × ℝ | -y.1 ≤ t ∧ -y.1 + y.2 ≤ 0} :=
    (measurableSet_le (f := fun y : ℝ × ℝ => -y.1) (g := fun _ => t) (by fun_prop) (by fun_prop)).inter
      (measurableSet_le (f := fun y : ℝ × ℝ => -y.1 + y.2) (g := fun _ => 0) (by fun_prop) (by fun_prop))
  have hpre : ∀ x : ℝ, (gaussianReal 0 1).real (Prod.mk x ⁻¹' {y : ℝ × ℝ | -y.1 ≤ t ∧ -y.1 + y.2 ≤ 0}) =
      (Ici (-t)).indicator Phi x := by
    intro x
    by_cases hx : -t ≤ x
    · rw [indicator_of_mem (show x ∈ Ici (-t) from hx), Phi, cdf_eq_real]
      congr 1
      ext y
      simp only [mem_preimage, mem_setOf_eq, mem_Iic]
      constructor
      · rintro ⟨_, h⟩; linarith
      · intro h; exact ⟨by linarith, by linarith⟩
    · rw [indicator_of_notMem (show x ∉ Ici (-t) from hx)]
      have : Prod.mk x ⁻¹' {y : ℝ × ℝ | -y.1 ≤ t ∧ -y.1 + y.2 ≤ 0} = ∅ := by
        ext y
        simp only [mem_preimage, mem_setOf_eq, mem_empty_iff_false, iff_false, not_and]
        intro h
        exact absurd (by linarith) hx
      rw [this]
      simp
  rw [measureReal_def, Measure.prod_apply hm, ← integral_toReal (measurable_measure_prodMk_left hm).aemeasurable
    (ae_of_all _ fun x => measure_lt_top _ _)]
  simp only [← measureReal_def, hpre]
  rw [integral_gaussianReal_eq_integral_smul one_ne_zero]
  simp only [phi_pdf, smul_eq_mul]
  rw [← (half_sq t).2, ← integral_Ici_eq_integral_Ioi, ← integral_indicator measurableSet_Ici]
  congr 1
  funext x
  by_cases hx : x ∈ Ici (-t)
  · rw [indicator_of_mem hx, indicator_of_mem hx]
  · rw [indicator_of_notMem hx, indicator_of_notMem hx, mul_zero]

/-- Primitive of the distribution function. -/
noncomputable def A1 (mu sigma u : ℝ) : ℝ := sigma * H ((u - mu) / sigma)

theorem ei1_value (mu : ℝ) {sigma : ℝ} (hs : sigma ≠ 0) (z : ℝ) :
    ei1 mu sigma z = Flt.fin (mu - z + A1 mu sigma z) := by
  rw [ei1_fin _ hs]
  congr 1
  have h := H_reflect ((mu - z) / sigma)
  rw [show -((mu - z) / sigma) = (z - mu) / sigma by ring] at h
  unfold A1
  rw [show H ((mu - z) / sigma) = (mu - z) / sigma + H ((z - mu) / sigma) by linarith]
  field_simp

theorem ei2_value {bvn : Bvn} (hb : IsBvn bvn) (mu : ℝ) {sigma : ℝ} (hs : sigma ≠ 0) (z : ℝ) :
    ei2 bvn mu sigma z = Flt.fin (mu - z + sigma * (√Real.pi)⁻¹ + A2 mu sigma z) := by
  have h2 : √(1 / 2 : ℝ) ≠ 0 := by positivity
  have hb' := fun t => (hb t).trans (congrArg Flt.fin (bvn_value t))
  unfold ei2
  simp only [D2_cov, Flt.div_fin hs, hb', npdf_fin, ncdf_fin, Flt.neg_fin, Flt.div_fin sqrt_pi_ne,
    Flt.div_fin h2, Flt.mul_fin, Flt.add_fin]
  congr 1
  set t := (mu - z) / sigma with ht
  have e1 : (z - mu) / sigma = -t := by rw [ht]; ring
  have e2 : mu - z = sigma * t := by rw [ht]; field_simp
  have e3 : t / √(1 / 2) = √2 * t := by
    have : √(1 / 2 : ℝ) = (√2)⁻¹ := by rw [one_div, Real.sqrt_inv]
    rw [this, div_inv_eq_mul, mul_comm]
  unfold A2 G
  rw [e1, e2, e3, phi_neg, mul_neg, Phi_neg (√2 * t)]
  ring

theorem B2_value (mu : ℝ) {sigma : ℝ} (hs : sigma ≠ 0) (u : ℝ) :
    B2 mu sigma u = A2 mu sigma u - 2 * A1 mu sigma u + u - mu + sigma * (√Real.pi)⁻¹ := by
  have h := A2_sub_B2 mu sigma u
  have e : u - mu = sigma * ((u - mu) / sigma) := by field_simp
  unfold A1 H
  set t := (u - mu) / sigma with ht
  have : B2 mu sigma u = A2 mu sigma u - sigma * (t * (2 * Phi t - 1) + 2 * phi t - (√Real.pi)⁻¹) := by linarith
  rw [this]
  linear_combination -e

/-- The integral of the gap up to `b`. -/
theorem gap_Iic (mu : ℝ) {sigma : ℝ} (hs : 0 < sigma) (z b : ℝ) :
    ∫ u in Iic b, gap mu sigma z u =
      if b ≤ z then A2 mu sigma b else A2 mu sigma z + B2 mu sigma b - B2 mu sigma z := by
  split_ifs with h
  · exact (gap_Iic_below mu hs h).2
  · have h1 := gap_univ mu hs z
    rw [← setIntegral_univ, ← Iic_union_Ioi (a := b), setIntegral_union (Iic_disjoint_Ioi le_rfl) measurableSet_Ioi
      (gap_integrable mu hs z).integrableOn (gap_integrable mu hs z).integrableOn,
      (gap_Ioi_above mu hs (not_le.mp h).le).2] at h1
    linarith

/-- **C133** With an upper bound only, `tcrps_gaussian` is the integral of the squared
difference of the distribution functions up to the bound. -/
theorem tcrps_upper {bvn : Bvn} (hb : IsBvn bvn) (mu : ℝ) {sigma : ℝ} (hs : 0 < sigma) (z b : ℝ) :
    tcrps bvn mu sigma z (.num ⊥) (Flt.fin b) = Flt.fin (∫ u in Iic b, gap mu sigma z u) := by
  have ht : tcrps bvn mu sigma z (.num ⊥) (Flt.fin b) = tcrpsUpper bvn mu sigma z b := by
    simp only [tcrps, finite?_fin, finite?_inf, neg_neg]
  rw [ht]
  unfold tcrpsUpper
  simp only [ei2_value hb mu hs.ne', ei1_value mu hs.ne', Flt.div_fin sqrt_pi_ne, Flt.add_fin, Flt.sub_fin]
  rw [gap_Iic mu hs]
  by_cases h : z ≤ b
  · rw [if_pos h, Flt.mul_fin, Flt.add_fin, min_eq_right h]
    congr 1
    rw [div_eq_mul_inv]
    rcases h.eq_or_lt with rfl | hlt
    · rw [if_pos le_rfl]; ring
    · rw [if_neg (not_le.mpr hlt), B2_value mu hs.ne', B2_value mu hs.ne']
      ring
  · rw [if_neg h, Flt.mul_fin, Flt.add_fin, min_eq_left (not_le.mp h).le, if_pos (not_le.mp h).le, div_eq_mul_inv]
    congr 1
    ring

/-- **C133** With two finite bounds it is the integral between the bounds. -/
theorem tcrps_both {bvn : Bvn} (hb : IsBvn bvn) (mu : ℝ) {sigma : ℝ} (hs : 0 < sigma) (z : ℝ) {a b : ℝ} (hab : a ≤ b) :
    tcrps bvn mu sigma z (Flt.fin a) (Flt.fin b) = Flt.fin (∫ u in Ioc a b, gap mu sigma z u) := by
  have ht : tcrps bvn mu sigma z (Flt.fin a) (Flt.fin b) = tcrpsBoth bvn mu sigma z a b := by
    simp only [tcrps, finite?_fin]
  have hi : ∫ u in Ioc a b, gap mu sigma z u = (∫ u in Iic b, gap mu sigma z u) - ∫ u in Iic a, gap mu sigma z u := by
    rw [← intervalIntegral.integral_of_le hab, intervalIntegral.integral_Iic_sub_Iic
      (gap_integrable mu hs z).integrableOn (gap_integrable mu hs z).integrableOn]
  rw [ht, hi, gap_Iic mu hs, gap_Iic mu hs]
  unfold tcrpsBoth
  simp only [ei2_value hb mu hs.ne', ei1_value mu hs.ne', Flt.add_fin, Flt.sub_fin]
  by_cases h : z ≤ b
  · rw [if_pos h, Flt.mul_fin, Flt.add_fin, min_eq_right h]
    congr 1
    rcases le_total a z with haz | hza
    · rw [max_eq_right haz, max_eq_left (by linarith), if_pos haz]
      rcases h.eq_or_lt with rfl | hlt
      · rw [if_pos le_rfl]; ring
      · rw [if_neg (not_le.mpr hlt), B2_value mu hs.ne', B2_value mu hs.ne']
        ring
    · rw [max_eq_left hza, max_eq_right (by linarith)]
      have e : (if a ≤ z then A2 mu sigma a else A2 mu sigma z + B2 mu sigma a - B2 mu sigma z) =
          A2 mu sigma z + B2 mu sigma a - B2 mu sigma z := by
        split_ifs with h'
        · rw [le_antisymm h' hza]; ring
        · rfl
      have e' : (if b ≤ z then A2 mu sigma b else A2 mu sigma z + B2 mu sigma b - B2 mu sigma z) =
          A2 mu sigma z + B2 mu sigma b - B2 mu sigma z := by
        split_ifs with h'
        · rw [le_antisymm h' h]; ring
        · rfl
      rw [e, e', B2_value mu hs.ne' a, B2_value mu hs.ne' b]
      ring
  · have hbz := (not_le.mp h).le
    rw [if_neg h, Flt.mul_fin, Flt.add_fin, min_eq_left hbz, if_pos hbz, if_pos (hab.trans hbz), max_eq_left (by linarith)]
    congr 1
    ring

theorem A2_reflect (mu sigma u : ℝ) : A2 (-mu) sigma (-u) = -B2 mu sigma u ∧ B2 (-mu) sigma (-u) = -A2 mu sigma u := by
  unfold A2 B2
  rw [show -u - -mu = mu - u by ring, show -mu - -u = u - mu by ring]
  constructor <;> ring

/-- **C133** With a lower bound only it is the integral above the bound. -/
theorem tcrps_lower {bvn : Bvn} (hb : IsBvn bvn) (mu : ℝ) {sigma : ℝ} (hs : 0 < sigma) (z a : ℝ) :
    tcrps bvn mu sigma z (Flt.fin a) (.num ⊤) = Flt.fin (∫ u in Ioi a, gap mu sigma z u) := by
  have ht : tcrps bvn mu sigma z (Flt.fin a) (.num ⊤) = tcrps bvn (-mu) sigma (-z) (.num ⊥) (Flt.fin (-a)) := by
    simp only [tcrps, finite?_fin, finite?_inf, neg_neg]
  rw [ht, tcrps_upper hb (-mu) hs]
  congr 1
  have h1 := gap_univ mu hs z
  rw [← setIntegral_univ, ← Iic_union_Ioi (a := a), setIntegral_union (Iic_disjoint_Ioi le_rfl) measurableSet_Ioi
    (gap_integrable mu hs z).integrableOn (gap_integrable mu hs z).integrableOn, gap_Iic mu hs] at h1
  rw [gap_Iic (-mu) hs, (A2_reflect mu sigma a).1, (A2_reflect mu sigma a).2, (A2_reflect mu sigma z).1,
    (A2_reflect mu sigma z).2]
  by_cases h : a ≤ z
  · rw [if_pos h] at h1
    by_cases h' : z ≤ a
    · rw [le_antisymm h h', if_pos le_rfl]
      rw [le_antisymm h h'] at h1
      linarith
    · rw [if_neg (by linarith)]
      linarith
  · rw [if_neg h] at h1
    rw [if_pos (by linarith)]
    linarith

/-- **C133** Without bounds it is the CRPS. -/
theorem tcrps_none (bvn : Bvn) (mu sigma z : ℝ) : tcrps bvn mu sigma z (.num ⊥) (.num ⊤) = crps mu sigma z := by
  simp only [tcrps, finite?_inf]

/-- **C133** The scores of two adjacent half lines add up to the CRPS. -/
theorem tcrps_additive {bvn : Bvn} (hb : IsBvn bvn) (mu : ℝ) {sigma : ℝ} (hs : 0 < sigma) (z c : ℝ) :
    Flt.add (tcrps bvn mu sigma z (.num ⊥) (Flt.fin c)) (tcrps bvn mu sigma z (Flt.fin c) (.num ⊤)) = crps mu sigma z := by
  have h : ∫ u, gap mu sigma z u = (∫ u in Iic c, gap mu sigma z u) + ∫ u in Ioi c, gap mu sigma z u := by
    rw [← setIntegral_union (Iic_disjoint_Ioi le_rfl) measurableSet_Ioi (gap_integrable mu hs z).integrableOn
      (gap_integrable mu hs z).integrableOn, Iic_union_Ioi, setIntegral_univ]
  rw [tcrps_upper hb mu hs, tcrps_lower hb mu hs, (crps_integral mu hs z).2, Flt.add_fin, h]

/-- **C133** A bound that is NaN is ignored, and so are bounds that leave no interval
(`a = +inf`): the score is that of the whole line. -/
theorem tcrps_bounds_false (bvn : Bvn) (mu : ℝ) {sigma : ℝ} (hs : 0 < sigma) (z : ℝ) :
    tcrps bvn mu sigma z .nan .nan = crps mu sigma z ∧
    tcrps bvn mu sigma z (.num ⊤) (.num ⊤) = crps mu sigma z ∧ ∃ s, 0 < s ∧ crps mu sigma z = Flt.fin s := by
  obtain ⟨s, _, h1, _, h2, _⟩ := crps_mono mu hs (le_refl |z - mu|)
  exact ⟨by simp only [tcrps, finite?_inf], by simp only [tcrps, finite?_inf], s, h2, h1⟩

theorem Phi_lt_one (x : ℝ) : Phi x < 1 := by
  have hm : StrictMono Phi := strictMono_of_deriv_pos fun y => by
    rw [(Phi_deriv y).deriv]
    unfold phi
    positivity
  exact (hm (lt_add_one x)).trans_le (Phi_le_one _)

/-- **C133** Exchanged bounds are accepted: with both above the observation the score is minus
the integral, hence negative. -/
theorem tcrps_exchanged_false {bvn : Bvn} (hb : IsBvn bvn) (mu : ℝ) {sigma : ℝ} (hs : 0 < sigma) {z a b : ℝ}
    (hba : b < a) (hzb : z ≤ b) :
    tcrps bvn mu sigma z (Flt.fin a) (Flt.fin b) = Flt.fin (-∫ u in Ioc b a, gap mu sigma z u) ∧
    0 < ∫ u in Ioc b a, gap mu sigma z u := by
  have hza := hzb.trans hba.le
  have hc : ∀ u, z ≤ u → (if u ≤ z then A2 mu sigma u else A2 mu sigma z + B2 mu sigma u - B2 mu sigma z) =
      A2 mu sigma z + B2 mu sigma u - B2 mu sigma z := fun u hu => by
    split_ifs with h'
    · rw [le_antisymm h' hu]; ring
    · rfl
  have hi : ∫ u in Ioc b a, gap mu sigma z u = B2 mu sigma a - B2 mu sigma b := by
    rw [← intervalIntegral.integral_of_le hba.le, ← intervalIntegral.integral_Iic_sub_Iic
      (gap_integrable mu hs z).integrableOn (gap_integrable mu hs z).integrableOn, gap_Iic mu hs, gap_Iic mu hs,
      hc a hza, hc b hzb]
    ring
  constructor
  · have ht : tcrps bvn mu sigma z (Flt.fin a) (Flt.fin b) = tcrpsBoth bvn mu sigma z a b := by
      simp only [tcrps, finite?_fin]
    rw [ht, hi]
    unfold tcrpsBoth
    simp only [ei2_value hb mu hs.ne', ei1_value mu hs.ne', Flt.add_fin, Flt.sub_fin]
    rw [if_pos hzb, Flt.mul_fin, Flt.add_fin, min_eq_right hzb, max_eq_left hza, max_eq_right (by linarith),
      B2_value mu hs.ne' a, B2_value mu hs.ne' b]
    congr 1
    ring
  · rw [setIntegral_pos_iff_support_of_nonneg_ae
      (Filter.Eventually.of_forall fun u => gap_nonneg mu sigma z u) (gap_integrable mu hs z).integrableOn]
    have hsub : Ioc b a ⊆ Function.support (gap mu sigma z) ∩ Ioc b a := fun u hu => by
      refine ⟨?_, hu⟩
      rw [Function.mem_support, gap_above (hzb.trans hu.1.le), law_cdf mu hs]
      exact pow_ne_zero _ (sub_ne_zero.mpr (Phi_lt_one _).ne)
    refine lt_of_lt_of_le ?_ (measure_mono hsub)
    rw [Real.volume_Ioc]
    exact ENNReal.ofReal_pos.mpr (by linarith)

/-- Standard prediction, observation 1, on `[0, 2]`. -/
example : ∃ bvn, IsBvn bvn ∧ tcrps bvn 0 1 1 (Flt.fin 0) (Flt.fin 2) = Flt.fin (∫ u in Ioc 0 2, gap 0 1 1 u) := by
  obtain ⟨bvn, hb⟩ := exists_bvn
  exact ⟨bvn, hb, tcrps_both hb 0 one_pos 1 (by norm_num)⟩

/-- The same with the bounds 2 and 1, exchanged. -/
example : ∃ bvn, IsBvn bvn ∧ ∃ s, 0 < s ∧ tcrps bvn 0 1 1 (Flt.fin 2) (Flt.fin 1) = Flt.fin (-s) := by
  obtain ⟨bvn, hb⟩ := exists_bvn
  have h := tcrps_exchanged_false hb 0 one_pos (z := 1) (a := 2) (b := 1) one_lt_two le_rfl
  exact ⟨bvn, hb, _, h.2, h.1⟩

end Verif.Score
