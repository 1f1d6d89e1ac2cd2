import Verif.Misc.Score
import Mathlib.MeasureTheory.Integral.Layercake
import Mathlib.MeasureTheory.Measure.Prod

/-!
# Properties of the scoring rules
-/

set_option autoImplicit false

namespace Verif.Score

open Verif ProbabilityTheory MeasureTheory Set Filter Topology

theorem ncdf_fin (x : ℝ) : ncdf (Flt.fin x) = Flt.fin (Phi x) := by
  simp [ncdf, Flt.fin]

theorem npdf_fin (x : ℝ) : npdf (Flt.fin x) = Flt.fin (phi x) := by
  simp [npdf, Flt.fin]

theorem finite?_fin (x : ℝ) : finite? (Flt.fin x) = some x := by
  simp [finite?, Flt.fin]

theorem finite?_inf : finite? (.num ⊥) = none ∧ finite? (.num ⊤) = none ∧ finite? .nan = none := by
  simp [finite?]

theorem sqrt_pi_ne : √Real.pi ≠ 0 := by
  have := Real.pi_pos
  positivity

/-- The formula of `crps_gaussian` for a nonzero standard deviation. -/
theorem crps_fin (mu : ℝ) {sigma : ℝ} (hs : sigma ≠ 0) (z : ℝ) :
    crps mu sigma z = Flt.fin (sigma * ((z - mu) / sigma * (2 * Phi ((z - mu) / sigma) - 1) +
      2 * phi ((z - mu) / sigma) - (√Real.pi)⁻¹)) := by
  unfold crps
  simp only [Flt.div_fin hs, Flt.div_fin sqrt_pi_ne, ncdf_fin, npdf_fin, Flt.mul_fin, Flt.sub_fin, Flt.add_fin, one_div]

theorem ei1_fin (mu : ℝ) {sigma : ℝ} (hs : sigma ≠ 0) (z : ℝ) :
    ei1 mu sigma z = Flt.fin (sigma * H ((mu - z) / sigma)) := by
  unfold ei1 h1
  simp only [Flt.div_fin hs, ncdf_fin, npdf_fin, Flt.mul_fin, Flt.add_fin, H]

/-! ## The integral form of the CRPS -/

/-- The normal law of mean `mu` and standard deviation `sigma`. -/
noncomputable def law (mu sigma : ℝ) : Measure ℝ := gaussianReal mu (NNReal.mk (sigma ^ 2) (sq_nonneg sigma))

/-- The integrand of the CRPS: the squared difference of the distribution function and that of
the observation. -/
noncomputable def gap (mu sigma z u : ℝ) : ℝ := (cdf (law mu sigma) u - if z ≤ u then 1 else 0) ^ 2

theorem law_cdf (mu : ℝ) {sigma : ℝ} (hs : 0 < sigma) (u : ℝ) : cdf (law mu sigma) u = Phi ((u - mu) / sigma) :=
  cdf_gauss mu hs u

instance (mu sigma : ℝ) : IsProbabilityMeasure (law mu sigma) := by unfold law; infer_instance

/-- Primitive of the square of the distribution function. -/
noncomputable def A2 (mu sigma u : ℝ) : ℝ := sigma * G ((u - mu) / sigma)

/-- Primitive of the square of the survival function. -/
noncomputable def B2 (mu sigma u : ℝ) : ℝ := -(sigma * G ((mu - u) / sigma))

theorem affine_deriv (mu : ℝ) {sigma : ℝ} (u : ℝ) : HasDerivAt (fun u => (u - mu) / sigma) (1 / sigma) u := by
  simpa using ((hasDerivAt_id u).sub_const mu).div_const sigma

theorem affine_deriv' (mu : ℝ) {sigma : ℝ} (u : ℝ) : HasDerivAt (fun u => (mu - u) / sigma) (-1 / sigma) u := by
  simpa using ((hasDerivAt_id u).const_sub mu).div_const sigma

theorem A2_deriv (mu : ℝ) {sigma : ℝ} (hs : 0 < sigma) (u : ℝ) :
    HasDerivAt (A2 mu sigma) (cdf (law mu sigma) u ^ 2) u := by
  rw [law_cdf mu hs]
  have h := ((G_deriv ((u - mu) / sigma)).comp u (affine_deriv mu (sigma := sigma) u)).const_mul sigma
  refine h.congr_deriv ?_
  field_simp

theorem B2_deriv (mu : ℝ) {sigma : ℝ} (hs : 0 < sigma) (u : ℝ) :
    HasDerivAt (B2 mu sigma) ((cdf (law mu sigma) u - 1) ^ 2) u := by
  rw [law_cdf mu hs]
  have h := (((G_deriv ((mu - u) / sigma)).comp u (affine_deriv' mu (sigma := sigma) u)).const_mul sigma).neg
  refine h.congr_deriv ?_
  have e : (mu - u) / sigma = -((u - mu) / sigma) := by ring
  rw [e, Phi_neg]
  field_simp
  ring

theorem affine_bot (mu : ℝ) {sigma : ℝ} (hs : 0 < sigma) : Tendsto (fun u => (u - mu) / sigma) atBot atBot :=
  (tendsto_atBot_add_const_right _ (-mu) tendsto_id).atBot_div_const hs

theorem affine_top (mu : ℝ) {sigma : ℝ} (hs : 0 < sigma) : Tendsto (fun u => (mu - u) / sigma) atTop atBot := by
  have h : Tendsto (fun u : ℝ => mu - u) atTop atBot := by
    simpa [sub_eq_add_neg] using tendsto_atBot_add_const_left _ mu (tendsto_neg_atTop_atBot (G := ℝ))
  exact h.atBot_div_const hs

theorem A2_bot (mu : ℝ) {sigma : ℝ} (hs : 0 < sigma) : Tendsto (A2 mu sigma) atBot (𝓝 0) := by
  have := (G_bot.comp (affine_bot mu hs)).const_mul sigma
  rw [mul_zero] at this
  exact this

theorem B2_top (mu : ℝ) {sigma : ℝ} (hs : 0 < sigma) : Tendsto (B2 mu sigma) atTop (𝓝 0) := by
  have := ((G_bot.comp (affine_top mu hs)).const_mul sigma).neg
  rw [mul_zero, neg_zero] at this
  exact this

theorem gap_below {mu sigma z u : ℝ} (h : u < z) : gap mu sigma z u = cdf (law mu sigma) u ^ 2 := by
  unfold gap
  rw [if_neg (not_le.mpr h), sub_zero]

theorem gap_above {mu sigma z u : ℝ} (h : z ≤ u) : gap mu sigma z u = (cdf (law mu sigma) u - 1) ^ 2 := by
  unfold gap
  rw [if_pos h]

theorem gap_ae_below {mu sigma z b : ℝ} (h : b ≤ z) :
    gap mu sigma z =ᵐ[volume.restrict (Iic b)] fun u => cdf (law mu sigma) u ^ 2 := by
  have h0 : ∀ᵐ u ∂(volume : Measure ℝ), u ≠ z := by
    rw [ae_iff]; simp
  filter_upwards [ae_restrict_mem measurableSet_Iic, ae_restrict_of_ae h0] with u hu hne
  exact gap_below (lt_of_le_of_ne (hu.trans h) hne)

theorem gap_Iic_below (mu : ℝ) {sigma : ℝ} (hs : 0 < sigma) {z b : ℝ} (h : b ≤ z) :
    IntegrableOn (gap mu sigma z) (Iic b) ∧ ∫ u in Iic b, gap mu sigma z u = A2 mu sigma b := by
  have hi := integrableOn_Iic_of_deriv (A2_deriv mu hs) (fun u => sq_nonneg _) (A2_bot mu hs) b
  refine ⟨hi.congr (gap_ae_below h).symm, ?_⟩
  rw [integral_congr_ae (gap_ae_below h), integral_Iic_of_deriv (A2_deriv mu hs) (fun u => sq_nonneg _) (A2_bot mu hs), sub_zero]

theorem gap_Ioi_above (mu : ℝ) {sigma : ℝ} (hs : 0 < sigma) {z a : ℝ} (h : z ≤ a) :
    IntegrableOn (gap mu sigma z) (Ioi a) ∧ ∫ u in Ioi a, gap mu sigma z u = -B2 mu sigma a := by
  have he : EqOn (gap mu sigma z) (fun u => (cdf (law mu sigma) u - 1) ^ 2) (Ioi a) :=
    fun u hu => gap_above (h.trans (le_of_lt hu))
  have hi := integrableOn_Ioi_deriv_of_nonneg' (a := a) (fun u _ => B2_deriv mu hs u) (fun u _ => sq_nonneg _) (B2_top mu hs)
  refine ⟨hi.congr_fun he.symm measurableSet_Ioi, ?_⟩
  rw [setIntegral_congr_fun measurableSet_Ioi he,
    integral_Ioi_of_hasDerivAt_of_nonneg' (fun u _ => B2_deriv mu hs u) (fun u _ => sq_nonneg _) (B2_top mu hs), zero_sub]

/-- The integrand is integrable. -/
theorem gap_integrable (mu : ℝ) {sigma : ℝ} (hs : 0 < sigma) (z : ℝ) : Integrable (gap mu sigma z) := by
  rw [← integrableOn_univ, ← Iic_union_Ioi (a := z)]
  exact (gap_Iic_below mu hs le_rfl).1.union (gap_Ioi_above mu hs le_rfl).1

theorem gap_nonneg (mu sigma z u : ℝ) : 0 ≤ gap mu sigma z u := sq_nonneg _

theorem gap_univ (mu : ℝ) {sigma : ℝ} (hs : 0 < sigma) (z : ℝ) :
    ∫ u, gap mu sigma z u = A2 mu sigma z - B2 mu sigma z := by
  rw [← setIntegral_univ, ← Iic_union_Ioi (a := z), setIntegral_union (Iic_disjoint_Ioi le_rfl) measurableSet_Ioi
    (gap_Iic_below mu hs le_rfl).1 (gap_Ioi_above mu hs le_rfl).1, (gap_Iic_below mu hs le_rfl).2,
    (gap_Ioi_above mu hs le_rfl).2, sub_eq_add_neg]

theorem A2_sub_B2 (mu sigma z : ℝ) : A2 mu sigma z - B2 mu sigma z =
    sigma * ((z - mu) / sigma * (2 * Phi ((z - mu) / sigma) - 1) + 2 * phi ((z - mu) / sigma) - (√Real.pi)⁻¹) := by
  unfold A2 B2
  have e : (mu - z) / sigma = -((z - mu) / sigma) := by ring
  rw [e, ← G_reflect]
  ring

/-- **C68** `crps_gaussian` is the continuous ranked probability score: the integral of the
squared difference between the distribution function of the prediction and that of the
observation. -/
theorem crps_integral (mu : ℝ) {sigma : ℝ} (hs : 0 < sigma) (z : ℝ) :
    Integrable (gap mu sigma z) ∧ crps mu sigma z = Flt.fin (∫ u, gap mu sigma z u) := by
  refine ⟨gap_integrable mu hs z, ?_⟩
  rw [crps_fin mu hs.ne', gap_univ mu hs, A2_sub_B2]

/-- **C68** Translation of prediction and observation changes nothing. -/
theorem crps_translate (mu : ℝ) {sigma : ℝ} (hs : sigma ≠ 0) (z c : ℝ) :
    crps (mu + c) sigma (z + c) = crps mu sigma z := by
  rw [crps_fin _ hs, crps_fin _ hs]
  simp

/-- **C68** A change of unit multiplies the score. -/
theorem crps_scale (mu : ℝ) {sigma : ℝ} (hs : sigma ≠ 0) (z : ℝ) {c : ℝ} (hc : c ≠ 0) :
    crps (c * mu) (c * sigma) (c * z) = Flt.mul (Flt.fin c) (crps mu sigma z) := by
  rw [crps_fin _ (mul_ne_zero hc hs), crps_fin _ hs, Flt.mul_fin]
  rw [show (c * z - c * mu) / (c * sigma) = (z - mu) / sigma by
    rw [← mul_sub, mul_div_mul_left _ _ hc]]
  congr 1
  ring

theorem crps_core_even (t : ℝ) : -t * (2 * Phi (-t) - 1) + 2 * phi (-t) = t * (2 * Phi t - 1) + 2 * phi t := by
  rw [Phi_neg, phi_neg]
  ring

/-- **C68** Observations at the same distance on both sides of the mean have the same score. -/
theorem crps_symm (mu : ℝ) {sigma : ℝ} (hs : sigma ≠ 0) (d : ℝ) :
    crps mu sigma (mu + d) = crps mu sigma (mu - d) := by
  rw [crps_fin _ hs, crps_fin _ hs, show (mu - d - mu) / sigma = -((mu + d - mu) / sigma) by ring, crps_core_even]

/-- Derivative of the score in the standardised observation. -/
theorem core_deriv (t : ℝ) : HasDerivAt (fun t => t * (2 * Phi t - 1) + 2 * phi t) (2 * Phi t - 1) t := by
  have h := ((hasDerivAt_id t).mul (((Phi_deriv t).const_mul 2).sub_const 1)).add ((phi_deriv t).const_mul 2)
  refine h.congr_deriv ?_
  simp
  ring

theorem Phi_zero : Phi 0 = 1 / 2 := Kernel.cdf_zero

theorem core_mono {s t : ℝ} (hs : 0 ≤ s) (hst : s ≤ t) :
    s * (2 * Phi s - 1) + 2 * phi s ≤ t * (2 * Phi t - 1) + 2 * phi t := by
  have hm : MonotoneOn (fun t => t * (2 * Phi t - 1) + 2 * phi t) (Ici 0) := by
    refine monotoneOn_of_deriv_nonneg (convex_Ici 0) ?_ ?_ ?_
    · exact fun x _ => (core_deriv x).continuousAt.continuousWithinAt
    · exact fun x _ => (core_deriv x).differentiableAt.differentiableWithinAt
    · intro x hx
      rw [interior_Ici] at hx
      rw [(core_deriv x).deriv]
      have := Phi_mono (le_of_lt hx)
      rw [Phi_zero] at this
      linarith
  exact hm hs (hs.trans hst) hst

/-- The square root of two exceeds one. -/
theorem core_zero : (0 : ℝ) < 0 * (2 * Phi 0 - 1) + 2 * phi 0 - (√Real.pi)⁻¹ := by
  have hpi := Real.pi_pos
  have h1 : 2 * phi 0 = √2 * (√Real.pi)⁻¹ := by
    unfold phi
    rw [Real.sqrt_mul (by norm_num), mul_inv]
    have h2 : √2 ^ 2 = 2 := Real.sq_sqrt (by norm_num)
    have h3 : √2 ≠ 0 := by positivity
    simp only [ne_eq, OfNat.ofNat_ne_zero, not_false_eq_true, zero_pow, neg_zero, zero_div, Real.exp_zero, mul_one]
    field_simp
    exact h2.symm
  rw [h1]
  have h4 : 1 < √2 := by
    rw [show (1 : ℝ) = √1 by simp]
    exact Real.sqrt_lt_sqrt (by norm_num) (by norm_num)
  have h5 : 0 < (√Real.pi)⁻¹ := by positivity
  nlinarith

/-- **C68** The score grows with the distance of the observation to the mean, and is positive. -/
theorem crps_mono (mu : ℝ) {sigma : ℝ} (hs : 0 < sigma) {z z' : ℝ} (h : |z - mu| ≤ |z' - mu|) :
    ∃ s s', crps mu sigma z = Flt.fin s ∧ crps mu sigma z' = Flt.fin s' ∧ 0 < s ∧ s ≤ s' := by
  have habs : ∀ z, crps mu sigma z = Flt.fin (sigma * (|z - mu| / sigma * (2 * Phi (|z - mu| / sigma) - 1) +
      2 * phi (|z - mu| / sigma) - (√Real.pi)⁻¹)) := by
    intro z
    rw [crps_fin _ hs.ne']
    rcases abs_choice (z - mu) with e | e
    · rw [e]
    · rw [e, show -(z - mu) / sigma = -((z - mu) / sigma) by ring, crps_core_even]
  have h0 : ∀ z, 0 ≤ |z - mu| / sigma := fun z => div_nonneg (abs_nonneg _) hs.le
  refine ⟨_, _, habs z, habs z', ?_, ?_⟩
  · have h1 := core_mono le_rfl (h0 z)
    have h2 := core_zero
    exact mul_pos hs (by linarith)
  · have h1 := core_mono (h0 z) (div_le_div_of_nonneg_right h hs.le)
    exact mul_le_mul_of_nonneg_left (by linarith) hs.le

/-- **C68** A zero standard deviation gives NaN for every observation, although the score of a
point prediction is the absolute error. -/
theorem crps_zero_false (mu z : ℝ) : crps mu 0 z = .nan := by
  have h : ∀ x : Flt, x = .nan ∨ x = .num ⊤ → Flt.mul (Flt.fin 0) x = .nan := by
    rintro x (rfl | rfl)
    · simp
    · simp [Flt.mul, Flt.fin]
  unfold crps
  refine h _ ?_
  have ht3 : Flt.div (Flt.fin 1) (Flt.fin √Real.pi) = Flt.fin (1 / √Real.pi) := Flt.div_fin sqrt_pi_ne
  rw [ht3]
  have htop : ∀ c d : ℝ, ((Flt.num ⊤).add (Flt.fin c)).sub (Flt.fin d) = .num ⊤ := by
    intro c d
    simp [Flt.add, Flt.sub, Flt.fin, Flt.neg]
  rcases lt_trichotomy (z - mu) 0 with hz | hz | hz
  · right
    have e : Flt.div (Flt.fin (z - mu)) (Flt.fin 0) = .num ⊥ := by
      have h1 : ¬ (0 : EReal) < ((z - mu : ℝ) : EReal) := by
        rw [not_lt, ← EReal.coe_zero, EReal.coe_le_coe_iff]; exact hz.le
      have h2 : ((z - mu : ℝ) : EReal) ≠ 0 := by
        rw [← EReal.coe_zero, Ne, EReal.coe_eq_coe_iff]; exact hz.ne
      simp only [Flt.div, Flt.fin, EReal.coe_zero, if_true, if_neg h1, if_neg h2]
    rw [e]
    have e1 : ncdf (.num ⊥) = Flt.fin 0 := by simp [ncdf]
    have e2 : npdf (.num ⊥) = Flt.fin 0 := by simp [npdf]
    rw [e1, e2, Flt.mul_fin, Flt.sub_fin]
    have e3 : Flt.mul (.num ⊥) (Flt.fin (2 * 0 - 1)) = .num ⊤ := by
      have : ((2 * 0 - 1 : ℝ) : EReal) < 0 := by
        rw [← EReal.coe_zero, EReal.coe_lt_coe_iff]; norm_num
      simp only [Flt.mul, Flt.fin]
      rw [EReal.bot_mul_of_neg this, if_neg]
      rintro (⟨h, _⟩ | ⟨h, _⟩)
      · simp at h
      · exact this.ne h
    rw [e3]
    exact htop _ _
  · left
    rw [hz]
    have e : Flt.div (Flt.fin 0) (Flt.fin 0) = .nan := by simp [Flt.div, Flt.fin]
    rw [e]
    simp
  · right
    have e : Flt.div (Flt.fin (z - mu)) (Flt.fin 0) = .num ⊤ := by
      have h1 : (0 : EReal) < ((z - mu : ℝ) : EReal) := by
        rw [← EReal.coe_zero, EReal.coe_lt_coe_iff]; exact hz
      simp only [Flt.div, Flt.fin, EReal.coe_zero, if_true, if_pos h1, if_neg h1.ne']
    rw [e]
    have e1 : ncdf (.num ⊤) = Flt.fin 1 := by simp [ncdf]
    have e2 : npdf (.num ⊤) = Flt.fin 0 := by simp [npdf]
    rw [e1, e2, Flt.mul_fin, Flt.mul_fin, Flt.sub_fin]
    have e3 : Flt.mul (.num ⊤) (Flt.fin (2 * 1 - 1)) = .num ⊤ := by
      have : (0 : EReal) < ((2 * 1 - 1 : ℝ) : EReal) := by
        rw [← EReal.coe_zero, EReal.coe_lt_coe_iff]; norm_num
      simp only [Flt.mul, Flt.fin]
      rw [EReal.top_mul_of_pos this, if_neg]
      rintro (⟨h, _⟩ | ⟨h, _⟩)
      · simp at h
      · exact this.ne' h
    rw [e3]
    exact htop _ _

/-- **C68** A negative standard deviation is not refused: the score is then negative. -/
theorem crps_negative_false (mu : ℝ) {sigma : ℝ} (hs : 0 < sigma) (z : ℝ) :
    ∃ s, 0 < s ∧ crps mu (-sigma) z = Flt.fin (-s) := by
  obtain ⟨s, _, h1, _, h2, _⟩ := crps_mono mu hs (le_refl |z - mu|)
  refine ⟨s, h2, ?_⟩
  rw [crps_fin _ hs.ne'] at h1
  rw [crps_fin _ (neg_ne_zero.mpr hs.ne'), show (z - mu) / -sigma = -((z - mu) / sigma) by rw [div_neg],
    crps_core_even, ← Flt.fin_inj.mp h1]
  congr 1
  ring

/-- A forecast further from the observation has a larger score. -/
example : ∃ s s', crps 0 2 1 = Flt.fin s ∧ crps 0 2 (-3) = Flt.fin s' ∧ 0 < s ∧ s ≤ s' :=
  crps_mono 0 two_pos (by norm_num)

end Verif.Score
