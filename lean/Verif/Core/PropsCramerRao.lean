import Verif.Core.PropsFisherScore
import Verif.Core.PropsProper
import Verif.Core.PropsInexact
import Verif.Core.PropsSmooth
import Mathlib.Probability.Moments.Variance

/-!
# C291: no unbiased estimator of the parameters has a variance below the inverse of the Fisher information
-/

set_option autoImplicit false

namespace Verif.Core

open Verif Verif.Data Matrix MeasureTheory ProbabilityTheory Filter Topology

variable {n p q r : ℕ} {be : Backend} {la : LA}

theorem withDensity_ratio {L0 L1 : Measure (Fin n → ℝ)} {p0 p1 : (Fin n → ℝ) → ℝ} (h0 : IsDensity L0 p0) (h1 : IsDensity L1 p1) :
    L1 = L0.withDensity fun z => ENNReal.ofReal (p1 z / p0 z) := by
  have c0 := h0.cont
  have c1 := h1.cont
  have hc : Continuous fun z => p1 z / p0 z := c1.div c0 fun z => (h0.pos z).ne'
  conv_rhs => rw [h0.dens]
  rw [← withDensity_mul _ (by fun_prop) (by have := hc.measurable; fun_prop), h1.dens]
  congr 1
  funext z
  rw [Pi.mul_apply, ← ENNReal.ofReal_mul (h0.pos z).le, mul_div_cancel₀ _ (h0.pos z).ne']

/-- The chi-square of one normal law with respect to another. -/
theorem chi_density {K0 K1 : Mat n n} (h0 : K0.PosDef) (h1 : K1.PosDef) (hQ : ((2 : ℝ) • K1⁻¹ - K0⁻¹).PosDef) (m z : Fin n → ℝ) :
    (gaussDensity K1 m z / gaussDensity K0 m z) ^ 2 * gaussDensity K0 m z =
      (Real.sqrt (1 - ((K1 - K0) * K0⁻¹) ^ 2).det)⁻¹ * gaussDensity ((2 : ℝ) • K1⁻¹ - K0⁻¹)⁻¹ m z := by
  set Q := (2 : ℝ) • K1⁻¹ - K0⁻¹ with hQd
  have u0 := PosDef.det_unit h0
  have u1 := PosDef.det_unit h1
  have uQ := PosDef.det_unit hQ
  have d0 := h0.det_pos
  have d1 := h1.det_pos
  have dQ := hQ.det_pos
  have hE : (1 - ((K1 - K0) * K0⁻¹) ^ 2).det = K1.det * Q.det * K1.det / K0.det := by
    have e1 : (K1 - K0) * K0⁻¹ = K1 * K0⁻¹ - 1 := by rw [Matrix.sub_mul, Matrix.mul_nonsing_inv _ u0]
    have e2 : K1 * Q = 2 - K1 * K0⁻¹ := by
      rw [hQd, Matrix.mul_sub, Matrix.mul_smul, Matrix.mul_nonsing_inv _ u1, ← Algebra.algebraMap_eq_smul_one]
      rfl
    have e3 : 1 - (K1 * K0⁻¹ - 1) ^ 2 = (K1 * Q) * (K1 * K0⁻¹) := by
      rw [e2]
      noncomm_ring
    rw [e1, e3, det_mul, det_mul, det_mul, det_nonsing_inv, Ring.inverse_eq_inv']
    field_simp
  have hp : (0 : ℝ) < (2 * Real.pi) ^ n := by have := Real.pi_pos; positivity
  rw [hE]
  have hp0 := gaussDensity_pos h0 m z
  have e : (gaussDensity K1 m z / gaussDensity K0 m z) ^ 2 * gaussDensity K0 m z = gaussDensity K1 m z ^ 2 / gaussDensity K0 m z := by
    field_simp
  rw [e]
  unfold gaussDensity
  rw [Matrix.nonsing_inv_nonsing_inv _ uQ, det_nonsing_inv, Ring.inverse_eq_inv']
  set w := z - m
  have hq : w ⬝ᵥ (Q *ᵥ w) = 2 * (w ⬝ᵥ (K1⁻¹ *ᵥ w)) - w ⬝ᵥ (K0⁻¹ *ᵥ w) := by
    rw [hQd, sub_mulVec, dotProduct_sub, smul_mulVec, dotProduct_smul, smul_eq_mul]
  have e0 : ∀ a b : ℝ, (a⁻¹ * Real.exp b)⁻¹ = a * Real.exp (-b) := fun a b => by rw [_root_.mul_inv, _root_.inv_inv, Real.exp_neg]
  rw [hq, mul_pow, ← Real.exp_nat_mul, inv_pow, Real.sq_sqrt (by positivity), div_eq_mul_inv, e0]
  have e1 : (((2 * Real.pi) ^ n * K1.det)⁻¹ * Real.exp ((2 : ℕ) * (-(1 / 2) * (w ⬝ᵥ (K1⁻¹ *ᵥ w))))) *
      (Real.sqrt ((2 * Real.pi) ^ n * K0.det) * Real.exp (-(-(1 / 2) * (w ⬝ᵥ (K0⁻¹ *ᵥ w))))) =
      (((2 * Real.pi) ^ n * K1.det)⁻¹ * Real.sqrt ((2 * Real.pi) ^ n * K0.det)) *
        Real.exp (-(1 / 2) * (2 * (w ⬝ᵥ (K1⁻¹ *ᵥ w)) - w ⬝ᵥ (K0⁻¹ *ᵥ w))) := by
    rw [mul_mul_mul_comm, ← Real.exp_add]
    congr 2
    push_cast
    ring
  rw [e1, ← mul_assoc]
  congr 1
  rw [← Real.sqrt_inv, ← Real.sqrt_inv, ← Real.sqrt_mul (by positivity)]
  have e2 : ((2 * Real.pi) ^ n * K1.det)⁻¹ = Real.sqrt ((((2 * Real.pi) ^ n * K1.det)⁻¹) ^ 2) := by
    rw [Real.sqrt_sq (by positivity)]
  rw [e2, ← Real.sqrt_mul (by positivity)]
  congr 1
  field_simp

/-- Means of one statistic under two normal laws with the same mean vector. -/
theorem chapman_robbins {K0 K1 : Mat n n} (h0 : K0.PosDef) (h1 : K1.PosDef) (hQ : ((2 : ℝ) • K1⁻¹ - K0⁻¹).PosDef) (m : Fin n → ℝ)
    {T : (Fin n → ℝ) → ℝ} (hT : MemLp T 2 (normalLaw m K0)) :
    Integrable T (normalLaw m K1) ∧
    (∫ z, T z ∂(normalLaw m K1) - ∫ z, T z ∂(normalLaw m K0)) ^ 2 ≤
      Var[T; normalLaw m K0] * ((Real.sqrt (1 - ((K1 - K0) * K0⁻¹) ^ 2).det)⁻¹ - 1) := by
  have g0 := gauss_isDensity h0 m
  have g1 := gauss_isDensity h1 m
  have gS := gauss_isDensity hQ.inv m
  set L0 := normalLaw m K0 with hL0
  set k := (Real.sqrt (1 - ((K1 - K0) * K0⁻¹) ^ 2).det)⁻¹ with hk
  have hk0 : 0 ≤ k := inv_nonneg.mpr (Real.sqrt_nonneg _)
  set rho : (Fin n → ℝ) → ℝ := fun z => gaussDensity K1 m z / gaussDensity K0 m z with hrho
  have hpos : ∀ z, 0 < rho z := fun z => div_pos (g1.pos z) (g0.pos z)
  have hc : Continuous rho := g1.cont.div g0.cont fun z => (g0.pos z).ne'
  have hr := withDensity_ratio g0 g1
  have hsq : ∫⁻ z, ENNReal.ofReal (rho z ^ 2) ∂L0 = ENNReal.ofReal k := by
    have c0 := g0.cont
    have cS := gS.cont
    rw [g0.dens, lintegral_withDensity_eq_lintegral_mul _ (by fun_prop) (by fun_prop)]
    have e : ∀ z, ((fun z => ENNReal.ofReal (gaussDensity K0 m z)) * fun z => ENNReal.ofReal (rho z ^ 2)) z =
        ENNReal.ofReal k * ENNReal.ofReal (gaussDensity ((2 : ℝ) • K1⁻¹ - K0⁻¹)⁻¹ m z) := fun z => by
      rw [Pi.mul_apply, ← ENNReal.ofReal_mul (g0.pos z).le, ← ENNReal.ofReal_mul hk0, mul_comm, hrho]
      congr 1
      exact chi_density h0 h1 hQ m z
    simp only [e]
    rw [lintegral_const_mul _ (by fun_prop)]
    have : ∫⁻ z, ENNReal.ofReal (gaussDensity ((2 : ℝ) • K1⁻¹ - K0⁻¹)⁻¹ m z) = 1 := by
      have := measure_univ (μ := normalLaw m ((2 : ℝ) • K1⁻¹ - K0⁻¹)⁻¹)
      rw [gS.dens, withDensity_apply _ MeasurableSet.univ, Measure.restrict_univ] at this
      exact this
    rw [this, mul_one]
  have hi2 : Integrable (fun z => rho z ^ 2) L0 := by
    refine ⟨by fun_prop, ?_⟩
    rw [hasFiniteIntegral_iff_ofReal (ae_of_all _ fun z => sq_nonneg _), hsq]
    exact ENNReal.ofReal_lt_top
  have hm2 : ∫ z, rho z ^ 2 ∂L0 = k := by
    rw [integral_eq_lintegral_of_nonneg_ae (ae_of_all _ fun z => sq_nonneg _) (by fun_prop), hsq, ENNReal.toReal_ofReal hk0]
  have hrL : MemLp rho 2 L0 := (memLp_two_iff_integrable_sq (by fun_prop)).mpr hi2
  have hri : Integrable rho L0 := hrL.integrable one_le_two
  have hTi : Integrable T L0 := hT.integrable one_le_two
  have hTr : Integrable (fun z => T z * rho z) L0 := hT.integrable_mul hrL
  have hmeas : Measurable fun z => ENNReal.ofReal (rho z) := by have := hc.measurable; fun_prop
  have hch : ∀ f : (Fin n → ℝ) → ℝ, ∫ z, f z ∂(normalLaw m K1) = ∫ z, f z * rho z ∂L0 := fun f => by
    rw [hr, integral_withDensity_eq_integral_toReal_smul hmeas (by simp)]
    refine integral_congr_ae (ae_of_all _ fun z => ?_)
    simp only [smul_eq_mul]
    rw [ENNReal.toReal_ofReal (hpos z).le, mul_comm]
  have hT1 : Integrable T (normalLaw m K1) := by
    rw [hr, integrable_withDensity_iff_integrable_smul' hmeas (by simp)]
    refine hTr.congr (ae_of_all _ fun z => ?_)
    simp only [smul_eq_mul]
    rw [ENNReal.toReal_ofReal (hpos z).le, mul_comm]
  have hone : ∫ z, rho z ∂L0 = 1 := by
    have := hch fun _ => 1
    simpa using this.symm
  refine ⟨hT1, ?_⟩
  set a := ∫ z, T z ∂L0 with ha
  have hf : MemLp (fun z => T z - a) 2 L0 := hT.sub (memLp_const a)
  have hg : MemLp (fun z => rho z - 1) 2 L0 := hrL.sub (memLp_const 1)
  have hff : Integrable (fun z => (T z - a) ^ 2) L0 := hf.integrable_sq
  have hgg : Integrable (fun z => (rho z - 1) ^ 2) L0 := hg.integrable_sq
  have hfg : Integrable (fun z => (T z - a) * (rho z - 1)) L0 := hf.integrable_mul hg
  have i1 : ∫ z, (rho z - 1) ^ 2 ∂L0 = k - 1 := by
    have e : ∀ z, (rho z - 1) ^ 2 = rho z ^ 2 - (2 * rho z - 1) := fun z => by ring
    simp only [e]
    have j : Integrable (fun z => 2 * rho z - 1) L0 := (hri.const_mul 2).sub (integrable_const 1)
    rw [integral_sub hi2 j, integral_sub (hri.const_mul 2) (integrable_const 1),
      integral_const_mul, hone, hm2]
    simp
    ring
  have i2 : ∫ z, (T z - a) * (rho z - 1) ∂L0 = ∫ z, T z ∂(normalLaw m K1) - a := by
    have e : ∀ z, (T z - a) * (rho z - 1) = T z * rho z - (a * rho z + (T z - a)) := fun z => by ring
    simp only [e]
    have j1 : Integrable (fun z => T z - a) L0 := hTi.sub (integrable_const a)
    have j2 : Integrable (fun z => a * rho z + (T z - a)) L0 := (hri.const_mul a).add j1
    rw [integral_sub hTr j2, integral_add (hri.const_mul a) j1, integral_const_mul, hone,
      integral_sub hTi (integrable_const a), hch T]
    simp [← ha]
  have hv : Var[T; L0] = ∫ z, (T z - a) ^ 2 ∂L0 := variance_eq_integral hT.aemeasurable
  have hquad : ∀ s : ℝ, 0 ≤ (k - 1) * (s * s) + 2 * (∫ z, T z ∂(normalLaw m K1) - a) * s + Var[T; L0] := fun s => by
    have : 0 ≤ ∫ z, ((T z - a) + s * (rho z - 1)) ^ 2 ∂L0 := integral_nonneg fun z => sq_nonneg _
    have e : ∀ z, ((T z - a) + s * (rho z - 1)) ^ 2 = (T z - a) ^ 2 + (2 * s * ((T z - a) * (rho z - 1)) + s * s * (rho z - 1) ^ 2) :=
      fun z => by ring
    simp only [e] at this
    have j : Integrable (fun z => 2 * s * ((T z - a) * (rho z - 1)) + s * s * (rho z - 1) ^ 2) L0 :=
      (hfg.const_mul _).add (hgg.const_mul _)
    rw [integral_add hff j, integral_add (hfg.const_mul _) (hgg.const_mul _), integral_const_mul, integral_const_mul, i1, i2, ← hv] at this
    linarith
  have := discrim_le_zero hquad
  unfold discrim at this
  nlinarith

/-- The chi-square along a differentiable curve of covariances is of second order. -/
theorem chi_slope {K : ℝ → Mat n n} {D : Mat n n} (hK : ∀ a b, HasDerivAt (fun t => K t a b) (D a b) 0) :
    Tendsto (fun h : ℝ => ((Real.sqrt (1 - ((K h - K 0) * (K 0)⁻¹) ^ 2).det)⁻¹ - 1) / h ^ 2) (𝓝[>] 0)
      (𝓝 (1 / 2 * ((K 0)⁻¹ * D * (K 0)⁻¹ * D).trace)) := by
  set c : ℝ → Mat n n := fun h => (h⁻¹ • ((K h - K 0) * (K 0)⁻¹)) ^ 2 with hc
  have hcl : Tendsto c (𝓝[≠] 0) (𝓝 ((D * (K 0)⁻¹) ^ 2)) := by
    have h1 : Tendsto (fun h : ℝ => h⁻¹ • (K h - K 0)) (𝓝[≠] 0) (𝓝 D) := by
      refine tendsto_pi_nhds.mpr fun a => tendsto_pi_nhds.mpr fun b => ?_
      have := hasDerivAt_iff_tendsto_slope.mp (hK a b)
      refine this.congr fun h => ?_
      simp [slope_def_field, div_eq_inv_mul]
    have h2 := (h1.mul_const (K 0)⁻¹).pow 2
    refine h2.congr fun h => ?_
    simp only [hc, Matrix.smul_mul]
  set F : ℝ → Mat n n := fun s => 1 - s • c (Real.sqrt |s|) with hF
  have hsq : Tendsto (fun s : ℝ => Real.sqrt |s|) (𝓝[≠] 0) (𝓝[≠] 0) := by
    refine tendsto_nhdsWithin_iff.mpr ⟨?_, ?_⟩
    · have : ContinuousAt (fun s : ℝ => Real.sqrt |s|) 0 := by fun_prop
      have := this.tendsto
      simp only [abs_zero, Real.sqrt_zero] at this
      exact this.mono_left nhdsWithin_le_nhds
    · filter_upwards [self_mem_nhdsWithin] with s hs
      exact (Real.sqrt_pos.mpr (abs_pos.mpr hs)).ne'
  have hFd : ∀ a b, HasDerivAt (fun s => F s a b) ((-((D * (K 0)⁻¹) ^ 2)) a b) 0 := fun a b => by
    rw [hasDerivAt_iff_tendsto_slope]
    have h1 : Tendsto (fun s : ℝ => -(c (Real.sqrt |s|) a b)) (𝓝[≠] 0) (𝓝 (-(((D * (K 0)⁻¹) ^ 2) a b))) :=
      ((tendsto_pi_nhds.mp (tendsto_pi_nhds.mp (hcl.comp hsq) a) b)).neg
    refine h1.congr' ?_
    filter_upwards [self_mem_nhdsWithin] with s hs
    have hs' : s ≠ 0 := hs
    rw [slope_def_field]
    simp only [hF, Matrix.sub_apply, Matrix.smul_apply, smul_eq_mul, sub_zero, zero_mul]
    field_simp
    ring
  have hF0 : F 0 = 1 := by simp [hF]
  have hdet := det_deriv hFd
  rw [hF0, Matrix.adjugate_one, Matrix.one_mul, Matrix.trace_neg] at hdet
  have h1 : (F 0).det ≠ 0 := by rw [hF0, det_one]; exact one_ne_zero
  have hs0 : Real.sqrt (F 0).det = 1 := by rw [hF0, det_one, Real.sqrt_one]
  have hk := (hdet.sqrt h1).inv (by rw [hs0]; exact one_ne_zero)
  rw [hs0] at hk
  have ht : ((D * (K 0)⁻¹) ^ 2).trace = ((K 0)⁻¹ * D * (K 0)⁻¹ * D).trace := by
    rw [pow_two, ← Matrix.mul_assoc, Matrix.trace_mul_comm]
    congr 1
    simp only [Matrix.mul_assoc]
  have hsl := hasDerivAt_iff_tendsto_slope.mp hk
  have h2 : Tendsto (fun h : ℝ => h ^ 2) (𝓝[>] 0) (𝓝[≠] 0) := by
    refine tendsto_nhdsWithin_iff.mpr ⟨?_, ?_⟩
    · have : ContinuousAt (fun h : ℝ => h ^ 2) 0 := by fun_prop
      have := this.tendsto
      rw [zero_pow two_ne_zero] at this
      exact this.mono_left nhdsWithin_le_nhds
    · filter_upwards [self_mem_nhdsWithin] with h hh
      exact pow_ne_zero 2 (ne_of_gt hh)
  have h3 := hsl.comp h2
  have e : -(-((D * (K 0)⁻¹) ^ 2).trace / (2 * 1)) / 1 ^ 2 = 1 / 2 * ((K 0)⁻¹ * D * (K 0)⁻¹ * D).trace := by
    rw [ht]; ring
  rw [e] at h3
  refine h3.congr' ?_
  filter_upwards [self_mem_nhdsWithin] with h hh
  have hh' : (0 : ℝ) < h := hh
  have hFh : F (h ^ 2) = 1 - ((K h - K 0) * (K 0)⁻¹) ^ 2 := by
    simp only [hF, hc]
    rw [abs_of_nonneg (sq_nonneg h), Real.sqrt_sq hh'.le, smul_pow, smul_smul, ← mul_pow, mul_inv_cancel₀ hh'.ne', one_pow, one_smul]
  rw [Function.comp_apply, slope_def_field]
  simp only [Pi.inv_apply, hFh, hs0, sub_zero, _root_.inv_one]

/-- The one-parameter inequality. -/
theorem cramer_rao_curve {K : ℝ → Mat n n} {D : Mat n n} (hp : ∀ t, (K t).PosDef) (hK : ∀ a b, HasDerivAt (fun t => K t a b) (D a b) 0)
    (m : Fin n → ℝ) {T : (Fin n → ℝ) → ℝ} (hT : MemLp T 2 (normalLaw m (K 0))) {g' : ℝ}
    (hg : HasDerivAt (fun t => ∫ z, T z ∂(normalLaw m (K t))) g' 0) :
    g' ^ 2 ≤ Var[T; normalLaw m (K 0)] * (1 / 2 * ((K 0)⁻¹ * D * (K 0)⁻¹ * D).trace) := by
  have hu := PosDef.det_unit (hp 0)
  have h1 := (chi_slope hK).const_mul (Var[T; normalLaw m (K 0)])
  have hsl := hasDerivAt_iff_tendsto_slope.mp hg
  have h2 := (hsl.mono_left (nhdsWithin_mono 0 (s := Set.Ioi 0) fun x hx => ne_of_gt hx)).pow 2
  refine le_of_tendsto_of_tendsto h2 h1 ?_
  have hQ : ∀ᶠ h in 𝓝 (0 : ℝ), ((2 : ℝ) • (K h)⁻¹ - (K 0)⁻¹).PosDef := by
    have hinv : Tendsto (fun h => (K h)⁻¹) (𝓝 0) (𝓝 (K 0)⁻¹) :=
      tendsto_pi_nhds.mpr fun a => tendsto_pi_nhds.mpr fun b => (inv_deriv hu hK a b).continuousAt.tendsto
    have hl : Tendsto (fun h => (2 : ℝ) • (K h)⁻¹ - (K 0)⁻¹) (𝓝 0) (𝓝 (K 0)⁻¹) := by
      have := (hinv.const_smul (2 : ℝ)).sub_const (K 0)⁻¹
      rwa [two_smul, add_sub_cancel_right] at this
    filter_upwards [hl.eventually (posDef_open (hp 0).inv)] with h hh
    refine hh ?_
    rw [transpose_sub, transpose_smul, PosSemidef.symm (hp h).inv.posSemidef, PosSemidef.symm (hp 0).inv.posSemidef]
  filter_upwards [hQ.filter_mono nhdsWithin_le_nhds, self_mem_nhdsWithin] with h hh hpos
  have hpos' : (0 : ℝ) < h := hpos
  have := (chapman_robbins (hp 0) (hp h) hh m hT).2
  rw [slope_def_field, sub_zero, div_pow, ← mul_div_assoc]
  exact div_le_div_of_nonneg_right this (sq_nonneg h)

/-- Partial derivative of the covariance. -/
noncomputable def partialCov (cov : (Fin p → ℝ) → Mat n n) (theta : Fin p → ℝ) (i : Fin p) : Mat n n :=
  Matrix.of fun a b => fderiv ℝ (fun t => cov t a b) theta (Pi.single i 1)

/-- The expected information of a family of centred normal laws. -/
noncomputable def info (cov : (Fin p → ℝ) → Mat n n) (theta : Fin p → ℝ) : Mat p p :=
  Matrix.of fun i j => 1 / 2 * ((cov theta)⁻¹ * partialCov cov theta i * (cov theta)⁻¹ * partialCov cov theta j).trace

theorem partialCov_hasDerivAt {cov : (Fin p → ℝ) → Mat n n} {theta : Fin p → ℝ}
    (hd : ∀ a b, DifferentiableAt ℝ (fun t => cov t a b) theta) (i : Fin p) (a b : Fin n) :
    HasDerivAt (fun v => cov (Function.update theta i v) a b) (partialCov cov theta i a b) (theta i) := by
  have h1 : HasDerivAt (Function.update theta i) (Pi.single i (1 : ℝ)) (theta i) := by
    refine hasDerivAt_pi.mpr fun k => ?_
    by_cases hk : k = i
    · subst hk
      simpa using hasDerivAt_id' (theta k)
    · simpa [Function.update_of_ne hk, hk] using hasDerivAt_const (theta i) (theta k)
  have h2 : HasFDerivAt (fun t => cov t a b) (fderiv ℝ (fun t => cov t a b) theta) (Function.update theta i (theta i)) := by
    rw [Function.update_eq_self]
    exact (hd a b).hasFDerivAt
  exact h2.comp_hasDerivAt (theta i) h1

/-- The inequality in all directions, and for unbiased estimators of the parameters. -/
theorem cramer_core {cov : (Fin p → ℝ) → Mat n n} (hp : ∀ t, (cov t).PosDef) (m : Fin n → ℝ) {theta : Fin p → ℝ}
    (hd : ∀ a b, DifferentiableAt ℝ (fun t => cov t a b) theta) :
    (∀ T : (Fin n → ℝ) → ℝ, MemLp T 2 (normalLaw m (cov theta)) → ∀ g' : (Fin p → ℝ) →L[ℝ] ℝ,
      HasFDerivAt (fun t => ∫ z, T z ∂(normalLaw m (cov t))) g' theta →
      ∀ v, g' v ^ 2 ≤ Var[T; normalLaw m (cov theta)] * (v ⬝ᵥ (info cov theta *ᵥ v))) ∧
    (IsUnit (info cov theta).det → ∀ T : (Fin n → ℝ) → Fin p → ℝ, (∀ k, MemLp (fun z => T z k) 2 (normalLaw m (cov theta))) →
      (∀ᶠ t in 𝓝 theta, ∀ k, Integrable (fun z => T z k) (normalLaw m (cov t)) ∧ ∫ z, T z k ∂(normalLaw m (cov t)) = t k) →
      ∀ w, w ⬝ᵥ ((info cov theta)⁻¹ *ᵥ w) ≤ Var[fun z => w ⬝ᵥ T z; normalLaw m (cov theta)]) := by
  have h1 : ∀ T : (Fin n → ℝ) → ℝ, MemLp T 2 (normalLaw m (cov theta)) → ∀ g' : (Fin p → ℝ) →L[ℝ] ℝ,
      HasFDerivAt (fun t => ∫ z, T z ∂(normalLaw m (cov t))) g' theta →
      ∀ v, g' v ^ 2 ≤ Var[T; normalLaw m (cov theta)] * (v ⬝ᵥ (info cov theta *ᵥ v)) := by
    intro T hT g' hg v
    have hline : HasDerivAt (fun t : ℝ => theta + t • v) v 0 := by
      simpa using ((hasDerivAt_id (0 : ℝ)).smul_const v).const_add theta
    have h0 : theta + (0 : ℝ) • v = theta := by simp
    have hcomp : ∀ {f : (Fin p → ℝ) → ℝ} {f' : (Fin p → ℝ) →L[ℝ] ℝ}, HasFDerivAt f f' theta →
        HasDerivAt (fun t : ℝ => f (theta + t • v)) (f' v) 0 := fun {f f'} hf => by
      have hf' : HasFDerivAt f f' (theta + (0 : ℝ) • v) := by rwa [h0]
      exact hf'.comp_hasDerivAt (0 : ℝ) hline
    have := cramer_rao_curve (K := fun t : ℝ => cov (theta + t • v)) (D := ∑ i, v i • partialCov cov theta i) (fun t => hp _)
      (fun a b => by
        refine (hcomp (hd a b).hasFDerivAt).congr_deriv ?_
        have hv : v = ∑ i, v i • (Pi.single i (1 : ℝ) : Fin p → ℝ) := by
          funext k
          simp [Finset.sum_apply, Pi.single_apply]
        conv_lhs => rw [hv, map_sum]
        simp only [map_smul, smul_eq_mul, Matrix.sum_apply, Matrix.smul_apply, partialCov, of_apply]) m (T := T) (by simpa using hT) (hcomp hg)
    simp only [h0] at this
    refine this.trans (le_of_eq ?_)
    congr 1
    simp only [Matrix.sum_mul, Matrix.mul_smul, Matrix.smul_mul, Matrix.trace_sum, Matrix.trace_smul, smul_eq_mul,
      dotProduct, mulVec, info, of_apply, Finset.mul_sum]
    rw [Finset.sum_comm]
    refine Finset.sum_congr rfl fun i _ => Finset.sum_congr rfl fun j _ => ?_
    ring
  refine ⟨h1, fun hu T hT hunb w => ?_⟩
  set v := (info cov theta)⁻¹ *ᵥ w with hv
  set g' : (Fin p → ℝ) →L[ℝ] ℝ := ∑ k, w k • ContinuousLinearMap.proj (R := ℝ) (φ := fun _ : Fin p => ℝ) k with hg'
  have hgv : ∀ u, g' u = w ⬝ᵥ u := fun u => by
    simp [hg', dotProduct]
  have hTw : MemLp (fun z => w ⬝ᵥ T z) 2 (normalLaw m (cov theta)) := by
    simp only [dotProduct]
    exact memLp_finsetSum _ fun k _ => (hT k).const_mul (w k)
  have hg : HasFDerivAt (fun t => ∫ z, w ⬝ᵥ T z ∂(normalLaw m (cov t))) g' theta := by
    refine g'.hasFDerivAt.congr_of_eventuallyEq ?_
    filter_upwards [hunb] with t ht
    rw [hgv]
    simp only [dotProduct]
    rw [integral_finsetSum _ fun k _ => ((ht k).1.const_mul (w k))]
    exact Finset.sum_congr rfl fun k _ => by rw [integral_const_mul, (ht k).2]
  have := h1 _ hTw g' hg v
  rw [hgv, hv, mulVec_mulVec, Matrix.mul_nonsing_inv _ hu, one_mulVec, dotProduct_comm _ w] at this
  have hvar := variance_nonneg (fun z => w ⬝ᵥ T z) (normalLaw m (cov theta))
  by_contra hlt
  push Not at hlt
  nlinarith

/-- **C291** The matrix returned by `fisher_information` tends to a limit as the finite-difference step decreases, and is equal to it when
the differences are exact.  For data drawn from the model and any statistic with a finite variance whose mean is differentiable in
the covariance parameters, the square of the derivative of the mean in any direction is at most the variance of the statistic times the
information in that direction; and if the information is invertible, the covariance of unbiased estimators of the parameters is at least
its inverse. -/
theorem cramer_rao (hla : la.Sound be) {cov : (Fin p → ℝ) → Mat n n} (hp : ∀ t, (cov t).PosDef) (m : Fin n → ℝ) {theta : Fin p → ℝ}
    (hd : ∀ a b, DifferentiableAt ℝ (fun t => cov t a b) theta) :
    ∃ (I : ℝ → Mat p p) (I0 : Mat p p), (∀ eps, fisher la cov theta eps = .ok (I eps)) ∧
      Tendsto I (𝓝[≠] 0) (𝓝 I0) ∧
      (∀ eps, (∀ i a b, HasDerivAt (fun v => cov (Function.update theta i v) a b) (dCov cov theta eps i a b) (theta i)) → I eps = I0) ∧
      (∀ T : (Fin n → ℝ) → ℝ, MemLp T 2 (normalLaw m (cov theta)) → ∀ g' : (Fin p → ℝ) →L[ℝ] ℝ,
        HasFDerivAt (fun t => ∫ z, T z ∂(normalLaw m (cov t))) g' theta →
        ∀ v, g' v ^ 2 ≤ Var[T; normalLaw m (cov theta)] * (v ⬝ᵥ (I0 *ᵥ v))) ∧
      (IsUnit I0.det → ∀ T : (Fin n → ℝ) → Fin p → ℝ, (∀ k, MemLp (fun z => T z k) 2 (normalLaw m (cov theta))) →
        (∀ᶠ t in 𝓝 theta, ∀ k, Integrable (fun z => T z k) (normalLaw m (cov t)) ∧ ∫ z, T z k ∂(normalLaw m (cov t)) = t k) →
        ∀ w, w ⬝ᵥ (I0⁻¹ *ᵥ w) ≤ Var[fun z => w ⬝ᵥ T z; normalLaw m (cov theta)]) := by
  choose I hI _ hIe _ using fun eps => fisher_psd hla cov (fun t => PosDef.symm (hp t)) theta (hp theta) eps
  have hD := partialCov_hasDerivAt hd
  obtain ⟨c1, c2⟩ := cramer_core hp m hd
  refine ⟨I, info cov theta, hI, ?_, fun eps he => ?_, c1, c2⟩
  · refine tendsto_pi_nhds.mpr fun i => tendsto_pi_nhds.mpr fun j => ?_
    have := info_tendsto (cov theta)⁻¹ (fun i e => dCov cov theta e i) (partialCov cov theta)
      (fun i a b => dCov_tendsto cov theta i a b _ (hD i a b)) i j
    refine this.congr fun e => ?_
    rw [hIe]
  · have hx : ∀ i, dCov cov theta eps i = partialCov cov theta i := fun i => by
      ext a b
      exact (he i a b).unique (hD i a b)
    ext i j
    rw [hIe, hx, hx]
    rfl

theorem dCov_contrast (cov : (Fin p → ℝ) → Mat (q + r) (q + r)) (W : Mat (q + r) r) (theta : Fin p → ℝ) (eps : ℝ) (i : Fin p) :
    dCov (fun t => Wᵀ * (cov t * W)) theta eps i = Wᵀ * (dCov cov theta eps i * W) := by
  unfold dCov finiteDiff
  simp only [Matrix.smul_mul, Matrix.mul_smul, Matrix.add_mul, Matrix.mul_add, Matrix.sub_mul, Matrix.mul_sub, Matrix.neg_mul, Matrix.mul_neg]

/-- Data as a function of its contrasts and a function of the linear space. -/
theorem contrast_split {P : Mat (q + r) q} {W : Mat (q + r) r} (hW : IsContrast P W) (hP : FullRank P) (z : Fin (q + r) → ℝ) :
    ∃ b, z = W *ᵥ (Wᵀ *ᵥ z) + P *ᵥ b := by
  have hWP : Wᵀ * P = 0 := by
    have := congrArg Matrix.transpose hW.null
    rwa [transpose_mul, transpose_transpose, transpose_zero] at this
  have hPP : (Pᵀ * P).PosDef := by
    have := posDef_gls (K := (1 : Mat (q + r) (q + r))) Matrix.PosDef.one hP
    rwa [_root_.inv_one, Matrix.one_mul] at this
  set b := (Pᵀ * P)⁻¹ *ᵥ (Pᵀ *ᵥ z)
  obtain ⟨c, hc⟩ := hW.span (z - P *ᵥ b) (by
    rw [mulVec_sub, mulVec_mulVec, mulVec_mulVec, Matrix.mul_nonsing_inv _ (PosDef.det_unit hPP), one_mulVec, sub_self])
  refine ⟨b, ?_⟩
  have hz : z = W *ᵥ c + P *ᵥ b := by rw [← hc]; simp
  have : Wᵀ *ᵥ z = c := by
    rw [hz, mulVec_add, mulVec_mulVec, hW.orth, one_mulVec, mulVec_mulVec, hWP, zero_mulVec, add_zero]
  rw [this]
  exact hz

/-- **C291** The same for `fisher_information_cpd` and statistics that do not change when a function of the linear space of means is
added to the data, whatever the mean of the data in that space. -/
theorem cramer_rao_reml (hla : la.Sound be) {cov : (Fin p → ℝ) → Mat (q + r) (q + r)} (hp : ∀ t, (cov t).PosDef)
    {P : Mat (q + r) q} (hP : FullRank P) (beta : Fin q → ℝ) {theta : Fin p → ℝ}
    (hd : ∀ a b, DifferentiableAt ℝ (fun t => cov t a b) theta) :
    ∃ (I : ℝ → Mat p p) (I0 : Mat p p), (∀ eps, fisherCpd la cov P theta eps = .ok (I eps)) ∧
      Tendsto I (𝓝[≠] 0) (𝓝 I0) ∧
      (∀ T : (Fin (q + r) → ℝ) → ℝ, Measurable T → (∀ z b, T (z + P *ᵥ b) = T z) → MemLp T 2 (normalLaw (P *ᵥ beta) (cov theta)) →
        ∀ g' : (Fin p → ℝ) →L[ℝ] ℝ, HasFDerivAt (fun t => ∫ z, T z ∂(normalLaw (P *ᵥ beta) (cov t))) g' theta →
        ∀ v, g' v ^ 2 ≤ Var[T; normalLaw (P *ᵥ beta) (cov theta)] * (v ⬝ᵥ (I0 *ᵥ v))) ∧
      (IsUnit I0.det → ∀ T : (Fin (q + r) → ℝ) → Fin p → ℝ, Measurable T → (∀ z b, T (z + P *ᵥ b) = T z) →
        (∀ k, MemLp (fun z => T z k) 2 (normalLaw (P *ᵥ beta) (cov theta))) →
        (∀ᶠ t in 𝓝 theta, ∀ k, Integrable (fun z => T z k) (normalLaw (P *ᵥ beta) (cov t)) ∧
          ∫ z, T z k ∂(normalLaw (P *ᵥ beta) (cov t)) = t k) →
        ∀ w, w ⬝ᵥ (I0⁻¹ *ᵥ w) ≤ Var[fun z => w ⬝ᵥ T z; normalLaw (P *ᵥ beta) (cov theta)]) := by
  set W := contrastMatrix la P
  have hW : IsContrast P W := (hla.qr_ok P (Nat.le_add_right q r)).contrast hP
  have hG : ∀ t, (Wᵀ * (cov t * W)).PosDef := fun t => contrast_posDef hW.orth hW.null (CPD.of_posDef (hp t) P)
  have hWP : Wᵀ * P = 0 := by
    have := congrArg Matrix.transpose hW.null
    rwa [transpose_mul, transpose_transpose, transpose_zero] at this
  have hm : Measurable fun z : Fin (q + r) → ℝ => Wᵀ *ᵥ z := by
    apply Continuous.measurable; fun_prop
  have hmW : Measurable fun y : Fin r → ℝ => W *ᵥ y := by
    apply Continuous.measurable; fun_prop
  have hL : ∀ t, (normalLaw (P *ᵥ beta) (cov t)).map (fun z => Wᵀ *ᵥ z) = normalLaw 0 (Wᵀ * (cov t * W)) := fun t => by
    have h := normalLaw_map (hp t).posSemidef (P *ᵥ beta) Wᵀ 0
    simp only [add_zero, transpose_transpose, mulVec_mulVec] at h
    rw [h, Matrix.mul_assoc]
    congr 1
    rw [hWP, zero_mulVec]
  have hd' : ∀ a b, DifferentiableAt ℝ (fun t => (Wᵀ * (cov t * W)) a b) theta := fun a b => by
    simp only [Matrix.mul_apply]
    fun_prop
  choose I hI hIe using fun eps => fisherCpd_entries hla cov (fun t => PosDef.symm (hp t)) P hP theta (CPD.of_posDef (hp theta) P) eps hW
  have hD := partialCov_hasDerivAt hd'
  obtain ⟨c1, c2⟩ := cramer_core hG 0 hd'
  refine ⟨I, info (fun t => Wᵀ * (cov t * W)) theta, hI, ?_, fun T hTm hinv hT g' hg v => ?_, fun hu T hTm hinv hT hunb w => ?_⟩
  · refine tendsto_pi_nhds.mpr fun i => tendsto_pi_nhds.mpr fun j => ?_
    have := info_tendsto (Wᵀ * (cov theta * W))⁻¹ (fun i e => dCov (fun t => Wᵀ * (cov t * W)) theta e i)
      (partialCov (fun t => Wᵀ * (cov t * W)) theta) (fun i a b => dCov_tendsto (fun t => Wᵀ * (cov t * W)) theta i a b _ (hD i a b)) i j
    refine this.congr fun e => ?_
    rw [hIe]
    simp only [dCov_contrast]
  · have e : T = (fun y => T (W *ᵥ y)) ∘ fun z => Wᵀ *ᵥ z := by
      funext z
      obtain ⟨b, hb⟩ := contrast_split hW hP z
      conv_lhs => rw [hb, hinv]
      rfl
    have hT' : Measurable fun y => T (W *ᵥ y) := hTm.comp hmW
    have := c1 (fun y => T (W *ᵥ y)) (by
      rw [← hL, memLp_map_measure_iff hT'.aestronglyMeasurable hm.aemeasurable, ← e]
      exact hT) g' (by
      refine hg.congr_of_eventuallyEq (Eventually.of_forall fun t => ?_)
      simp only
      rw [← hL, integral_map hm.aemeasurable hT'.aestronglyMeasurable]
      exact integral_congr_ae (ae_of_all _ fun z => (congrFun e z).symm)) v
    rwa [← hL, variance_map hT'.aemeasurable hm.aemeasurable, ← e] at this
  · have e : T = (fun y => T (W *ᵥ y)) ∘ fun z => Wᵀ *ᵥ z := by
      funext z
      obtain ⟨b, hb⟩ := contrast_split hW hP z
      conv_lhs => rw [hb, hinv]
      rfl
    have ek : ∀ k, (fun z => T z k) = (fun y => T (W *ᵥ y) k) ∘ fun z => Wᵀ *ᵥ z := fun k => by
      funext z
      exact congrFun (congrFun e z) k
    have hT' : ∀ k, Measurable fun y => T (W *ᵥ y) k := fun k => (measurable_pi_apply k).comp (hTm.comp hmW)
    have := c2 hu (fun y => T (W *ᵥ y)) (fun k => by
      rw [← hL, memLp_map_measure_iff (hT' k).aestronglyMeasurable hm.aemeasurable, ← ek]
      exact hT k) (by
      filter_upwards [hunb] with t ht k
      rw [← hL, integrable_map_measure (hT' k).aestronglyMeasurable hm.aemeasurable, ← ek,
        integral_map hm.aemeasurable (hT' k).aestronglyMeasurable]
      refine ⟨(ht k).1, ?_⟩
      rw [← (ht k).2]
      exact integral_congr_ae (ae_of_all _ fun z => (congrFun (ek k) z).symm)) w
    have hw : Measurable fun y => w ⬝ᵥ T (W *ᵥ y) := by
      simp only [dotProduct]
      exact Finset.measurable_fun_sum _ fun k _ => (hT' k).const_mul _
    have ew : (fun z => w ⬝ᵥ T z) = (fun y => w ⬝ᵥ T (W *ᵥ y)) ∘ fun z => Wᵀ *ᵥ z := by
      funext z
      exact congrArg (fun u => w ⬝ᵥ u) (congrFun e z)
    rwa [← hL, variance_map hw.aemeasurable hm.aemeasurable, ← ew] at this

/-- **C291** With known correlations, no unbiased estimator of the log variance from `n` points has a variance below `2 / n`. -/
theorem log_variance_bound {R : Mat n n} (hR : R.PosDef) (hn : 0 < n) (m : Fin n → ℝ) (s0 : ℝ) {T : (Fin n → ℝ) → ℝ}
    (hT : MemLp T 2 (normalLaw m (Real.exp s0 • R)))
    (hunb : ∀ᶠ s in 𝓝 s0, ∫ z, T z ∂(normalLaw m (Real.exp s • R)) = s) :
    2 / n ≤ Var[T; normalLaw m (Real.exp s0 • R)] := by
  have hn' : (0 : ℝ) < n := by exact_mod_cast hn
  have hu := PosDef.det_unit hR
  have hK : ∀ a b, HasDerivAt (fun t => (Real.exp (s0 + t) • R) a b) ((Real.exp s0 • R) a b) 0 := fun a b => by
    simp only [Matrix.smul_apply, smul_eq_mul]
    have : HasDerivAt (fun t : ℝ => Real.exp (s0 + t)) (Real.exp (s0 + 0) * 1) 0 :=
      (Real.hasDerivAt_exp (s0 + 0)).comp (0 : ℝ) ((hasDerivAt_id' (0 : ℝ)).const_add s0)
    rw [add_zero, mul_one] at this
    exact this.mul_const _
  have h := cramer_rao_curve (K := fun t => Real.exp (s0 + t) • R) (fun t => hR.smul (Real.exp_pos _)) hK m (T := T) (g' := 1)
    (by simpa using hT) (by
      have hc : Tendsto (fun t : ℝ => s0 + t) (𝓝 0) (𝓝 s0) := by
        have : ContinuousAt (fun t : ℝ => s0 + t) 0 := by fun_prop
        simpa using this.tendsto
      refine ((hasDerivAt_id' (0 : ℝ)).const_add s0).congr_of_eventuallyEq ?_
      filter_upwards [hc.eventually hunb] with t ht
      exact ht)
  have hu' : IsUnit (Real.exp s0 • R).det := PosDef.det_unit (hR.smul (Real.exp_pos _))
  simp only [add_zero] at h
  rw [Matrix.nonsing_inv_mul _ hu', Matrix.one_mul, Matrix.nonsing_inv_mul _ hu', Matrix.trace_one, Fintype.card_fin] at h
  rw [div_le_iff₀ hn']
  linarith

/-- Four correlated points: the variance of an unbiased estimator of the log variance is at least one half. -/
example {T : (Fin 4 → ℝ) → ℝ} (hT : MemLp T 2 (normalLaw 0 (Real.exp 3 • firstCov exK 4)))
    (hunb : ∀ s, ∫ z, T z ∂(normalLaw 0 (Real.exp s • firstCov exK 4)) = s) :
    1 / 2 ≤ Var[T; normalLaw 0 (Real.exp 3 • firstCov exK 4)] := by
  have := log_variance_bound (exK_posDef 4) (by norm_num) 0 3 hT (Eventually.of_forall hunb)
  norm_num at this ⊢
  exact this

/-- The Fisher information of a Matérn model with two coordinates, at any parameters. -/
example (hla : la.Sound be) (k : ℕ) (theta : Fin 3 → ℝ) {x : Matrix (Fin 4) (Fin 2) ℝ} (hx : Admissible 1 x) :
    ∃ (I : ℝ → Mat 3 3) (I0 : Mat 3 3), (∀ eps, fisher la (fun t => Kernel.cov (Kernel.maternFormula k) 1 t x .same) theta eps = .ok (I eps)) ∧
      Tendsto I (𝓝[≠] 0) (𝓝 I0) ∧
      ∀ T : (Fin 4 → ℝ) → ℝ, MemLp T 2 (normalLaw 0 (Kernel.cov (Kernel.maternFormula k) 1 theta x .same)) → ∀ g' : (Fin 3 → ℝ) →L[ℝ] ℝ,
        HasFDerivAt (fun t => ∫ z, T z ∂(normalLaw 0 (Kernel.cov (Kernel.maternFormula k) 1 t x .same))) g' theta →
        ∀ v, g' v ^ 2 ≤ Var[T; normalLaw 0 (Kernel.cov (Kernel.maternFormula k) 1 theta x .same)] * (v ⬝ᵥ (I0 *ᵥ v)) := by
  obtain ⟨I, I0, h1, h2, -, h3, -⟩ := cramer_rao hla (cov := fun t => Kernel.cov (Kernel.maternFormula k) 1 t x .same)
    (fun t => matern_Kii k t hx) 0 (theta := theta) fun a b =>
      (((cov_smooth (N := 1) (m := 4) k 1 x x).1 a b).differentiable one_ne_zero).differentiableAt
  exact ⟨I, I0, h1, h2, h3⟩

end Verif.Core
