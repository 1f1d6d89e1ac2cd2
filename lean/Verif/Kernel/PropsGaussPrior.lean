import Verif.Kernel.Priors
import Mathlib.Probability.CDF
import Mathlib.Probability.Distributions.Gaussian.Real
import Mathlib.Tactic.Linarith
import Mathlib.Tactic.FieldSimp

/-!
# C92: calibration of the Gaussian prior on the log variance
-/

set_option autoImplicit false

namespace Verif.Kernel

open Verif ProbabilityTheory MeasureTheory

/-- Contract of `statistics.NormalDist().inv_cdf`: a right inverse of the standard
normal distribution function on `(0, 1)`. -/
def IsInvCdf (f : ℝ → ℝ) : Prop := ∀ q, 0 < q → q < 1 → cdf (gaussianReal 0 1) (f q) = q

theorem gauss_neg (a : ℝ) :
    (gaussianReal 0 1).real (Set.Iic (-a)) = 1 - (gaussianReal 0 1).real (Set.Iic a) := by
  have hna : NullSingletonClass (gaussianReal 0 1) := noAtoms_gaussianReal one_ne_zero
  have h1 : (gaussianReal 0 1).real (Set.Iic (-a)) = (gaussianReal 0 1).real (Set.Ici a) := by
    have h := gaussianReal_map_neg (μ := 0) (v := 1)
    rw [neg_zero] at h
    conv_lhs => rw [← h]
    rw [measureReal_def, Measure.map_apply measurable_neg measurableSet_Iic, ← measureReal_def]
    congr 1
    ext x
    simp
  rw [h1, ← probReal_compl_eq_one_sub measurableSet_Iic]
  rw [measureReal_def, measureReal_def, Set.compl_Iic]
  congr 1
  exact (measure_congr Ioi_ae_eq_Ici).symm

theorem cdf_zero : cdf (gaussianReal 0 1) 0 = 1 / 2 := by
  have h := gauss_neg 0
  rw [neg_zero, ← cdf_eq_real] at h
  linarith

theorem gauss_sym (a : ℝ) (ha : 0 ≤ a) :
    (gaussianReal 0 1).real (Set.Icc (-a) a) = 2 * cdf (gaussianReal 0 1) a - 1 := by
  have hna : NullSingletonClass (gaussianReal 0 1) := noAtoms_gaussianReal one_ne_zero
  have h0 : (gaussianReal 0 1).real (Set.Icc (-a) a) = (gaussianReal 0 1).real (Set.Ioc (-a) a) := by
    rw [measureReal_def, measureReal_def]
    congr 1
    exact (measure_congr Ioc_ae_eq_Icc).symm
  have h1 : Set.Ioc (-a) a = Set.Iic a \ Set.Iic (-a) := by
    ext x; simp [and_comm]
  rw [h0, h1, measureReal_diff (Set.Iic_subset_Iic.mpr (by linarith)) measurableSet_Iic, gauss_neg,
    cdf_eq_real]
  ring

/-- **C92** For every admissible `gamma > 1` and `coverage` in `(0, 1)` the standard
deviation is defined and positive, and under `log sigma² ~ N(m, std²)` the variance
lies within a factor `gamma` of `exp m` with probability `coverage`. -/
theorem logsigma2Std_calibrated (invCdf : ℝ → ℝ) (hi : IsInvCdf invCdf) (gamma coverage : ℝ)
    (hg : 1 < gamma) (hc0 : 0 < coverage) (hc1 : coverage < 1) :
    ∃ s, logsigma2PriorStd invCdf gamma coverage = .ok s ∧ 0 < s ∧
      ∀ m : ℝ, (gaussianReal m (NNReal.mk (s ^ 2) (sq_nonneg s))).real
        {x | Real.exp m / gamma ≤ Real.exp x ∧ Real.exp x ≤ Real.exp m * gamma} = coverage := by
  have hq := hi (0.5 * (1 + coverage)) (by norm_num; linarith) (by norm_num; linarith)
  have hz : 0 < invCdf (0.5 * (1 + coverage)) := by
    by_contra hle
    have := monotone_cdf (gaussianReal 0 1) (not_lt.mp hle)
    rw [hq, cdf_zero] at this
    norm_num at this
    linarith
  have hl : 0 < Real.log gamma := Real.log_pos hg
  generalize hzq : invCdf (0.5 * (1 + coverage)) = z at hq hz
  have hs : 0 < Real.log gamma / z := div_pos hl hz
  refine ⟨Real.log gamma / z, ?_, hs, ?_⟩
  · unfold logsigma2PriorStd
    rw [if_neg (not_le.mpr hg), if_neg (not_not.mpr ⟨hc0, hc1⟩)]
    simp only [hzq]
    rw [if_neg (not_le.mpr hz)]
  · intro m
    have hset : {x | Real.exp m / gamma ≤ Real.exp x ∧ Real.exp x ≤ Real.exp m * gamma} =
        Set.Icc (m - Real.log gamma) (m + Real.log gamma) := by
      have hg0 : 0 < gamma := by linarith
      ext x
      simp only [Set.mem_setOf_eq, Set.mem_Icc]
      have e1 : Real.exp m / gamma = Real.exp (m - Real.log gamma) := by
        rw [Real.exp_sub, Real.exp_log hg0]
      have e2 : Real.exp m * gamma = Real.exp (m + Real.log gamma) := by
        rw [Real.exp_add, Real.exp_log hg0]
      rw [e1, e2, Real.exp_le_exp, Real.exp_le_exp]
    rw [hset]
    generalize hsd : Real.log gamma / z = s at hs
    have hsz : Real.log gamma = s * z := by rw [← hsd]; field_simp
    have hmap : gaussianReal m (NNReal.mk (s ^ 2) (sq_nonneg s)) =
        (gaussianReal 0 1).map (fun x => s * x + m) := by
      have h1 := gaussianReal_map_const_mul (μ := 0) (v := 1) s
      have h2 := gaussianReal_map_add_const (μ := s * 0) (v := (NNReal.mk (s ^ 2) (sq_nonneg s)) * 1) m
      rw [← h1, Measure.map_map (by fun_prop) (by fun_prop)] at h2
      rw [mul_zero, zero_add, mul_one] at h2
      exact h2.symm
    rw [hmap, measureReal_def, Measure.map_apply (by fun_prop) measurableSet_Icc, ← measureReal_def]
    have hpre : (fun x => s * x + m) ⁻¹' Set.Icc (m - Real.log gamma) (m + Real.log gamma) =
        Set.Icc (-z) z := by
      ext x
      simp only [Set.mem_preimage, Set.mem_Icc, hsz]
      constructor
      · rintro ⟨h1, h2⟩
        have h3 : s * (-z) ≤ s * x := by linarith
        have h4 : s * x ≤ s * z := by linarith
        exact ⟨le_of_mul_le_mul_left h3 hs, le_of_mul_le_mul_left h4 hs⟩
      · rintro ⟨h1, h2⟩
        have h3 := mul_le_mul_of_nonneg_left h1 hs.le
        have h4 := mul_le_mul_of_nonneg_left h2 hs.le
        constructor <;> linarith
    rw [hpre, gauss_sym z hz.le, hq]
    ring

/-- **C92** The log prior is the log density of that normal law, up to the additive
constant that makes it zero at the anchor. -/
theorem logPriorGaussian_density (invCdf : ℝ → ℝ) {d : ℕ} (cov : Fin (d + 1) → ℝ)
    (m gamma coverage s : ℝ) (hs : 0 < s)
    (h : logsigma2PriorStd invCdf gamma coverage = .ok s) :
    logPriorGaussian invCdf cov m gamma coverage =
      .ok (Real.log (gaussianPDFReal m (NNReal.mk (s ^ 2) (sq_nonneg s)) (cov 0)) -
        Real.log (gaussianPDFReal m (NNReal.mk (s ^ 2) (sq_nonneg s)) m)) := by
  unfold logPriorGaussian
  rw [h]
  change Except.ok _ = Except.ok _
  congr 1
  have hc : (0 : ℝ) < (Real.sqrt (2 * Real.pi * s ^ 2))⁻¹ := by
    have := Real.pi_pos
    positivity
  simp only [gaussianPDFReal, NNReal.coe_mk]
  rw [Real.log_mul hc.ne' (Real.exp_ne_zero _), Real.log_mul hc.ne' (Real.exp_ne_zero _),
    Real.log_exp, Real.log_exp]
  field_simp
  ring

/-- **C92** Refusals: exactly `gamma ≤ 1` or `coverage` outside `(0, 1)`. -/
theorem logPriorGaussian_refuses (invCdf : ℝ → ℝ) (hi : IsInvCdf invCdf) {d : ℕ}
    (cov : Fin (d + 1) → ℝ) (m gamma coverage : ℝ) :
    logPriorGaussian invCdf cov m gamma coverage = .error .valueError ↔
      gamma ≤ 1 ∨ coverage ≤ 0 ∨ 1 ≤ coverage := by
  constructor
  · intro h
    by_contra hn
    push Not at hn
    obtain ⟨s, hs, _⟩ := logsigma2Std_calibrated invCdf hi gamma coverage hn.1 hn.2.1 hn.2.2
    unfold logPriorGaussian at h
    rw [hs] at h
    cases h
  · intro h
    unfold logPriorGaussian logsigma2PriorStd
    by_cases h1 : gamma ≤ 1
    · rw [if_pos h1]; rfl
    · rw [if_neg h1, if_pos]
      · rfl
      · rintro ⟨h2, h3⟩
        rcases h with h | h | h
        · exact h1 h
        · linarith
        · linarith

/-- The contract is satisfiable: the standard normal distribution function is
continuous and takes every value of `(0, 1)`. -/
theorem exists_invCdf : ∃ f, IsInvCdf f := by
  have hna : NullSingletonClass (gaussianReal 0 1) := noAtoms_gaussianReal one_ne_zero
  have hcont : Continuous (cdf (gaussianReal 0 1)) := by
    rw [continuous_iff_continuousAt]
    intro x
    rw [(monotone_cdf _).continuousAt_iff_leftLim_eq_rightLim]
    have hr : Function.rightLim (cdf (gaussianReal 0 1)) x = cdf (gaussianReal 0 1) x :=
      ((cdf (gaussianReal 0 1)).right_continuous x).rightLim_eq
    rw [hr]
    have h := (cdf (gaussianReal 0 1)).measure_singleton x
    rw [measure_cdf, measure_singleton] at h
    have h2 := ENNReal.ofReal_eq_zero.mp h.symm
    have h3 := (monotone_cdf (gaussianReal 0 1)).leftLim_le (le_refl x)
    linarith
  have hex : ∀ q : ℝ, 0 < q → q < 1 → ∃ x, cdf (gaussianReal 0 1) x = q := by
    intro q h0 h1
    obtain ⟨a, ha⟩ := ((tendsto_cdf_atBot (gaussianReal 0 1)).eventually
      (gt_mem_nhds h0)).exists
    obtain ⟨b, hb⟩ := ((tendsto_cdf_atTop (gaussianReal 0 1)).eventually
      (lt_mem_nhds h1)).exists
    exact mem_range_of_exists_le_of_exists_ge hcont ⟨a, ha.le⟩ ⟨b, hb.le⟩
  classical
  refine ⟨fun q => if h : 0 < q ∧ q < 1 then (hex q h.1 h.2).choose else 0, ?_⟩
  intro q h0 h1
  simp only [h0, h1, and_self, dif_pos]
  exact (hex q h0 h1).choose_spec

/-- Concrete case: the defaults `gamma = 1.5`, `coverage = 0.95`. -/
example : ∃ invCdf, IsInvCdf invCdf ∧ ∃ s, logsigma2PriorStd invCdf 1.5 0.95 = .ok s ∧ 0 < s := by
  obtain ⟨f, hf⟩ := exists_invCdf
  obtain ⟨s, h1, h2, _⟩ := logsigma2Std_calibrated f hf 1.5 0.95 (by norm_num) (by norm_num)
    (by norm_num)
  exact ⟨f, hf, s, h1, h2⟩

end Verif.Kernel
