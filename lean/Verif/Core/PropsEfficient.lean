import Verif.Core.PropsCramerRao
import Verif.Core.PropsGuessMean

/-!
# C292: the guessed variance has the smallest variance of all unbiased estimators
-/

set_option autoImplicit false

namespace Verif.Core

open Verif Verif.Data Matrix MeasureTheory ProbabilityTheory Filter Topology

variable {n q r : ℕ} {be : Backend} {la : LA}

/-- Unbiased estimators of a variance. -/
theorem variance_bound {R : Mat n n} (hR : R.PosDef) (hn : 0 < n) (m : Fin n → ℝ) {s2 : ℝ} (hs : 0 < s2) {T : (Fin n → ℝ) → ℝ}
    (hT : MemLp T 2 (normalLaw m (s2 • R))) (hunb : ∀ᶠ s in 𝓝 s2, ∫ z, T z ∂(normalLaw m (s • R)) = s) :
    2 * s2 ^ 2 / n ≤ Var[T; normalLaw m (s2 • R)] := by
  have hn' : (0 : ℝ) < n := by exact_mod_cast hn
  have he : HasDerivAt (fun t : ℝ => s2 * Real.exp t) s2 0 := by
    have := (Real.hasDerivAt_exp 0).const_mul s2
    rwa [Real.exp_zero, mul_one] at this
  have hK : ∀ a b, HasDerivAt (fun t => ((s2 * Real.exp t) • R) a b) ((s2 • R) a b) 0 := fun a b => by
    simp only [Matrix.smul_apply, smul_eq_mul]
    exact he.mul_const _
  have h := cramer_rao_curve (K := fun t => (s2 * Real.exp t) • R) (fun t => hR.smul (mul_pos hs (Real.exp_pos _))) hK m (T := T) (g' := s2)
    (by simpa using hT) (by
      have hc : Tendsto (fun t : ℝ => s2 * Real.exp t) (𝓝 0) (𝓝 s2) := by
        have := he.continuousAt.tendsto
        rwa [Real.exp_zero, mul_one] at this
      refine he.congr_of_eventuallyEq ?_
      filter_upwards [hc.eventually hunb] with t ht
      exact ht)
  have hu' : IsUnit (s2 • R).det := PosDef.det_unit (hR.smul hs)
  simp only [Real.exp_zero, mul_one] at h
  rw [Matrix.nonsing_inv_mul _ hu', Matrix.one_mul, Matrix.nonsing_inv_mul _ hu', Matrix.trace_one, Fintype.card_fin] at h
  rw [div_le_iff₀ hn']
  linarith

theorem variance_of_mse {L : Measure (Fin n → ℝ)} [IsProbabilityMeasure L] {f : (Fin n → ℝ) → ℝ} (hf : Integrable f L) {t v : ℝ}
    (hv : ∫ z, (f z - t) ^ 2 ∂L = v) (h0 : v ≠ 0) : Var[f; L] = v - (∫ z, f z ∂L - t) ^ 2 := by
  have hi : Integrable (fun z => (f z - t) ^ 2) L := by
    by_contra h
    exact h0 (by rw [← hv, integral_undef h])
  rw [variance_eq_integral hf.aemeasurable]
  set a := ∫ z, f z ∂L with ha
  have e : ∀ z, (f z - a) ^ 2 = (f z - t) ^ 2 + (2 * (t - a) * (f z - t) + (t - a) ^ 2) := fun z => by ring
  simp only [e]
  have j1 : Integrable (fun z => f z - t) L := hf.sub (integrable_const t)
  have j2 : Integrable (fun z => 2 * (t - a) * (f z - t) + (t - a) ^ 2) L := (j1.const_mul _).add (integrable_const _)
  rw [integral_add hi j2, integral_add (j1.const_mul _) (integrable_const _), integral_const_mul, integral_sub hf (integrable_const t), hv]
  simp only [integral_const, probReal_univ, one_smul, ← ha]
  ring

/-- **C292** Over data drawn from the model with zero mean, the variance returned by `anisotropic_parameters_initial_guess_zero_mean`
(correlations as used by the guess) has the smallest variance of all statistics that are right on average for all variances near the
true one. -/
theorem guess_efficient (hla : la.Sound be) {K : Mat n n} (hK : K.PosDef) (hn : 0 < n) :
    ∃ f : (Fin n → ℝ) → ℝ, (∀ z, initSigma2Zero la K z = .ok (f z)) ∧ ∀ s2 : ℝ, 0 < s2 →
      (∀ s : ℝ, 0 ≤ s → ∫ z, f z ∂(normalLaw 0 (s • K)) = s) ∧ Var[f; normalLaw 0 (s2 • K)] = 2 * s2 ^ 2 / n ∧
      ∀ T : (Fin n → ℝ) → ℝ, MemLp T 2 (normalLaw 0 (s2 • K)) → (∀ᶠ s in 𝓝 s2, ∫ z, T z ∂(normalLaw 0 (s • K)) = s) →
        Var[f; normalLaw 0 (s2 • K)] ≤ Var[T; normalLaw 0 (s2 • K)] := by
  have hn' : (0 : ℝ) < n := by exact_mod_cast hn
  obtain ⟨f, hf, h⟩ := init_zero_mean hla hK hn
  refine ⟨f, hf, fun s2 hs => ?_⟩
  obtain ⟨h1, h2, h3⟩ := h s2 hs.le
  have hv : Var[f; normalLaw 0 (s2 • K)] = 2 * s2 ^ 2 / n := by
    rw [variance_of_mse h1 h3 (by positivity), h2, sub_self]
    ring
  refine ⟨fun s hs => (h s hs).2.1, hv, fun T hT hunb => ?_⟩
  rw [hv]
  exact variance_bound hK hn 0 hs hT hunb

/-- **C292** With a linear mean, the variance returned by `anisotropic_parameters_initial_guess` times `n / (n - q)` has the smallest
variance of all statistics that are right on average and do not change when a function of the linear space of means is added to the
data. -/
theorem guess_linear_efficient (hla : la.Sound be) {K : Mat (q + r) (q + r)} {P : Mat (q + r) q} (hK : K.PosDef) (hP : FullRank P)
    (hr : 0 < r) :
    ∃ f : (Fin (q + r) → ℝ) → ℝ, (∀ z, initSigma2 la K P z = .ok (f z)) ∧ ∀ (beta : Fin q → ℝ) (s2 : ℝ), 0 < s2 →
      (∀ s : ℝ, 0 ≤ s → ∫ z, ((q + r : ℕ) : ℝ) / r * f z ∂(normalLaw (P *ᵥ beta) (s • K)) = s) ∧
      Var[fun z => ((q + r : ℕ) : ℝ) / r * f z; normalLaw (P *ᵥ beta) (s2 • K)] = 2 * s2 ^ 2 / r ∧
      ∀ T : (Fin (q + r) → ℝ) → ℝ, Measurable T → (∀ z b, T (z + P *ᵥ b) = T z) → MemLp T 2 (normalLaw (P *ᵥ beta) (s2 • K)) →
        (∀ᶠ s in 𝓝 s2, ∫ z, T z ∂(normalLaw (P *ᵥ beta) (s • K)) = s) →
        Var[fun z => ((q + r : ℕ) : ℝ) / r * f z; normalLaw (P *ᵥ beta) (s2 • K)] ≤ Var[T; normalLaw (P *ᵥ beta) (s2 • K)] := by
  have hr' : (0 : ℝ) < r := by exact_mod_cast hr
  have hn' : (0 : ℝ) < ((q + r : ℕ) : ℝ) := by exact_mod_cast (by omega : 0 < q + r)
  obtain ⟨f, hf, h⟩ := init_linear_mean hla hK hP (by omega)
  refine ⟨f, hf, fun beta s2 hs => ?_⟩
  obtain ⟨h1, h2, h3⟩ := h beta s2 hs.le
  have hv : Var[fun z => ((q + r : ℕ) : ℝ) / r * f z; normalLaw (P *ᵥ beta) (s2 • K)] = 2 * s2 ^ 2 / r := by
    rw [variance_const_mul, variance_of_mse h1 h3 (by positivity), h2]
    have : ((q + r : ℕ) : ℝ) = q + r := by push_cast; ring
    rw [this] at hn' ⊢
    field_simp
    ring
  refine ⟨fun s hs => ?_, hv, fun T hTm hinv hT hunb => ?_⟩
  · rw [integral_const_mul, (h beta s hs).2.1]
    field_simp
  rw [hv]
  set W := contrastMatrix la P
  have hW : IsContrast P W := (hla.qr_ok P (Nat.le_add_right q r)).contrast hP
  have hG : (Wᵀ * (K * W)).PosDef := contrast_posDef hW.orth hW.null (CPD.of_posDef hK P)
  have hm : Measurable fun z : Fin (q + r) → ℝ => Wᵀ *ᵥ z := by
    apply Continuous.measurable; fun_prop
  have hmW : Measurable fun y : Fin r → ℝ => W *ᵥ y := by
    apply Continuous.measurable; fun_prop
  have hL : ∀ s : ℝ, 0 < s → (normalLaw (P *ᵥ beta) (s • K)).map (fun z => Wᵀ *ᵥ z) = normalLaw 0 (s • (Wᵀ * (K * W))) := fun s hs => by
    have h := normalLaw_map (hK.smul hs).posSemidef (P *ᵥ beta) Wᵀ 0
    simp only [add_zero, transpose_transpose, mulVec_mulVec] at h
    rw [h, Matrix.mul_smul, Matrix.smul_mul, Matrix.mul_assoc]
    congr 1
    have := congrArg Matrix.transpose hW.null
    rw [transpose_mul, transpose_transpose, transpose_zero] at this
    rw [this, zero_mulVec]
  have e : T = (fun y => T (W *ᵥ y)) ∘ fun z => Wᵀ *ᵥ z := by
    funext z
    obtain ⟨b, hb⟩ := contrast_split hW hP z
    conv_lhs => rw [hb, hinv]
    rfl
  have hT' : Measurable fun y => T (W *ᵥ y) := hTm.comp hmW
  have := variance_bound hG hr 0 hs (T := fun y => T (W *ᵥ y)) (by
    rw [← hL s2 hs, memLp_map_measure_iff hT'.aestronglyMeasurable hm.aemeasurable, ← e]
    exact hT) (by
    filter_upwards [hunb, lt_mem_nhds hs] with s ht hs'
    rw [← hL s hs', integral_map hm.aemeasurable hT'.aestronglyMeasurable]
    conv_rhs => rw [← ht]
    exact integral_congr_ae (ae_of_all _ fun z => (congrFun e z).symm))
  rwa [← hL s2 hs, variance_map hT'.aemeasurable hm.aemeasurable, ← e] at this

/-- Four correlated points and the true variance three. -/
example (hla : la.Sound be) : ∃ f : (Fin 4 → ℝ) → ℝ, (∀ z, initSigma2Zero la (firstCov exK 4) z = .ok (f z)) ∧
    ∀ T : (Fin 4 → ℝ) → ℝ, MemLp T 2 (normalLaw 0 ((3 : ℝ) • firstCov exK 4)) →
      (∀ᶠ s in 𝓝 3, ∫ z, T z ∂(normalLaw 0 ((s : ℝ) • firstCov exK 4)) = s) →
      9 / 2 ≤ Var[T; normalLaw 0 ((3 : ℝ) • firstCov exK 4)] ∧ Var[f; normalLaw 0 ((3 : ℝ) • firstCov exK 4)] = 9 / 2 := by
  obtain ⟨f, h1, h2⟩ := guess_efficient hla (exK_posDef 4) (by norm_num)
  obtain ⟨-, h3, h4⟩ := h2 3 (by norm_num)
  have e : (2 * (3 : ℝ) ^ 2 / (4 : ℕ)) = 9 / 2 := by norm_num
  rw [e] at h3
  exact ⟨f, h1, fun T hT hu => ⟨h3 ▸ h4 T hT hu, h3⟩⟩

end Verif.Core
