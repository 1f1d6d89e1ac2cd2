import Verif.Core.PropsCalib
import Mathlib.Analysis.SpecialFunctions.Log.Basic

/-!
# C251: on average the likelihood criteria are smallest at the model that generated the data
-/

set_option autoImplicit false

namespace Verif.Core

open Verif Verif.Data Matrix MeasureTheory ProbabilityTheory WithLp

variable {n m q r N : ℕ} {be : Backend} {la : LA}

theorem IsDensity.ae_pos {L : Measure (Fin n → ℝ)} {p f : (Fin n → ℝ) → ℝ} (h : IsDensity L p) (hf : Continuous f)
    (h0 : f =ᵐ[L] 0) : f = 0 := by
  have hac : volume ≪ L := by
    rw [h.dens]
    refine withDensity_absolutelyContinuous' (by have := h.cont; fun_prop) (ae_of_all _ fun z => ?_)
    simpa using h.pos z
  exact (Continuous.ae_eq_iff_eq volume hf continuous_zero).1 (hac.ae_le h0)

/-- The mean of minus the logarithm of a density, under a law with another density, is larger
than that of its own density, strictly unless the laws are the same. -/
theorem gibbs {L0 L1 : Measure (Fin n → ℝ)} [IsProbabilityMeasure L0] [IsProbabilityMeasure L1]
    {p0 p1 : (Fin n → ℝ) → ℝ} (h0 : IsDensity L0 p0) (h1 : IsDensity L1 p1)
    (i0 : Integrable (fun z => -Real.log (p0 z)) L0) (i1 : Integrable (fun z => -Real.log (p1 z)) L0) :
    ∫ z, -Real.log (p0 z) ∂L0 ≤ ∫ z, -Real.log (p1 z) ∂L0 ∧
      (∫ z, -Real.log (p0 z) ∂L0 = ∫ z, -Real.log (p1 z) ∂L0 ↔ L0 = L1) := by
  have c0 := h0.cont
  have c1 := h1.cont
  have hpos : ∀ z, 0 < p1 z / p0 z := fun z => div_pos (h1.pos z) (h0.pos z)
  have cr : Continuous fun z => p1 z / p0 z := c1.div c0 fun z => (h0.pos z).ne'
  have hlin : ∫⁻ z, ENNReal.ofReal (p1 z / p0 z) ∂L0 = 1 := by
    rw [h0.dens, lintegral_withDensity_eq_lintegral_mul _ (by fun_prop) (by fun_prop)]
    have : ∀ z, ((fun z => ENNReal.ofReal (p0 z)) * fun z => ENNReal.ofReal (p1 z / p0 z)) z =
        ENNReal.ofReal (p1 z) := fun z => by
      rw [Pi.mul_apply, ← ENNReal.ofReal_mul (h0.pos z).le, mul_div_cancel₀ _ (h0.pos z).ne']
    simp only [this]
    have hu : L1 Set.univ = 1 := measure_univ
    rw [h1.dens, withDensity_apply _ MeasurableSet.univ, Measure.restrict_univ] at hu
    exact hu
  have ir : Integrable (fun z => p1 z / p0 z) L0 := by
    refine ⟨cr.aestronglyMeasurable, ?_⟩
    rw [hasFiniteIntegral_iff_ofReal (ae_of_all _ fun z => (hpos z).le), hlin]
    simp
  have er : ∫ z, p1 z / p0 z ∂L0 = 1 := by
    rw [integral_eq_lintegral_of_nonneg_ae (ae_of_all _ fun z => (hpos z).le) cr.aestronglyMeasurable, hlin]
    simp
  set D : (Fin n → ℝ) → ℝ := fun z => -Real.log (p1 z) - -Real.log (p0 z) - (1 - p1 z / p0 z) with hD
  have iD : Integrable D L0 := (i1.sub i0).sub ((integrable_const 1).sub ir)
  have eD : ∫ z, D z ∂L0 = ∫ z, -Real.log (p1 z) ∂L0 - ∫ z, -Real.log (p0 z) ∂L0 := by
    have e1 := integral_sub (i1.sub i0) ((integrable_const (1 : ℝ)).sub ir)
    have e2 := integral_sub i1 i0
    have e3 := integral_sub (integrable_const (1 : ℝ)) ir
    simp only [Pi.sub_apply] at e1
    rw [hD, e1, e2, e3, er]
    simp
  have hlog : ∀ z, D z = p1 z / p0 z - 1 - Real.log (p1 z / p0 z) := fun z => by
    rw [hD, Real.log_div (h1.pos z).ne' (h0.pos z).ne']
    ring
  have nD : ∀ z, 0 ≤ D z := fun z => by
    rw [hlog]
    have := Real.log_le_sub_one_of_pos (hpos z)
    linarith
  refine ⟨?_, fun he => ?_, fun he => ?_⟩
  · have := integral_nonneg (μ := L0) (f := D) nD
    rw [eD] at this
    linarith
  · have hz : D =ᵐ[L0] 0 := (integral_eq_zero_iff_of_nonneg nD iD).1 (by rw [eD, he, sub_self])
    have cD : Continuous D := by
      rw [hD]
      exact ((c1.log fun z => (h1.pos z).ne').neg.sub (c0.log fun z => (h0.pos z).ne').neg).sub
        (continuous_const.sub cr)
    have hz' := h0.ae_pos cD hz
    have heq : p0 = p1 := by
      funext z
      by_contra hne
      have h2 := congrFun hz' z
      rw [hlog] at h2
      have h3 := Real.log_lt_sub_one_of_pos (hpos z) (fun h => hne (by
        rw [div_eq_one_iff_eq (h0.pos z).ne'] at h; exact h.symm))
      simp only [Pi.zero_apply] at h2
      linarith
    rw [h0.dens, h1.dens, heq]
  · subst he
    rw [h0.unique h1]

/-- Under a normal law every quadratic criterion has a mean. -/
theorem log_gauss_integrable {K0 : Mat n n} (hK0 : K0.PosSemidef) (m0 : Fin n → ℝ) {K : Mat n n} (hK : K.PosDef)
    (mu : Fin n → ℝ) : Integrable (fun z => -Real.log (gaussDensity K mu z)) (normalLaw m0 K0) := by
  have hcoord : ∀ i, MemLp (fun z : Fin n → ℝ => z i - mu i) 2 (normalLaw m0 K0) := fun i => by
    have h := normalLaw_dot hK0 m0 (Pi.single i 1) (-mu i)
    have h2 : MemLp (id : ℝ → ℝ) 2 ((normalLaw m0 K0).map fun x => Pi.single i 1 ⬝ᵥ x + -mu i) := by
      rw [h]; exact memLp_id_gaussianReal 2
    have h3 := (memLp_map_measure_iff (by fun_prop) (by apply Measurable.aemeasurable; apply Continuous.measurable; fun_prop)).1 h2
    refine h3.congr_norm (by apply Continuous.aestronglyMeasurable; fun_prop) (ae_of_all _ fun z => ?_)
    simp [single_dotProduct, sub_eq_add_neg]
  have hd := hK.det_pos
  have hp : (0 : ℝ) < (2 * Real.pi) ^ n := by have := Real.pi_pos; positivity
  have e : (fun z => -Real.log (gaussDensity K mu z)) = fun z =>
      -Real.log (√((2 * Real.pi) ^ n * K.det))⁻¹ + ∑ i, ∑ j, (1 / 2 * K⁻¹ i j) * ((z i - mu i) * (z j - mu j)) := by
    funext z
    unfold gaussDensity
    rw [Real.log_mul (by positivity) (Real.exp_pos _).ne', Real.log_exp]
    have : (z - mu) ⬝ᵥ (K⁻¹ *ᵥ (z - mu)) = ∑ i, ∑ j, K⁻¹ i j * ((z i - mu i) * (z j - mu j)) := by
      simp only [dotProduct, mulVec, Finset.mul_sum, Pi.sub_apply]
      refine Finset.sum_congr rfl fun i _ => Finset.sum_congr rfl fun j _ => by ring
    rw [this, neg_add]
    congr 1
    rw [neg_mul, neg_neg, Finset.mul_sum]
    refine Finset.sum_congr rfl fun i _ => ?_
    rw [Finset.mul_sum]
    exact Finset.sum_congr rfl fun j _ => by ring
  rw [e]
  refine (integrable_const _).add (integrable_finsetSum _ fun i _ => integrable_finsetSum _ fun j _ => ?_)
  exact ((hcoord i).integrable_mul (hcoord j)).const_mul _

theorem quad_polar {S : Mat n n} (hS : Sᵀ = S) (h : ∀ w, w ⬝ᵥ (S *ᵥ w) = 0) : S = 0 := by
  have hb : ∀ v w, v ⬝ᵥ (S *ᵥ w) = 0 := fun v w => by
    have h1 := h (v + w)
    rw [mulVec_add, add_dotProduct, dotProduct_add, dotProduct_add, h v, h w] at h1
    have h2 : w ⬝ᵥ (S *ᵥ v) = v ⬝ᵥ (S *ᵥ w) := by
      rw [dotProduct_mulVec, ← mulVec_transpose, hS, dotProduct_comm]
    rw [h2] at h1
    linarith
  ext i j
  have := hb (Pi.single i 1) (Pi.single j 1)
  simpa using this

/-- The mean and the covariance of a normal law are determined by it. -/
theorem normalLaw_inj {K0 K1 : Mat n n} (h0 : K0.PosSemidef) (h1 : K1.PosSemidef) {m0 m1 : Fin n → ℝ} :
    normalLaw m0 K0 = normalLaw m1 K1 ↔ K0 = K1 ∧ m0 = m1 := by
  refine ⟨fun h => ?_, fun h => by rw [h.1, h.2]⟩
  have hd : ∀ w : Fin n → ℝ, w ⬝ᵥ m0 = w ⬝ᵥ m1 ∧ w ⬝ᵥ (K0 *ᵥ w) = w ⬝ᵥ (K1 *ᵥ w) := fun w => by
    have e := (normalLaw_dot h0 m0 w 0).symm.trans ((congrArg _ h).trans (normalLaw_dot h1 m1 w 0))
    have p0 : 0 ≤ w ⬝ᵥ (K0 *ᵥ w) := by simpa using h0.dotProduct_mulVec_nonneg w
    have p1 : 0 ≤ w ⬝ᵥ (K1 *ᵥ w) := by simpa using h1.dotProduct_mulVec_nonneg w
    have em := congrArg (fun L : Measure ℝ => ∫ x, x ∂L) e
    have ev := congrArg (fun L : Measure ℝ => Var[id; L]) e
    simp only [integral_id_gaussianReal, variance_id_gaussianReal, add_zero, Real.coe_toNNReal _ p0,
      Real.coe_toNNReal _ p1] at em ev
    exact ⟨em, ev⟩
  refine ⟨?_, ?_⟩
  · refine sub_eq_zero.1 (quad_polar (S := K0 - K1) ?_ fun w => ?_)
    · rw [transpose_sub, PosSemidef.symm h0, PosSemidef.symm h1]
    · rw [sub_mulVec, dotProduct_sub, (hd w).2, sub_self]
  · funext i
    simpa using (hd (Pi.single i 1)).1

theorem gauss_isDensity {K : Mat n n} (hK : K.PosDef) (mu : Fin n → ℝ) :
    IsDensity (normalLaw mu K) (gaussDensity K mu) :=
  ⟨gaussDensity_continuous K mu, gaussDensity_pos hK mu, density_whiten hK mu⟩

theorem gauss_proper {K0 K1 : Mat n n} (h0 : K0.PosDef) (h1 : K1.PosDef) (m0 m1 : Fin n → ℝ) :
    Integrable (fun z => -Real.log (gaussDensity K1 m1 z)) (normalLaw m0 K0) ∧
      ∫ z, -Real.log (gaussDensity K0 m0 z) ∂(normalLaw m0 K0) ≤
        ∫ z, -Real.log (gaussDensity K1 m1 z) ∂(normalLaw m0 K0) ∧
      (∫ z, -Real.log (gaussDensity K0 m0 z) ∂(normalLaw m0 K0) =
        ∫ z, -Real.log (gaussDensity K1 m1 z) ∂(normalLaw m0 K0) ↔ K0 = K1 ∧ m0 = m1) := by
  have i0 := log_gauss_integrable h0.posSemidef m0 h0 m0
  have i1 := log_gauss_integrable h0.posSemidef m0 h1 m1
  have g := gibbs (gauss_isDensity h0 m0) (gauss_isDensity h1 m1) i0 i1
  exact ⟨i1, g.1, g.2.trans (normalLaw_inj h0.posSemidef h1.posSemidef)⟩

/-- **C251** For data drawn from a normal law with mean `m0` and covariance `K0`, the average of the
likelihood criterion evaluated with any mean `m1` and covariance `K1` exists and is at least the
average evaluated with `m0` and `K0`, strictly larger unless both are the same. -/
theorem nll_proper (hla : la.Sound be) {K0 K1 : Mat n n} (h0 : K0.PosDef) (h1 : K1.PosDef) (m0 m1 : Fin n → ℝ) :
    ∃ f0 f1 : (Fin n → ℝ) → ℝ,
      (∀ z, nll be la K0 m0 z = .ok (.finite (f0 z))) ∧ (∀ z, nll be la K1 m1 z = .ok (.finite (f1 z))) ∧
      (m0 = 0 → ∀ z, nllZeroMean be la K0 z = .ok (.finite (f0 z))) ∧
      (m1 = 0 → ∀ z, nllZeroMean be la K1 z = .ok (.finite (f1 z))) ∧
      Integrable f0 (normalLaw m0 K0) ∧ Integrable f1 (normalLaw m0 K0) ∧
      ∫ z, f0 z ∂(normalLaw m0 K0) ≤ ∫ z, f1 z ∂(normalLaw m0 K0) ∧
      (∫ z, f0 z ∂(normalLaw m0 K0) = ∫ z, f1 z ∂(normalLaw m0 K0) ↔ K0 = K1 ∧ m0 = m1) :=
  ⟨_, _, fun z => (nll_eq hla h0 m0 z).1, fun z => (nll_eq hla h1 m1 z).1,
    fun h z => by rw [h]; exact (nll_eq hla h0 m0 z).2, fun h z => by rw [h]; exact (nll_eq hla h1 m1 z).2,
    (gauss_proper h0 h0 m0 m0).1, gauss_proper h0 h1 m0 m1⟩

/-- **C251** For data drawn from a normal law with covariance `K0` and any mean in the linear space,
the average of the restricted likelihood criterion evaluated with any covariance `K1` exists and is at
least the average evaluated with `K0`, strictly larger unless both give the same variance to every
contrast. -/
theorem reml_proper (hla : la.Sound be) {K0 K1 : Mat (q + r) (q + r)} {P : Mat (q + r) q} (h0 : CPD K0 P)
    (hp : K0.PosSemidef) (h1 : CPD K1 P) (hP : FullRank P) (beta : Fin q → ℝ) :
    ∃ f0 f1 : (Fin (q + r) → ℝ) → ℝ,
      (∀ z, reml be la K0 P z = .ok (.finite (f0 z))) ∧ (∀ z, reml be la K1 P z = .ok (.finite (f1 z))) ∧
      Integrable f0 (normalLaw (P *ᵥ beta) K0) ∧ Integrable f1 (normalLaw (P *ᵥ beta) K0) ∧
      ∫ z, f0 z ∂(normalLaw (P *ᵥ beta) K0) ≤ ∫ z, f1 z ∂(normalLaw (P *ᵥ beta) K0) ∧
      (∫ z, f0 z ∂(normalLaw (P *ᵥ beta) K0) = ∫ z, f1 z ∂(normalLaw (P *ᵥ beta) K0) ↔
        ∀ w, Pᵀ *ᵥ w = 0 → w ⬝ᵥ (K0 *ᵥ w) = w ⬝ᵥ (K1 *ᵥ w)) := by
  set W := contrastMatrix la P
  have hW : IsContrast P W := (hla.qr_ok P (Nat.le_add_right q r)).contrast hP
  have hG0 : (Wᵀ * (K0 * W)).PosDef := contrast_posDef hW.orth hW.null h0
  have hG1 : (Wᵀ * (K1 * W)).PosDef := contrast_posDef hW.orth hW.null h1
  have hL : (normalLaw (P *ᵥ beta) K0).map (fun z => Wᵀ *ᵥ z) = normalLaw 0 (Wᵀ * (K0 * W)) := by
    have h := normalLaw_map hp (P *ᵥ beta) Wᵀ 0
    simp only [add_zero, transpose_transpose, mulVec_mulVec] at h
    rw [h, Matrix.mul_assoc]
    congr 1
    have := congrArg Matrix.transpose hW.null
    rw [transpose_mul, transpose_transpose, transpose_zero] at this
    rw [this, zero_mulVec]
  have hm : Measurable fun z : Fin (q + r) → ℝ => Wᵀ *ᵥ z := by
    apply Continuous.measurable; fun_prop
  have hc : ∀ K : Mat (q + r) (q + r), Continuous fun y : Fin r → ℝ => gaussDensity (Wᵀ * (K * W)) 0 y := fun K =>
    gaussDensity_continuous _ _
  have hint : ∀ K : Mat (q + r) (q + r), (Wᵀ * (K * W)).PosDef →
      ∫ z, -Real.log (gaussDensity (Wᵀ * (K * W)) 0 (Wᵀ *ᵥ z)) ∂(normalLaw (P *ᵥ beta) K0) =
        ∫ y, -Real.log (gaussDensity (Wᵀ * (K * W)) 0 y) ∂(normalLaw 0 (Wᵀ * (K0 * W))) := fun K hK => by
    rw [← hL, integral_map hm.aemeasurable]
    exact ((hc K).log fun y => (gaussDensity_pos hK 0 y).ne').neg.aestronglyMeasurable
  have hintg : ∀ K : Mat (q + r) (q + r), (Wᵀ * (K * W)).PosDef →
      Integrable (fun z => -Real.log (gaussDensity (Wᵀ * (K * W)) 0 (Wᵀ *ᵥ z))) (normalLaw (P *ᵥ beta) K0) := fun K hK => by
    have := (gauss_proper hG0 hK 0 0).1
    rw [← hL] at this
    exact this.comp_measurable hm
  have g := gauss_proper hG0 hG1 0 0
  refine ⟨_, _, fun z => reml_eq hla h0 hP z hW, fun z => reml_eq hla h1 hP z hW, hintg _ hG0, hintg _ hG1, ?_, ?_⟩
  · rw [hint _ hG0, hint _ hG1]
    exact g.2.1
  · rw [hint _ hG0, hint _ hG1, g.2.2]
    have hq : ∀ (K : Mat (q + r) (q + r)) (y : Fin r → ℝ), y ⬝ᵥ ((Wᵀ * (K * W)) *ᵥ y) = (W *ᵥ y) ⬝ᵥ (K *ᵥ (W *ᵥ y)) := fun K y => by
      rw [← mulVec_mulVec, ← mulVec_mulVec, dotProduct_mulVec, vecMul_transpose]
    constructor
    · rintro ⟨h, -⟩ w hw
      obtain ⟨c, rfl⟩ := hW.span w hw
      rw [← hq, ← hq, h]
    · intro h
      refine ⟨sub_eq_zero.1 (quad_polar ?_ fun y => ?_), rfl⟩
      · rw [transpose_sub, PosSemidef.symm hG0.posSemidef, PosSemidef.symm hG1.posSemidef]
      · rw [sub_mulVec, dotProduct_sub, hq, hq, h, sub_self]
        rw [mulVec_mulVec, hW.null, zero_mulVec]

/-- Four correlated points and independent ones: the hypotheses are met. -/
example : ∃ f0 f1 : (Fin 4 → ℝ) → ℝ,
    (∀ z, nllZeroMean .torch (exactLA .torch) (firstCov exK 4) z = .ok (.finite (f0 z))) ∧
    (∀ z, nllZeroMean .torch (exactLA .torch) 1 z = .ok (.finite (f1 z))) ∧
    ∫ z, f0 z ∂(normalLaw 0 (firstCov exK 4)) < ∫ z, f1 z ∂(normalLaw 0 (firstCov exK 4)) := by
  have hne : firstCov exK 4 ≠ 1 := fun h => by
    have := congrFun (congrFun h 0) 0
    simp [firstCov, exK] at this
  obtain ⟨f0, f1, -, -, e0, e1, -, -, hle, hiff⟩ :=
    nll_proper (exactLA_contract .torch).toSound (exK_posDef 4) Matrix.PosDef.one 0 0
  exact ⟨f0, f1, e0 rfl, e1 rfl, lt_of_le_of_ne hle fun h => hne (hiff.1 h).1⟩

end Verif.Core
