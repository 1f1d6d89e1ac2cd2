import Verif.Core.PropsCalib
import Verif.Core.PropsInitLoader
import Mathlib.Probability.Moments.Variance

/-!
# C256: the mean of the guessed variance over data drawn from the model

The guess for a zero mean is right on average.  The one for a linear mean divides by the number of data instead of the
number of degrees of freedom, and the one for a constant mean does not subtract the mean it has just estimated.
-/

set_option autoImplicit false

namespace Verif.Core

open Verif Verif.Data Matrix MeasureTheory ProbabilityTheory

variable {n q r : ℕ} {be : Backend} {la : LA}

theorem std_pow_integrable (k : ℕ) : Integrable (fun x : ℝ => x ^ k) (gaussianReal 0 1) := by
  rcases Nat.eq_zero_or_pos k with rfl | hk
  · simp
  have := memLp_id_gaussianReal (μ := 0) (v := 1) (k : NNReal)
  have h := this.integrable_norm_pow (by omega)
  refine h.mono (by fun_prop) (Filter.Eventually.of_forall fun x => ?_)
  simp

theorem std_moment (k : ℕ) : ∫ x, x ^ k ∂(gaussianReal 0 1) = nmom k := by
  rw [integral_gaussianReal_eq_integral_smul one_ne_zero, nmom, mom, div_eq_inv_mul, ← integral_const_mul]
  refine integral_congr_ae (Filter.Eventually.of_forall fun x => ?_)
  simp only [smul_eq_mul]
  rw [gaussianPDFReal, mom_zero, bell]
  simp only [NNReal.coe_one, mul_one, sub_zero]
  rw [show -x ^ 2 / 2 = -(1 / 2) * x ^ 2 by ring]
  ring

theorem std_eval (i : Fin n) : MeasurePreserving (fun y : Fin n → ℝ => y i) (stdLaw (Fin n)) (gaussianReal 0 1) :=
  measurePreserving_eval _ i

theorem std_coord_int (k : ℕ) (i : Fin n) : Integrable (fun y : Fin n → ℝ => y i ^ k) (stdLaw (Fin n)) :=
  (std_eval i).integrable_comp_of_integrable (g := fun x : ℝ => x ^ k) (std_pow_integrable k)

theorem std_coord (k : ℕ) (i : Fin n) : ∫ y, y i ^ k ∂(stdLaw (Fin n)) = nmom k := by
  rw [← std_moment k, ← (std_eval i).map_eq, integral_map (std_eval i).measurable.aemeasurable (by fun_prop)]

theorem sq_sum_var : ∫ y : Fin n → ℝ, (∑ i, y i ^ 2 - n) ^ 2 ∂(stdLaw (Fin n)) = 2 * n := by
  have hm : ∀ i : Fin n, MemLp (fun x : ℝ => x ^ 2) 2 (gaussianReal 0 1) := fun i => by
    refine (memLp_two_iff_integrable_sq (by fun_prop)).mpr ?_
    simpa [← pow_mul] using std_pow_integrable 4
  have h := variance_sum_pi (μ := fun _ : Fin n => gaussianReal 0 1) (X := fun _ x => x ^ 2) hm
  have hv : Var[fun x : ℝ => x ^ 2; gaussianReal 0 1] = 2 := by
    rcases Nat.eq_zero_or_pos n with h0 | h0
    · have hm' : MemLp (fun x : ℝ => x ^ 2) 2 (gaussianReal 0 1) := by
        refine (memLp_two_iff_integrable_sq (by fun_prop)).mpr ?_
        simpa [← pow_mul] using std_pow_integrable 4
      rw [variance_eq_sub hm', std_moment 2, nmom_2]
      simp only [Pi.pow_apply, ← pow_mul]
      rw [std_moment 4, nmom_4]; norm_num
    · rw [variance_eq_sub (hm ⟨0, h0⟩), std_moment 2, nmom_2]
      simp only [Pi.pow_apply, ← pow_mul]
      rw [std_moment 4, nmom_4]; norm_num
  simp only [hv] at h
  rw [variance_eq_integral (by fun_prop)] at h
  have e1 : (∑ i : Fin n, fun y : Fin n → ℝ => y i ^ 2) = fun y => ∑ i, y i ^ 2 := by
    funext y; simp
  have e2 : ∫ y : Fin n → ℝ, ∑ i, y i ^ 2 ∂(Measure.pi fun _ : Fin n => gaussianReal 0 1) = n := by
    have : ∀ i : Fin n, ∫ y : Fin n → ℝ, y i ^ 2 ∂(Measure.pi fun _ : Fin n => gaussianReal 0 1) = 1 := fun i =>
      (std_coord 2 i).trans nmom_2
    refine (integral_finsetSum _ fun i _ => std_coord_int 2 i).trans ?_
    exact (Finset.sum_congr rfl fun i _ => this i).trans (by simp)
  rw [e1] at h
  simp only [e2] at h
  refine Eq.trans h ?_
  simp [mul_comm]

/-- Data of covariance `s2 K` have, in the metric of `K`, the squared norm of a shifted standard vector. -/
theorem quad_law {K : Mat n n} (hK : K.PosDef) (mu : Fin n → ℝ) {s2 : ℝ} (hs : 0 ≤ s2) :
    ∃ w : Fin n → ℝ, w ⬝ᵥ w = mu ⬝ᵥ (K⁻¹ *ᵥ mu) ∧ ∀ F : ℝ → ℝ, Continuous F →
      ((Integrable (fun y : Fin n → ℝ => F (s2 * ∑ i, y i ^ 2 + 2 * √s2 * (w ⬝ᵥ y) + w ⬝ᵥ w)) (stdLaw (Fin n))) →
        Integrable (fun z => F (z ⬝ᵥ (K⁻¹ *ᵥ z))) (normalLaw mu (s2 • K))) ∧
      ∫ z, F (z ⬝ᵥ (K⁻¹ *ᵥ z)) ∂(normalLaw mu (s2 • K)) =
        ∫ y, F (s2 * ∑ i, y i ^ 2 + 2 * √s2 * (w ⬝ᵥ y) + w ⬝ᵥ w) ∂(stdLaw (Fin n)) := by
  obtain ⟨C, hC⟩ := exists_chol _ hK
  have hCu : IsUnit C.det := by
    have h1 := hK.det_pos
    rw [← hC.mul, det_mul, det_transpose] at h1
    exact isUnit_iff_ne_zero.mpr fun h => by simp [h] at h1
  have hA : (√s2 • C) * (√s2 • C)ᵀ = s2 • K := by
    rw [transpose_smul, smul_mul, Matrix.mul_smul, smul_smul, Real.mul_self_sqrt hs, hC.mul]
  have hinv : K⁻¹ = (C⁻¹)ᵀ * C⁻¹ := by
    rw [← hC.mul, Matrix.mul_inv_rev, transpose_nonsing_inv]
  have hq : ∀ v, v ⬝ᵥ (K⁻¹ *ᵥ v) = (C⁻¹ *ᵥ v) ⬝ᵥ (C⁻¹ *ᵥ v) := by
    intro v
    rw [hinv, ← mulVec_mulVec, dot_mulVec_transpose, transpose_transpose]
  set w := C⁻¹ *ᵥ mu with hw
  have hz : ∀ y : Fin n → ℝ, ((√s2 • C) *ᵥ y + mu) ⬝ᵥ (K⁻¹ *ᵥ ((√s2 • C) *ᵥ y + mu)) =
      s2 * ∑ i, y i ^ 2 + 2 * √s2 * (w ⬝ᵥ y) + w ⬝ᵥ w := by
    intro y
    rw [hq, mulVec_add, smul_mulVec, mulVec_smul, mulVec_mulVec, Matrix.nonsing_inv_mul _ hCu, one_mulVec, ← hw]
    rw [add_dotProduct, dotProduct_add, dotProduct_add, smul_dotProduct, dotProduct_smul, smul_dotProduct, dotProduct_smul,
      smul_eq_mul, smul_eq_mul, smul_eq_mul, smul_eq_mul, dotProduct_comm y w, ← mul_assoc, Real.mul_self_sqrt hs]
    have : y ⬝ᵥ y = ∑ i, y i ^ 2 := by simp [dotProduct, _root_.sq]
    rw [this]
    ring
  have hmap := normalLaw_factor hA mu
  refine ⟨w, (hq mu).symm, fun F hF => ⟨fun hi => ?_, ?_⟩⟩
  · rw [← hmap]
    refine (integrable_map_measure ?_ ?_).mpr ?_
    · apply Continuous.aestronglyMeasurable; fun_prop
    · apply Measurable.aemeasurable; apply Continuous.measurable; fun_prop
    · simpa only [Function.comp_def, hz] using hi
  · rw [← hmap, integral_map]
    · simp only [hz]
    · apply Measurable.aemeasurable; apply Continuous.measurable; fun_prop
    · apply Continuous.aestronglyMeasurable; fun_prop

theorem integral_three {f g : (Fin n → ℝ) → ℝ} (hf : Integrable f (stdLaw (Fin n))) (hg : Integrable g (stdLaw (Fin n)))
    (a b c : ℝ) : Integrable (fun y => a * f y + b * g y + c) (stdLaw (Fin n)) ∧
    ∫ y, (a * f y + b * g y + c) ∂(stdLaw (Fin n)) = a * ∫ y, f y ∂(stdLaw (Fin n)) + b * ∫ y, g y ∂(stdLaw (Fin n)) + c := by
  refine ⟨((hf.const_mul a).add (hg.const_mul b)).add (integrable_const c), ?_⟩
  refine (integral_add ((hf.const_mul a).add (hg.const_mul b)) (integrable_const c)).trans ?_
  refine congrArg₂ (· + ·) ((integral_add (hf.const_mul a) (hg.const_mul b)).trans ?_) (by simp)
  rw [integral_const_mul, integral_const_mul]

theorem quad_integrable (s2 c : ℝ) (w : Fin n → ℝ) :
    Integrable (fun y : Fin n → ℝ => s2 * ∑ i, y i ^ 2 + 2 * √s2 * (w ⬝ᵥ y) + c) (stdLaw (Fin n)) ∧
    ∫ y, (s2 * ∑ i, y i ^ 2 + 2 * √s2 * (w ⬝ᵥ y) + c) ∂(stdLaw (Fin n)) = s2 * n + c := by
  have i1 : Integrable (fun y : Fin n → ℝ => ∑ i, y i ^ 2) (stdLaw (Fin n)) := integrable_finsetSum _ fun i _ => std_coord_int 2 i
  have i2 : Integrable (fun y : Fin n → ℝ => w ⬝ᵥ y) (stdLaw (Fin n)) := by
    simp only [dotProduct]
    exact integrable_finsetSum _ fun i _ => by simpa using (std_coord_int 1 i).const_mul (w i)
  have e1 : ∫ y : Fin n → ℝ, ∑ i, y i ^ 2 ∂(stdLaw (Fin n)) = n := by
    rw [integral_finsetSum _ fun i _ => std_coord_int 2 i]
    simp [std_coord, nmom_2]
  have e2 : ∫ y : Fin n → ℝ, w ⬝ᵥ y ∂(stdLaw (Fin n)) = 0 := by
    simp only [dotProduct]
    rw [integral_finsetSum _ fun i _ => by simpa using (std_coord_int 1 i).const_mul (w i)]
    refine Finset.sum_eq_zero fun i _ => ?_
    rw [integral_const_mul]
    have := std_coord 1 i
    simp only [pow_one, nmom_1] at this
    rw [this, mul_zero]
  obtain ⟨a, b⟩ := integral_three i1 i2 s2 (2 * √s2) c
  refine ⟨a, b.trans ?_⟩
  rw [e1, e2]
  ring

theorem quad_mean {K : Mat n n} (hK : K.PosDef) (mu : Fin n → ℝ) {s2 : ℝ} (hs : 0 ≤ s2) :
    Integrable (fun z => z ⬝ᵥ (K⁻¹ *ᵥ z)) (normalLaw mu (s2 • K)) ∧
    ∫ z, z ⬝ᵥ (K⁻¹ *ᵥ z) ∂(normalLaw mu (s2 • K)) = s2 * n + mu ⬝ᵥ (K⁻¹ *ᵥ mu) := by
  obtain ⟨w, hw, h⟩ := quad_law hK mu hs
  have h1 := h id continuous_id
  simp only [id] at h1
  obtain ⟨a, b⟩ := quad_integrable (n := n) s2 (w ⬝ᵥ w) w
  exact ⟨h1.1 a, by rw [h1.2, b, hw]⟩

/-- Distance of a multiple of the squared norm to a number, in mean square. -/
theorem quad_mse {K : Mat n n} (hK : K.PosDef) {s2 : ℝ} (hs : 0 ≤ s2) (c t : ℝ) :
    ∫ z, (c * (z ⬝ᵥ (K⁻¹ *ᵥ z)) - t) ^ 2 ∂(normalLaw 0 (s2 • K)) = c ^ 2 * s2 ^ 2 * (2 * n) + (c * s2 * n - t) ^ 2 := by
  obtain ⟨w, hw, h⟩ := quad_law hK 0 hs
  have w0 : w = 0 := by
    rw [mulVec_zero, dotProduct_zero] at hw
    exact dotProduct_self_eq_zero.mp hw
  have h1 := (h (fun x => (c * x - t) ^ 2) (by fun_prop)).2
  rw [h1, w0]
  simp only [zero_dotProduct, mul_zero, add_zero]
  set S : (Fin n → ℝ) → ℝ := fun y => ∑ i, y i ^ 2 - n with hS
  have e : ∀ y : Fin n → ℝ, (c * (s2 * ∑ i, y i ^ 2) - t) ^ 2 =
      c ^ 2 * s2 ^ 2 * S y ^ 2 + 2 * c * s2 * (c * s2 * n - t) * S y + (c * s2 * n - t) ^ 2 := by
    intro y; simp only [hS]; ring
  simp only [e]
  have i0 : Integrable S (stdLaw (Fin n)) := (integrable_finsetSum _ fun i _ => std_coord_int 2 i).sub (integrable_const _)
  have i1 : Integrable (fun y => S y ^ 2) (stdLaw (Fin n)) := by
    have : MemLp S 2 (stdLaw (Fin n)) := by
      refine MemLp.sub (memLp_finsetSum _ fun i _ => ?_) (memLp_const _)
      refine (memLp_two_iff_integrable_sq (by apply Continuous.aestronglyMeasurable; fun_prop)).mpr ?_
      simpa [← pow_mul] using std_coord_int 4 i
    exact this.integrable_sq
  have e0 : ∫ y, S y ∂(stdLaw (Fin n)) = 0 := by
    rw [hS, integral_sub (integrable_finsetSum _ fun i _ => std_coord_int 2 i) (integrable_const _),
      integral_finsetSum _ fun i _ => std_coord_int 2 i]
    simp [std_coord, nmom_2]
  rw [(integral_three i1 i0 _ _ _).2, e0, sq_sum_var]
  ring

/-- **C256** (zero mean) The guessed variance is right on average, with a mean squared error of `2 σ⁴ / n`. -/
theorem init_zero_mean (hla : la.Sound be) {K : Mat n n} (hK : K.PosDef) (hn : 0 < n) :
    ∃ f : (Fin n → ℝ) → ℝ, (∀ z, initSigma2Zero la K z = .ok (f z)) ∧ ∀ s2, 0 ≤ s2 →
      Integrable f (normalLaw 0 (s2 • K)) ∧ ∫ z, f z ∂(normalLaw 0 (s2 • K)) = s2 ∧
      ∫ z, (f z - s2) ^ 2 ∂(normalLaw 0 (s2 • K)) = 2 * s2 ^ 2 / n := by
  have hn' : (0 : ℝ) < n := by exact_mod_cast hn
  refine ⟨fun z => 1 / n * (z ⬝ᵥ (K⁻¹ *ᵥ z)), fun z => ?_, fun s2 hs => ?_⟩
  · simp only [initSigma2Zero, (norms_zero hla hK z).1, bind, Except.bind, pure, Except.pure]
  · obtain ⟨h1, h2⟩ := quad_mean hK 0 hs
    refine ⟨h1.const_mul _, ?_, ?_⟩
    · rw [integral_const_mul, h2]
      simp only [mulVec_zero, dotProduct_zero, add_zero]
      field_simp
    · rw [quad_mse hK hs]
      field_simp
      ring

/-- The squared norm used for a linear mean, in contrasts. -/
theorem norm_contrast (hla : la.Sound be) {K : Mat (q + r) (q + r)} {P : Mat (q + r) q} (hK : K.PosDef) (hP : FullRank P) :
    ∃ (W : Mat (q + r) r) (G : Mat r r), G.PosDef ∧ (∀ z, normKSqrd la K P z = .ok ((Wᵀ *ᵥ z) ⬝ᵥ (G⁻¹ *ᵥ (Wᵀ *ᵥ z)))) ∧
      ∀ (beta : Fin q → ℝ) (s2 : ℝ), 0 ≤ s2 → (normalLaw (P *ᵥ beta) (s2 • K)).map (fun z => Wᵀ *ᵥ z) = normalLaw 0 (s2 • G) := by
  have hqr := hla.qr_ok P (Nat.le_add_right q r)
  have hW : IsContrast P (contrastMatrix la P) := hqr.contrast hP
  have hG : (contrastCov (contrastMatrix la P) K).PosDef := contrast_posDef hW.orth hW.null (CPD.of_posDef hK P)
  set W := contrastMatrix la P with hWdef
  refine ⟨W, contrastCov W K, hG, fun z => ?_, fun beta s2 hs => ?_⟩
  · obtain ⟨C, _, hc⟩ := choleskySolve_ok hla hG (colVec (Wᵀ *ᵥ z))
    simp only [normKSqrd, ← hWdef, hc, bind, Except.bind, pure, Except.pure, sum_mul_colVec]
  · have h := normalLaw_map (hK.posSemidef.smul hs) (P *ᵥ beta) Wᵀ 0
    have h0 : Wᵀ *ᵥ (P *ᵥ beta) + 0 = 0 := by
      have := congrArg Matrix.transpose hW.null
      rw [transpose_mul, transpose_transpose, transpose_zero] at this
      rw [mulVec_mulVec, this, zero_mulVec, add_zero]
    rw [h0, transpose_transpose, Matrix.mul_smul, smul_mul, Matrix.mul_assoc] at h
    simp only [add_zero] at h
    exact h

theorem contrast_mean {W : Mat n r} {G : Mat r r} (hG : G.PosDef) {L : Measure (Fin n → ℝ)} {s2 : ℝ} (hs : 0 ≤ s2)
    (hL : L.map (fun z => Wᵀ *ᵥ z) = normalLaw 0 (s2 • G)) (c t : ℝ) :
    Integrable (fun z => (Wᵀ *ᵥ z) ⬝ᵥ (G⁻¹ *ᵥ (Wᵀ *ᵥ z))) L ∧
    ∫ z, (Wᵀ *ᵥ z) ⬝ᵥ (G⁻¹ *ᵥ (Wᵀ *ᵥ z)) ∂L = s2 * r ∧
    ∫ z, (c * ((Wᵀ *ᵥ z) ⬝ᵥ (G⁻¹ *ᵥ (Wᵀ *ᵥ z))) - t) ^ 2 ∂L = c ^ 2 * s2 ^ 2 * (2 * r) + (c * s2 * r - t) ^ 2 := by
  have hm : Measurable fun z : Fin n → ℝ => Wᵀ *ᵥ z := by apply Continuous.measurable; fun_prop
  obtain ⟨h1, h2⟩ := quad_mean hG 0 hs
  have h3 := quad_mse hG hs c t
  rw [← hL] at h1 h2 h3
  rw [integral_map hm.aemeasurable (by apply Continuous.aestronglyMeasurable; fun_prop)] at h2 h3
  refine ⟨(integrable_map_measure (by apply Continuous.aestronglyMeasurable; fun_prop) hm.aemeasurable).mp h1, ?_, h3⟩
  rw [h2]
  simp

/-- **C256** (linear mean of dimension `q`, `q + r` data) Whatever the mean, the guessed variance is on average the variance
multiplied by `r / (q + r)`. -/
theorem init_linear_mean (hla : la.Sound be) {K : Mat (q + r) (q + r)} {P : Mat (q + r) q} (hK : K.PosDef) (hP : FullRank P)
    (hn : 0 < q + r) :
    ∃ f : (Fin (q + r) → ℝ) → ℝ, (∀ z, initSigma2 la K P z = .ok (f z)) ∧ ∀ (beta : Fin q → ℝ) (s2 : ℝ), 0 ≤ s2 →
      Integrable f (normalLaw (P *ᵥ beta) (s2 • K)) ∧
      ∫ z, f z ∂(normalLaw (P *ᵥ beta) (s2 • K)) = r / (q + r : ℕ) * s2 ∧
      ∫ z, (f z - s2) ^ 2 ∂(normalLaw (P *ᵥ beta) (s2 • K)) = s2 ^ 2 * (2 * r + q ^ 2) / (q + r : ℕ) ^ 2 := by
  have hn' : (0 : ℝ) < (q + r : ℕ) := by exact_mod_cast hn
  obtain ⟨W, G, hG, hf, hL⟩ := norm_contrast hla hK hP
  refine ⟨fun z => 1 / ((q + r : ℕ) : ℝ) * ((Wᵀ *ᵥ z) ⬝ᵥ (G⁻¹ *ᵥ (Wᵀ *ᵥ z))), fun z => ?_, fun beta s2 hs => ?_⟩
  · simp only [initSigma2, hf, bind, Except.bind, pure, Except.pure]
  · obtain ⟨h1, h2, h3⟩ := contrast_mean hG hs (hL beta s2 hs) (1 / ((q + r : ℕ) : ℝ)) s2
    refine ⟨h1.const_mul _, ?_, ?_⟩
    · rw [integral_const_mul, h2]
      field_simp
    · rw [h3]
      push_cast at hn' ⊢
      field_simp
      ring

/-- **C256** (constant mean) The guessed mean is right on average; the guessed variance is too large on average, by the square of
the mean times the mean of the entries of `K⁻¹ 1`. -/
theorem init_constant_mean (hla : la.Sound be) {K : Mat n n} (hK : K.PosDef) (hn : 0 < n) :
    ∃ mean var : (Fin n → ℝ) → ℝ, (∀ z, initConstantMean la K z = .ok (mean z, var z)) ∧ ∀ mu s2 : ℝ, 0 ≤ s2 →
      Integrable mean (normalLaw (fun _ => mu) (s2 • K)) ∧ Integrable var (normalLaw (fun _ => mu) (s2 • K)) ∧
      ∫ z, mean z ∂(normalLaw (fun _ => mu) (s2 • K)) = mu ∧
      ∫ z, var z ∂(normalLaw (fun _ => mu) (s2 • K)) = s2 + mu ^ 2 * (∑ i, ∑ j, K⁻¹ i j) / n := by
  have hn' : (0 : ℝ) < n := by exact_mod_cast hn
  set k1 : Fin n → ℝ := K⁻¹ *ᵥ fun _ => 1 with hk1
  have hone : (fun _ : Fin n => (1 : ℝ)) ≠ 0 := fun h => by simpa using congrFun h ⟨0, hn⟩
  have hpos : 0 < ∑ i, k1 i := by
    have := PosDef.quad_pos hK.inv hone
    simpa [dotProduct, hk1] using this
  have hsym : K⁻¹ᵀ = K⁻¹ := by
    rw [transpose_nonsing_inv]
    congr 1
    exact hK.isHermitian
  refine ⟨fun z => (∑ i, (K⁻¹ *ᵥ z) i) / ∑ i, k1 i, fun z => 1 / n * (z ⬝ᵥ (K⁻¹ *ᵥ z)), fun z => ?_, fun mu s2 hs => ?_⟩
  · simp only [initConstantMean, (norms_zero hla hK z).2, bind, Except.bind, pure, Except.pure, ← hk1]
  · obtain ⟨h1, h2⟩ := quad_mean hK (fun _ => mu) hs
    have hlin : ∀ z, (∑ i, (K⁻¹ *ᵥ z) i) = k1 ⬝ᵥ z := by
      intro z
      have : ∑ i, (K⁻¹ *ᵥ z) i = (fun _ => (1 : ℝ)) ⬝ᵥ (K⁻¹ *ᵥ z) := by simp [dotProduct]
      rw [this, dotProduct_mulVec, hk1, ← mulVec_transpose, hsym]
    have hd := normalLaw_dot (hK.posSemidef.smul hs) (fun _ => mu) k1 0
    have hm : Measurable fun z : Fin n → ℝ => k1 ⬝ᵥ z + 0 := by apply Continuous.measurable; fun_prop
    have hi : Integrable (fun z => k1 ⬝ᵥ z + 0) (normalLaw (fun _ => mu) (s2 • K)) := by
      have : Integrable (id : ℝ → ℝ) ((normalLaw (fun _ => mu) (s2 • K)).map fun z => k1 ⬝ᵥ z + 0) := by
        rw [hd]; exact (memLp_id_gaussianReal 1).integrable le_rfl
      exact (integrable_map_measure (by fun_prop) hm.aemeasurable).mp this
    have he : ∫ z, (k1 ⬝ᵥ z + 0) ∂(normalLaw (fun _ => mu) (s2 • K)) = mu * ∑ i, k1 i := by
      have h5 := integral_id_gaussianReal (μ := k1 ⬝ᵥ (fun _ => mu) + 0) (v := (k1 ⬝ᵥ ((s2 • K) *ᵥ k1)).toNNReal)
      rw [← hd, integral_map hm.aemeasurable (by fun_prop)] at h5
      rw [h5]
      simp [dotProduct, Finset.mul_sum, mul_comm]
    simp only [add_zero] at hi he
    refine ⟨?_, h1.const_mul _, ?_, ?_⟩
    · simp only [hlin]; exact hi.div_const _
    · simp only [hlin]
      rw [integral_div, he]
      field_simp
    · rw [integral_const_mul, h2]
      have : (fun _ : Fin n => mu) ⬝ᵥ (K⁻¹ *ᵥ fun _ => mu) = mu ^ 2 * ∑ i, ∑ j, K⁻¹ i j := by
        simp only [dotProduct, mulVec, Finset.mul_sum]
        refine Finset.sum_congr rfl fun i _ => Finset.sum_congr rfl fun j _ => by ring
      rw [this]
      field_simp

/-- **C256** (negative, linear mean) With a constant mean basis and two independent data of variance 1 the guess is one half on
average. -/
theorem init_linear_false (hla : la.Sound be) :
    ∃ f : (Fin (1 + 1) → ℝ) → ℝ, (∀ z, initSigma2 la (1 : Mat (1 + 1) (1 + 1)) (fun _ _ => 1 : Mat (1 + 1) 1) z = .ok (f z)) ∧
      ∀ mu : ℝ, ∫ z, f z ∂(normalLaw (fun _ => mu) (1 : Mat (1 + 1) (1 + 1))) = 1 / 2 := by
  have hP : FullRank (fun _ _ => 1 : Mat (1 + 1) 1) := by
    intro b hb
    have := congrFun hb 0
    funext j
    fin_cases j
    simpa [mulVec, dotProduct] using this
  obtain ⟨f, hf, h⟩ := init_linear_mean hla (PosDef.one : (1 : Mat (1 + 1) (1 + 1)).PosDef) hP (by norm_num)
  refine ⟨f, hf, fun mu => ?_⟩
  have h1 := (h (fun _ => mu) 1 zero_le_one).2.1
  rw [one_smul] at h1
  have h2 : (fun _ _ => 1 : Mat (1 + 1) 1) *ᵥ (fun _ => mu) = fun _ => mu := by
    funext i
    simp [mulVec, dotProduct]
  rw [h2] at h1
  rw [h1]
  norm_num

/-- **C256** (negative, constant mean) For independent data of mean `mu` and variance 1 the guess is `1 + mu²` on average. -/
theorem init_constant_false (hla : la.Sound be) (hn : 0 < n) :
    ∃ mean var : (Fin n → ℝ) → ℝ, (∀ z, initConstantMean la (1 : Mat n n) z = .ok (mean z, var z)) ∧
      ∀ mu : ℝ, ∫ z, var z ∂(normalLaw (fun _ => mu) (1 : Mat n n)) = 1 + mu ^ 2 := by
  obtain ⟨mean, var, hf, h⟩ := init_constant_mean hla (PosDef.one : (1 : Mat n n).PosDef) hn
  refine ⟨mean, var, hf, fun mu => ?_⟩
  have h1 := (h mu 1 zero_le_one).2.2.2
  rw [one_smul] at h1
  rw [h1]
  have hn' : (0 : ℝ) < n := by exact_mod_cast hn
  simp only [inv_one, Matrix.one_apply, Finset.sum_ite_eq, Finset.mem_univ, if_true, Finset.sum_const, Finset.card_univ,
    Fintype.card_fin, nsmul_eq_mul, mul_one]
  field_simp

/-! ## With a loader -/

/-- The entries of a vector at given positions are normal with the corresponding covariance. -/
theorem normalLaw_at {N k : ℕ} {S : Mat N N} (hS : S.PosSemidef) (mu : Fin N → ℝ) (ix : Fin k → Fin N) :
    (normalLaw mu S).map (fun z => z ∘ ix) = normalLaw (mu ∘ ix) (S.submatrix ix ix) := by
  set A : Mat k N := Matrix.of fun i j => if ix i = j then 1 else 0 with hA
  have hv : ∀ z : Fin N → ℝ, A *ᵥ z = z ∘ ix := by
    intro z
    funext i
    simp [hA, mulVec, dotProduct]
  have h := normalLaw_map hS mu A 0
  simp only [add_zero, hv] at h
  rw [h]
  congr 1
  ext i j
  simp [hA, Matrix.mul_apply]

/-- A batch of given positions of the data. -/
def batchAt {X : Type} {N : ℕ} (x : Fin N → X) (z : Fin N → ℝ) (b : Σ k, Fin k → Fin N) : IBatch X := ⟨b.1, x ∘ b.2, z ∘ b.2⟩

/-- **C256** (zero mean, with a loader) The average over batches is right on average too. -/
theorem init_zero_loader {X : Type} {N : ℕ} (hla : la.Sound be) {k : X → X → ℝ} {x : Fin N → X}
    (hK : (Matrix.of fun i j => k (x i) (x j) : Mat N N).PosDef) {bs : List (Σ k, Fin k → Fin N)}
    (hb : ∀ b ∈ bs, Function.Injective b.2) (hne : ∃ b ∈ bs, 0 < b.1) :
    ∃ f : (Fin N → ℝ) → ℝ, (∀ z, initZeroLoader la k (bs.map (batchAt x z)) = .ok (some fun _ => f z)) ∧ ∀ s2, 0 ≤ s2 →
      ∫ z, f z ∂(normalLaw 0 (s2 • (Matrix.of fun i j => k (x i) (x j) : Mat N N))) = s2 := by
  set K : Mat N N := Matrix.of fun i j => k (x i) (x j) with hKdef
  have hKb : ∀ b ∈ bs, (K.submatrix b.2 b.2).PosDef := fun b h => hK.submatrix (hb b h)
  set Q : (Σ k, Fin k → Fin N) → (Fin N → ℝ) → ℝ := fun b z => (z ∘ b.2) ⬝ᵥ ((K.submatrix b.2 b.2)⁻¹ *ᵥ (z ∘ b.2)) with hQ
  obtain ⟨b0, hb0, hn0⟩ := hne
  have hN : 0 < (bs.map Sigma.fst).sum :=
    lt_of_lt_of_le hn0 (List.single_le_sum (by simp) _ (List.mem_map.mpr ⟨b0, hb0, rfl⟩))
  have hN' : (0 : ℝ) < ((bs.map Sigma.fst).sum : ℕ) := by exact_mod_cast hN
  have hsz : ∀ z, ((bs.map (batchAt x z)).map IBatch.n) = bs.map Sigma.fst := fun z => by
    rw [List.map_map]; rfl
  refine ⟨fun z => (bs.map fun b => Q b z).sum / ((bs.map Sigma.fst).sum : ℕ), fun z => ?_, fun s2 hs => ?_⟩
  · rw [initZeroLoader, reduceMeanPy_ok (v := fun b _ => 1 / b.n * (b.z ⬝ᵥ ((b.gram k)⁻¹ *ᵥ b.z))) ?_ (by rw [hsz]; exact hN), hsz]
    · congr 3
      funext _
      rw [List.map_map]
      congr 2
      apply List.map_congr_left
      intro b hb
      show 1 / (b.1 : ℝ) * ((z ∘ b.2) ⬝ᵥ ((K.submatrix b.2 b.2)⁻¹ *ᵥ (z ∘ b.2))) * (b.1 : ℝ) = Q b z
      rcases Nat.eq_zero_or_pos b.1 with h | h
      · have : z ∘ b.2 = 0 := by funext i; exact absurd i.2 (by omega)
        simp [hQ, this]
      · have : (b.1 : ℝ) ≠ 0 := by positivity
        field_simp
        rfl
    · intro b hb
      obtain ⟨c, hc, rfl⟩ := List.mem_map.mp hb
      have := (norms_zero hla (hKb c hc) (z ∘ c.2)).1
      have h2 : normKSqrdZeroMean la ((batchAt x z c).gram k) (batchAt x z c).z = .ok ((z ∘ c.2) ⬝ᵥ ((K.submatrix c.2 c.2)⁻¹ *ᵥ (z ∘ c.2))) := this
      simp only [initSigma2Zero, h2, bind, Except.bind, pure, Except.pure]
      rfl
  · have hq : ∀ b ∈ bs, Integrable (Q b) (normalLaw 0 (s2 • K)) ∧ ∫ z, Q b z ∂(normalLaw 0 (s2 • K)) = s2 * b.1 := by
      intro b hb
      have hm := normalLaw_at (hK.posSemidef.smul hs) 0 b.2
      have e : (s2 • K).submatrix b.2 b.2 = s2 • K.submatrix b.2 b.2 := rfl
      have e0 : (0 : Fin N → ℝ) ∘ b.2 = 0 := rfl
      rw [e, e0] at hm
      obtain ⟨h1, h2⟩ := quad_mean (hKb b hb) 0 hs
      have hmm : Measurable fun z : Fin N → ℝ => z ∘ b.2 := by fun_prop
      rw [← hm] at h1 h2
      rw [integral_map hmm.aemeasurable (by apply Continuous.aestronglyMeasurable; fun_prop)] at h2
      refine ⟨(integrable_map_measure (by apply Continuous.aestronglyMeasurable; fun_prop) hmm.aemeasurable).mp h1, ?_⟩
      refine h2.trans ?_
      simp
    have hsum : ∀ l : List (Σ k, Fin k → Fin N), (∀ b ∈ l, b ∈ bs) →
        Integrable (fun z => (l.map fun b => Q b z).sum) (normalLaw 0 (s2 • K)) ∧
        ∫ z, (l.map fun b => Q b z).sum ∂(normalLaw 0 (s2 • K)) = s2 * ((l.map Sigma.fst).sum : ℕ) := by
      intro l
      induction l with
      | nil => intro _; simp
      | cons b l ih =>
        intro h
        obtain ⟨a1, a2⟩ := hq b (h b (by simp))
        obtain ⟨c1, c2⟩ := ih fun c hc => h c (by simp [hc])
        simp only [List.map_cons, List.sum_cons]
        refine ⟨a1.add c1, (integral_add a1 c1).trans ?_⟩
        rw [a2, c2]
        push_cast
        ring
    rw [integral_div, (hsum bs fun _ h => h).2]
    field_simp

/-- Four correlated data. -/
example : ∃ f : (Fin 4 → ℝ) → ℝ, (∀ z, initSigma2Zero (exactLA .numpy) (firstCov exK 4) z = .ok (f z)) ∧
    ∫ z, f z ∂(normalLaw 0 ((9 : ℝ) • firstCov exK 4)) = 9 := by
  obtain ⟨f, hf, h⟩ := init_zero_mean (exactLA_contract .numpy).toSound (exK_posDef 4) (by norm_num)
  exact ⟨f, hf, (h 9 (by norm_num)).2.1⟩

end Verif.Core
