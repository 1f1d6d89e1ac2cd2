import Verif.Core.Init
import Verif.Core.PropsLikelihood
import Verif.Core.PropsPredict
import Verif.Kernel.PropsPriors
import Mathlib.Analysis.SpecialFunctions.Log.Deriv

/-!
# C94, C96: initial variance and MAP criteria
-/

set_option autoImplicit false

namespace Verif.Core

open Verif Verif.Data Matrix
open Filter (Tendsto atTop atBot eventually_ge_atTop tendsto_atBot_mono' tendsto_id
  tendsto_atBot_add_const_left)

variable {n q r : ℕ} {be : Backend} {la : LA}

/-! ## Criteria as functions of the variance -/

theorem CPD.smul {K : Mat n n} {P : Mat n q} (h : CPD K P) {t : ℝ} (ht : 0 < t) :
    CPD (t • K) P := by
  refine ⟨by rw [transpose_smul, h.symm], fun z hz hP => ?_⟩
  rw [smul_mulVec, dotProduct_smul, smul_eq_mul]
  exact mul_pos ht (h.pos z hz hP)

theorem IsQinv.smul {K M : Mat n n} {P : Mat n q} (h : IsQinv K P M) {t : ℝ} (ht : 0 < t) :
    IsQinv (t • K) P (t⁻¹ • M) := by
  refine ⟨by rw [transpose_smul, h.symm], by rw [Matrix.mul_smul, h.null, smul_zero], ?_⟩
  intro w hw
  rw [smul_mulVec, smul_mulVec, mulVec_smul, h.id w hw, smul_smul, inv_mul_cancel₀ ht.ne', one_smul]

theorem IsQinv.quad_nonneg {K M : Mat n n} {P : Mat n q} (hK : CPD K P) (h : IsQinv K P M)
    (z : Fin n → ℝ) : 0 ≤ z ⬝ᵥ (M *ᵥ z) := by
  have hc : Pᵀ *ᵥ (M *ᵥ z) = 0 := by rw [mulVec_mulVec, h.null, zero_mulVec]
  have hid := h.id _ hc
  by_cases h0 : M *ᵥ z = 0
  · rw [h0, dotProduct_zero]
  · have := hK.pos _ h0 hc
    have e : (M *ᵥ z) ⬝ᵥ (K *ᵥ (M *ᵥ z)) = z ⬝ᵥ (M *ᵥ z) := by
      conv_rhs => rw [← hid]
      rw [dot_mulVec_transpose M z, h.symm]
    rw [e] at this
    exact this.le

/-- The quadratic form vanishes exactly when the data are a linear predictor value. -/
theorem normKSqrd_cpd (hla : la.Sound be) {K : Mat (q + r) (q + r)} {P : Mat (q + r) q}
    (hK : CPD K P) (hP : FullRank P) (z : Fin (q + r) → ℝ) {M : Mat (q + r) (q + r)}
    (hM : IsQinv K P M) : normKSqrd la K P z = .ok (z ⬝ᵥ (M *ᵥ z)) := by
  have hqr := hla.qr_ok P (Nat.le_add_right q r)
  have hW : IsContrast P (contrastMatrix la P) := hqr.contrast hP
  have hG : (contrastCov (contrastMatrix la P) K).PosDef := contrast_posDef hW.orth hW.null hK
  obtain ⟨C, _, hc⟩ := choleskySolve_ok hla hG (colVec ((contrastMatrix la P)ᵀ *ᵥ z))
  have hMe := IsQinv.unique hK hM (Qinv_spec hK hW)
  simp only [normKSqrd, hc, bind, Except.bind, pure, Except.pure, sum_mul_colVec]
  rw [hMe]
  unfold Qinv contrastCov
  rw [← mulVec_mulVec, ← mulVec_mulVec, dot_mulVec_transpose (contrastMatrix la P)]

/-- REML as a function of the variance `t`, for covariance `t K`: there are constants
`A` and `B = norm_k_sqrd` with value `A + r/2 log t + B / (2 t)`. -/
theorem reml_scale (hla : la.Sound be) {K : Mat (q + r) (q + r)} {P : Mat (q + r) q}
    (hK : CPD K P) (hP : FullRank P) (z : Fin (q + r) → ℝ) :
    ∃ A B : ℝ, 0 ≤ B ∧ normKSqrd la K P z = .ok B ∧
      ∀ t : ℝ, 0 < t → reml be la (t • K) P z =
        .ok (.finite (A + r / 2 * Real.log t + B / (2 * t))) := by
  have hqr := hla.qr_ok P (Nat.le_add_right q r)
  have hW : IsContrast P (contrastMatrix la P) := hqr.contrast hP
  set W := contrastMatrix la P with hWd
  have hM := Qinv_spec hK hW
  have hG : (Wᵀ * (K * W)).PosDef := contrast_posDef hW.orth hW.null hK
  refine ⟨1 / 2 * (r * Real.log (2 * Real.pi) + Real.log (Wᵀ * (K * W)).det),
    z ⬝ᵥ (Qinv K W *ᵥ z), hM.quad_nonneg hK z, normKSqrd_cpd hla hK hP z hM, ?_⟩
  intro t ht
  rw [reml_ok hla (hK.smul ht) hP z hW (hM.smul ht)]
  congr 2
  have h1 : (Wᵀ * ((t • K) * W)).det = t ^ r * (Wᵀ * (K * W)).det := by
    rw [Matrix.smul_mul, Matrix.mul_smul, det_smul, Fintype.card_fin]
  rw [h1, Real.log_mul (pow_pos ht r).ne' hG.det_pos.ne', Real.log_pow, smul_mulVec,
    dotProduct_smul, smul_eq_mul]
  field_simp
  ring

/-- The profile `c log t + B / (2 t)` is least at `t = B / (2 c)`, strictly. -/
theorem profile_min {c B : ℝ} (hc : 0 < c) (hB : 0 < B) {t : ℝ} (ht : 0 < t)
    (hne : t ≠ B / (2 * c)) :
    c * Real.log (B / (2 * c)) + B / (2 * (B / (2 * c))) < c * Real.log t + B / (2 * t) := by
  have h0 : 0 < B / (2 * c) := by positivity
  have hx : 0 < B / (2 * c) / t := by positivity
  have hx1 : B / (2 * c) / t ≠ 1 := by
    intro h
    rw [div_eq_one_iff_eq ht.ne'] at h
    exact hne h.symm
  have h := Real.log_lt_sub_one_of_pos hx hx1
  rw [Real.log_div h0.ne' ht.ne'] at h
  have e1 : B / (2 * (B / (2 * c))) = c := by field_simp
  have e2 : B / (2 * t) = c * (B / (2 * c) / t) := by field_simp
  rw [e1, e2]
  nlinarith

/-! ## C96: initial variance -/

/-- **C96** (zero mean) The variance guessed for a zero-mean model is positive for
non-zero data and minimises the negative log-likelihood over the variance, strictly. -/
theorem initSigma2Zero_min (hla : la.Sound be) {K : Mat n n} (hK : K.PosDef) (z : Fin n → ℝ)
    (hz : z ≠ 0) :
    ∃ s2 : ℝ, initSigma2Zero la K z = .ok s2 ∧ 0 < s2 ∧ ∃ v : ℝ → ℝ,
      (∀ t, 0 < t → nllZeroMean be la (t • K) z = .ok (.finite (v t))) ∧
      ∀ t, 0 < t → t ≠ s2 → v s2 < v t := by
  have hn : 0 < n := by
    rcases Nat.eq_zero_or_pos n with rfl | h
    · exact absurd (Subsingleton.elim z 0) hz
    · exact h
  have hn' : (0 : ℝ) < n := by exact_mod_cast hn
  have hB : 0 < z ⬝ᵥ (K⁻¹ *ᵥ z) := PosDef.quad_pos hK.inv hz
  refine ⟨1 / n * (z ⬝ᵥ (K⁻¹ *ᵥ z)), ?_, by positivity,
    fun t => 1 / 2 * (n * Real.log (2 * Real.pi) + Real.log K.det) +
      (n / 2 * Real.log t + (z ⬝ᵥ (K⁻¹ *ᵥ z)) / (2 * t)), ?_, ?_⟩
  · simp only [initSigma2Zero, (norms_zero hla hK z).1, bind, Except.bind, pure, Except.pure]
  · intro t ht
    have hKt : (t • K).PosDef := hK.smul ht
    obtain ⟨C, hC, hc⟩ := choleskySolve_ok hla hKt (colVec z)
    simp only [nllZeroMean, hc, sum_mul_colVec, hC.logdet]
    congr 2
    have hinv : (t • K)⁻¹ = t⁻¹ • K⁻¹ := by
      have := Matrix.inv_smul' K (Units.mk0 t ht.ne') (PosDef.det_unit hK)
      simpa [Units.smul_def] using this
    rw [det_smul, Fintype.card_fin, Real.log_mul (pow_pos ht n).ne' hK.det_pos.ne', Real.log_pow,
      hinv, smul_mulVec, dotProduct_smul, smul_eq_mul]
    field_simp
    ring
  · intro t ht hne
    have e : 1 / (n : ℝ) * (z ⬝ᵥ (K⁻¹ *ᵥ z)) = (z ⬝ᵥ (K⁻¹ *ᵥ z)) / (2 * (n / 2)) := by
      field_simp
    rw [e] at hne ⊢
    have := profile_min (c := (n : ℝ) / 2) (by positivity) hB ht hne
    linarith

/-- **C96** is false for the general guess: it is not the variance that minimises the
REML criterion — for data that are not a linear predictor value the minimiser over the
variance is the guess times `n / (n - q)`. -/
theorem initSigma2_reml_false (hla : la.Sound be) {K : Mat (q + r) (q + r)} {P : Mat (q + r) q}
    (hK : CPD K P) (hP : FullRank P) (z : Fin (q + r) → ℝ) (hq : 0 < q) (hr : 0 < r)
    (s2 : ℝ) (hs : initSigma2 la K P z = .ok s2) (hpos : 0 < s2) :
    ∃ v : ℝ → ℝ, (∀ t, 0 < t → reml be la (t • K) P z = .ok (.finite (v t))) ∧
      (∀ t, 0 < t → t ≠ ((q + r : ℕ) : ℝ) / r * s2 → v (((q + r : ℕ) : ℝ) / r * s2) < v t) ∧
      s2 < ((q + r : ℕ) : ℝ) / r * s2 := by
  obtain ⟨A, B, hB0, hB, hv⟩ := reml_scale (be := be) hla hK hP z
  have hs' : s2 = 1 / ((q + r : ℕ) : ℝ) * B := by
    simp only [initSigma2, hB, bind, Except.bind, pure, Except.pure] at hs
    exact (Except.ok.inj hs).symm
  have hn' : (0 : ℝ) < ((q + r : ℕ) : ℝ) := by exact_mod_cast (by omega : 0 < q + r)
  have hr' : (0 : ℝ) < r := by exact_mod_cast hr
  have hBpos : 0 < B := by
    rcases hB0.lt_or_eq with h | h
    · exact h
    · rw [← h, mul_zero] at hs'; linarith
  refine ⟨fun t => A + r / 2 * Real.log t + B / (2 * t), hv, ?_, ?_⟩
  · intro t ht hne
    have e : ((q + r : ℕ) : ℝ) / r * s2 = B / (2 * (r / 2)) := by
      rw [hs']; field_simp
    rw [e] at hne ⊢
    have := profile_min (c := (r : ℝ) / 2) (by positivity) hBpos ht hne
    linarith
  · have : (1 : ℝ) < ((q + r : ℕ) : ℝ) / r := by
      rw [lt_div_iff₀ hr', one_mul]
      exact_mod_cast (by omega : r < q + r)
    nlinarith

/-- **C96** What holds of the general guess: it does not depend on the mean (adding a
linear predictor value changes nothing), is nonnegative, and is multiplied by `c²`
when the data are multiplied by `c`. -/
theorem initSigma2_partial (hla : la.Sound be) {K : Mat (q + r) (q + r)} {P : Mat (q + r) q}
    (hK : CPD K P) (hP : FullRank P) (z : Fin (q + r) → ℝ) :
    ∃ s2 : ℝ, initSigma2 la K P z = .ok s2 ∧ 0 ≤ s2 ∧
      (∀ beta, initSigma2 la K P (z + P *ᵥ beta) = .ok s2) ∧
      (∀ c : ℝ, initSigma2 la K P (c • z) = .ok (c ^ 2 * s2)) := by
  have hqr := hla.qr_ok P (Nat.le_add_right q r)
  have hW : IsContrast P (contrastMatrix la P) := hqr.contrast hP
  have hM := Qinv_spec hK hW
  generalize Qinv K (contrastMatrix la P) = M at hM
  have hval : ∀ w, initSigma2 la K P w = .ok (1 / ((q + r : ℕ) : ℝ) * (w ⬝ᵥ (M *ᵥ w))) := by
    intro w
    simp only [initSigma2, normKSqrd_cpd hla hK hP w hM, bind, Except.bind, pure, Except.pure]
  refine ⟨_, hval z, ?_, ?_, ?_⟩
  · have := hM.quad_nonneg hK z
    positivity
  · intro beta
    rw [hval]
    have h1 : M *ᵥ (z + P *ᵥ beta) = M *ᵥ z := by
      rw [mulVec_add, mulVec_mulVec, hM.mul_P, zero_mulVec, add_zero]
    have h2 : (P *ᵥ beta) ⬝ᵥ (M *ᵥ z) = 0 := by
      rw [dotProduct_comm, dot_mulVec_transpose, mulVec_mulVec, hM.null, zero_mulVec,
        zero_dotProduct]
    rw [h1, add_dotProduct, h2, add_zero]
  · intro c
    rw [hval, mulVec_smul, smul_dotProduct, dotProduct_smul, smul_eq_mul, smul_eq_mul]
    congr 1
    ring

/-- **C96** (constant mean) The guessed mean is the generalised least-squares mean: it
follows a shift of the data, and minimises the GLS residual. -/
theorem initConstantMean_mean (hla : la.Sound be) {K : Mat n n} (hK : K.PosDef) (hn : 0 < n)
    (z : Fin n → ℝ) :
    ∃ m s2, initConstantMean la K z = .ok (m, s2) ∧
      (∀ c : ℝ, ∃ s2', initConstantMean la K (fun i => z i + c) = .ok (m + c, s2')) ∧
      (∀ b : ℝ, (fun i => z i - m) ⬝ᵥ (K⁻¹ *ᵥ fun i => z i - m) ≤
        (fun i => z i - b) ⬝ᵥ (K⁻¹ *ᵥ fun i => z i - b)) := by
  have hone : (fun _ : Fin n => (1 : ℝ)) ≠ 0 := by
    intro h
    have := congrFun h ⟨0, hn⟩
    norm_num at this
  have hD : 0 < (fun _ : Fin n => (1 : ℝ)) ⬝ᵥ (K⁻¹ *ᵥ fun _ => 1) := PosDef.quad_pos hK.inv hone
  have hsum : ∀ w : Fin n → ℝ, ∑ i, w i = (fun _ : Fin n => (1 : ℝ)) ⬝ᵥ w := by
    intro w; simp [dotProduct]
  have hval : ∀ w, initConstantMean la K w =
      .ok ((fun _ => 1) ⬝ᵥ (K⁻¹ *ᵥ w) / (fun _ => 1) ⬝ᵥ (K⁻¹ *ᵥ fun _ => 1),
        1 / n * (w ⬝ᵥ (K⁻¹ *ᵥ w))) := by
    intro w
    simp only [initConstantMean, (norms_zero hla hK w).2, bind, Except.bind, pure, Except.pure, hsum]
  have hKis : (K⁻¹)ᵀ = K⁻¹ := by rw [transpose_nonsing_inv, PosDef.symm hK]
  have hshift : ∀ (w : Fin n → ℝ) (c : ℝ), (fun i => w i + c) = w + c • fun _ => (1 : ℝ) := by
    intro w c; ext i; simp
  refine ⟨_, _, hval z, ?_, ?_⟩
  · intro c
    have e : (fun _ : Fin n => (1 : ℝ)) ⬝ᵥ (K⁻¹ *ᵥ fun i => z i + c) /
        (fun _ : Fin n => (1 : ℝ)) ⬝ᵥ (K⁻¹ *ᵥ fun _ => 1) =
        (fun _ : Fin n => (1 : ℝ)) ⬝ᵥ (K⁻¹ *ᵥ z) /
          (fun _ : Fin n => (1 : ℝ)) ⬝ᵥ (K⁻¹ *ᵥ fun _ => 1) + c := by
      rw [hshift, mulVec_add, mulVec_smul, dotProduct_add, dotProduct_smul, smul_eq_mul, add_div,
        mul_div_cancel_right₀ _ hD.ne']
    exact ⟨_, by rw [hval, e]⟩
  · intro b
    set D := (fun _ : Fin n => (1 : ℝ)) ⬝ᵥ (K⁻¹ *ᵥ fun _ => 1) with hDd
    set S := (fun _ : Fin n => (1 : ℝ)) ⬝ᵥ (K⁻¹ *ᵥ z) with hS
    have key : ∀ b : ℝ, (fun i => z i - b) ⬝ᵥ (K⁻¹ *ᵥ fun i => z i - b) =
        z ⬝ᵥ (K⁻¹ *ᵥ z) - 2 * b * S + b ^ 2 * D := by
      intro b
      have e : (fun i => z i - b) = z - b • fun _ => (1 : ℝ) := by ext i; simp
      have e2 : z ⬝ᵥ (K⁻¹ *ᵥ fun _ => 1) = S := by
        rw [hS, dot_mulVec_transpose, hKis, dotProduct_comm]
      rw [e, mulVec_sub, mulVec_smul, sub_dotProduct, dotProduct_sub, dotProduct_sub,
        smul_dotProduct, smul_dotProduct, dotProduct_smul, dotProduct_smul, e2]
      simp only [smul_eq_mul]
      ring
    rw [key, key]
    have h1 : S / D * D = S := div_mul_cancel₀ _ hD.ne'
    generalize S / D = m at h1 ⊢
    have h2 := mul_nonneg hD.le (sq_nonneg (b - m))
    rw [← h1]
    nlinarith

/-- **C96** is false for the variance guessed with a constant mean: the data are not
centred, so shifting the data changes it (without bound). -/
theorem initConstantMean_sigma2_false (hla : la.Sound be) :
    ∀ c : ℝ, initConstantMean la (1 : Mat 2 2) ![c - 1, c + 1] = .ok (c, c ^ 2 + 1) := by
  intro c
  have h := (norms_zero hla (Matrix.PosDef.one (n := Fin 2) (R := ℝ)) ![c - 1, c + 1]).2
  simp only [initConstantMean, h, bind, Except.bind, pure, Except.pure]
  congr 1
  simp only [inv_one, one_mulVec, dotProduct, Fin.sum_univ_two, Prod.mk.injEq]
  simp
  constructor <;> ring

/-! ## C94: MAP criteria -/

/-- **C94** (Jeffreys) With the Jeffreys variance prior the criterion is, as a
function of the variance at fixed length scales, least exactly at
`norm_k_sqrd / (n - q + 2 lambda)`. -/
theorem mapJeffreys_min {d : ℕ} (hla : la.Sound be) {K : Mat (q + r) (q + r)} {P : Mat (q + r) q}
    (hK : CPD K P) (hP : FullRank P) (z : Fin (q + r) → ℝ) (cov : Fin (d + 1) → ℝ) (lam : ℝ)
    (hlam : 0 < lam) (B : ℝ) (hB : normKSqrd la K P z = .ok B) (hpos : 0 < B) :
    ∃ v : ℝ → ℝ, (∀ t, 0 < t →
        mapJeffreys be la (Function.update cov 0 (Real.log t)) lam (t • K) P z = .ok (.finite (v t))) ∧
      ∀ t, 0 < t → t ≠ B / (r + 2 * lam) → v (B / (r + 2 * lam)) < v t := by
  obtain ⟨A, B', _, hB', hv⟩ := reml_scale (be := be) hla hK hP z
  rw [hB] at hB'
  obtain rfl := Except.ok.inj hB'
  refine ⟨fun t => A + ((r / 2 + lam) * Real.log t + B / (2 * t)), ?_, ?_⟩
  · intro t ht
    simp only [mapJeffreys, hv t ht, bind, Except.bind, pure, Except.pure, Crit.minus,
      Kernel.logPriorJeffreys, Function.update_self]
    congr 2
    ring
  · intro t ht hne
    have hr' : (0 : ℝ) ≤ r := Nat.cast_nonneg r
    have e : B / (r + 2 * lam) = B / (2 * (r / 2 + lam)) := by congr 1; ring
    rw [e] at hne ⊢
    have := profile_min (c := (r : ℝ) / 2 + lam) (by positivity) hpos ht hne
    linarith

/-- **C94** is false for the power-law prior: with fewer than 198 contrasts
(`n - q < 198`) the criterion tends to `-inf` as the variance grows, at any fixed
length scales, so it has no minimiser. -/
theorem mapPowerLaw_unbounded_false {d : ℕ} (hla : la.Sound be) {K : Mat (q + r) (q + r)}
    {P : Mat (q + r) q} (hK : CPD K P) (hP : FullRank P) (z : Fin (q + r) → ℝ)
    (cov : Fin (d + 1) → ℝ) (hr : r < 198) :
    ∃ v : ℝ → ℝ, (∀ s, mapPowerLaw be la (Function.update cov 0 s) (Real.exp s • K) P z =
        .ok (.finite (v s))) ∧ Tendsto v atTop atBot := by
  obtain ⟨A, B, hB0, _, hv⟩ := reml_scale (be := be) hla hK hP z
  refine ⟨fun s => A + r / 2 * Real.log (Real.exp s) + B / (2 * Real.exp s) -
    Kernel.logPriorPowerLaw .default (Function.update cov 0 s), ?_, ?_⟩
  · intro s
    simp only [mapPowerLaw, hv _ (Real.exp_pos s), bind, Except.bind, pure, Except.pure, Crit.minus]
  · have hr' : (r : ℝ) < 198 := by exact_mod_cast hr
    have hup : ∀ᶠ s in atTop, A + r / 2 * Real.log (Real.exp s) + B / (2 * Real.exp s) -
        Kernel.logPriorPowerLaw .default (Function.update cov 0 s) ≤
        (A + B / 2 - Kernel.logPriorPowerLaw .default (Function.update cov 0 (9.21 : ℝ)) + 99 * 9.21) +
          (r / 2 - 99) * s := by
      filter_upwards [eventually_ge_atTop (9.21 : ℝ)] with s hs
      have h1 := Kernel.powerLaw_split .default cov 9.21 s
      simp only [Kernel.PowerLaw.default] at h1
      rw [max_eq_left (by linarith), max_eq_left (by norm_num)] at h1
      have h2 : B / (2 * Real.exp s) ≤ B / 2 := by
        apply div_le_div_of_nonneg_left hB0 (by norm_num)
        have : (1 : ℝ) ≤ Real.exp s := Real.one_le_exp (by linarith)
        linarith
      rw [Real.log_exp]
      simp only [Kernel.PowerLaw.default] at *
      norm_num at h1 ⊢
      linarith
    refine tendsto_atBot_mono' _ hup ?_
    exact tendsto_atBot_add_const_left _ _ (tendsto_id.const_mul_atTop_of_neg (by linarith))

/-- **C94** for the Matérn covariance of the package: the hypothesis on the covariance
is met by its own parameterisation. -/
theorem matern_scale {d : ℕ} (p : ℕ) (eps : ℝ) (cov : Fin (d + 1) → ℝ) (s : ℝ)
    (x : Matrix (Fin n) (Fin d) ℝ) :
    Kernel.cov (Kernel.maternFormula p) eps (Function.update cov 0 s) x .same =
      Real.exp s • Kernel.cov (Kernel.maternFormula p) eps (Function.update cov 0 0) x .same := by
  have e : ∀ (t : ℝ), (fun j : Fin d => Function.update cov 0 t j.succ) = fun j => cov j.succ :=
    fun t => funext fun j => Function.update_of_ne (Fin.succ_ne_zero j) t cov
  ext i j
  simp only [Kernel.cov, Kernel.covII, e, Function.update_self, Matrix.of_apply, Matrix.smul_apply,
    smul_eq_mul, Real.exp_zero]
  ring

/-- Concrete case: two points, unknown constant mean, Matérn 5/2. -/
example : ∃ v : ℝ → ℝ, (∀ s, mapPowerLaw (q := 1) (r := 1) .numpy (exactLA .numpy)
      (Function.update ![0, 0] 0 s)
      (Kernel.cov (Kernel.maternFormula 2) 1 (Function.update ![0, 0] 0 s) !![0; 1] .same)
      (!![1; 1] : Mat (1 + 1) 1) ![5, 7] = .ok (.finite (v s))) ∧ Tendsto v atTop atBot := by
  have hP : FullRank (!![1; 1] : Mat (1 + 1) 1) := by
    intro b hb
    have := congrFun hb 0
    ext i
    fin_cases i
    simpa [mulVec, dotProduct] using this
  have hK := matern_two_posDef (d := 1) 2 (eps := 1) (by norm_num) (Function.update ![0, 0] 0 0)
    !![0; 1] (!![1; 1] : Mat (1 + 1) 1)
  obtain ⟨v, h1, h2⟩ := mapPowerLaw_unbounded_false (q := 1) (r := 1) (be := .numpy)
    (la := exactLA .numpy) (exactLA_contract .numpy).toSound (CPD.of_posDef hK _) hP ![5, 7]
    ![(0 : ℝ), 0] (by norm_num)
  refine ⟨v, fun s => ?_, h2⟩
  rw [matern_scale]
  exact h1 s

end Verif.Core
