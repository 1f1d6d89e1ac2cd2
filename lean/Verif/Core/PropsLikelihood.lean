import Verif.Core.PropsLoo
import Mathlib.MeasureTheory.Measure.Lebesgue.Basic
import Mathlib.MeasureTheory.Integral.Pi
import Mathlib.Analysis.SpecialFunctions.Gaussian.GaussianIntegral

/-!
# C33, C34, C78, C80: likelihood criteria
-/

set_option autoImplicit false

namespace Verif.Core

open Verif Verif.Data Matrix

variable {n q r : ℕ} {be : Backend} {la : LA}

/-! ## The Gaussian density -/

/-- Density at `z` of the multivariate normal with mean `m` and covariance `K`. -/
noncomputable def gaussDensity (K : Mat n n) (m z : Fin n → ℝ) : ℝ :=
  (Real.sqrt ((2 * Real.pi) ^ n * K.det))⁻¹ * Real.exp (-(1 / 2) * ((z - m) ⬝ᵥ (K⁻¹ *ᵥ (z - m))))

theorem gaussDensity_pos {K : Mat n n} (hK : K.PosDef) (m z : Fin n → ℝ) :
    0 < gaussDensity K m z := by
  unfold gaussDensity
  have := hK.det_pos
  have := Real.pi_pos
  positivity

open MeasureTheory in
/-- The specification is a probability density. -/
theorem gaussDensity_integral {K : Mat n n} (hK : K.PosDef) (m : Fin n → ℝ) :
    ∫ z, gaussDensity K m z = 1 := by
  obtain ⟨C, hC⟩ := exists_chol K hK
  have hCu := hC.det_unit
  have hC0 : C.det ≠ 0 := hCu.ne_zero
  have hquad : ∀ y : Fin n → ℝ, (C *ᵥ y) ⬝ᵥ (K⁻¹ *ᵥ (C *ᵥ y)) = y ⬝ᵥ y := by
    intro y
    rw [← hC.inv, mulVec_mulVec, Matrix.mul_assoc, Matrix.nonsing_inv_mul _ hCu, Matrix.mul_one,
      dot_mulVec_transpose, ← transpose_nonsing_inv, transpose_transpose, mulVec_mulVec,
      Matrix.nonsing_inv_mul _ hCu, one_mulVec]
  -- centre
  have h1 : ∫ z, gaussDensity K m z = ∫ z, gaussDensity K 0 z := by
    have := integral_sub_right_eq_self (μ := (volume : Measure (Fin n → ℝ)))
      (fun z => gaussDensity K 0 z) m
    rw [← this]
    congr 1
    funext z
    simp [gaussDensity]
  rw [h1]
  -- change variables
  have hmap := Real.map_matrix_volume_pi_eq_smul_volume_pi hC0
  have h2 : ∫ y, gaussDensity K 0 (C *ᵥ y) = |C.det|⁻¹ * ∫ z, gaussDensity K 0 z := by
    have hme : MeasurableEmbedding (toLin' C) := by
      have : Function.Injective (toLin' C) := by
        intro x y hxy
        have := congrArg (fun v => C⁻¹ *ᵥ v) hxy
        simpa [toLin'_apply, mulVec_mulVec, Matrix.nonsing_inv_mul _ hCu] using this
      exact (LinearMap.continuous_of_finiteDimensional _).measurableEmbedding this
    have h3 := hme.integral_map (μ := (volume : Measure (Fin n → ℝ))) (fun z => gaussDensity K 0 z)
    rw [hmap, integral_smul_measure] at h3
    simp only [toLin'_apply] at h3
    rw [← h3, ENNReal.toReal_ofReal (abs_nonneg _), abs_inv]
    rfl
  have h4 : ∀ y : Fin n → ℝ, gaussDensity K 0 (C *ᵥ y) =
      (Real.sqrt ((2 * Real.pi) ^ n * K.det))⁻¹ * ∏ i, Real.exp (-(1 / 2) * y i ^ 2) := by
    intro y
    unfold gaussDensity
    rw [sub_zero, hquad, ← Real.exp_sum]
    congr 2
    rw [← Finset.mul_sum]
    simp only [dotProduct, sq]
  simp only [h4] at h2
  rw [integral_const_mul] at h2
  have h5 : ∫ y : Fin n → ℝ, ∏ i, Real.exp (-(1 / 2) * y i ^ 2) = Real.sqrt (2 * Real.pi) ^ n := by
    have := integral_fintype_prod_eq_prod (ι := Fin n) (𝕜 := ℝ) (E := fun _ => ℝ)
      (fun _ x => Real.exp (-(1 / 2) * x ^ 2)) (μ := fun _ => volume)
    rw [volume_pi, this]
    simp only [integral_gaussian]
    rw [Finset.prod_const, Finset.card_univ, Fintype.card_fin]
    congr 2
    ring
  rw [h5] at h2
  have hdet : Real.sqrt ((2 * Real.pi) ^ n * K.det) = Real.sqrt (2 * Real.pi) ^ n * |C.det| := by
    have hKd : K.det = C.det ^ 2 := by rw [← hC.mul, det_mul, det_transpose, sq]
    rw [Real.sqrt_mul (by positivity), hKd, Real.sqrt_sq_eq_abs]
    congr 1
    have h2p : (0 : ℝ) ≤ 2 * Real.pi := by have := Real.pi_pos; positivity
    rw [← Real.sqrt_sq (pow_nonneg (Real.sqrt_nonneg (2 * Real.pi)) n), ← pow_mul, mul_comm n 2,
      pow_mul, Real.sq_sqrt h2p]
  rw [hdet] at h2
  have hp : Real.sqrt (2 * Real.pi) ^ n ≠ 0 := by positivity
  have ha : |C.det| ≠ 0 := abs_ne_zero.mpr hC0
  field_simp at h2
  linarith

/-! ## C33 -/

/-- **C33** The criteria are minus the log density. -/
theorem nll_eq (hla : la.Sound be) {K : Mat n n} (hK : K.PosDef) (mi zi : Fin n → ℝ) :
    nll be la K mi zi = .ok (.finite (-Real.log (gaussDensity K mi zi))) ∧
    nllZeroMean be la K zi = .ok (.finite (-Real.log (gaussDensity K 0 zi))) := by
  have h0 : ∀ w, nllZeroMean be la K w = .ok (.finite (-Real.log (gaussDensity K 0 w))) := by
    intro w
    obtain ⟨C, hC, hc⟩ := choleskySolve_ok hla hK (colVec w)
    have hd := hK.det_pos
    have hp : (0 : ℝ) < (2 * Real.pi) ^ n := by have := Real.pi_pos; positivity
    simp only [nllZeroMean, hc, sum_mul_colVec, hC.logdet]
    congr 2
    unfold gaussDensity
    rw [Real.log_mul (by positivity) (Real.exp_pos _).ne', Real.log_exp, Real.log_inv,
      Real.log_sqrt (by positivity), Real.log_mul hp.ne' hd.ne', Real.log_pow, sub_zero]
    ring
  refine ⟨?_, h0 zi⟩
  unfold nll
  rw [h0]
  simp [gaussDensity]

/-- **C33** A symmetric covariance that is not positive definite gives `+inf` on
torch and raises `LinAlgError` on numpy. -/
theorem nll_failure (hla : la.Sound be) {K : Mat n n} (hs : K.IsSymm) (hK : ¬ K.PosDef)
    (mi zi : Fin n → ℝ) :
    nll be la K mi zi = (match be with
      | .torch => .ok .inf
      | .numpy => .error .linAlgError) := by
  simp only [nll, nllZeroMean, choleskySolve_err hla hs hK, onChol]
  cases be <;> simp [catchesLinAlg]

/-- **C33** The best mean for given covariance is the data: the criterion decreases
with the Mahalanobis distance of the data to the mean. -/
theorem nll_mono (hla : la.Sound be) {K : Mat n n} (hK : K.PosDef) (mi mi' zi : Fin n → ℝ)
    {x y : ℝ} (hx : nll be la K mi zi = .ok (.finite x)) (hy : nll be la K mi' zi = .ok (.finite y)) :
    x ≤ y ↔ (zi - mi) ⬝ᵥ (K⁻¹ *ᵥ (zi - mi)) ≤ (zi - mi') ⬝ᵥ (K⁻¹ *ᵥ (zi - mi')) := by
  rw [(nll_eq hla hK mi zi).1] at hx
  rw [(nll_eq hla hK mi' zi).1] at hy
  injection hx with hx; injection hx with hx
  injection hy with hy; injection hy with hy
  subst hx; subst hy
  have hd := hK.det_pos
  have hp : (0 : ℝ) < (2 * Real.pi) ^ n := by have := Real.pi_pos; positivity
  rw [neg_le_neg_iff, Real.log_le_log_iff (gaussDensity_pos hK _ _) (gaussDensity_pos hK _ _)]
  unfold gaussDensity
  rw [mul_le_mul_iff_right₀ (by positivity), Real.exp_le_exp]
  constructor <;> intro h <;> linarith

/-! ## C34, C78: restricted likelihood -/

/-- Change of orthonormal contrast basis keeps the determinant. -/
theorem contrast_det {K : Mat (q + r) (q + r)} {P : Mat (q + r) q} {W W' : Mat (q + r) r}
    (hW : IsContrast P W) (hW' : IsContrast P W') :
    (W'ᵀ * (K * W')).det = (Wᵀ * (K * W)).det := by
  have h1 : W * (Wᵀ * W') = W' := hW.proj hW'.null
  have h2 : W' * (W'ᵀ * W) = W := hW'.proj hW.null
  set O := Wᵀ * W' with hO
  have hOt : Oᵀ = W'ᵀ * W := by rw [hO, transpose_mul, transpose_transpose]
  have hOO : Oᵀ * O = 1 := by
    rw [hOt, Matrix.mul_assoc, h1, hW'.orth]
  have h3 : W'ᵀ * (K * W') = Oᵀ * (Wᵀ * (K * W)) * O := by
    rw [← h1, transpose_mul]
    simp only [Matrix.mul_assoc]
  have hd : O.det * O.det = 1 := by
    have := congrArg det hOO
    rwa [det_mul, det_transpose, det_one] at this
  rw [h3, det_mul, det_mul, det_transpose]
  calc O.det * (Wᵀ * (K * W)).det * O.det = (O.det * O.det) * (Wᵀ * (K * W)).det := by ring
    _ = _ := by rw [hd, one_mul]

/-- The criterion in closed form for any contrast basis. -/
theorem reml_ok (hla : la.Sound be) {K : Mat (q + r) (q + r)} {P : Mat (q + r) q}
    (hK : CPD K P) (hP : FullRank P) (z : Fin (q + r) → ℝ) {W : Mat (q + r) r}
    (hW : IsContrast P W) {M : Mat (q + r) (q + r)} (hM : IsQinv K P M) :
    reml be la K P z = .ok (.finite (1 / 2 * (r * Real.log (2 * Real.pi) +
      Real.log (Wᵀ * (K * W)).det + z ⬝ᵥ (M *ᵥ z)))) := by
  have hqr := hla.qr_ok P (Nat.le_add_right q r)
  have hW' : IsContrast P (contrastMatrix la P) := hqr.contrast hP
  have hG : (contrastCov (contrastMatrix la P) K).PosDef := contrast_posDef hW'.orth hW'.null hK
  obtain ⟨C, hC, hc⟩ := choleskySolve_ok hla hG (colVec ((contrastMatrix la P)ᵀ *ᵥ z))
  have hMe := IsQinv.unique hK hM (Qinv_spec hK hW')
  simp only [reml, hc, sum_mul_colVec, hC.logdet]
  congr 2
  have h1 : (contrastCov (contrastMatrix la P) K).det = (Wᵀ * (K * W)).det :=
    contrast_det hW hW'
  rw [h1, hMe]
  have h2 : ((contrastMatrix la P)ᵀ *ᵥ z) ⬝ᵥ ((contrastCov (contrastMatrix la P) K)⁻¹ *ᵥ
      ((contrastMatrix la P)ᵀ *ᵥ z)) = z ⬝ᵥ (Qinv K (contrastMatrix la P) *ᵥ z) := by
    unfold Qinv contrastCov
    rw [← mulVec_mulVec, ← mulVec_mulVec, dot_mulVec_transpose (contrastMatrix la P)]
  rw [h2]
  norm_num

/-- **C34** REML is minus the log density of the contrasts `Wᵀ z`, for every
orthonormal contrast basis `W` — not only the one the QR routine returned. -/
theorem reml_eq (hla : la.Sound be) {K : Mat (q + r) (q + r)} {P : Mat (q + r) q}
    (hK : CPD K P) (hP : FullRank P) (z : Fin (q + r) → ℝ) {W : Mat (q + r) r}
    (hW : IsContrast P W) :
    reml be la K P z = .ok (.finite (-Real.log (gaussDensity (Wᵀ * (K * W)) 0 (Wᵀ *ᵥ z)))) := by
  have hG : (Wᵀ * (K * W)).PosDef := contrast_posDef hW.orth hW.null hK
  rw [reml_ok hla hK hP z hW (Qinv_spec hK hW)]
  congr 2
  have hd := hG.det_pos
  have hp : (0 : ℝ) < (2 * Real.pi) ^ r := by have := Real.pi_pos; positivity
  unfold gaussDensity
  rw [Real.log_mul (by positivity) (Real.exp_pos _).ne', Real.log_exp, Real.log_inv,
    Real.log_sqrt (by positivity), Real.log_mul hp.ne' hd.ne', Real.log_pow, sub_zero]
  have h2 : (Wᵀ *ᵥ z) ⬝ᵥ ((Wᵀ * (K * W))⁻¹ *ᵥ (Wᵀ *ᵥ z)) = z ⬝ᵥ (Qinv K W *ᵥ z) := by
    unfold Qinv
    rw [← mulVec_mulVec, ← mulVec_mulVec, dot_mulVec_transpose W]
  rw [h2]
  ring

/-- **C34** The value does not depend on the linear-algebra library (in particular
on which QR factorisation it returns) nor on the mean: adding `P β` to the data
changes nothing. -/
theorem reml_invariant {be' : Backend} {la' : LA} (hla : la.Sound be) (hla' : la'.Sound be')
    {K : Mat (q + r) (q + r)} {P : Mat (q + r) q} (hK : CPD K P) (hP : FullRank P)
    (z : Fin (q + r) → ℝ) (beta : Fin q → ℝ) :
    reml be' la' K P (z + P *ᵥ beta) = reml be la K P z ∧
    ∃ x, reml be la K P z = .ok (.finite x) := by
  have hqr := hla.qr_ok P (Nat.le_add_right q r)
  have hW : IsContrast P (contrastMatrix la P) := hqr.contrast hP
  have hM := Qinv_spec hK hW
  rw [reml_ok hla hK hP z hW hM, reml_ok hla' hK hP _ hW hM]
  refine ⟨?_, _, rfl⟩
  have h1 : Qinv K (contrastMatrix la P) *ᵥ (z + P *ᵥ beta) = Qinv K (contrastMatrix la P) *ᵥ z := by
    rw [mulVec_add, mulVec_mulVec, hM.mul_P, zero_mulVec, add_zero]
  have h2 : (P *ᵥ beta) ⬝ᵥ (Qinv K (contrastMatrix la P) *ᵥ z) = 0 := by
    rw [dotProduct_comm, dot_mulVec_transpose, mulVec_mulVec, hM.null, zero_mulVec,
      zero_dotProduct]
  rw [h1, add_dotProduct, h2, add_zero]

/-- Determinant identity behind C78. -/
theorem contrast_det_eq {K : Mat (q + r) (q + r)} {P : Mat (q + r) q} {W : Mat (q + r) r}
    (hK : K.PosDef) (hP : FullRank P) (hW : IsContrast P W) :
    (Wᵀ * (K * W)).det * (Pᵀ * P).det = K.det * (Pᵀ * (K⁻¹ * P)).det := by
  obtain ⟨Q, R, hqr⟩ := exists_qr P (Nat.le_add_right q r)
  rw [contrast_det (hqr.contrast hP) hW]
  set W' := Wof Q with hW'
  have hKu := PosDef.det_unit hK
  -- orthogonal matrix in block form
  let O : Matrix (Fin (q + r)) (Fin q ⊕ Fin r) ℝ := Matrix.fromCols (Q1of Q) W'
  let X : Matrix (Fin (q + r)) (Fin q ⊕ Fin r) ℝ := Matrix.fromCols (K⁻¹ * Q1of Q) W'
  have hOO : O * Oᵀ = 1 := by
    rw [transpose_fromCols, fromCols_mul_fromRows, hqr.sum_proj]
  have hQW : (Q1of Q)ᵀ * W' = 0 := by
    have := congrArg transpose hqr.WQ1
    rwa [transpose_mul, transpose_transpose, transpose_zero] at this
  have hOtO : Oᵀ * O = 1 := by
    rw [transpose_fromCols, fromRows_mul_fromCols, hqr.Q1Q1, hqr.WQ1, hQW, hqr.WW, fromBlocks_one]
  have h1 : (Oᵀ * (K * X)).det = (W'ᵀ * (K * W')).det := by
    have : Oᵀ * (K * X) = fromBlocks 1 ((Q1of Q)ᵀ * (K * W')) 0 (W'ᵀ * (K * W')) := by
      rw [Matrix.mul_fromCols, transpose_fromCols, fromRows_mul_fromCols, ← Matrix.mul_assoc K,
        Matrix.mul_nonsing_inv _ hKu, Matrix.one_mul, hqr.Q1Q1, hqr.WQ1]
    rw [this, det_fromBlocks_zero₂₁, det_one, one_mul]
  have h2 : (Oᵀ * X).det = ((Q1of Q)ᵀ * (K⁻¹ * Q1of Q)).det := by
    have : Oᵀ * X = fromBlocks ((Q1of Q)ᵀ * (K⁻¹ * Q1of Q)) 0 (W'ᵀ * (K⁻¹ * Q1of Q)) 1 := by
      rw [transpose_fromCols, fromRows_mul_fromCols, hQW, hqr.WW]
    rw [this, det_fromBlocks_zero₁₂, det_one, mul_one]
  have h3 : Oᵀ * (K * X) = (Oᵀ * K * O) * (Oᵀ * X) := by
    rw [Matrix.mul_assoc (Oᵀ * K), ← Matrix.mul_assoc O, hOO, Matrix.one_mul, Matrix.mul_assoc]
  have h4 : (Oᵀ * K * O).det = K.det := det_conj_of_mul_eq_one hOtO hOO
  have h5 : (W'ᵀ * (K * W')).det = K.det * ((Q1of Q)ᵀ * (K⁻¹ * Q1of Q)).det := by
    rw [← h1, h3, det_mul, h4, h2]
  have h6 : Pᵀ * P = (Rof R)ᵀ * Rof R := by
    rw [hqr.P_eq, transpose_mul, Matrix.mul_assoc, ← Matrix.mul_assoc (Q1of Q)ᵀ, hqr.Q1Q1,
      Matrix.one_mul]
  have h7 : Pᵀ * (K⁻¹ * P) = (Rof R)ᵀ * ((Q1of Q)ᵀ * (K⁻¹ * Q1of Q)) * Rof R := by
    rw [hqr.P_eq, transpose_mul]
    simp only [Matrix.mul_assoc]
  rw [h5, h6, h7]
  simp only [det_mul, det_transpose]
  ring

/-- **C78** REML in terms of `K` and `P` only. -/
theorem reml_explicit (hla : la.Sound be) {K : Mat (q + r) (q + r)} {P : Mat (q + r) q}
    (hK : K.PosDef) (hP : FullRank P) (z : Fin (q + r) → ℝ) :
    reml be la K P z = .ok (.finite (1 / 2 * (r * Real.log (2 * Real.pi) + Real.log K.det +
      Real.log (Pᵀ * (K⁻¹ * P)).det - Real.log (Pᵀ * P).det +
      z ⬝ᵥ ((K⁻¹ - K⁻¹ * P * ((Pᵀ * (K⁻¹ * P))⁻¹ * (K⁻¹ * P)ᵀ)) *ᵥ z)))) := by
  have hC := CPD.of_posDef hK P
  have hqr := hla.qr_ok P (Nat.le_add_right q r)
  have hW : IsContrast P (contrastMatrix la P) := hqr.contrast hP
  have hG : ((contrastMatrix la P)ᵀ * (K * contrastMatrix la P)).PosDef :=
    contrast_posDef hW.orth hW.null hC
  rw [reml_ok hla hC hP z hW (Qinv_explicit hK hP)]
  have h1 := contrast_det_eq hK hP hW
  have hPP : (Pᵀ * P).PosDef := by
    have := posDef_gls (K := (1 : Mat (q + r) (q + r))) Matrix.PosDef.one hP
    rwa [inv_one, Matrix.one_mul] at this
  have h2 := congrArg Real.log h1
  rw [Real.log_mul hG.det_pos.ne' hPP.det_pos.ne',
    Real.log_mul hK.det_pos.ne' (posDef_gls hK hP).det_pos.ne'] at h2
  congr 2
  linarith

/-- REML raises / returns `+inf` as the likelihood does when the contrast covariance is
not positive definite. -/
theorem reml_failure (hla : la.Sound be) {K : Mat (q + r) (q + r)} {P : Mat (q + r) q}
    (hs : K.IsSymm) (hG : ¬ (contrastCov (contrastMatrix la P) K).PosDef) (z : Fin (q + r) → ℝ) :
    reml be la K P z = (match be with
      | .torch => .ok .inf
      | .numpy => .error .linAlgError) := by
  have hs' : (contrastCov (contrastMatrix la P) K).IsSymm := by
    unfold contrastCov Matrix.IsSymm
    rw [transpose_mul, transpose_mul, transpose_transpose, hs.eq, Matrix.mul_assoc]
  simp only [reml, choleskySolve_err hla hs' hG, onChol]
  cases be <;> simp [catchesLinAlg]

/-! ## C80: the squared norms -/

/-- **C80** `norm_k_sqrd_with_zero_mean` is `zᵀ K⁻¹ z`; `k_inverses` returns
`zᵀ K⁻¹ z`, `K⁻¹ 1`, `K⁻¹ z`. -/
theorem norms_zero (hla : la.Sound be) {K : Mat n n} (hK : K.PosDef) (z : Fin n → ℝ) :
    normKSqrdZeroMean la K z = .ok (z ⬝ᵥ (K⁻¹ *ᵥ z)) ∧
    kInverses la K z = .ok (z ⬝ᵥ (K⁻¹ *ᵥ z), K⁻¹ *ᵥ (fun _ => 1), K⁻¹ *ᵥ z) := by
  obtain ⟨C, _, hc⟩ := choleskySolve_ok hla hK (colVec z)
  have hinv := hla.inv_ok K ((Matrix.isUnit_iff_isUnit_det _).mpr (PosDef.det_unit hK))
  constructor
  · simp only [normKSqrdZeroMean, hc, bind, Except.bind, pure, Except.pure, sum_mul_colVec]
  · simp only [kInverses, hinv, bind, Except.bind, pure, Except.pure]
    rfl

/-- **C80** `norm_k_sqrd` is the generalised least-squares residual: the minimum
over `β` of `(z - P β)ᵀ K⁻¹ (z - P β)`, and the minimum is attained. -/
theorem normKSqrd_gls (hla : la.Sound be) {K : Mat (q + r) (q + r)} {P : Mat (q + r) q}
    (hK : K.PosDef) (hP : FullRank P) (z : Fin (q + r) → ℝ) :
    ∃ x, normKSqrd la K P z = .ok x ∧
      (∀ b : Fin q → ℝ, x ≤ (z - P *ᵥ b) ⬝ᵥ (K⁻¹ *ᵥ (z - P *ᵥ b))) ∧
      ∃ b : Fin q → ℝ, x = (z - P *ᵥ b) ⬝ᵥ (K⁻¹ *ᵥ (z - P *ᵥ b)) := by
  have hC := CPD.of_posDef hK P
  have hqr := hla.qr_ok P (Nat.le_add_right q r)
  have hW : IsContrast P (contrastMatrix la P) := hqr.contrast hP
  have hG : (contrastCov (contrastMatrix la P) K).PosDef := contrast_posDef hW.orth hW.null hC
  obtain ⟨C, _, hc⟩ := choleskySolve_ok hla hG (colVec ((contrastMatrix la P)ᵀ *ᵥ z))
  have hMe := IsQinv.unique hC (Qinv_spec hC hW) (Qinv_explicit hK hP)
  have hval : normKSqrd la K P z = .ok (z ⬝ᵥ ((K⁻¹ - K⁻¹ * P * ((Pᵀ * (K⁻¹ * P))⁻¹ *
      (K⁻¹ * P)ᵀ)) *ᵥ z)) := by
    simp only [normKSqrd, hc, bind, Except.bind, pure, Except.pure, sum_mul_colVec]
    congr 1
    rw [← hMe]
    unfold Qinv contrastCov
    rw [← mulVec_mulVec, ← mulVec_mulVec, dot_mulVec_transpose (contrastMatrix la P)]
  have hKis : (K⁻¹)ᵀ = K⁻¹ := by rw [transpose_nonsing_inv, PosDef.symm hK]
  set F := Pᵀ * (K⁻¹ * P) with hF
  have hFp : F.PosDef := posDef_gls hK hP
  set bh := F⁻¹ *ᵥ ((K⁻¹ * P)ᵀ *ᵥ z) with hbh
  have hFb : F *ᵥ bh = (K⁻¹ * P)ᵀ *ᵥ z := by
    rw [hbh, mulVec_mulVec, Matrix.mul_nonsing_inv _ (PosDef.det_unit hFp), one_mulVec]
  have key : ∀ b : Fin q → ℝ, (z - P *ᵥ b) ⬝ᵥ (K⁻¹ *ᵥ (z - P *ᵥ b)) =
      z ⬝ᵥ ((K⁻¹ - K⁻¹ * P * (F⁻¹ * (K⁻¹ * P)ᵀ)) *ᵥ z) + (b - bh) ⬝ᵥ (F *ᵥ (b - bh)) := by
    intro b
    have e1 : z ⬝ᵥ ((K⁻¹ - K⁻¹ * P * (F⁻¹ * (K⁻¹ * P)ᵀ)) *ᵥ z) =
        z ⬝ᵥ (K⁻¹ *ᵥ z) - bh ⬝ᵥ (F *ᵥ bh) := by
      rw [sub_mulVec, dotProduct_sub, ← mulVec_mulVec, ← mulVec_mulVec z F⁻¹, ← hbh,
        dot_mulVec_transpose (K⁻¹ * P), ← hFb, dotProduct_comm (F *ᵥ bh)]
    have e2 : (P *ᵥ b) ⬝ᵥ (K⁻¹ *ᵥ z) = b ⬝ᵥ (F *ᵥ bh) := by
      rw [hFb, transpose_mul, hKis, ← mulVec_mulVec, dot_mulVec_transpose Pᵀ, transpose_transpose]
    have e3 : z ⬝ᵥ (K⁻¹ *ᵥ (P *ᵥ b)) = b ⬝ᵥ (F *ᵥ bh) := by
      rw [← e2, dot_mulVec_transpose, hKis, dotProduct_comm]
    have e4 : (P *ᵥ b) ⬝ᵥ (K⁻¹ *ᵥ (P *ᵥ b)) = b ⬝ᵥ (F *ᵥ b) := by
      rw [hF, ← mulVec_mulVec, ← mulVec_mulVec, dot_mulVec_transpose Pᵀ, transpose_transpose]
    have e5 : bh ⬝ᵥ (F *ᵥ b) = b ⬝ᵥ (F *ᵥ bh) := by
      rw [dot_mulVec_transpose, PosDef.symm hFp, dotProduct_comm]
    rw [e1]
    simp only [mulVec_sub, sub_dotProduct, dotProduct_sub, e2, e3, e4, e5]
    ring
  refine ⟨_, hval, fun b => ?_, bh, ?_⟩
  · rw [key b]
    have := PosSemidef.quad_nonneg hFp.posSemidef (b - bh)
    linarith
  · rw [key bh, sub_self, zero_dotProduct, add_zero]

/-! ## Concrete cases -/

example : nllZeroMean .numpy (exactLA .numpy) exArrays.Kii ![1, 2] =
    .ok (.finite (-Real.log (gaussDensity exArrays.Kii 0 ![1, 2]))) :=
  (nll_eq (exactLA_contract .numpy).toSound exArrays_posDef 0 ![1, 2]).2

example : ∃ x, reml (q := 1) (r := 1) .torch (exactLA .torch) exArrays.Kii exArrays.Pi ![1, 2] =
    .ok (.finite x) :=
  ⟨_, reml_explicit (exactLA_contract .torch).toSound exArrays_posDef exArrays_fullRank _⟩

/-- A covariance that is not positive definite: `[[0]]`. -/
example : nll .torch (exactLA .torch) (0 : Mat 1 1) 0 ![1] = .ok .inf :=
  nll_failure (exactLA_contract .torch).toSound (by simp [Matrix.IsSymm]) (fun h => by
    have := h.det_pos; simp at this) 0 ![1]

end Verif.Core
