import Verif.Core.PropsFisherScore
import Verif.Core.PropsChain

/-!
# C235: the Fisher information grows with the data

`fisher_information` and `fisher_information_cpd` (core/fisher.py) with the finite-difference
derivative matrices, whatever the step.
-/

set_option autoImplicit false

namespace Verif.Core

open Verif Verif.Data Matrix

variable {n m N q r r' p : ℕ} {be : Backend} {la : LA}

/-- The quadratic form of a matrix of traces. -/
theorem info_quad (Ki : Mat n n) (A : Fin p → Mat n n) (I : Mat p p)
    (hI : ∀ i j, I i j = 1 / 2 * Matrix.trace (Ki * A i * Ki * A j)) (x : Fin p → ℝ) :
    x ⬝ᵥ (I *ᵥ x) = 1 / 2 * Matrix.trace (Ki * (∑ i, x i • A i) * Ki * (∑ i, x i • A i)) := by
  simp only [Matrix.sum_mul, Matrix.trace_sum, Matrix.smul_mul, Matrix.mul_smul,
    Matrix.trace_smul, smul_eq_mul, dotProduct, mulVec, hI, Finset.mul_sum]
  rw [Finset.sum_comm]
  refine Finset.sum_congr rfl fun i _ => Finset.sum_congr rfl fun j _ => ?_
  have e : ∀ i j, Matrix.trace (Ki * A i * Ki * A j) = Matrix.trace (Ki * A j * Ki * A i) := fun i j => by
    rw [Matrix.mul_assoc, Matrix.trace_mul_comm]
    simp only [Matrix.mul_assoc]
  rw [e]
  ring

/-- A projection does not increase the sum of squares. -/
theorem trace_proj {B T : Mat n n} (hB : Bᵀ = B) (hT : Tᵀ = T) (hTT : T * T = T) :
    Matrix.trace (T * B * T * B) ≤ Matrix.trace (B * B) := by
  set E := B - T * B * T with hE
  have hEs : Eᵀ = E := by
    rw [hE, transpose_sub, transpose_mul, transpose_mul, hB, hT, Matrix.mul_assoc]
  have h0 : 0 ≤ Matrix.trace (E * E) := by
    rw [trace_sq hEs]
    exact Finset.sum_nonneg fun i _ => Finset.sum_nonneg fun j _ => sq_nonneg _
  have h1 : Matrix.trace (B * (T * B * T)) = Matrix.trace (T * B * T * B) := Matrix.trace_mul_comm _ _
  have h2 : Matrix.trace (T * B * T * (T * B * T)) = Matrix.trace (T * B * T * B) := by
    have : T * B * T * (T * B * T) = T * (B * T * B * T) := by
      calc T * B * T * (T * B * T) = T * B * (T * T) * B * T := by simp only [Matrix.mul_assoc]
        _ = _ := by rw [hTT]; simp only [Matrix.mul_assoc]
    rw [this, Matrix.trace_mul_comm]
    have : B * T * B * T * T = B * T * B * (T * T) := by simp only [Matrix.mul_assoc]
    rw [this, hTT, Matrix.mul_assoc, Matrix.mul_assoc, Matrix.trace_mul_comm]
    simp only [Matrix.mul_assoc]
  rw [hE, Matrix.sub_mul, Matrix.mul_sub, Matrix.mul_sub, trace_sub, trace_sub, trace_sub, h1, h2] at h0
  linarith

/-- Independent linear statistics `Sᵀ z` of the data carry at most the information of the data. -/
theorem info_compress {K : Mat n n} (hK : K.PosDef) {S : Matrix (Fin n) (Fin m) ℝ} (hS : FullRank S)
    {D : Mat n n} (hD : Dᵀ = D) :
    Matrix.trace ((Sᵀ * (K * S))⁻¹ * (Sᵀ * (D * S)) * (Sᵀ * (K * S))⁻¹ * (Sᵀ * (D * S))) ≤
      Matrix.trace (K⁻¹ * D * K⁻¹ * D) := by
  obtain ⟨C, hC⟩ := exists_chol K hK
  have hCu := hC.det_unit
  have hCt : IsUnit (Cᵀ).det := by rwa [det_transpose]
  rw [trace_frame hC]
  set B := C⁻¹ * D * (Cᵀ)⁻¹ with hB
  have hBs : Bᵀ = B := by
    simp only [hB, transpose_mul, transpose_nonsing_inv, transpose_transpose, hD, Matrix.mul_assoc]
  have hDB : D = C * B * Cᵀ := by
    rw [hB]
    rw [← Matrix.mul_assoc, ← Matrix.mul_assoc, Matrix.mul_nonsing_inv _ hCu, Matrix.one_mul,
      Matrix.mul_assoc, Matrix.nonsing_inv_mul _ hCt, Matrix.mul_one]
  set T := Cᵀ * S with hT
  have hKT : Sᵀ * (K * S) = Tᵀ * T := by
    rw [hT, transpose_mul, transpose_transpose, ← hC.mul]
    simp only [Matrix.mul_assoc]
  have hDT : Sᵀ * (D * S) = Tᵀ * (B * T) := by
    rw [hT, transpose_mul, transpose_transpose, hDB]
    simp only [Matrix.mul_assoc]
  have hTT : (Tᵀ * T).PosDef := by
    rw [← hKT]
    refine posDef_of_quad ?_ fun x hx => ?_
    · rw [transpose_mul, transpose_mul, transpose_transpose, PosDef.symm hK, Matrix.mul_assoc]
    · have := PosDef.quad_pos hK (x := S *ᵥ x) fun h => hx (hS x h)
      rw [← mulVec_mulVec, ← mulVec_mulVec]
      rwa [dotProduct_mulVec, vecMul_transpose]
  have hu := PosDef.det_unit hTT
  have hsy : ((Tᵀ * T)⁻¹)ᵀ = (Tᵀ * T)⁻¹ := by
    rw [transpose_nonsing_inv, transpose_mul, transpose_transpose]
  rw [hKT, hDT]
  set G := (Tᵀ * T)⁻¹ with hG
  have hP := trace_proj (B := B) (T := T * G * Tᵀ) hBs
    (by rw [transpose_mul (T * G), transpose_mul T, transpose_transpose, hsy, ← Matrix.mul_assoc])
    (by
      calc T * G * Tᵀ * (T * G * Tᵀ) = T * (G * (Tᵀ * T)) * G * Tᵀ := by simp only [Matrix.mul_assoc]
        _ = T * G * Tᵀ := by rw [hG, Matrix.nonsing_inv_mul _ hu, Matrix.mul_one])
  refine le_trans (le_of_eq ?_) hP
  have : T * G * Tᵀ * B * (T * G * Tᵀ) * B = T * (G * (Tᵀ * (B * T)) * G * Tᵀ * B) := by
    simp only [Matrix.mul_assoc]
  rw [this, Matrix.trace_mul_comm T]
  simp only [Matrix.mul_assoc]

/-- From the compression of every combination to the order of the matrices. -/
theorem info_order {K : Mat n n} {K' : Mat m m} {A : Fin p → Mat n n} {A' : Fin p → Mat m m} {I I' : Mat p p}
    (hs : Iᵀ = I) (hs' : I'ᵀ = I')
    (hI : ∀ i j, I i j = 1 / 2 * Matrix.trace (K⁻¹ * A i * K⁻¹ * A j))
    (hI' : ∀ i j, I' i j = 1 / 2 * Matrix.trace (K'⁻¹ * A' i * K'⁻¹ * A' j))
    (h : ∀ x : Fin p → ℝ, Matrix.trace (K'⁻¹ * (∑ i, x i • A' i) * K'⁻¹ * (∑ i, x i • A' i)) ≤
      Matrix.trace (K⁻¹ * (∑ i, x i • A i) * K⁻¹ * (∑ i, x i • A i))) : (I - I').PosSemidef := by
  refine posSemidef_of_quad (by rw [transpose_sub, hs, hs']) fun x => ?_
  rw [sub_mulVec, dotProduct_sub, info_quad _ _ _ hI, info_quad _ _ _ hI']
  linarith [h x]

/-- The rows chosen by `f`, as a matrix. -/
def pick (f : Fin n → Fin N) : Matrix (Fin N) (Fin n) ℝ := Matrix.of fun i j => if i = f j then 1 else 0

theorem pick_mulVec {f : Fin n → Fin N} (hf : Function.Injective f) (v : Fin n → ℝ) (j : Fin n) :
    (pick f *ᵥ v) (f j) = v j := by
  simp [pick, mulVec, dotProduct, hf.eq_iff]

theorem pick_fullRank {f : Fin n → Fin N} (hf : Function.Injective f) : FullRank (pick f) := by
  intro v h
  funext j
  rw [← pick_mulVec hf v j, h]
  rfl

theorem pick_conj (f : Fin n → Fin N) (M : Mat N N) : (pick f)ᵀ * (M * pick f) = M.submatrix f f := by
  ext i j
  simp [pick, Matrix.mul_apply]

/-- Finite differences of the entries chosen. -/
theorem dCov_submatrix (cov : (Fin p → ℝ) → Mat N N) (f : Fin n → Fin N) (theta : Fin p → ℝ) (eps : ℝ) (i : Fin p) :
    dCov (fun t => (cov t).submatrix f f) theta eps i = (dCov cov theta eps i).submatrix f f := by
  ext a b
  simp [dCov, finiteDiff, submatrix_apply]
  ring

/-- **C235** Observing more never decreases the Fisher information: for any selection of the
observations (in any order), the matrix returned for all of them minus that returned for the selected
ones is positive semidefinite. -/
theorem fisher_more_data (hla : la.Sound be) (cov : (Fin p → ℝ) → Mat N N) (hs : ∀ t, (cov t).IsSymm)
    (theta : Fin p → ℝ) (hK : (cov theta).PosDef) (eps : ℝ) (f : Fin n → Fin N) (hf : Function.Injective f) :
    ∃ I I', fisher la cov theta eps = .ok I ∧
      fisher la (fun t => (cov t).submatrix f f) theta eps = .ok I' ∧ (I - I').PosSemidef := by
  obtain ⟨I, h, hp, he, -⟩ := fisher_psd hla cov hs theta hK eps
  have hs' : ∀ t, ((cov t).submatrix f f).IsSymm := fun t => (hs t).submatrix f
  obtain ⟨I', h', hp', he', -⟩ := fisher_psd hla (fun t => (cov t).submatrix f f) hs' theta (hK.submatrix hf) eps
  refine ⟨I, I', h, h', info_order ?_ ?_ he he' fun x => ?_⟩
  · simpa using hp.1.eq
  · simpa using hp'.1.eq
  · have hD : (∑ i, x i • dCov cov theta eps i)ᵀ = ∑ i, x i • dCov cov theta eps i := by
      rw [transpose_sum]
      refine Finset.sum_congr rfl fun i _ => ?_
      rw [transpose_smul]
      congr 1
      exact finiteDiff_symm (fun t => hs _) _ _
    have := info_compress hK (pick_fullRank hf) hD
    rw [pick_conj, pick_conj] at this
    have e : (∑ i, x i • dCov cov theta eps i).submatrix f f =
        ∑ i, x i • dCov (fun t => (cov t).submatrix f f) theta eps i := by
      ext a b
      simp [dCov_submatrix, Matrix.sum_apply]
    rwa [e] at this

/-- **C235** An unknown trend never increases the information on the covariance parameters:
`fisher_information_cpd` with a linear predictor is at most `fisher_information`. -/
theorem fisher_trend (hla : la.Sound be) (cov : (Fin p → ℝ) → Mat (q + r) (q + r)) (hs : ∀ t, (cov t).IsSymm)
    (P : Mat (q + r) q) (hP : FullRank P) (theta : Fin p → ℝ) (hK : (cov theta).PosDef) (eps : ℝ) :
    ∃ I I', fisher la cov theta eps = .ok I ∧ fisherCpd la cov P theta eps = .ok I' ∧ (I - I').PosSemidef := by
  obtain ⟨I, h, hp, he, -⟩ := fisher_psd hla cov hs theta hK eps
  have hc := CPD.of_posDef hK P
  have hW : IsContrast P (contrastMatrix la P) := (hla.qr_ok P (Nat.le_add_right q r)).contrast hP
  obtain ⟨I1, h1, hp1, -⟩ := fisherCpd_psd hla cov hs P hP theta hc eps
  obtain ⟨I', h', he'⟩ := fisherCpd_entries hla cov hs P hP theta hc eps hW
  obtain rfl : I1 = I' := Except.ok.inj (h1.symm.trans h')
  set W := contrastMatrix la P
  refine ⟨I, I1, h, h', info_order (A' := fun i => Wᵀ * (dCov cov theta eps i * W)) ?_ ?_ he he' fun x => ?_⟩
  · simpa using hp.1.eq
  · simpa using hp1.1.eq
  · have hD : (∑ i, x i • dCov cov theta eps i)ᵀ = ∑ i, x i • dCov cov theta eps i := by
      rw [transpose_sum]
      refine Finset.sum_congr rfl fun i _ => ?_
      rw [transpose_smul]
      congr 1
      exact finiteDiff_symm (fun t => hs _) _ _
    have := info_compress hK (S := W) (fun c h => contrast_inj (P := P) hW.orth h) hD
    have e : ∑ i, x i • (Wᵀ * (dCov cov theta eps i * W)) = Wᵀ * ((∑ i, x i • dCov cov theta eps i) * W) := by
      simp only [Matrix.sum_mul, Matrix.mul_sum, Matrix.smul_mul, Matrix.mul_smul]
    rwa [e]

/-- **C235** The same with a linear predictor and a conditionally positive definite covariance, for
`fisher_information_cpd`. -/
theorem fisherCpd_more_data (hla : la.Sound be) (cov : (Fin p → ℝ) → Mat (q + r') (q + r'))
    (hs : ∀ t, (cov t).IsSymm) (P : Mat (q + r') q) (theta : Fin p → ℝ) (hK : CPD (cov theta) P) (eps : ℝ)
    (f : Fin (q + r) → Fin (q + r')) (hf : Function.Injective f) (hP : FullRank (P.submatrix f id)) :
    ∃ I I', fisherCpd la cov P theta eps = .ok I ∧
      fisherCpd la (fun t => (cov t).submatrix f f) (P.submatrix f id) theta eps = .ok I' ∧
      (I - I').PosSemidef := by
  have hPP : FullRank P := by
    intro b hb
    apply hP
    funext i
    exact congrFun hb (f i)
  set P' := P.submatrix f id with hP'
  have hs' : ∀ t, ((cov t).submatrix f f).IsSymm := fun t => (hs t).submatrix f
  have hpick : ∀ v, Pᵀ *ᵥ (pick f *ᵥ v) = P'ᵀ *ᵥ v := by
    intro v
    rw [mulVec_mulVec]
    congr 1
    ext i j
    simp [Matrix.mul_apply, pick, hP']
  have hK' : CPD ((cov theta).submatrix f f) P' := by
    refine ⟨hs' theta, fun z hz h0 => ?_⟩
    have := hK.pos (pick f *ᵥ z) (fun h => hz (pick_fullRank hf z h)) (by rw [hpick, h0])
    rw [← pick_conj, ← mulVec_mulVec, ← mulVec_mulVec]
    rwa [dotProduct_mulVec z, vecMul_transpose]
  have hW : IsContrast P (contrastMatrix la P) := (hla.qr_ok P (Nat.le_add_right q r')).contrast hPP
  have hV : IsContrast P' (contrastMatrix la P') := (hla.qr_ok P' (Nat.le_add_right q r)).contrast hP
  obtain ⟨I1, h1, hp1, -⟩ := fisherCpd_psd hla cov hs P hPP theta hK eps
  obtain ⟨I, h, he⟩ := fisherCpd_entries hla cov hs P hPP theta hK eps hW
  obtain rfl : I1 = I := Except.ok.inj (h1.symm.trans h)
  obtain ⟨I2, h2, hp2, -⟩ := fisherCpd_psd hla _ hs' P' hP theta hK' eps
  obtain ⟨I', h', he'⟩ := fisherCpd_entries hla _ hs' P' hP theta hK' eps hV
  obtain rfl : I2 = I' := Except.ok.inj (h2.symm.trans h')
  set W := contrastMatrix la P with hWd
  set V := contrastMatrix la P' with hVd
  -- the contrasts of the selection are combinations of those of all observations
  have hcol : ∀ b : Fin r, ∃ c, (pick f * V).col b = W *ᵥ c := by
    intro b
    refine hW.span _ ?_
    have : (pick f * V).col b = pick f *ᵥ (V.col b) := by
      ext i; simp [Matrix.mul_apply, mulVec, dotProduct]
    rw [this, hpick]
    funext a
    have := congrFun (congrFun hV.null a) b
    simpa [Matrix.mul_apply, mulVec, dotProduct] using this
  choose c hc using hcol
  set S : Matrix (Fin r') (Fin r) ℝ := Matrix.of fun a b => c b a with hS
  have hVS : pick f * V = W * S := by
    ext a b
    have := congrFun (hc b) a
    simpa [hS, Matrix.mul_apply, mulVec, dotProduct] using this
  have hSr : FullRank S := by
    intro v hv
    have h3 : (pick f * V) *ᵥ v = 0 := by
      rw [hVS, ← mulVec_mulVec, hv, mulVec_zero]
    rw [← mulVec_mulVec] at h3
    exact contrast_inj (P := P') hV.orth (pick_fullRank hf _ h3)
  have hG : (Wᵀ * (cov theta * W)).PosDef := contrast_posDef hW.orth hW.null hK
  have hconj : ∀ M : Mat (q + r') (q + r'), Vᵀ * (M.submatrix f f * V) = Sᵀ * ((Wᵀ * (M * W)) * S) := by
    intro M
    calc Vᵀ * (M.submatrix f f * V) = (pick f * V)ᵀ * (M * (pick f * V)) := by
          rw [← pick_conj, transpose_mul]; simp only [Matrix.mul_assoc]
      _ = _ := by rw [hVS, transpose_mul]; simp only [Matrix.mul_assoc]
  refine ⟨I1, I2, h, h', info_order (A := fun i => Wᵀ * (dCov cov theta eps i * W))
    (A' := fun i => Vᵀ * (dCov (fun t => (cov t).submatrix f f) theta eps i * V)) ?_ ?_ he he' fun x => ?_⟩
  · simpa using hp1.1.eq
  · simpa using hp2.1.eq
  · have hDs : ∀ i, (dCov cov theta eps i)ᵀ = dCov cov theta eps i := fun i => finiteDiff_symm (fun t => hs _) _ _
    have hD : (∑ i, x i • (Wᵀ * (dCov cov theta eps i * W)))ᵀ = ∑ i, x i • (Wᵀ * (dCov cov theta eps i * W)) := by
      rw [transpose_sum]
      refine Finset.sum_congr rfl fun i _ => ?_
      rw [transpose_smul, transpose_mul, transpose_mul, transpose_transpose, hDs, Matrix.mul_assoc]
    have := info_compress hG hSr hD
    rw [← hconj] at this
    have e : ∑ i, x i • (Vᵀ * (dCov (fun t => (cov t).submatrix f f) theta eps i * V)) =
        Sᵀ * ((∑ i, x i • (Wᵀ * (dCov cov theta eps i * W))) * S) := by
      simp only [dCov_submatrix, hconj, Matrix.sum_mul, Matrix.mul_sum, Matrix.smul_mul, Matrix.mul_smul]
    rwa [e]

/-- **C235** Independent sets of observations: when they are uncorrelated for all parameters, the
information is the sum of the two informations. -/
theorem fisher_independent (hla : la.Sound be) {e : Fin n ⊕ Fin m ≃ Fin N} (cov : (Fin p → ℝ) → Mat N N)
    (c1 : (Fin p → ℝ) → Mat n n) (c2 : (Fin p → ℝ) → Mat m m)
    (hc : ∀ t, (cov t).submatrix e e = fromBlocks (c1 t) 0 0 (c2 t)) (hs : ∀ t, (cov t).IsSymm)
    (theta : Fin p → ℝ) (hK : (cov theta).PosDef) (eps : ℝ) :
    ∃ I I1 I2, fisher la cov theta eps = .ok I ∧ fisher la c1 theta eps = .ok I1 ∧
      fisher la c2 theta eps = .ok I2 ∧ I = I1 + I2 := by
  obtain ⟨I, h, -, he, -⟩ := fisher_psd hla cov hs theta hK eps
  have e1 : ∀ t, c1 t = (cov t).submatrix (e ∘ Sum.inl) (e ∘ Sum.inl) := fun t => by
    have := congrArg toBlocks₁₁ (hc t)
    rw [toBlocks_fromBlocks₁₁] at this
    rw [← this]; rfl
  have e2 : ∀ t, c2 t = (cov t).submatrix (e ∘ Sum.inr) (e ∘ Sum.inr) := fun t => by
    have := congrArg toBlocks₂₂ (hc t)
    rw [toBlocks_fromBlocks₂₂] at this
    rw [← this]; rfl
  obtain ⟨I1, h1, -, he1, -⟩ := fisher_psd hla c1 (fun t => by rw [e1]; exact (hs t).submatrix _) theta
    (by rw [e1]; exact hK.submatrix (e.injective.comp Sum.inl_injective)) eps
  obtain ⟨I2, h2, -, he2, -⟩ := fisher_psd hla c2 (fun t => by rw [e2]; exact (hs t).submatrix _) theta
    (by rw [e2]; exact hK.submatrix (e.injective.comp Sum.inr_injective)) eps
  refine ⟨I, I1, I2, h, h1, h2, ?_⟩
  have hd : ∀ i, (dCov cov theta eps i).submatrix e e =
      fromBlocks (dCov c1 theta eps i) 0 0 (dCov c2 theta eps i) := by
    intro i
    have hx : ∀ t a b, cov t (e a) (e b) = fromBlocks (c1 t) 0 0 (c2 t) a b := fun t a b =>
      congrFun (congrFun (hc t) a) b
    ext a b
    rcases a with a | a <;> rcases b with b | b <;> simp [dCov, finiteDiff, hx]
  have h1u : IsUnit (c1 theta) := by
    rw [e1]; exact (hK.submatrix (e.injective.comp Sum.inl_injective)).isUnit
  have h2u : IsUnit (c2 theta) := by
    rw [e2]; exact (hK.submatrix (e.injective.comp Sum.inr_injective)).isUnit
  have hi : ((cov theta)⁻¹).submatrix e e = fromBlocks (c1 theta)⁻¹ 0 0 (c2 theta)⁻¹ := by
    rw [← Matrix.inv_submatrix_equiv, hc]
    refine Matrix.inv_eq_right_inv ?_
    rw [fromBlocks_multiply]
    simp [Matrix.mul_nonsing_inv _ ((Matrix.isUnit_iff_isUnit_det _).mp h1u),
      Matrix.mul_nonsing_inv _ ((Matrix.isUnit_iff_isUnit_det _).mp h2u)]
  ext i j
  rw [Matrix.add_apply, he, he1, he2, ← mul_add]
  congr 1
  have ht : ∀ M : Mat N N, Matrix.trace M = Matrix.trace (M.submatrix e e) := fun M => by
    simp only [Matrix.trace, diag_apply, submatrix_apply]
    rw [← e.sum_comp]
  rw [ht, ← submatrix_mul_equiv _ _ _ e, ← submatrix_mul_equiv _ _ _ e, ← submatrix_mul_equiv _ _ _ e, hi, hd, hd]
  simp only [fromBlocks_multiply]
  simp [Matrix.trace, Fintype.sum_sum_type]

/-! ## A case -/

/-- Two points with correlation `θ`. -/
noncomputable def twoCov (t : Fin 1 → ℝ) : Mat 2 2 := !![1, t 0; t 0, 1]

example : (twoCov fun _ => 1 / 2).PosDef ∧ (∀ t, (twoCov t).IsSymm) ∧
    Function.Injective (fun _ : Fin 1 => (0 : Fin 2)) ∧ dCov twoCov (fun _ => 1 / 2) 1 0 0 1 = 1 := by
  refine ⟨posDef_of_quad ?_ fun x hx => ?_, fun t => ?_, fun a b _ => Subsingleton.elim _ _, ?_⟩
  · ext i j; fin_cases i <;> fin_cases j <;> simp [twoCov]
  · have hx' : 0 < x 0 ^ 2 + x 1 ^ 2 := by
      rcases eq_or_ne (x 0) 0 with h0 | h0
      · rcases eq_or_ne (x 1) 0 with h1 | h1
        · exact absurd (by funext i; fin_cases i <;> simp [h0, h1]) hx
        · positivity
      · positivity
    simp [twoCov, dotProduct, mulVec, Fin.sum_univ_two]
    nlinarith [sq_nonneg (x 0 + x 1)]
  · ext i j; fin_cases i <;> fin_cases j <;> simp [twoCov]
  · simp [dCov, finiteDiff, twoCov]; norm_num

end Verif.Core
