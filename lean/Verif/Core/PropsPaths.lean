import Verif.Core.PropsLikelihood
import Mathlib.Analysis.Matrix.Order

/-!
# C38, C81: sample paths
-/

set_option autoImplicit false

namespace Verif.Core

open Verif Verif.Data Matrix

variable {n m N ni nt np : ℕ} {be : Backend} {la : LA}

/-! ## C38: conditioning -/

/-- **C38** At a target that is the `i`-th observation point, with the weights that
interpolate there, every conditioned path takes the observed value. -/
theorem condPaths_data (ztsim : Mat N np) (xiInd : Fin ni → Fin N) (zi : Fin ni → ℝ)
    (xtInd : Fin nt → Fin N) (lam : Mat ni nt) (i : Fin ni) (j : Fin nt)
    (hx : xtInd j = xiInd i) (hl : ∀ i', lam i' j = if i' = i then 1 else 0) (k : Fin np) :
    condPaths ztsim xiInd zi xtInd lam j k = zi i := by
  simp [condPaths, hl, hx]

/-- **C38** The same for a parameterised mean whose values at the point agree. -/
theorem condPathsMean_data (ztsim : Mat N np) (mi : Fin ni → ℝ) (xiInd : Fin ni → Fin N)
    (zi : Fin ni → ℝ) (mt : Fin nt → ℝ) (xtInd : Fin nt → Fin N) (lam : Mat ni nt) (i : Fin ni)
    (j : Fin nt) (hx : xtInd j = xiInd i) (hl : ∀ i', lam i' j = if i' = i then 1 else 0)
    (hm : mt j = mi i) (k : Fin np) :
    condPathsMean ztsim mi xiInd zi mt xtInd lam j k = zi i := by
  simp [condPathsMean, hl, hx, hm]

/-- **C38** The version with a parameterised mean is the centred version plus the mean. -/
theorem condPathsMean_eq (ztsim : Mat N np) (mi : Fin ni → ℝ) (xiInd : Fin ni → Fin N)
    (zi : Fin ni → ℝ) (mt : Fin nt → ℝ) (xtInd : Fin nt → Fin N) (lam : Mat ni nt) (j : Fin nt)
    (k : Fin np) :
    condPathsMean ztsim mi xiInd zi mt xtInd lam j k =
      condPaths ztsim xiInd (zi - mi) xtInd lam j k + mt j := rfl

/-- The linear part of conditioning: target rows minus weights times observation rows. -/
def condOp (xiInd : Fin ni → Fin N) (xtInd : Fin nt → Fin N) (lam : Mat ni nt) : Mat nt N :=
  Matrix.of fun j a => (if xtInd j = a then 1 else 0) - ∑ i, lam i j * (if xiInd i = a then 1 else 0)

/-- **C38** Conditioning is affine in the unconditional path: the prediction from
the data plus a fixed linear map of the path. -/
theorem condPaths_affine (ztsim : Mat N np) (xiInd : Fin ni → Fin N) (zi : Fin ni → ℝ)
    (xtInd : Fin nt → Fin N) (lam : Mat ni nt) (j : Fin nt) (k : Fin np) :
    condPaths ztsim xiInd zi xtInd lam j k =
      ∑ i, lam i j * zi i + (condOp xiInd xtInd lam * ztsim) j k := by
  have h1 : (condOp xiInd xtInd lam * ztsim) j k =
      ztsim (xtInd j) k - ∑ i, lam i j * ztsim (xiInd i) k := by
    rw [Matrix.mul_apply]
    simp only [condOp, Matrix.of_apply, sub_mul, Finset.sum_sub_distrib, Finset.sum_mul, ite_mul,
      one_mul, zero_mul, Finset.sum_ite_eq, Finset.mem_univ, if_true]
    congr 1
    rw [Finset.sum_comm]
    refine Finset.sum_congr rfl fun i _ => ?_
    simp [mul_assoc]
  rw [h1]
  simp only [condPaths, Matrix.of_apply, mul_sub, Finset.sum_sub_distrib]
  ring

/-- **C38** Covariance of the conditioned paths: if the unconditional path has
covariance `S`, the conditioned one has covariance
`Ktt - λᵀ Kit - Kitᵀ λ + λᵀ Kii λ`, the covariance of the prediction errors. -/
theorem condOp_cov (S : Mat N N) (hS : S.IsSymm) (xiInd : Fin ni → Fin N) (xtInd : Fin nt → Fin N)
    (lam : Mat ni nt) :
    condOp xiInd xtInd lam * S * (condOp xiInd xtInd lam)ᵀ =
      S.submatrix xtInd xtInd - lamᵀ * S.submatrix xiInd xtInd -
        (S.submatrix xiInd xtInd)ᵀ * lam + lamᵀ * S.submatrix xiInd xiInd * lam := by
  have hrow : ∀ {k : ℕ} (M : Mat N k), condOp xiInd xtInd lam * M =
      M.submatrix xtInd id - lamᵀ * M.submatrix xiInd id := by
    intro k M
    ext j c
    rw [Matrix.mul_apply, Matrix.sub_apply, Matrix.mul_apply]
    simp only [condOp, Matrix.of_apply, sub_mul, Finset.sum_sub_distrib, Finset.sum_mul, ite_mul,
      one_mul, zero_mul, Finset.sum_ite_eq, Finset.mem_univ, if_true, submatrix_apply, id,
      transpose_apply]
    congr 1
    rw [Finset.sum_comm]
    refine Finset.sum_congr rfl fun i _ => ?_
    simp [mul_assoc]
  have h2 : ∀ {k : ℕ} (M : Mat k N), M * (condOp xiInd xtInd lam)ᵀ =
      M.submatrix id xtInd - M.submatrix id xiInd * lam := by
    intro k M
    have := congrArg transpose (hrow Mᵀ)
    rw [transpose_mul, transpose_transpose, transpose_sub, transpose_mul, transpose_transpose] at this
    exact this
  rw [hrow, h2]
  have hsw : (S.submatrix xiInd xtInd)ᵀ = S.submatrix xtInd xiInd := by
    rw [transpose_submatrix, hS.eq]
  rw [hsw]
  have e1 : (lamᵀ * S.submatrix xiInd id).submatrix id xtInd = lamᵀ * S.submatrix xiInd xtInd := by
    ext a b; simp [Matrix.mul_apply]
  have e2 : (lamᵀ * S.submatrix xiInd id).submatrix id xiInd = lamᵀ * S.submatrix xiInd xiInd := by
    ext a b; simp [Matrix.mul_apply]
  have e3 : (S.submatrix xtInd id - lamᵀ * S.submatrix xiInd id).submatrix id xtInd =
      S.submatrix xtInd xtInd - lamᵀ * S.submatrix xiInd xtInd := by rw [← e1]; rfl
  have e4 : (S.submatrix xtInd id - lamᵀ * S.submatrix xiInd id).submatrix id xiInd =
      S.submatrix xtInd xiInd - lamᵀ * S.submatrix xiInd xiInd := by rw [← e2]; rfl
  rw [e3, e4, Matrix.sub_mul]
  abel

/-- **C38** With the zero-mean kriging weights, the conditioned paths have exactly
the posterior covariance that `kriging_predictor_with_zero_mean(return_type=1)`
returns, and their mean is the posterior mean. -/
theorem condPaths_posterior {q : ℕ} (hla : la.Contract be) (S : Mat N N) (hS : S.IsSymm)
    (xiInd : Fin ni → Fin N) (xtInd : Fin nt → Fin N) (P : Mat ni q) (Pt : Mat nt q)
    (hK : (S.submatrix xiInd xiInd).PosDef) :
    let a : Arrays ni nt q := { Kii := S.submatrix xiInd xiInd, Kit := S.submatrix xiInd xtInd,
                                vt := fun t => S (xtInd t) (xtInd t),
                                Ktt := S.submatrix xtInd xtInd, Pi := P, Pt := Pt }
    ∃ lam V, krigingZeroMean la a 1 = .ok (lam, .cov V) ∧
      condOp xiInd xtInd lam * S * (condOp xiInd xtInd lam)ᵀ = V := by
  intro a
  obtain ⟨C, _, hc⟩ := choleskySolve_ok hla.toSound hK (S.submatrix xiInd xtInd)
  refine ⟨(S.submatrix xiInd xiInd)⁻¹ * S.submatrix xiInd xtInd,
    S.submatrix xtInd xtInd - ((S.submatrix xiInd xiInd)⁻¹ * S.submatrix xiInd xtInd)ᵀ *
      S.submatrix xiInd xtInd, ?_, ?_⟩
  · simp only [krigingZeroMean, a, hc, bind, Except.bind, pure, Except.pure, posteriorVariance]
    rw [if_neg (by decide), if_neg (by decide), if_pos trivial]
  · rw [condOp_cov S hS]
    set K := S.submatrix xiInd xiInd
    set k := S.submatrix xiInd xtInd
    have hKis : (K⁻¹)ᵀ = K⁻¹ := by rw [transpose_nonsing_inv, PosDef.symm hK]
    have h1 : (K⁻¹ * k)ᵀ * K * (K⁻¹ * k) = kᵀ * (K⁻¹ * k) := by
      rw [transpose_mul, hKis, Matrix.mul_assoc kᵀ, Matrix.nonsing_inv_mul _ (PosDef.det_unit hK),
        Matrix.mul_one]
    rw [h1]
    abel

/-! ## C81: unconditional paths -/

/-- **C81** Cholesky method: the paths are a fixed matrix `C` with `C Cᵀ = K` times
the standard normal draws, so they have covariance `K`. -/
theorem samplePathsChol_spec (hla : la.Sound be) {K : Mat n n} (hK : K.PosDef) :
    ∃ C, C * Cᵀ = K ∧ ∀ E : Mat n m, samplePathsChol la K E = .ok (C * E) := by
  obtain ⟨C, hc, hC⟩ := hla.chol_ok K hK
  exact ⟨C, hC.mul, fun E => by simp only [samplePathsChol, hc, bind, Except.bind, pure, Except.pure]⟩

/-- A singular value decomposition, as returned by the library. -/
structure IsSVD (K U Vt : Mat n n) (s : Fin n → ℝ) : Prop where
  orthU : Uᵀ * U = 1
  orthV : Vt * Vtᵀ = 1
  nonneg : ∀ i, 0 ≤ s i
  mul : U * Matrix.diagonal s * Vt = K

theorem svd_factor (U Vt : Mat n n) (s : Fin n → ℝ) (E : Mat n m) :
    samplePathsSvd U Vt s E = (U * Matrix.diagonal (fun i => Real.sqrt (s i)) * Vt) * E := by
  unfold samplePathsSvd
  congr 2
  ext i j
  simp [Matrix.mul_diagonal]

/-- `A Aᵀ` of the factor is `U diag(s) Uᵀ`. -/
theorem svd_gram {K U Vt : Mat n n} {s : Fin n → ℝ} (h : IsSVD K U Vt s) :
    (U * Matrix.diagonal (fun i => Real.sqrt (s i)) * Vt) *
      (U * Matrix.diagonal (fun i => Real.sqrt (s i)) * Vt)ᵀ = U * Matrix.diagonal s * Uᵀ := by
  set D := Matrix.diagonal (fun i => Real.sqrt (s i)) with hD
  have hDD : D * D = Matrix.diagonal s := by
    rw [hD, Matrix.diagonal_mul_diagonal]
    congr 1
    funext i
    exact Real.mul_self_sqrt (h.nonneg i)
  have hDt : Dᵀ = D := by rw [hD, Matrix.diagonal_transpose]
  calc U * D * Vt * (U * D * Vt)ᵀ = U * D * (Vt * Vtᵀ) * Dᵀ * Uᵀ := by
        simp only [transpose_mul, Matrix.mul_assoc]
    _ = U * (D * D) * Uᵀ := by rw [h.orthV, Matrix.mul_one, hDt]; simp only [Matrix.mul_assoc]
    _ = _ := by rw [hDD]

open scoped MatrixOrder in
/-- **C81** SVD method: for every positive semidefinite covariance and every valid
SVD of it (the singular vectors need not match), the factor `A` satisfies
`A Aᵀ = K`. -/
theorem samplePathsSvd_spec {K U Vt : Mat n n} {s : Fin n → ℝ} (hK : K.PosSemidef)
    (h : IsSVD K U Vt s) :
    ∃ A, A * Aᵀ = K ∧ ∀ {m : ℕ} (E : Mat n m), samplePathsSvd U Vt s E = A * E := by
  refine ⟨_, ?_, fun E => svd_factor U Vt s E⟩
  rw [svd_gram h]
  set B := U * Matrix.diagonal s * Uᵀ with hB
  have hBp : B.PosSemidef := by
    have hd : (Matrix.diagonal s).PosSemidef := Matrix.PosSemidef.diagonal h.nonneg
    have := hd.mul_mul_conjTranspose_same U
    simpa [hB, Matrix.conjTranspose_eq_transpose_of_trivial] using this
  have hKs : Kᵀ = K := by
    have := hK.1
    simpa [Matrix.IsHermitian, Matrix.conjTranspose_eq_transpose_of_trivial] using this
  have hsq : B * B = K * K := by
    have h1 : K * K = K * Kᵀ := by rw [hKs]
    rw [h1, ← h.mul]
    calc B * B = U * Matrix.diagonal s * (Uᵀ * U) * Matrix.diagonal s * Uᵀ := by
          rw [hB]; simp only [Matrix.mul_assoc]
      _ = U * Matrix.diagonal s * (Vt * Vtᵀ) * (Matrix.diagonal s)ᵀ * Uᵀ := by
          rw [h.orthU, h.orthV, Matrix.diagonal_transpose]
      _ = _ := by simp only [transpose_mul, Matrix.mul_assoc]
  exact (CFC.mul_self_eq_mul_self_iff B K hBp.nonneg hK.nonneg).mp hsq

/-- **C81** Without positive semidefiniteness the SVD method silently samples from
another covariance: for `K = [-1]` it uses `[1]` (the Cholesky method raises). -/
theorem samplePathsSvd_indefinite :
    ∃ (K U Vt : Mat 1 1) (s : Fin 1 → ℝ), K.IsSymm ∧ IsSVD K U Vt s ∧
      (∀ {m : ℕ} (E : Mat 1 m), samplePathsSvd U Vt s E = -E) ∧
      (∀ be la, LA.Sound be la → ∀ E : Mat 1 1, samplePathsChol la K E = .error .linAlgError) := by
  refine ⟨-1, 1, -1, fun _ => 1, by simp [Matrix.IsSymm], ⟨by simp, by simp, by simp, by simp⟩, ?_, ?_⟩
  · intro m E
    rw [svd_factor]
    simp
  · intro be la hla E
    have : ¬ (-1 : Mat 1 1).PosDef := by
      intro h
      have := h.det_pos
      simp at this
      linarith
    simp [samplePathsChol, hla.chol_err _ (by simp [Matrix.IsSymm]) this, bind, Except.bind]

/-! ## Concrete cases -/

example : condPaths (N := 2) (ni := 1) (nt := 2) (np := 1) !![5; 6] ![0] ![9] ![0, 1]
    !![1, 0.5] 0 0 = 9 :=
  condPaths_data (N := 2) (ni := 1) (nt := 2) (np := 1) !![5; 6] ![0] ![9] ![0, 1]
    !![1, 0.5] 0 0 rfl (fun i' => by fin_cases i'; simp) 0

example : IsSVD (1 : Mat 2 2) 1 1 (fun _ => 1) := ⟨by simp, by simp, by simp, by simp⟩

end Verif.Core
