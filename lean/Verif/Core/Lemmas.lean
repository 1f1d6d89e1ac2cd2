import Verif.Core.Model
import Mathlib.LinearAlgebra.Matrix.Block
import Mathlib.LinearAlgebra.Matrix.Symmetric
import Mathlib.LinearAlgebra.Matrix.ToLinearEquiv
import Mathlib.Tactic

/-!
# Linear-algebra lemmas for `gpmp.core`
-/

set_option autoImplicit false

namespace Verif.Core

open Verif Verif.Data Matrix

variable {ι κ ρ : Type} [Fintype ι] [Fintype κ] [Fintype ρ] [DecidableEq ι] [DecidableEq κ]

/-! ## Positive definiteness over the reals -/

theorem PosDef.quad_pos {A : Matrix ι ι ℝ} (h : A.PosDef) {x : ι → ℝ} (hx : x ≠ 0) :
    0 < x ⬝ᵥ (A *ᵥ x) := by
  have := h.dotProduct_mulVec_pos hx
  simpa [star_trivial] using this

theorem PosSemidef.quad_nonneg {A : Matrix ι ι ℝ} (h : A.PosSemidef) (x : ι → ℝ) :
    0 ≤ x ⬝ᵥ (A *ᵥ x) := by
  have := h.dotProduct_mulVec_nonneg x
  simpa [star_trivial] using this

theorem PosDef.symm {A : Matrix ι ι ℝ} (h : A.PosDef) : Aᵀ = A := by
  have := h.isHermitian
  rwa [IsHermitian, conjTranspose_eq_transpose_of_trivial] at this

theorem PosSemidef.symm {A : Matrix ι ι ℝ} (h : A.PosSemidef) : Aᵀ = A := by
  have := h.isHermitian
  rwa [IsHermitian, conjTranspose_eq_transpose_of_trivial] at this

theorem posDef_of_quad {A : Matrix ι ι ℝ} (hs : Aᵀ = A) (h : ∀ x : ι → ℝ, x ≠ 0 → 0 < x ⬝ᵥ (A *ᵥ x)) :
    A.PosDef := by
  refine Matrix.PosDef.of_dotProduct_mulVec_pos ?_ ?_
  · rw [IsHermitian, conjTranspose_eq_transpose_of_trivial, hs]
  · intro x hx
    simpa [star_trivial] using h x hx

theorem posSemidef_of_quad {A : Matrix ι ι ℝ} (hs : Aᵀ = A) (h : ∀ x : ι → ℝ, 0 ≤ x ⬝ᵥ (A *ᵥ x)) :
    A.PosSemidef := by
  refine Matrix.PosSemidef.of_dotProduct_mulVec_nonneg ?_ ?_
  · rw [IsHermitian, conjTranspose_eq_transpose_of_trivial, hs]
  · intro x
    simpa [star_trivial] using h x

theorem PosDef.det_unit {A : Matrix ι ι ℝ} (h : A.PosDef) : IsUnit A.det :=
  (Matrix.isUnit_iff_isUnit_det A).mp h.isUnit

/-- For a symmetric matrix the bilinear form is symmetric. -/
theorem dot_mulVec_comm {A : Matrix ι ι ℝ} (hs : Aᵀ = A) (x y : ι → ℝ) :
    x ⬝ᵥ (A *ᵥ y) = y ⬝ᵥ (A *ᵥ x) := by
  rw [dotProduct_mulVec, ← mulVec_transpose, hs, dotProduct_comm]

theorem dot_mulVec_transpose (A : Matrix ι κ ℝ) (x : ι → ℝ) (y : κ → ℝ) :
    x ⬝ᵥ (A *ᵥ y) = (Aᵀ *ᵥ x) ⬝ᵥ y := by
  rw [dotProduct_mulVec, ← mulVec_transpose]

/-- Injective on vectors implies invertible. -/
theorem isUnit_of_inj {A : Matrix ι ι ℝ} (h : ∀ x, A *ᵥ x = 0 → x = 0) : IsUnit A := by
  rw [← Matrix.mulVec_injective_iff_isUnit]
  intro x y hxy
  have : A *ᵥ (x - y) = 0 := by rw [mulVec_sub]; exact sub_eq_zero.mpr hxy
  exact sub_eq_zero.mp (h _ this)

/-! ## Cholesky -/

theorem IsChol.det_unit {n : ℕ} {A C : Mat n n} (h : IsChol A C) : IsUnit C.det := by
  have hd : C.det = ∏ i, C i i := det_of_lowerTriangular C (fun i j hij => h.lower i j hij)
  rw [hd, isUnit_iff_ne_zero]
  exact Finset.prod_ne_zero_iff.mpr fun i _ => (h.diag_pos i).ne'

theorem IsChol.inv {n : ℕ} {A C : Mat n n} (h : IsChol A C) : (Cᵀ)⁻¹ * C⁻¹ = A⁻¹ := by
  rw [← Matrix.mul_inv_rev, h.mul]

theorem IsChol.det {n : ℕ} {A C : Mat n n} (h : IsChol A C) : A.det = (∏ i, C i i) ^ 2 := by
  have hd : C.det = ∏ i, C i i := det_of_lowerTriangular C (fun i j hij => h.lower i j hij)
  rw [← h.mul, Matrix.det_mul, Matrix.det_transpose, hd, sq]

theorem IsChol.logdet {n : ℕ} {A C : Mat n n} (h : IsChol A C) :
    2 * ∑ i, Real.log (C i i) = Real.log A.det := by
  rw [h.det, Real.log_pow, Real.log_prod (fun i _ => (h.diag_pos i).ne')]
  norm_num

theorem choleskySolve_ok {be : Backend} {la : LA} (hla : la.Sound be) {n m : ℕ} {A : Mat n n}
    (hA : A.PosDef) (b : Mat n m) :
    ∃ C, IsChol A C ∧ choleskySolve la A b = .ok (A⁻¹ * b, C) := by
  obtain ⟨C, hC, hc⟩ := hla.chol_ok A hA
  refine ⟨C, hc, ?_⟩
  simp only [choleskySolve, hC]
  rw [← Matrix.mul_assoc, hc.inv]

theorem choleskySolve_err {be : Backend} {la : LA} (hla : la.Sound be) {n m : ℕ} {A : Mat n n}
    (hs : A.IsSymm) (hA : ¬ A.PosDef) (b : Mat n m) :
    choleskySolve la A b = .error .linAlgError := by
  simp only [choleskySolve, hla.chol_err A hs hA]

/-- The diagonal of the inverse computed from the factor. -/
theorem diagKinvFromChol_spec {n : ℕ} {A C : Mat n n} (h : IsChol A C) (i : Fin n) :
    diagKinvFromChol C true i = A⁻¹ i i := by
  rw [← h.inv]
  simp only [diagKinvFromChol, if_true, Matrix.mul_apply]
  refine Finset.sum_congr rfl fun r _ => ?_
  rw [← Matrix.transpose_nonsing_inv, Matrix.transpose_apply]

theorem colVec_mul {n k : ℕ} (A : Mat k n) (z : Fin n → ℝ) (i : Fin k) :
    (A * colVec z) i 0 = (A *ᵥ z) i := by
  simp [Matrix.mul_apply, colVec, mulVec, dotProduct]

theorem sum_mul_colVec {n : ℕ} (A : Mat n n) (z : Fin n → ℝ) :
    ∑ i, z i * (A * colVec z) i 0 = z ⬝ᵥ (A *ᵥ z) := by
  simp only [colVec_mul, dotProduct]

/-! ## QR and contrasts -/

/-- `W` is a basis of the contrast space of `P`, orthonormal. -/
structure IsContrast {q r : ℕ} (P : Mat (q + r) q) (W : Mat (q + r) r) : Prop where
  orth : Wᵀ * W = 1
  null : Pᵀ * W = 0
  span : ∀ z : Fin (q + r) → ℝ, Pᵀ *ᵥ z = 0 → ∃ c, z = W *ᵥ c

/-- The columns of `P` are linearly independent. -/
def FullRank {n q : ℕ} (P : Mat n q) : Prop := ∀ b : Fin q → ℝ, P *ᵥ b = 0 → b = 0

section QR

variable {q r : ℕ} {P : Mat (q + r) q} {Q : Mat (q + r) (q + r)} {R : Mat (q + r) q}

/-- `Q1`, `W`, `Rq` of the code. -/
def Q1of (Q : Mat (q + r) (q + r)) : Mat (q + r) q := Q.submatrix id (Fin.castAdd r)
def Wof (Q : Mat (q + r) (q + r)) : Mat (q + r) r := Q.submatrix id (Fin.natAdd q)
def Rof (R : Mat (q + r) q) : Mat q q := R.submatrix (Fin.castAdd r) id

theorem IsQR.orth_apply (h : IsQR P Q R) (a b : Fin (q + r)) :
    ∑ i, Q i a * Q i b = if a = b then 1 else 0 := by
  have := congrFun (congrFun h.orth a) b
  rw [Matrix.mul_apply, Matrix.one_apply] at this
  simpa using this

theorem IsQR.orth' (h : IsQR P Q R) : Q * Qᵀ = 1 := mul_eq_one_comm.mp h.orth

theorem IsQR.WW (h : IsQR P Q R) : (Wof Q)ᵀ * Wof Q = 1 := by
  ext a b
  rw [Matrix.mul_apply, Matrix.one_apply]
  simp only [Wof, transpose_apply, submatrix_apply, id]
  rw [h.orth_apply]
  simp

theorem IsQR.Q1Q1 (h : IsQR P Q R) : (Q1of Q)ᵀ * Q1of Q = 1 := by
  ext a b
  rw [Matrix.mul_apply, Matrix.one_apply]
  simp only [Q1of, transpose_apply, submatrix_apply, id]
  rw [h.orth_apply]
  simp

theorem IsQR.WQ1 (h : IsQR P Q R) : (Wof Q)ᵀ * Q1of Q = 0 := by
  ext a b
  rw [Matrix.mul_apply, Matrix.zero_apply]
  simp only [Q1of, Wof, transpose_apply, submatrix_apply, id]
  rw [h.orth_apply, if_neg]
  intro hab
  have := congrArg Fin.val hab
  simp at this
  omega

theorem IsQR.P_eq (h : IsQR P Q R) : P = Q1of Q * Rof R := by
  ext i j
  have := congrFun (congrFun h.mul i) j
  rw [← this, Matrix.mul_apply, Matrix.mul_apply, Fin.sum_univ_add]
  have h0 : ∑ k : Fin r, Q i (Fin.natAdd q k) * R (Fin.natAdd q k) j = 0 := by
    refine Finset.sum_eq_zero fun k _ => ?_
    rw [h.upper _ _ (by simp; omega), mul_zero]
  rw [h0, add_zero]
  rfl

theorem IsQR.sum_proj (h : IsQR P Q R) : Q1of Q * (Q1of Q)ᵀ + Wof Q * (Wof Q)ᵀ = 1 := by
  rw [← h.orth']
  ext i j
  rw [Matrix.add_apply, Matrix.mul_apply, Matrix.mul_apply, Matrix.mul_apply, Fin.sum_univ_add]
  rfl

theorem Rof_unit (h : IsQR P Q R) (hP : FullRank P) : IsUnit (Rof R) := by
  apply isUnit_of_inj
  intro b hb
  apply hP
  rw [h.P_eq, ← mulVec_mulVec, hb, mulVec_zero]

theorem IsQR.contrast (h : IsQR P Q R) (hP : FullRank P) : IsContrast P (Wof Q) := by
  refine ⟨h.WW, ?_, ?_⟩
  · rw [h.P_eq, transpose_mul, Matrix.mul_assoc]
    have : (Q1of Q)ᵀ * Wof Q = ((Wof Q)ᵀ * Q1of Q)ᵀ := by rw [transpose_mul, transpose_transpose]
    rw [this, h.WQ1, transpose_zero, Matrix.mul_zero]
  · intro z hz
    have hR : IsUnit (Rof R)ᵀ := by
      rw [Matrix.isUnit_iff_isUnit_det, det_transpose, ← Matrix.isUnit_iff_isUnit_det]
      exact Rof_unit h hP
    have h1 : (Q1of Q)ᵀ *ᵥ z = 0 := by
      have h2 : (Rof R)ᵀ *ᵥ ((Q1of Q)ᵀ *ᵥ z) = 0 := by
        rw [mulVec_mulVec, ← transpose_mul, ← h.P_eq, hz]
      have h3 := Matrix.mulVec_injective_iff_isUnit.mpr hR
      apply h3
      simp only [mulVec_zero]
      exact h2
    refine ⟨(Wof Q)ᵀ *ᵥ z, ?_⟩
    have h4 : (1 : Mat (q + r) (q + r)) *ᵥ z = z := one_mulVec z
    rw [← h.sum_proj, add_mulVec, ← mulVec_mulVec, h1, mulVec_zero, zero_add, ← mulVec_mulVec] at h4
    exact h4.symm

end QR

/-- Conditional positive definiteness: symmetric and positive on contrasts. -/
structure CPD {n q : ℕ} (K : Mat n n) (P : Mat n q) : Prop where
  symm : Kᵀ = K
  pos : ∀ z : Fin n → ℝ, z ≠ 0 → Pᵀ *ᵥ z = 0 → 0 < z ⬝ᵥ (K *ᵥ z)

theorem CPD.of_posDef {n q : ℕ} {K : Mat n n} (h : K.PosDef) (P : Mat n q) : CPD K P :=
  ⟨PosDef.symm h, fun _ hz _ => PosDef.quad_pos h hz⟩

theorem contrast_inj {q r : ℕ} {P : Mat (q + r) q} {W : Mat (q + r) r} (hW : Wᵀ * W = 1)
    {c : Fin r → ℝ} (h : W *ᵥ c = 0) : c = 0 := by
  have : Wᵀ *ᵥ (W *ᵥ c) = c := by rw [mulVec_mulVec, hW, one_mulVec]
  rw [← this, h, mulVec_zero]

theorem contrast_posDef {q r : ℕ} {P : Mat (q + r) q} {W : Mat (q + r) r} {K : Mat (q + r) (q + r)}
    (hW : Wᵀ * W = 1) (hN : Pᵀ * W = 0) (hK : CPD K P) : (Wᵀ * (K * W)).PosDef := by
  apply posDef_of_quad
  · rw [transpose_mul, transpose_mul, transpose_transpose, hK.symm, Matrix.mul_assoc]
  · intro c hc
    have h1 : c ⬝ᵥ ((Wᵀ * (K * W)) *ᵥ c) = (W *ᵥ c) ⬝ᵥ (K *ᵥ (W *ᵥ c)) := by
      rw [← mulVec_mulVec, ← mulVec_mulVec, dot_mulVec_transpose, transpose_transpose]
    rw [h1]
    apply hK.pos
    · intro h; exact hc (contrast_inj (P := P) hW h)
    · rw [mulVec_mulVec, hN, zero_mulVec]

end Verif.Core
