import Verif.Core.Lemmas
import Mathlib.Analysis.InnerProductSpace.GramSchmidtOrtho
import Mathlib.Analysis.InnerProductSpace.PiL2
import Mathlib.Analysis.Matrix.PosDef
import Mathlib.Analysis.Matrix.Order

/-!
# The contract on the external linear-algebra routines is satisfiable

Existence of complete QR factorisations (Gram–Schmidt) and of Cholesky factors.
-/

set_option autoImplicit false

namespace Verif.Core

open Verif Verif.Data Matrix

theorem exists_qr {n q : ℕ} (P : Mat n q) (hq : q ≤ n) : ∃ Q R, IsQR P Q R := by
  classical
  let f : Fin n → EuclideanSpace ℝ (Fin n) := fun j =>
    if h : (j : ℕ) < q then WithLp.toLp 2 (fun i => P i ⟨j, h⟩) else 0
  have hd : Module.finrank ℝ (EuclideanSpace ℝ (Fin n)) = Fintype.card (Fin n) := by simp
  let b := InnerProductSpace.gramSchmidtOrthonormalBasis hd f
  let Q : Mat n n := Matrix.of fun i j => b j i
  have hQ : Qᵀ * Q = 1 := by
    ext i j
    have := orthonormal_iff_ite.mp b.orthonormal i j
    rw [Matrix.mul_apply, Matrix.one_apply, ← this]
    simp [Q, PiLp.inner_apply, mul_comm]
  refine ⟨Q, Qᵀ * P, hQ, ?_, ?_⟩
  · intro i j hij
    let j' : Fin n := ⟨j, by omega⟩
    have hlt : j' < i := by simpa [Fin.lt_def, j'] using hij
    have h1 := InnerProductSpace.gramSchmidtOrthonormalBasis_inv_triangular hd f hlt
    rw [Matrix.mul_apply]
    have hf : f j' = WithLp.toLp 2 (fun i => P i j) := by
      simp only [f, j']
      rw [dif_pos j.2]
    rw [hf] at h1
    rw [← h1]
    simp [Q, b, PiLp.inner_apply, mul_comm]
  · rw [← Matrix.mul_assoc, mul_eq_one_comm.mp hQ, Matrix.one_mul]

open scoped MatrixOrder in
theorem exists_sqrt {n : ℕ} {A : Mat n n} (hA : A.PosSemidef) : ∃ S : Mat n n, A = Sᵀ * S := by
  obtain ⟨S, hS⟩ := CStarAlgebra.nonneg_iff_eq_star_mul_self.mp hA.nonneg
  refine ⟨S, ?_⟩
  rw [hS, star_eq_conjTranspose, conjTranspose_eq_transpose_of_trivial]

theorem exists_chol {n : ℕ} (A : Mat n n) (hA : A.PosDef) : ∃ C, IsChol A C := by
  obtain ⟨S, hS⟩ := exists_sqrt hA.posSemidef
  obtain ⟨Q, R, h⟩ := exists_qr S (le_refl n)
  have hRR : Rᵀ * R = A := by
    rw [hS, ← h.mul, transpose_mul, Matrix.mul_assoc, ← Matrix.mul_assoc Qᵀ, h.orth, Matrix.one_mul]
  have hdet : R.det ≠ 0 := by
    intro h0
    have := PosDef.det_unit hA
    rw [← hRR, det_mul, h0, mul_zero] at this
    exact this.ne_zero rfl
  have hd : R.det = ∏ i, R i i := det_of_upperTriangular (fun i j hij => h.upper i j hij)
  have hne : ∀ i, R i i ≠ 0 := fun i h0 =>
    hdet (by rw [hd]; exact Finset.prod_eq_zero (Finset.mem_univ i) h0)
  let s : Fin n → ℝ := fun i => if 0 < R i i then 1 else -1
  have hs : ∀ i, s i * s i = 1 := by
    intro i; simp only [s]; split <;> norm_num
  refine ⟨(Matrix.diagonal s * R)ᵀ, ?_, ?_, ?_⟩
  · intro i j hij
    rw [transpose_apply, diagonal_mul, h.upper j i hij, mul_zero]
  · intro i
    rw [transpose_apply, diagonal_mul]
    simp only [s]
    split
    · linarith
    · have := lt_of_le_of_ne (not_lt.mp ‹_›) (hne i)
      linarith
  · rw [transpose_transpose, transpose_mul, diagonal_transpose, Matrix.mul_assoc,
      ← Matrix.mul_assoc (diagonal s), diagonal_mul_diagonal]
    simp only [hs]
    have h1 : (diagonal fun _ : Fin n => (1 : ℝ)) = 1 := diagonal_one
    rw [h1, Matrix.one_mul, hRR]

open Classical in
/-- Idealised routines, by choice. -/
noncomputable def exactLA (be : Backend) : LA where
  chol A := if h : A.PosDef then .ok (exists_chol A h).choose else .error .linAlgError
  solve A B := if IsUnit A then .ok (A⁻¹ * B) else .error .linAlgError
  solveSym A B := if IsUnit (symSystem be A) then .ok ((symSystem be A)⁻¹ * B)
    else .error .linAlgError
  qr {n q} P := if h : q ≤ n then ((exists_qr P h).choose, (exists_qr P h).choose_spec.choose)
    else (1, P)
  inv A := if IsUnit A then .ok A⁻¹ else .error .linAlgError

/-- The contract is satisfiable, for both backends. -/
theorem exactLA_contract (be : Backend) : (exactLA be).Contract be where
  chol_ok A h := ⟨(exists_chol A h).choose, by simp [exactLA, h], (exists_chol A h).choose_spec⟩
  chol_err A _ h := by simp [exactLA, h]
  solve_ok A B X h := by
    simp only [exactLA] at h
    split at h
    · rename_i hA
      cases h
      rw [← Matrix.mul_assoc, Matrix.mul_nonsing_inv _ ((Matrix.isUnit_iff_isUnit_det A).mp hA),
        Matrix.one_mul]
    · cases h
  solve_total A B h := ⟨A⁻¹ * B, by simp [exactLA, h]⟩
  solveSym_ok A B X h := by
    simp only [exactLA] at h
    split at h
    · rename_i hA
      cases h
      rw [← Matrix.mul_assoc, Matrix.mul_nonsing_inv _ ((Matrix.isUnit_iff_isUnit_det _).mp hA),
        Matrix.one_mul]
    · cases h
  solveSym_total A B h := ⟨(symSystem be A)⁻¹ * B, by simp [exactLA, h]⟩
  qr_ok {n q} P h := by
    simp only [exactLA, h, dif_pos]
    exact (exists_qr P h).choose_spec.choose_spec
  inv_ok A h := by simp [exactLA, h]
  inv_err A h := by simp [exactLA, h]

end Verif.Core
