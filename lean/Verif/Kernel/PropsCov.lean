import Verif.Kernel.PropsMatern
import Mathlib.LinearAlgebra.Matrix.Symmetric

/-!
# C25: covariance wrapper; C77: numpy and torch distances agree
-/

set_option autoImplicit false

namespace Verif.Kernel

open Verif Finset

variable {n m d : ℕ}

/-- Anisotropic distance `√Σ ((x_k - y_k)/ρ_k)²` (`ρ_k = exp(-loginvrho_k)`). -/
noncomputable def anisoDist (rho x y : Fin d → ℝ) : ℝ :=
  Real.sqrt (∑ k, ((x k - y k) / rho k) ^ 2)

theorem scaledDistance_spec (l x y : Fin d → ℝ) :
    scaledDistance l x y = anisoDist (fun k => Real.exp (-l k)) x y := by
  unfold scaledDistance cdistNumpy anisoDist scaleRow
  congr 1
  refine Finset.sum_congr rfl fun k _ => ?_
  simp only [Real.exp_neg]
  field_simp

theorem scaledDistance_self (l x : Fin d → ℝ) : scaledDistance l x x = 0 := by
  simp [scaledDistance, cdistNumpy]

theorem scaledDistance_comm (l x y : Fin d → ℝ) : scaledDistance l x y = scaledDistance l y x := by
  rw [scaledDistance_spec, scaledDistance_spec]
  unfold anisoDist
  congr 1
  refine Finset.sum_congr rfl fun k _ => ?_
  ring

theorem scaledDistance_nonneg (l x y : Fin d → ℝ) : 0 ≤ scaledDistance l x y := Real.sqrt_nonneg _

theorem scaledDistance_eq_zero (l x y : Fin d → ℝ) : scaledDistance l x y = 0 ↔ x = y := by
  constructor
  · intro h
    rw [scaledDistance_spec, anisoDist, Real.sqrt_eq_zero (Finset.sum_nonneg fun k _ => sq_nonneg _),
      Finset.sum_eq_zero_iff_of_nonneg (fun k _ => sq_nonneg _)] at h
    funext k
    have := h k (mem_univ k)
    have h2 : (x k - y k) / Real.exp (-l k) = 0 := by simpa using this
    rcases div_eq_zero_iff.mp h2 with h3 | h3
    · linarith
    · exact absurd h3 (Real.exp_pos _).ne'
  · rintro rfl
    exact scaledDistance_self l x

/-- **C77** In exact arithmetic torch's expanded-square distance is the Euclidean
one, whether or not the two arguments are the same object (the diagonal is only
forced to zero where it is zero). -/
theorem scaledDistance_backends (l x y : Fin d → ℝ) :
    scaledDistanceTorch false l x y = scaledDistance l x y ∧
    scaledDistanceTorch true l x x = scaledDistance l x x := by
  constructor
  · unfold scaledDistanceTorch scaledDistance cdistTorch cdistNumpy customSqrt
    simp only [Bool.false_eq_true, if_false]
    set a := scaleRow l x
    set b := scaleRow l y
    have h : (∑ k, a k ^ 2) + (∑ k, b k ^ 2) - 2 * ∑ k, a k * b k = ∑ k, (a k - b k) ^ 2 := by
      rw [Finset.mul_sum, ← Finset.sum_add_distrib, ← Finset.sum_sub_distrib]
      exact Finset.sum_congr rfl fun k _ => by ring
    rw [h, max_eq_left (Finset.sum_nonneg fun k _ => sq_nonneg _)]
    split
    · rename_i h0; rw [h0, Real.sqrt_zero]
    · rfl
  · rw [scaledDistance_self]
    rfl

theorem scaledDistanceElt_eq (l x y : Fin d → ℝ) :
    scaledDistanceElt false l x y = scaledDistance l x y := by
  unfold scaledDistanceElt scaledDistance cdistNumpy scaleRow
  simp only [Bool.false_eq_true, if_false]
  congr 1
  refine Finset.sum_congr rfl fun k _ => ?_
  ring

/-- **C25** The covariance of a point set with itself (second argument `None` or
the same object): symmetric, diagonal `σ²(1+10ε)`, off the diagonal `σ²` times
the Matérn kernel of the scaled distance, which lies in `(0, σ²]`, strictly below
`σ²` for distinct points. -/
theorem cov_self (p : ℕ) (eps : ℝ) (param : Fin (d + 1) → ℝ) (x : Matrix (Fin n) (Fin d) ℝ)
    (y : YArg n d) (hy : y = .none ∨ y = .same) :
    (cov (maternFormula p) eps param x y).IsSymm ∧
    (∀ i, cov (maternFormula p) eps param x y i i = Real.exp (param 0) * (1 + 10 * eps)) ∧
    (∀ i j, i ≠ j → cov (maternFormula p) eps param x y i j = Real.exp (param 0) *
      maternFormula p (anisoDist (fun k => Real.exp (-param k.succ)) (x i) (x j))) ∧
    (∀ i j, i ≠ j → 0 < cov (maternFormula p) eps param x y i j ∧
      cov (maternFormula p) eps param x y i j ≤ Real.exp (param 0)) ∧
    (∀ i j, x i ≠ x j → cov (maternFormula p) eps param x y i j < Real.exp (param 0)) := by
  have hc : cov (maternFormula p) eps param x y = covII (maternFormula p) eps param x := by
    rcases hy with rfl | rfl <;> rfl
  rw [hc]
  obtain ⟨k0, kpos, kanti, klt⟩ := maternFormula_shape_props p
  have hoff : ∀ i j, i ≠ j → covII (maternFormula p) eps param x i j = Real.exp (param 0) *
      maternFormula p (scaledDistance (fun k => param k.succ) (x i) (x j)) := by
    intro i j hij
    simp [covII, hij]
  have hle : ∀ h, 0 ≤ h → maternFormula p h ≤ 1 := by
    intro h hh
    rcases hh.eq_or_lt with rfl | h1
    · exact k0.le
    · exact (klt h h1).le
  have he := Real.exp_pos (param 0)
  refine ⟨?_, ?_, ?_, ?_, ?_⟩
  · ext i j
    simp only [Matrix.transpose_apply, covII, Matrix.of_apply]
    rw [scaledDistance_comm]
    by_cases hij : i = j
    · simp [hij]
    · rw [if_neg hij, if_neg (Ne.symm hij)]
  · intro i
    simp only [covII, Matrix.of_apply, scaledDistance_self, k0, if_true]
    ring
  · intro i j hij
    rw [hoff i j hij, scaledDistance_spec]
  · intro i j hij
    rw [hoff i j hij]
    have h1 := kpos _ (scaledDistance_nonneg (fun k => param k.succ) (x i) (x j))
    have h2 := hle _ (scaledDistance_nonneg (fun k => param k.succ) (x i) (x j))
    exact ⟨mul_pos he h1, by nlinarith⟩
  · intro i j hij
    have hne : i ≠ j := fun h => hij (by rw [h])
    rw [hoff i j hne]
    have h0 : 0 < scaledDistance (fun k => param k.succ) (x i) (x j) :=
      lt_of_le_of_ne (scaledDistance_nonneg _ _ _)
        (fun h => hij ((scaledDistance_eq_zero _ _ _).mp h.symm))
    have := klt _ h0
    nlinarith

/-- **C25** Against another object there is no nugget, even if it holds the same
points: passing a copy of `x` changes the result by exactly `10 ε σ²` on the
diagonal. -/
theorem cov_copy (p : ℕ) (eps : ℝ) (param : Fin (d + 1) → ℝ) (x : Matrix (Fin n) (Fin d) ℝ) :
    cov (maternFormula p) eps param x .same =
      cov (maternFormula p) eps param x (.other x) +
        (10 * eps * Real.exp (param 0)) • (1 : Matrix (Fin n) (Fin n) ℝ) := by
  ext i j
  simp only [cov, covII, covIT, Matrix.of_apply, Matrix.add_apply, Matrix.smul_apply,
    Matrix.one_apply, smul_eq_mul]
  ring

/-- **C25** Cross covariances: swapping the two point sets transposes. -/
theorem covIT_transpose (k : ℝ → ℝ) (param : Fin (d + 1) → ℝ) (x : Matrix (Fin n) (Fin d) ℝ)
    (y : Matrix (Fin m) (Fin d) ℝ) : (covIT k param x y).transpose = covIT k param y x := by
  ext i j
  simp only [covIT, Matrix.transpose_apply, Matrix.of_apply]
  rw [scaledDistance_comm]

/-- **C25** The pairwise form is the diagonal of the full form when the second
argument is another object, and the diagonal without the nugget otherwise. -/
theorem cov_pairwise (p : ℕ) (eps : ℝ) (param : Fin (d + 1) → ℝ) (x : Matrix (Fin n) (Fin d) ℝ)
    (i : Fin n) :
    (∀ y, covPairwise (maternFormula p) param x (.other y) i =
      cov (maternFormula p) eps param x (.other y) i i) ∧
    (∀ y, y = .none ∨ y = .same → covPairwise (maternFormula p) param x y i =
      cov (maternFormula p) eps param x y i i - 10 * eps * Real.exp (param 0)) := by
  constructor
  · intro y
    simp only [covPairwise, covITPairwise, cov, covIT, Matrix.of_apply, scaledDistanceElt_eq]
  · intro y hy
    rw [(cov_self p eps param x y hy).2.1 i]
    rcases hy with rfl | rfl <;> simp only [covPairwise, covIIPairwise] <;> ring

/-- A concrete two-point set meeting the hypotheses. -/
example : (Matrix.of ![![(0 : ℝ)], ![1]] : Matrix (Fin 2) (Fin 1) ℝ) 0 ≠
    (Matrix.of ![![(0 : ℝ)], ![1]] : Matrix (Fin 2) (Fin 1) ℝ) 1 := by
  intro h
  have := congrFun h 0
  norm_num at this

end Verif.Kernel
