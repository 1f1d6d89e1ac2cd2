import Verif.Kernel.MaternInt
import Verif.Kernel.GaussPD
import Verif.Kernel.PropsCov

/-!
# C118: Matérn covariance matrices are positive definite
-/

set_option autoImplicit false

namespace Verif.PD

open MeasureTheory Set Matrix
open Verif.Core
open Verif.Kernel (shape)

variable {ι κ : Type} [Fintype ι] [DecidableEq ι] [Fintype κ]

theorem bump_gauss (r s : ℝ) (hr : 0 ≤ r) :
    bump (Real.sqrt r / 2) s = Real.exp (-s ^ 2) * Real.exp (-r / (4 * s ^ 2)) := by
  unfold bump
  rw [← Real.exp_add, div_pow, Real.sq_sqrt hr]
  congr 1
  by_cases hs : s = 0
  · simp [hs]
  · field_simp
    ring

/-- The quadratic form of a Matérn kernel is a mixture of Gaussian ones. -/
theorem shape_quad (p : ℕ) (a : ι → κ → ℝ) (x : ι → ℝ) :
    IntegrableOn (fun s : ℝ => s ^ (2 * p) * Real.exp (-s ^ 2) *
        ∑ i, ∑ j, x i * x j * Real.exp (-sq (a i) (a j) / (4 * s ^ 2))) (Ioi 0) ∧
    mixConst p * ∑ i, ∑ j, x i * x j * shape p (Real.sqrt (sq (a i) (a j))) =
      ∫ s in Ioi (0 : ℝ), s ^ (2 * p) * Real.exp (-s ^ 2) *
        ∑ i, ∑ j, x i * x j * Real.exp (-sq (a i) (a j) / (4 * s ^ 2)) := by
  have he : (fun s : ℝ => s ^ (2 * p) * Real.exp (-s ^ 2) *
        ∑ i, ∑ j, x i * x j * Real.exp (-sq (a i) (a j) / (4 * s ^ 2))) =
      fun s : ℝ => ∑ i, ∑ j, x i * x j *
        (s ^ (2 * p) * bump (Real.sqrt (sq (a i) (a j)) / 2) s) := by
    funext s
    simp only [Finset.mul_sum]
    refine Finset.sum_congr rfl fun i _ => Finset.sum_congr rfl fun j _ => ?_
    rw [bump_gauss _ _ (sq_nonneg' _ _)]
    ring
  have hi : ∀ i j, IntegrableOn (fun s : ℝ => x i * x j *
        (s ^ (2 * p) * bump (Real.sqrt (sq (a i) (a j)) / 2) s)) (Ioi 0) :=
    fun i j => (moment_integrable _ _).const_mul _
  rw [he]
  constructor
  · exact integrable_finsetSum _ fun i _ => integrable_finsetSum _ fun j _ => hi i j
  · rw [integral_finsetSum _ fun i _ => integrable_finsetSum _ fun j _ => hi i j, Finset.mul_sum]
    refine Finset.sum_congr rfl fun i _ => ?_
    rw [integral_finsetSum _ fun j _ => hi i j, Finset.mul_sum]
    refine Finset.sum_congr rfl fun j _ => ?_
    rw [integral_const_mul, ← shape_mixture p _ (Real.sqrt_nonneg _)]
    ring

/-- Matérn kernels are positive semidefinite. -/
theorem shape_quad_nonneg (p : ℕ) (a : ι → κ → ℝ) (x : ι → ℝ) :
    0 ≤ ∑ i, ∑ j, x i * x j * shape p (Real.sqrt (sq (a i) (a j))) := by
  have h := (shape_quad p a x).2
  have h2 : 0 ≤ mixConst p * ∑ i, ∑ j, x i * x j * shape p (Real.sqrt (sq (a i) (a j))) := by
    rw [h]
    refine setIntegral_nonneg measurableSet_Ioi fun s hs => ?_
    have hs' : (0 : ℝ) < s := hs
    exact mul_nonneg (by positivity) (gauss_quad_nonneg a (by positivity) x)
  exact nonneg_of_mul_nonneg_right h2 (mixConst_pos p)

/-- Matérn kernels are strictly positive definite on distinct points. -/
theorem shape_quad_pos (p : ℕ) (a : ι → κ → ℝ) (ha : Function.Injective a) {x : ι → ℝ}
    (hx : x ≠ 0) : 0 < ∑ i, ∑ j, x i * x j * shape p (Real.sqrt (sq (a i) (a j))) := by
  obtain ⟨hI, h⟩ := shape_quad p a x
  have hpos : ∀ s ∈ Ioi (0 : ℝ), 0 < s ^ (2 * p) * Real.exp (-s ^ 2) *
      ∑ i, ∑ j, x i * x j * Real.exp (-sq (a i) (a j) / (4 * s ^ 2)) := by
    intro s hs
    have hs' : (0 : ℝ) < s := hs
    exact mul_pos (by positivity) (gauss_quad_pos a ha (by positivity) hx)
  have h2 : 0 < mixConst p * ∑ i, ∑ j, x i * x j * shape p (Real.sqrt (sq (a i) (a j))) := by
    rw [h, setIntegral_pos_iff_support_of_nonneg_ae]
    · have : (Function.support fun s : ℝ => s ^ (2 * p) * Real.exp (-s ^ 2) *
          ∑ i, ∑ j, x i * x j * Real.exp (-sq (a i) (a j) / (4 * s ^ 2))) ∩ Ioi 0 = Ioi 0 :=
        inter_eq_right.mpr fun s hs => (hpos s hs).ne'
      rw [this]
      simp
    · exact (ae_restrict_mem measurableSet_Ioi).mono fun s hs => (hpos s hs).le
    · exact hI
  exact (mul_pos_iff_of_pos_left (mixConst_pos p)).mp h2

end Verif.PD

namespace Verif.Kernel

open Matrix Verif.Core Verif.PD

variable {d n m : ℕ} {ι : Type} [Fintype ι] [DecidableEq ι]

/-- A point in the coordinates in which the kernel is isotropic with unit scale. -/
noncomputable def embed (p : ℕ) (l x : Fin d → ℝ) : Fin d → ℝ :=
  fun k => 2 * Real.sqrt (p + 1 / 2) * (Real.exp (l k) * x k)

theorem embed_inj (p : ℕ) (l : Fin d → ℝ) : Function.Injective (embed p l) := by
  intro x y h
  funext k
  have := congrFun h k
  simp only [embed] at this
  have hc : 2 * Real.sqrt ((p : ℝ) + 1 / 2) ≠ 0 := by positivity
  exact mul_left_cancel₀ (Real.exp_pos _).ne' (mul_left_cancel₀ hc this)

theorem matern_embed (p : ℕ) (l x y : Fin d → ℝ) :
    maternFormula p (scaledDistance l x y) =
      shape p (Real.sqrt (PD.sq (embed p l x) (embed p l y))) := by
  rw [maternFormula_shape]
  congr 1
  unfold scaledDistance cdistNumpy PD.sq embed scaleRow
  have hc : 0 ≤ 2 * Real.sqrt ((p : ℝ) + 1 / 2) := by positivity
  have : ∀ k, (2 * Real.sqrt ((p : ℝ) + 1 / 2) * (Real.exp (l k) * x k) -
      2 * Real.sqrt ((p : ℝ) + 1 / 2) * (Real.exp (l k) * y k)) ^ 2 =
      (2 * Real.sqrt ((p : ℝ) + 1 / 2)) ^ 2 * (Real.exp (l k) * x k - Real.exp (l k) * y k) ^ 2 := by
    intro k; ring
  simp only [this]
  rw [← Finset.mul_sum, Real.sqrt_mul (sq_nonneg _), Real.sqrt_sq hc]

/-- The kernel matrix of a family of points. -/
noncomputable def kernelMat (p : ℕ) (l : Fin d → ℝ) (x : ι → Fin d → ℝ) : Matrix ι ι ℝ :=
  Matrix.of fun i j => maternFormula p (scaledDistance l (x i) (x j))

omit [Fintype ι] [DecidableEq ι] in
theorem kernelMat_symm (p : ℕ) (l : Fin d → ℝ) (x : ι → Fin d → ℝ) :
    (kernelMat p l x)ᵀ = kernelMat p l x := by
  ext i j
  simp only [kernelMat, transpose_apply, of_apply]
  rw [scaledDistance_comm]

omit [DecidableEq ι] in
theorem kernelMat_quad (p : ℕ) (l : Fin d → ℝ) (x : ι → Fin d → ℝ) (v : ι → ℝ) :
    v ⬝ᵥ (kernelMat p l x *ᵥ v) = ∑ i, ∑ j, v i * v j *
      shape p (Real.sqrt (PD.sq (embed p l (x i)) (embed p l (x j)))) := by
  simp only [dotProduct, mulVec, kernelMat, of_apply, Finset.mul_sum, matern_embed]
  refine Finset.sum_congr rfl fun i _ => Finset.sum_congr rfl fun j _ => ?_
  ring

/-- **C118** For every order, scale and point set the Matérn correlation matrix is positive
semidefinite. -/
theorem matern_posSemidef (p : ℕ) (l : Fin d → ℝ) (x : ι → Fin d → ℝ) :
    (kernelMat p l x).PosSemidef := by
  refine posSemidef_of_quad (kernelMat_symm p l x) fun v => ?_
  rw [kernelMat_quad]
  exact shape_quad_nonneg p (fun i => embed p l (x i)) v

/-- **C118** On distinct points it is positive definite. -/
theorem matern_posDef (p : ℕ) (l : Fin d → ℝ) (x : ι → Fin d → ℝ) (hx : Function.Injective x) :
    (kernelMat p l x).PosDef := by
  refine posDef_of_quad (kernelMat_symm p l x) fun v hv => ?_
  rw [kernelMat_quad]
  exact shape_quad_pos p (fun i => embed p l (x i)) ((embed_inj p l).comp hx) hv

theorem covII_eq (p : ℕ) (eps : ℝ) (param : Fin (d + 1) → ℝ) (x : Matrix (Fin n) (Fin d) ℝ) :
    covII (maternFormula p) eps param x =
      Real.exp (param 0) • kernelMat p (fun k => param k.succ) x +
        (10 * Real.exp (param 0) * eps) • (1 : Matrix (Fin n) (Fin n) ℝ) := by
  ext i j
  simp only [covII, kernelMat, of_apply, Matrix.add_apply, Matrix.smul_apply, Matrix.one_apply,
    smul_eq_mul]

/-- **C118** `maternp_covariance(x, x)` is positive definite for distinct points, with or
without nugget. -/
theorem cov_posDef (p : ℕ) (eps : ℝ) (he : 0 ≤ eps) (param : Fin (d + 1) → ℝ)
    (x : Matrix (Fin n) (Fin d) ℝ) (y : YArg n d) (hy : y = .none ∨ y = .same)
    (hx : Function.Injective x) : (cov (maternFormula p) eps param x y).PosDef := by
  have hc : cov (maternFormula p) eps param x y = covII (maternFormula p) eps param x := by
    rcases hy with rfl | rfl <;> rfl
  rw [hc, covII_eq]
  refine ((matern_posDef p _ x hx).smul (Real.exp_pos _)).add_posSemidef ?_
  exact Matrix.PosSemidef.one.smul (by positivity)

/-- **C118** With a positive nugget it is positive definite for all points, repeated or not. -/
theorem cov_posDef_nugget (p : ℕ) (eps : ℝ) (he : 0 < eps) (param : Fin (d + 1) → ℝ)
    (x : Matrix (Fin n) (Fin d) ℝ) (y : YArg n d) (hy : y = .none ∨ y = .same) :
    (cov (maternFormula p) eps param x y).PosDef := by
  have hc : cov (maternFormula p) eps param x y = covII (maternFormula p) eps param x := by
    rcases hy with rfl | rfl <;> rfl
  rw [hc, covII_eq, add_comm]
  refine (Matrix.PosDef.one.smul (by positivity)).add_posSemidef ?_
  exact (matern_posSemidef p _ x).smul (Real.exp_pos _).le

/-- **C118** Without nugget repeated points make it singular. -/
theorem cov_repeated_singular (p : ℕ) (param : Fin (d + 1) → ℝ) (x : Matrix (Fin n) (Fin d) ℝ)
    (i j : Fin n) (hij : i ≠ j) (h : x i = x j) :
    ¬ (cov (maternFormula p) 0 param x .none).PosDef := by
  intro hp
  have hv : (Pi.single i 1 - Pi.single j 1 : Fin n → ℝ) ≠ 0 := by
    intro e
    have := congrFun e i
    simp [hij] at this
  have hq := PosDef.quad_pos hp hv
  have hz : cov (maternFormula p) 0 param x .none *ᵥ (Pi.single i 1 - Pi.single j 1) = 0 := by
    rw [mulVec_sub, mulVec_single_one, mulVec_single_one]
    ext k
    simp [cov, covII, h]
  rw [hz, dotProduct_zero] at hq
  exact lt_irrefl _ hq

/-- The matrix with rows `x` above rows `y`. -/
def stack (x : Matrix (Fin n) (Fin d) ℝ) (y : Matrix (Fin m) (Fin d) ℝ) :
    Fin n ⊕ Fin m → Fin d → ℝ
  | .inl i => x i
  | .inr j => y j

/-- **C118** The joint covariance of observations and targets is positive semidefinite. -/
theorem cov_joint (p : ℕ) (eps eps' : ℝ) (he : 0 ≤ eps) (he' : 0 ≤ eps') (param : Fin (d + 1) → ℝ)
    (x : Matrix (Fin n) (Fin d) ℝ) (y : Matrix (Fin m) (Fin d) ℝ) :
    (Matrix.fromBlocks (covII (maternFormula p) eps param x) (covIT (maternFormula p) param x y)
      (covIT (maternFormula p) param x y)ᵀ (covII (maternFormula p) eps' param y)).PosSemidef := by
  have h : Matrix.fromBlocks (covII (maternFormula p) eps param x)
      (covIT (maternFormula p) param x y) (covIT (maternFormula p) param x y)ᵀ
      (covII (maternFormula p) eps' param y) =
      Real.exp (param 0) • kernelMat p (fun k => param k.succ) (stack x y) +
        Matrix.diagonal (Sum.elim (fun _ => 10 * Real.exp (param 0) * eps)
          fun _ => 10 * Real.exp (param 0) * eps') := by
    rw [covIT_transpose]
    ext i j
    rcases i with i | i <;> rcases j with j | j <;>
      simp [covII, covIT, kernelMat, stack, Matrix.diagonal_apply]
  rw [h]
  refine ((matern_posSemidef p _ _).smul (Real.exp_pos _).le).add ?_
  refine Matrix.PosSemidef.diagonal ?_
  intro i
  rcases i with i | i <;> simp only [Sum.elim_inl, Sum.elim_inr, Pi.zero_apply] <;> positivity

/-- Three points on a line meet the hypothesis. -/
example : (cov (maternFormula 2) 0 ![0, 1] (Matrix.of ![![(0 : ℝ)], ![1], ![3]]) .none).PosDef :=
  cov_posDef 2 0 le_rfl _ _ _ (Or.inl rfl) (by
    intro i j h
    have := congrFun h 0
    fin_cases i <;> fin_cases j <;> simp_all)

end Verif.Kernel
