import Verif.Core.Lemmas
import Mathlib.Analysis.Matrix.Order
import Mathlib.Analysis.Normed.Algebra.Exponential
import Mathlib.Analysis.SpecialFunctions.Exponential
import Mathlib.Analysis.SpecialFunctions.Exp
import Mathlib.LinearAlgebra.Matrix.Hadamard
import Mathlib.LinearAlgebra.Lagrange
import Mathlib.Algebra.Order.Chebyshev

/-!
# Gaussian kernels are positive definite

Mathematics used by the kernel theorems; no gpmp code is modelled here.
-/

set_option autoImplicit false

namespace Verif.PD

open Verif.Core Matrix

variable {ι κ : Type} [Fintype ι] [DecidableEq ι] [Fintype κ]

/-- Inner product. -/
def dot (a b : κ → ℝ) : ℝ := ∑ c, a c * b c

/-- Squared distance. -/
def sq (a b : κ → ℝ) : ℝ := ∑ c, (a c - b c) ^ 2

theorem dot_comm (a b : κ → ℝ) : dot a b = dot b a :=
  Finset.sum_congr rfl fun c _ => mul_comm _ _

theorem sq_expand (a b : κ → ℝ) : sq a b = dot a a + dot b b - 2 * dot a b := by
  unfold sq dot
  rw [Finset.mul_sum, ← Finset.sum_add_distrib, ← Finset.sum_sub_distrib]
  exact Finset.sum_congr rfl fun c _ => by ring

theorem sq_nonneg' (a b : κ → ℝ) : 0 ≤ sq a b := Finset.sum_nonneg fun c _ => sq_nonneg _

theorem sq_eq_zero' {a b : κ → ℝ} : sq a b = 0 ↔ a = b := by
  constructor
  · intro h
    rw [sq, Finset.sum_eq_zero_iff_of_nonneg fun c _ => sq_nonneg _] at h
    funext c
    exact sub_eq_zero.mp ((pow_eq_zero_iff two_ne_zero).mp (h c (Finset.mem_univ _)))
  · rintro rfl; simp [sq]

/-- Entrywise powers of a Gram matrix. -/
def gramPow (a : ι → κ → ℝ) (k : ℕ) : Matrix ι ι ℝ := Matrix.of fun i j => dot (a i) (a j) ^ k

theorem gram_psd (a : ι → κ → ℝ) : (gramPow a 1).PosSemidef := by
  refine posSemidef_of_quad ?_ ?_
  · ext i j; simp [gramPow, dot_comm]
  · intro x
    have : x ⬝ᵥ (gramPow a 1 *ᵥ x) = ∑ c, (∑ i, x i * a i c) ^ 2 := by
      simp only [dotProduct, mulVec, gramPow, Matrix.of_apply, pow_one, dot]
      simp only [sq, Finset.mul_sum, Finset.sum_mul]
      simp only [pow_two, Finset.mul_sum, Finset.sum_mul]
      rw [Finset.sum_congr rfl fun i _ => Finset.sum_comm, Finset.sum_comm]
      refine Finset.sum_congr rfl fun c _ => ?_
      rw [Finset.sum_comm]
      refine Finset.sum_congr rfl fun i _ => Finset.sum_congr rfl fun j _ => ?_
      ring
    rw [this]
    exact Finset.sum_nonneg fun c _ => sq_nonneg _

theorem gramPow_psd (a : ι → κ → ℝ) (k : ℕ) : (gramPow a k).PosSemidef := by
  induction k with
  | zero =>
    refine posSemidef_of_quad ?_ ?_
    · ext i j; simp [gramPow]
    · intro x
      have : x ⬝ᵥ (gramPow a 0 *ᵥ x) = (∑ i, x i) ^ 2 := by
        simp only [dotProduct, mulVec, gramPow, Matrix.of_apply, pow_zero, one_mul]
        rw [← Finset.sum_mul, pow_two]
      rw [this]; exact sq_nonneg _
  | succ k ih =>
    have : gramPow a (k + 1) = gramPow a k ⊙ gramPow a 1 := by
      ext i j; simp [gramPow, pow_succ]
    rw [this]
    exact ih.hadamard (gram_psd a)

/-- Quadratic form of the entrywise exponential of a Gram matrix, as a series. -/
theorem hasSum_exp (a : ι → κ → ℝ) (s : ℝ) (x : ι → ℝ) :
    HasSum (fun k : ℕ => s ^ k / k.factorial * (x ⬝ᵥ (gramPow a k *ᵥ x)))
      (∑ i, ∑ j, x i * x j * Real.exp (s * dot (a i) (a j))) := by
  have h : ∀ i j, HasSum (fun k : ℕ => x i * x j * ((s * dot (a i) (a j)) ^ k / k.factorial))
      (x i * x j * Real.exp (s * dot (a i) (a j))) := by
    intro i j
    have := NormedSpace.expSeries_div_hasSum_exp (𝔸 := ℝ) (s * dot (a i) (a j))
    rw [← Real.exp_eq_exp_ℝ] at this
    exact this.mul_left _
  have h2 := hasSum_sum (s := Finset.univ) fun i _ => hasSum_sum (s := Finset.univ) fun j _ => h i j
  refine h2.congr_fun ?_ |> fun h => h
  intro k
  simp only [dotProduct, mulVec, gramPow, Matrix.of_apply, Finset.mul_sum]
  refine Finset.sum_congr rfl fun i _ => Finset.sum_congr rfl fun j _ => ?_
  rw [mul_pow]
  ring

theorem gauss_factor (a : ι → κ → ℝ) (t : ℝ) (x : ι → ℝ) :
    (∑ i, ∑ j, x i * x j * Real.exp (-sq (a i) (a j) / t)) =
      ∑ i, ∑ j, (x i * Real.exp (-dot (a i) (a i) / t)) * (x j * Real.exp (-dot (a j) (a j) / t)) *
        Real.exp (2 / t * dot (a i) (a j)) := by
  refine Finset.sum_congr rfl fun i _ => Finset.sum_congr rfl fun j _ => ?_
  have : Real.exp (-sq (a i) (a j) / t) = Real.exp (-dot (a i) (a i) / t) *
      Real.exp (-dot (a j) (a j) / t) * Real.exp (2 / t * dot (a i) (a j)) := by
    rw [← Real.exp_add, ← Real.exp_add, sq_expand]
    congr 1; ring
  rw [this]; ring

/-- The Gaussian kernel is positive semidefinite. -/
theorem gauss_quad_nonneg (a : ι → κ → ℝ) {t : ℝ} (ht : 0 < t) (x : ι → ℝ) :
    0 ≤ ∑ i, ∑ j, x i * x j * Real.exp (-sq (a i) (a j) / t) := by
  rw [gauss_factor]
  refine (hasSum_exp a (2 / t) fun i => x i * Real.exp (-dot (a i) (a i) / t)).nonneg fun k => ?_
  exact mul_nonneg (by positivity) (PosSemidef.quad_nonneg (gramPow_psd a k) _)

/-- Inner products with a longest vector are smaller than its square. -/
theorem dot_lt {a b : κ → ℝ} (hab : a ≠ b) (h : dot b b ≤ dot a a) : dot a b < dot a a := by
  have h1 : 0 < sq a b := lt_of_le_of_ne (sq_nonneg' a b) fun e => hab (sq_eq_zero'.mp e.symm)
  rw [sq_expand] at h1
  linarith

/-- The Gaussian kernel is strictly positive definite on distinct points. -/
theorem gauss_quad_pos (a : ι → κ → ℝ) (ha : Function.Injective a) {t : ℝ} (ht : 0 < t)
    {x : ι → ℝ} (hx : x ≠ 0) : 0 < ∑ i, ∑ j, x i * x j * Real.exp (-sq (a i) (a j) / t) := by
  refine lt_of_le_of_ne (gauss_quad_nonneg a ht x) fun h0 => ?_
  rw [gauss_factor] at h0
  set u : ι → ℝ := fun i => x i * Real.exp (-dot (a i) (a i) / t) with hu
  have hs := hasSum_exp a (2 / t) u
  rw [← h0] at hs
  have hz := (hasSum_zero_iff_of_nonneg fun k => mul_nonneg (by positivity)
    (PosSemidef.quad_nonneg (gramPow_psd a k) u)).mp hs
  have hk : ∀ k, gramPow a k *ᵥ u = 0 := by
    intro k
    have h1 := congrFun hz k
    have h2 : u ⬝ᵥ (gramPow a k *ᵥ u) = 0 := by
      rcases mul_eq_zero.mp h1 with h | h
      · exact absurd h (by positivity)
      · exact h
    refine (gramPow_psd a k).dotProduct_mulVec_zero_iff u |>.mp ?_
    simpa [star_trivial] using h2
  -- polynomials
  have hp : ∀ (q : Polynomial ℝ) (i : ι), ∑ j, q.eval (dot (a i) (a j)) * u j = 0 := by
    intro q i
    simp only [Polynomial.eval_eq_sum_range, Finset.sum_mul]
    rw [Finset.sum_comm]
    refine Finset.sum_eq_zero fun k _ => ?_
    have := congrFun (hk k) i
    simp only [mulVec, dotProduct, gramPow, Matrix.of_apply, Pi.zero_apply] at this
    simp only [mul_assoc]
    rw [← Finset.mul_sum, this, mul_zero]
  -- a longest point of the support
  have hne : (Finset.univ.filter fun i => u i ≠ 0).Nonempty := by
    by_contra hc
    apply hx
    funext i
    by_contra hxi
    apply hc
    refine ⟨i, ?_⟩
    simp only [Finset.mem_filter, Finset.mem_univ, true_and, hu]
    exact mul_ne_zero hxi (Real.exp_pos _).ne'
  obtain ⟨i, hi, hmax⟩ := Finset.exists_max_image _ (fun i => dot (a i) (a i)) hne
  rw [Finset.mem_filter] at hi
  let q : Polynomial ℝ := ∏ j ∈ (Finset.univ.filter fun j => u j ≠ 0).erase i,
    (Polynomial.X - Polynomial.C (dot (a i) (a j)))
  have hq := hp q i
  rw [Finset.sum_eq_single i] at hq
  · rcases mul_eq_zero.mp hq with h | h
    · simp only [q, Polynomial.eval_prod, Polynomial.eval_sub, Polynomial.eval_X,
        Polynomial.eval_C] at h
      obtain ⟨j, hj, hj'⟩ := Finset.prod_eq_zero_iff.mp h
      rw [Finset.mem_erase, Finset.mem_filter] at hj
      have := dot_lt (a := a i) (b := a j) (fun e => hj.1 (ha e).symm)
        (hmax j (by simpa using hj.2))
      linarith
    · exact hi.2 h
  · intro j _ hji
    by_cases huj : u j = 0
    · rw [huj, mul_zero]
    · have : q.eval (dot (a i) (a j)) = 0 := by
        simp only [q, Polynomial.eval_prod]
        refine Finset.prod_eq_zero (i := j) ?_ (by simp)
        simp [hji, huj]
      rw [this, zero_mul]
  · intro h; exact absurd (Finset.mem_univ i) h

/-- Two points at distance 1, opposite weights. -/
example : 0 < ∑ i : Fin 2, ∑ j : Fin 2, (![1, -1] : Fin 2 → ℝ) i * (![1, -1] : Fin 2 → ℝ) j *
    Real.exp (-sq ((![![0], ![1]] : Fin 2 → Fin 1 → ℝ) i) ((![![0], ![1]] : Fin 2 → Fin 1 → ℝ) j) / 2) :=
  gauss_quad_pos _ (fun i j h => by
    have := congrFun h 0
    fin_cases i <;> fin_cases j <;> simp_all) two_pos fun h => by simpa using congrFun h 0

end Verif.PD
