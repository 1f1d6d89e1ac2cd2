import Verif.Misc.GaussCdf
import Mathlib.Analysis.Calculus.Deriv.MeanValue
import Mathlib.Analysis.Real.Pi.Bounds
import Mathlib.Tactic.FieldSimp
import Mathlib.Tactic.NormNum.BigOperators
import Mathlib.Tactic.Positivity

/-!
# Numerical bounds of the normal distribution function

Mathematics used by the properties of the coverage intervals of the figures; nothing of gpmp is modelled
here.  The series of `exp (-x²/2)` is alternating, so are the bounds obtained by integration.
-/

set_option autoImplicit false

namespace Verif.Score

open Set

/-- Sum of the first `n` terms of the series of `exp (-u)`. -/
noncomputable def expSum (n : ℕ) (u : ℝ) : ℝ := ∑ k ∈ Finset.range n, (-u) ^ k / k.factorial

theorem expSum_deriv (n : ℕ) (u : ℝ) : HasDerivAt (expSum (n + 1)) (-expSum n u) u := by
  have h : ∀ k : ℕ, HasDerivAt (fun u : ℝ => (-u) ^ (k + 1) / ((k + 1).factorial : ℝ)) (-((-u) ^ k / k.factorial)) u := by
    intro k
    have := (((hasDerivAt_id u).neg.pow (k + 1))).div_const ((k + 1).factorial : ℝ)
    refine this.congr_deriv ?_
    have hk : (k.factorial : ℝ) ≠ 0 := by exact_mod_cast k.factorial_ne_zero
    have hk1 : ((k : ℝ) + 1) ≠ 0 := by positivity
    rw [Nat.factorial_succ]
    push_cast
    simp only [Pi.neg_apply, id_eq, Nat.add_sub_cancel]
    field_simp
  have hs : expSum (n + 1) = fun u => (∑ k ∈ Finset.range n, (-u) ^ (k + 1) / ((k + 1).factorial : ℝ)) + 1 := by
    funext u
    rw [expSum, Finset.sum_range_succ']
    simp
  rw [hs, expSum, ← Finset.sum_neg_distrib]
  exact (HasDerivAt.fun_sum fun k _ => h k).add_const 1

/-- The partial sums are alternately above and below. -/
theorem exp_alternating (n : ℕ) : ∀ u : ℝ, 0 ≤ u → 0 ≤ (-1) ^ n * (Real.exp (-u) - expSum n u) := by
  induction n with
  | zero => intro u _; simp [expSum, Real.exp_nonneg]
  | succ n ih =>
    intro u hu
    have hd : ∀ v : ℝ, HasDerivAt (fun v => (-1 : ℝ) ^ (n + 1) * (Real.exp (-v) - expSum (n + 1) v))
        ((-1) ^ n * (Real.exp (-v) - expSum n v)) v := by
      intro v
      have h1 : HasDerivAt (fun v : ℝ => Real.exp (-v)) (-Real.exp (-v)) v := by
        have := (hasDerivAt_neg v).exp
        simpa using this
      refine ((h1.sub (expSum_deriv n v)).const_mul _).congr_deriv ?_
      rw [pow_succ]; ring
    have hmono : MonotoneOn (fun v => (-1 : ℝ) ^ (n + 1) * (Real.exp (-v) - expSum (n + 1) v)) (Ici 0) := by
      refine monotoneOn_of_deriv_nonneg (convex_Ici 0) (fun v _ => (hd v).continuousAt.continuousWithinAt)
        (fun v _ => (hd v).differentiableAt.differentiableWithinAt) fun v hv => ?_
      rw [interior_Ici] at hv
      rw [(hd v).deriv]
      exact ih v (le_of_lt hv)
    have := hmono (mem_Ici.mpr le_rfl) (mem_Ici.mpr hu) hu
    have h0 : expSum (n + 1) 0 = 1 := by
      rw [expSum, Finset.sum_range_succ']; simp
    simpa [h0] using this

/-- The integral from 0 to `x` of the first `n` terms of the series of `exp (-t²/2)`. -/
noncomputable def gaussSum (n : ℕ) (x : ℝ) : ℝ :=
  ∑ k ∈ Finset.range n, (-1) ^ k * x ^ (2 * k + 1) / ((2 * k + 1) * 2 ^ k * k.factorial)

theorem gaussSum_deriv (n : ℕ) (x : ℝ) : HasDerivAt (gaussSum n) (expSum n (x ^ 2 / 2)) x := by
  unfold gaussSum expSum
  refine (HasDerivAt.fun_sum fun k _ => ((hasDerivAt_pow (2 * k + 1) x).const_mul ((-1 : ℝ) ^ k)).div_const
    ((2 * (k : ℝ) + 1) * 2 ^ k * k.factorial)).congr_deriv ?_
  refine Finset.sum_congr rfl fun k _ => ?_
  have hk : (k.factorial : ℝ) ≠ 0 := by exact_mod_cast k.factorial_ne_zero
  have hk1 : (2 * (k : ℝ) + 1) ≠ 0 := by positivity
  push_cast
  rw [neg_pow (x ^ 2 / 2), div_pow, ← pow_mul]
  field_simp

theorem Phi_zero : Phi 0 = 1 / 2 := by
  have := Phi_neg 0
  rw [neg_zero] at this
  linarith

/-- The bounds: `√(2π) (Φ(x) - 1/2)` is above the sums with an even number of terms and below those with
an odd number. -/
theorem Phi_alternating (n : ℕ) {x : ℝ} (hx : 0 ≤ x) :
    0 ≤ (-1) ^ n * (√(2 * Real.pi) * (Phi x - 1 / 2) - gaussSum n x) := by
  have hc : 0 < √(2 * Real.pi) := Real.sqrt_pos.mpr (by have := Real.pi_pos; positivity)
  have hd : ∀ v : ℝ, HasDerivAt (fun v => (-1 : ℝ) ^ n * (√(2 * Real.pi) * (Phi v - 1 / 2) - gaussSum n v))
      ((-1) ^ n * (Real.exp (-(v ^ 2 / 2)) - expSum n (v ^ 2 / 2))) v := by
    intro v
    refine ((((Phi_deriv v).sub_const (1 / 2)).const_mul (√(2 * Real.pi))).sub (gaussSum_deriv n v)
      |>.const_mul _).congr_deriv ?_
    rw [phi, ← mul_assoc, mul_inv_cancel₀ hc.ne', one_mul, neg_div]
  have hmono : MonotoneOn (fun v => (-1 : ℝ) ^ n * (√(2 * Real.pi) * (Phi v - 1 / 2) - gaussSum n v)) (Ici 0) := by
    refine monotoneOn_of_deriv_nonneg (convex_Ici 0) (fun v _ => (hd v).continuousAt.continuousWithinAt)
      (fun v _ => (hd v).differentiableAt.differentiableWithinAt) fun v _ => ?_
    rw [(hd v).deriv]
    exact exp_alternating n _ (by positivity)
  have := hmono (mem_Ici.mpr le_rfl) (mem_Ici.mpr hx) hx
  have h0 : gaussSum n 0 = 0 := by
    unfold gaussSum
    exact Finset.sum_eq_zero fun k _ => by simp
  simpa [h0, Phi_zero] using this

theorem Phi_gt {x p : ℝ} (m : ℕ) (hx : 0 ≤ x) (hp : 1 / 2 ≤ p)
    (h : (p - 1 / 2) ^ 2 * (2 * 3.14159265358979323847) < gaussSum (2 * m) x ^ 2)
    (hs : 0 ≤ gaussSum (2 * m) x) : p < Phi x := by
  have h1 := Phi_alternating (2 * m) hx
  rw [pow_mul, neg_one_sq, one_pow, one_mul, sub_nonneg] at h1
  have hpi := Real.pi_lt_d20
  have hc : 0 < √(2 * Real.pi) := Real.sqrt_pos.mpr (by have := Real.pi_pos; positivity)
  have h2 : (p - 1 / 2) * √(2 * Real.pi) < gaussSum (2 * m) x := by
    refine lt_of_pow_lt_pow_left₀ 2 hs ?_
    rw [mul_pow, Real.sq_sqrt (by have := Real.pi_pos; positivity)]
    refine lt_of_le_of_lt ?_ h
    exact mul_le_mul_of_nonneg_left (by linarith) (sq_nonneg _)
  have h3 : √(2 * Real.pi) * (p - 1 / 2) < √(2 * Real.pi) * (Phi x - 1 / 2) := by linarith
  have := lt_of_mul_lt_mul_left h3 hc.le
  linarith

theorem Phi_lt {x p : ℝ} (m : ℕ) (hx : 0 ≤ x) (hp : 1 / 2 ≤ p)
    (h : gaussSum (2 * m + 1) x ^ 2 < (p - 1 / 2) ^ 2 * (2 * 3.14159265358979323846)) : Phi x < p := by
  have h1 := Phi_alternating (2 * m + 1) hx
  rw [pow_succ, pow_mul, neg_one_sq, one_pow, one_mul, neg_one_mul, neg_sub, sub_nonneg] at h1
  have hpi := Real.pi_gt_d20
  have hc : 0 < √(2 * Real.pi) := Real.sqrt_pos.mpr (by have := Real.pi_pos; positivity)
  have h2 : gaussSum (2 * m + 1) x < (p - 1 / 2) * √(2 * Real.pi) := by
    refine lt_of_pow_lt_pow_left₀ 2 (mul_nonneg (by linarith) hc.le) ?_
    rw [mul_pow, Real.sq_sqrt (by have := Real.pi_pos; positivity)]
    refine lt_of_lt_of_le h ?_
    exact mul_le_mul_of_nonneg_left (by linarith) (sq_nonneg _)
  have h3 : √(2 * Real.pi) * (Phi x - 1 / 2) < √(2 * Real.pi) * (p - 1 / 2) := by linarith
  have := lt_of_mul_lt_mul_left h3 hc.le
  linarith

theorem Phi_196 : 0.975 < Phi 1.96 ∧ Phi 1.96 < 0.975003 := by
  constructor
  · refine Phi_gt 8 (by norm_num) (by norm_num) ?_ ?_ <;>
      norm_num [gaussSum, Finset.sum_range_succ, Nat.factorial]
  · refine Phi_lt 8 (by norm_num) (by norm_num) ?_
    norm_num [gaussSum, Finset.sum_range_succ, Nat.factorial]

theorem Phi_95 : Phi 1.959963 < 0.975 ∧ 0.975 < Phi 1.959965 := by
  constructor
  · refine Phi_lt 9 (by norm_num) (by norm_num) ?_
    norm_num [gaussSum, Finset.sum_range_succ, Nat.factorial]
  · refine Phi_gt 9 (by norm_num) (by norm_num) ?_ ?_ <;>
      norm_num [gaussSum, Finset.sum_range_succ, Nat.factorial]

theorem Phi_99 : Phi 2.575828 < 0.995 ∧ 0.995 < Phi 2.575830 := by
  constructor
  · refine Phi_lt 13 (by norm_num) (by norm_num) ?_
    norm_num [gaussSum, Finset.sum_range_succ, Nat.factorial]
  · refine Phi_gt 13 (by norm_num) (by norm_num) ?_ ?_ <;>
      norm_num [gaussSum, Finset.sum_range_succ, Nat.factorial]

theorem Phi_999 : Phi 3.290526 < 0.9995 ∧ 0.9995 < Phi 3.290528 := by
  constructor
  · refine Phi_lt 18 (by norm_num) (by norm_num) ?_
    norm_num [gaussSum, Finset.sum_range_succ, Nat.factorial]
  · refine Phi_gt 18 (by norm_num) (by norm_num) ?_ ?_ <;>
      norm_num [gaussSum, Finset.sum_range_succ, Nat.factorial]

end Verif.Score
