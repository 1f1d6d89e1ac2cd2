import Verif.Kernel.MaternInt
import Mathlib.Analysis.Calculus.ContDiff.Deriv
import Mathlib.Analysis.Calculus.Deriv.Abs
import Mathlib.Analysis.SpecialFunctions.ExpDeriv

/-!
# C242: the regularity of the kernel
-/

set_option autoImplicit false

namespace Verif.Kernel

open Verif Set Filter Topology

theorem shape_zero_eq (t : ℝ) : shape 0 t = Real.exp (-t) := by
  simp [shape, coef_zero]

theorem shape_one_eq (t : ℝ) : shape 1 t = Real.exp (-t) * (1 + t) := by
  rw [shape, Finset.sum_range_succ, Finset.sum_range_one, coef_zero, PD.coef_one 0]
  ring

theorem exp_neg_deriv (t : ℝ) : HasDerivAt (fun t : ℝ => Real.exp (-t)) (-Real.exp (-t)) t := by
  simpa using (hasDerivAt_id t).neg.exp

/-- The derivative of the kernel of order `p + 1` is a multiple of `t` times that of order `p`. -/
theorem shape_deriv (p : ℕ) (t : ℝ) : HasDerivAt (shape (p + 1)) (-t / (2 * p + 1) * shape p t) t := by
  induction p using Nat.twoStepInduction generalizing t with
  | zero =>
    have h : shape (0 + 1) = fun t => Real.exp (-t) * (1 + t) := funext shape_one_eq
    rw [h]
    refine ((exp_neg_deriv t).mul ((hasDerivAt_id t).const_add 1)).congr_deriv ?_
    simp only [shape_zero_eq, id, Nat.cast_zero]
    ring
  | one =>
    have h : shape (1 + 1) = fun t => shape 1 t + t ^ 2 / 3 * shape 0 t := by
      funext t
      have := PD.shape_rec 0 t
      simpa using this
    rw [h]
    have h1 : HasDerivAt (shape 1) (-t * Real.exp (-t)) t := by
      have h' : shape 1 = fun t => Real.exp (-t) * (1 + t) := funext shape_one_eq
      rw [h']
      refine ((exp_neg_deriv t).mul ((hasDerivAt_id t).const_add 1)).congr_deriv ?_
      simp only [id]
      ring
    have h0 : HasDerivAt (shape 0) (-Real.exp (-t)) t := by
      have h' : shape 0 = fun t => Real.exp (-t) := funext shape_zero_eq
      rw [h']
      exact exp_neg_deriv t
    refine (h1.add (((hasDerivAt_pow 2 t).div_const 3).mul h0)).congr_deriv ?_
    rw [shape_one_eq, shape_zero_eq]
    push_cast
    ring
  | more p h0 h1 =>
    have h : shape (p + 2 + 1) = fun t => shape (p + 2) t + t ^ 2 / ((2 * (p + 1 : ℕ) + 3) * (2 * (p + 1 : ℕ) + 1)) * shape (p + 1) t := by
      funext t
      exact PD.shape_rec (p + 1) t
    rw [h]
    have hp : (0 : ℝ) ≤ p := Nat.cast_nonneg p
    refine ((h1 t).add (((hasDerivAt_pow 2 t).div_const _).mul (h0 t))).congr_deriv ?_
    rw [show p + 2 = p + 1 + 1 from rfl, PD.shape_rec p t]
    push_cast
    field_simp
    ring

/-- The kernel as an even function of a signed distance. -/
noncomputable def even (p : ℕ) (x : ℝ) : ℝ := shape p |x|

theorem shape_continuous (p : ℕ) : Continuous (shape p) := by
  unfold shape
  fun_prop

theorem even_continuous (p : ℕ) : Continuous (even p) := (shape_continuous p).comp continuous_abs

theorem even_rec (p : ℕ) (x : ℝ) :
    even (p + 2) x = even (p + 1) x + x ^ 2 / ((2 * p + 3) * (2 * p + 1)) * even p x := by
  unfold even
  rw [PD.shape_rec, sq_abs]

theorem even_deriv (p : ℕ) (x : ℝ) : HasDerivAt (even (p + 1)) (-x / (2 * p + 1) * even p x) x := by
  rcases lt_trichotomy x 0 with hx | rfl | hx
  · have h1 : HasDerivAt (fun x => shape (p + 1) (-x)) (-x / (2 * p + 1) * even p x) x := by
      have := (shape_deriv p (-x)).comp x (hasDerivAt_neg x)
      refine this.congr_deriv ?_
      rw [even, abs_of_neg hx]
      ring
    refine h1.congr_of_eventuallyEq ?_
    filter_upwards [Iio_mem_nhds hx] with y hy
    rw [even, abs_of_neg hy]
  · have hr : HasDerivWithinAt (even (p + 1)) (-0 / (2 * p + 1) * even p 0) (Ici 0) 0 := by
      have h := (shape_deriv p 0).hasDerivWithinAt (s := Ici 0)
      have := h.congr_of_mem (f₁ := even (p + 1)) (fun y hy => by rw [even, abs_of_nonneg hy]) self_mem_Ici
      simpa [even] using this
    have hl : HasDerivWithinAt (even (p + 1)) (-0 / (2 * p + 1) * even p 0) (Iic 0) 0 := by
      have h0 : HasDerivAt (shape (p + 1)) (-(-0) / (2 * p + 1) * shape p (-0)) (-0) := shape_deriv p (-0)
      have h := (h0.comp (0 : ℝ) (hasDerivAt_neg 0)).hasDerivWithinAt (s := Iic 0)
      have := h.congr_of_mem (f₁ := even (p + 1)) (fun y hy => by rw [even, abs_of_nonpos hy]; rfl) self_mem_Iic
      simpa [even] using this
    have := hl.union hr
    rwa [Iic_union_Ici, hasDerivWithinAt_univ] at this
  · have h1 := shape_deriv p x
    have e : -x / (2 * p + 1) * even p x = -x / (2 * p + 1) * shape p x := by rw [even, abs_of_pos hx]
    rw [e]
    refine h1.congr_of_eventuallyEq ?_
    filter_upwards [Ioi_mem_nhds hx] with y hy
    rw [even, abs_of_pos hy]

theorem mul_even_deriv (p : ℕ) (x : ℝ) :
    HasDerivAt (fun x => x * even p x) ((2 * p + 2) * even p x - (2 * p + 1) * even (p + 1) x) x := by
  cases p with
  | zero =>
    have e1 : ∀ x, even 1 x = Real.exp (-|x|) * (1 + |x|) := fun x => shape_one_eq _
    have e0 : ∀ x, even 0 x = Real.exp (-|x|) := fun x => shape_zero_eq _
    simp only [zero_add, e1, e0, Nat.cast_zero, mul_zero, one_mul]
    rcases lt_trichotomy x 0 with hx | rfl | hx
    · have h1 : HasDerivAt (fun x : ℝ => x * Real.exp x) (1 * Real.exp x + x * Real.exp x) x :=
        (hasDerivAt_id x).mul (Real.hasDerivAt_exp x)
      refine (h1.congr_of_eventuallyEq ?_).congr_deriv ?_
      · filter_upwards [Iio_mem_nhds hx] with y hy
        rw [abs_of_neg hy, neg_neg]
      · rw [abs_of_neg hx, neg_neg]
        ring
    · rw [hasDerivAt_iff_tendsto_slope]
      have hc : Continuous fun x : ℝ => Real.exp (-|x|) := by fun_prop
      have h := hc.continuousAt (x := 0) |>.tendsto.mono_left (nhdsWithin_le_nhds (s := {0}ᶜ))
      have e : (2 * Real.exp (-|(0 : ℝ)|) - Real.exp (-|0|) * (1 + |0|)) = Real.exp (-|(0 : ℝ)|) := by simp; norm_num
      rw [e]
      refine h.congr' ?_
      filter_upwards [self_mem_nhdsWithin] with y hy
      have hy' : y ≠ 0 := hy
      simp only [slope_def_field, zero_mul, sub_zero]
      field_simp
    · have h1 : HasDerivAt (fun x : ℝ => x * Real.exp (-x)) (1 * Real.exp (-x) + x * -Real.exp (-x)) x :=
        (hasDerivAt_id x).mul (exp_neg_deriv x)
      refine (h1.congr_of_eventuallyEq ?_).congr_deriv ?_
      · filter_upwards [Ioi_mem_nhds hx] with y hy
        rw [abs_of_pos hy]
      · rw [abs_of_pos hx]
        ring
  | succ p =>
    refine ((hasDerivAt_id x).mul (even_deriv p x)).congr_deriv ?_
    rw [even_rec p x]
    have hp : (0 : ℝ) ≤ p := Nat.cast_nonneg p
    simp only [id]
    push_cast
    field_simp
    ring

theorem deriv_even (p : ℕ) : deriv (even (p + 1)) = fun x => -1 / (2 * p + 1) * (x * even p x) := by
  funext x
  rw [(even_deriv p x).deriv]
  ring

theorem deriv_deriv_even (p : ℕ) : deriv (deriv (even (p + 1))) =
    fun x => -1 / (2 * p + 1) * ((2 * p + 2) * even p x - (2 * p + 1) * even (p + 1) x) := by
  rw [deriv_even]
  funext x
  exact ((mul_even_deriv p x).const_mul _).deriv

theorem contDiff_two (p : ℕ) (k : ℕ) : ContDiff ℝ ((k + 2 : ℕ) : WithTop ℕ∞) (even (p + 1)) ↔
    ContDiff ℝ (k : WithTop ℕ∞) (fun x => -1 / (2 * (p : ℝ) + 1) * ((2 * p + 2) * even p x - (2 * p + 1) * even (p + 1) x)) := by
  have h1 : Differentiable ℝ (even (p + 1)) := fun x => (even_deriv p x).differentiableAt
  have h2 : Differentiable ℝ (deriv (even (p + 1))) := by
    rw [deriv_even]
    exact fun x => ((mul_even_deriv p x).const_mul _).differentiableAt
  rw [← deriv_deriv_even]
  have n1 : ((k + 2 : ℕ) : WithTop ℕ∞) = ((k : WithTop ℕ∞) + 1) + 1 := by push_cast; ring
  rw [n1, contDiff_succ_iff_deriv, contDiff_succ_iff_deriv]
  have w1 : ((k : WithTop ℕ∞) + 1 = ⊤) → False := by
    intro h
    have : ((k + 1 : ℕ) : WithTop ℕ∞) = ⊤ := by push_cast; exact h
    exact (WithTop.coe_ne_top this)
  have w2 : ((k : WithTop ℕ∞) = ⊤) → False := fun h => WithTop.coe_ne_top h
  simp only [h1, h2, true_and]
  constructor
  · rintro ⟨-, -, h⟩
    exact h
  · exact fun h => ⟨fun h' => (w1 h').elim, fun h' => (w2 h').elim, h⟩

theorem even_contDiff (p : ℕ) : ContDiff ℝ ((2 * p : ℕ) : WithTop ℕ∞) (even p) := by
  induction p with
  | zero =>
    simp only [mul_zero, Nat.cast_zero]
    exact contDiff_zero.mpr (even_continuous 0)
  | succ p ih =>
    have : ∀ k ≤ p, ContDiff ℝ ((2 * k : ℕ) : WithTop ℕ∞) (even (p + 1)) → ContDiff ℝ ((2 * k + 2 : ℕ) : WithTop ℕ∞) (even (p + 1)) := by
      intro k hk h
      rw [contDiff_two]
      have h0 : ContDiff ℝ ((2 * k : ℕ) : WithTop ℕ∞) (even p) := ih.of_le (by exact_mod_cast (by omega : 2 * k ≤ 2 * p))
      exact contDiff_const.mul ((contDiff_const.mul h0).sub (contDiff_const.mul h))
    have all : ∀ k ≤ p + 1, ContDiff ℝ ((2 * k : ℕ) : WithTop ℕ∞) (even (p + 1)) := by
      intro k
      induction k with
      | zero =>
        intro _
        simp only [mul_zero, Nat.cast_zero]
        exact contDiff_zero.mpr (even_continuous _)
      | succ k ihk => exact fun hk => this k (by omega) (ihk (by omega))
    exact all _ le_rfl

theorem even_not_contDiff (p : ℕ) : ¬ ContDiff ℝ ((2 * p + 1 : ℕ) : WithTop ℕ∞) (even p) := by
  induction p with
  | zero =>
    intro h
    have hd := (h.differentiable (by norm_num)) 0
    have e0 : even 0 = fun x => Real.exp (-|x|) := funext fun x => shape_zero_eq _
    rw [e0] at hd
    have := (hd.log (Real.exp_pos _).ne').neg
    simp only [Real.log_exp] at this
    have h2 : DifferentiableAt ℝ (fun x : ℝ => |x|) 0 := by
      refine this.congr_of_eventuallyEq (Eventually.of_forall fun x => ?_)
      simp
    exact not_differentiableAt_abs_zero h2
  | succ p ih =>
    intro h
    apply ih
    have h1 := (contDiff_two p (2 * p + 1)).mp (by rwa [show 2 * p + 1 + 2 = 2 * (p + 1) + 1 by ring])
    have h2 : ContDiff ℝ ((2 * p + 1 : ℕ) : WithTop ℕ∞) (even (p + 1)) := h.of_le (by exact_mod_cast (by omega))
    have hp : (0 : ℝ) ≤ p := Nat.cast_nonneg p
    have e : even p = fun x => ((2 * (p : ℝ) + 1) * even (p + 1) x -
        (2 * p + 1) * (-1 / (2 * (p : ℝ) + 1) * ((2 * p + 2) * even p x - (2 * p + 1) * even (p + 1) x))) / (2 * p + 2) := by
      funext x
      field_simp
      ring
    rw [e]
    exact ((contDiff_const.mul h2).sub (contDiff_const.mul h1)).div_const _

/-- **C242** As a function of the signed difference of two points on a line, the kernel of order `p` is
`2p` times continuously differentiable and no more: regularity `p + 1/2`. -/
theorem matern_regularity {g : ℕ → ℝ} (hg : IsGammaln g) (bigf : ℝ) (ops : List CacheOp) (p : ℕ) :
    ∃ k : ℝ → ℝ, (∀ x y : ℝ, (maternp g bigf p ((|x - y| : ℝ) : WithTop ℝ) (ops.foldl (cacheStep g) none)).1 = .ok (k (x - y))) ∧
      ∀ j : ℕ, ContDiff ℝ (j : WithTop ℕ∞) k ↔ j ≤ 2 * p := by
  set c : ℝ := 2 * √(p + 1 / 2 : ℝ) with hc
  have hc0 : 0 < c := by
    have := Real.sqrt_pos.mpr (show (0 : ℝ) < p + 1 / 2 by positivity)
    positivity
  have e : ∀ x : ℝ, maternFormula p |x| = even p (c * x) := by
    intro x
    rw [maternFormula_shape, even, abs_mul, abs_of_pos hc0]
  refine ⟨fun x => maternFormula p |x|, fun x y => maternp_formula hg bigf ops p _, fun j => ?_⟩
  simp only [e]
  constructor
  · intro h
    by_contra hj
    push Not at hj
    apply even_not_contDiff p
    have h1 : ContDiff ℝ (j : WithTop ℕ∞) (even p) := by
      have := h.comp (contDiff_const_smul (c⁻¹ : ℝ) : ContDiff ℝ (j : WithTop ℕ∞) fun x : ℝ => c⁻¹ • x)
      have e' : even p = (fun x => even p (c * x)) ∘ fun x => c⁻¹ • x := by
        funext x
        simp only [Function.comp, smul_eq_mul]
        congr 1
        field_simp
      rw [e']
      exact this
    exact h1.of_le (by exact_mod_cast hj)
  · intro hj
    have h1 : ContDiff ℝ (j : WithTop ℕ∞) (even p) := (even_contDiff p).of_le (by exact_mod_cast hj)
    exact h1.comp (contDiff_const.mul contDiff_id)

example : ∃ g, IsGammaln g := ⟨fun k => Real.log (Real.Gamma k), fun _ _ => rfl⟩

end Verif.Kernel
