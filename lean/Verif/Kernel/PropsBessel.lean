import Verif.Kernel.MaternInt
import Mathlib.Analysis.SpecialFunctions.Gamma.Basic
import Mathlib.Analysis.SpecialFunctions.Trigonometric.DerivHyp
import Mathlib.MeasureTheory.Integral.ExpDecay

/-!
# C241: the kernel is the Matérn covariance of regularity `p + 1/2`
-/

set_option autoImplicit false

namespace Verif.Kernel

open Verif MeasureTheory Set Filter Topology Asymptotics

/-- The modified Bessel function of the second kind, by its integral representation (DLMF 10.32.9). -/
noncomputable def besselK (nu z : ℝ) : ℝ := ∫ t in Ioi (0 : ℝ), Real.exp (-z * Real.cosh t) * Real.cosh (nu * t)

/-- The Matérn correlation function of regularity `nu`, with the scaling of the package. -/
noncomputable def maternBessel (nu h : ℝ) : ℝ :=
  2 ^ (1 - nu) / Real.Gamma nu * (2 * √nu * h) ^ nu * besselK nu (2 * √nu * h)

theorem cosh_ge (t : ℝ) : t ^ 2 / 2 ≤ Real.cosh t := by
  have h1 : Real.cosh t = 1 + 2 * Real.sinh (t / 2) ^ 2 := by
    have := Real.cosh_two_mul (t / 2)
    rw [show 2 * (t / 2) = t by ring, Real.cosh_sq] at this
    linarith
  have h2 : (t / 2) ^ 2 ≤ Real.sinh (t / 2) ^ 2 := by
    rw [sq_le_sq, Real.abs_sinh]
    exact Real.self_le_sinh_iff.mpr (abs_nonneg _)
  rw [h1]
  nlinarith

theorem decay {z : ℝ} (hz : 0 < z) (a : ℝ) (t : ℝ) :
    Real.exp (-z * Real.cosh t) * Real.exp (a * t) ≤ Real.exp ((a + 1) ^ 2 / (2 * z)) * Real.exp (-1 * t) := by
  rw [← Real.exp_add, ← Real.exp_add]
  apply Real.exp_le_exp.mpr
  have h := cosh_ge t
  have h1 : z * (t ^ 2 / 2) ≤ z * Real.cosh t := mul_le_mul_of_nonneg_left h hz.le
  have h2 : (a + 1) * t - z * (t ^ 2 / 2) ≤ (a + 1) ^ 2 / (2 * z) := by
    rw [le_div_iff₀ (by positivity)]
    nlinarith [sq_nonneg (z * t - (a + 1))]
  linarith

theorem cosh_le_exp_add (x : ℝ) : Real.cosh x ≤ Real.exp x + Real.exp (-x) := by
  rw [Real.cosh_eq]
  have := Real.exp_pos x
  have := Real.exp_pos (-x)
  linarith

theorem abs_sinh_le (x : ℝ) : |Real.sinh x| ≤ Real.exp x + Real.exp (-x) := by
  rw [Real.sinh_eq, abs_le]
  have := Real.exp_pos x
  have := Real.exp_pos (-x)
  constructor <;> linarith

theorem bounded_big {z : ℝ} (hz : 0 < z) (nu : ℝ) {f : ℝ → ℝ} (hf : ∀ t, |f t| ≤ Real.exp (nu * t) + Real.exp (-(nu * t))) :
    (fun t => Real.exp (-z * Real.cosh t) * f t) =O[atTop] fun t => Real.exp (-1 * t) := by
  apply IsBigO.of_bound (Real.exp ((nu + 1) ^ 2 / (2 * z)) + Real.exp ((-nu + 1) ^ 2 / (2 * z)))
  refine Eventually.of_forall fun t => ?_
  rw [norm_mul, Real.norm_of_nonneg (Real.exp_pos _).le, Real.norm_of_nonneg (Real.exp_pos _).le, Real.norm_eq_abs]
  have h1 := decay hz nu t
  have h2 := decay hz (-nu) t
  rw [neg_mul nu t] at h2
  calc Real.exp (-z * Real.cosh t) * |f t| ≤ Real.exp (-z * Real.cosh t) * (Real.exp (nu * t) + Real.exp (-(nu * t))) :=
        mul_le_mul_of_nonneg_left (hf t) (Real.exp_pos _).le
    _ ≤ _ := by rw [mul_add, add_mul]; linarith

theorem bessel_integrable {z : ℝ} (hz : 0 < z) (nu : ℝ) :
    IntegrableOn (fun t => Real.exp (-z * Real.cosh t) * Real.cosh (nu * t)) (Ioi 0) := by
  refine integrable_of_isBigO_exp_neg one_pos (by fun_prop) (bounded_big hz nu fun t => ?_)
  rw [abs_of_pos (Real.cosh_pos _)]
  exact cosh_le_exp_add _

theorem besselK_pos {z : ℝ} (hz : 0 < z) (nu : ℝ) : 0 < besselK nu z := by
  unfold besselK
  rw [integral_pos_iff_support_of_nonneg (fun t => by have := Real.cosh_pos (nu * t); positivity) (bessel_integrable hz nu)]
  have : Function.support (fun t => Real.exp (-z * Real.cosh t) * Real.cosh (nu * t)) = univ := by
    ext t
    simp only [Function.mem_support, mem_univ, iff_true]
    have := Real.cosh_pos (nu * t)
    positivity
  rw [this]
  simp

theorem besselK_neg (nu z : ℝ) : besselK (-nu) z = besselK nu z := by
  simp [besselK]

/-- The recurrence in the order. -/
theorem besselK_rec {z : ℝ} (hz : 0 < z) (nu : ℝ) :
    besselK (nu + 1) z = besselK (nu - 1) z + 2 * nu / z * besselK nu z := by
  have hs : ∀ t, Real.exp (-z * Real.cosh t) * Real.cosh ((nu + 1) * t) - Real.exp (-z * Real.cosh t) * Real.cosh ((nu - 1) * t) =
      2 * (Real.exp (-z * Real.cosh t) * Real.sinh t * Real.sinh (nu * t)) := by
    intro t
    rw [add_mul, sub_mul, one_mul, Real.cosh_add, Real.cosh_sub]
    ring
  have hd : ∀ t ∈ Ici (0 : ℝ), HasDerivAt (fun t => Real.exp (-z * Real.cosh t) * Real.sinh (nu * t))
      (nu * (Real.exp (-z * Real.cosh t) * Real.cosh (nu * t)) -
        z / 2 * (Real.exp (-z * Real.cosh t) * Real.cosh ((nu + 1) * t) -
          Real.exp (-z * Real.cosh t) * Real.cosh ((nu - 1) * t))) t := by
    intro t _
    have h1 : HasDerivAt (fun t => Real.exp (-z * Real.cosh t)) (Real.exp (-z * Real.cosh t) * (-z * Real.sinh t)) t :=
      ((Real.hasDerivAt_cosh t).const_mul (-z)).exp
    have h2 : HasDerivAt (fun t => Real.sinh (nu * t)) (Real.cosh (nu * t) * nu) t := by
      have := ((hasDerivAt_id t).const_mul nu).sinh
      simpa using this
    refine (h1.mul h2).congr_deriv ?_
    rw [hs]
    ring
  have hi := bessel_integrable hz nu
  have hi1 := bessel_integrable hz (nu + 1)
  have hi2 := bessel_integrable hz (nu - 1)
  have hi12 : IntegrableOn (fun t => Real.exp (-z * Real.cosh t) * Real.cosh ((nu + 1) * t) -
      Real.exp (-z * Real.cosh t) * Real.cosh ((nu - 1) * t)) (Ioi 0) := hi1.sub hi2
  have hlim : Tendsto (fun t => Real.exp (-z * Real.cosh t) * Real.sinh (nu * t)) atTop (𝓝 0) := by
    refine (bounded_big hz nu fun t => abs_sinh_le _).trans_tendsto ?_
    have := Real.tendsto_exp_neg_atTop_nhds_zero
    simpa using this
  have h := integral_Ioi_of_hasDerivAt_of_tendsto' hd ((hi.const_mul nu).sub (hi12.const_mul (z / 2))) hlim
  rw [integral_sub (hi.const_mul nu) (hi12.const_mul (z / 2)), integral_const_mul, integral_const_mul,
    integral_sub hi1 hi2] at h
  simp only [mul_zero, Real.sinh_zero, sub_zero] at h
  change nu * besselK nu z - z / 2 * (besselK (nu + 1) z - besselK (nu - 1) z) = 0 at h
  field_simp
  linarith

theorem besselK_half {z : ℝ} (hz : 0 < z) : besselK (1 / 2) z = √(Real.pi / (2 * z)) * Real.exp (-z) := by
  have hc : ∀ t, Real.cosh t = 1 + 2 * Real.sinh (t / 2) ^ 2 := by
    intro t
    have := Real.cosh_two_mul (t / 2)
    rw [show 2 * (t / 2) = t by ring, Real.cosh_sq] at this
    linarith
  have he : ∀ t, ((fun u : ℝ => 2 * Real.exp (-z) * Real.exp (-(2 * z) * u ^ 2)) ∘ fun t => Real.sinh (t / 2)) t *
      (Real.cosh (t / 2) / 2) = Real.exp (-z * Real.cosh t) * Real.cosh (1 / 2 * t) := by
    intro t
    simp only [Function.comp]
    rw [hc t, show 1 / 2 * t = t / 2 by ring, show -z * (1 + 2 * Real.sinh (t / 2) ^ 2) = -z + -(2 * z) * Real.sinh (t / 2) ^ 2 by ring,
      Real.exp_add]
    ring
  have hsub := integral_comp_mul_deriv_Ioi (a := 0) (f := fun t => Real.sinh (t / 2)) (f' := fun t => Real.cosh (t / 2) / 2)
    (g := fun u => 2 * Real.exp (-z) * Real.exp (-(2 * z) * u ^ 2)) (by fun_prop)
    (by
      have h1 : Tendsto (fun t : ℝ => t / 2) atTop atTop := tendsto_id.atTop_div_const two_pos
      refine tendsto_atTop_mono' _ ?_ h1
      filter_upwards [eventually_ge_atTop 0] with t ht
      exact Real.self_le_sinh_iff.mpr (by linarith))
    (by
      intro t _
      have := ((hasDerivAt_id t).div_const 2).sinh
      refine (this.congr_deriv ?_).hasDerivWithinAt
      simp only [id]
      ring)
    (by fun_prop)
    (by
      apply Integrable.integrableOn
      exact (integrable_exp_neg_mul_sq (by linarith : (0 : ℝ) < 2 * z)).const_mul _)
    (by
      simp only [he]
      rw [integrableOn_Ici_iff_integrableOn_Ioi]
      exact bessel_integrable hz _)
  simp only [he] at hsub
  unfold besselK
  rw [hsub]
  simp only [zero_div, Real.sinh_zero]
  rw [integral_const_mul, integral_gaussian_Ioi]
  ring

/-- `2^(1-ν)/Γ(ν) t^ν K_ν(t)`. -/
noncomputable def scaledBessel (nu t : ℝ) : ℝ := 2 ^ (1 - nu) / Real.Gamma nu * t ^ nu * besselK nu t

theorem scaledBessel_rec {t : ℝ} (ht : 0 < t) {nu : ℝ} (hnu : 1 < nu) :
    scaledBessel (nu + 1) t = scaledBessel nu t + t ^ 2 / (4 * (nu * (nu - 1))) * scaledBessel (nu - 1) t := by
  unfold scaledBessel
  have h0 : nu ≠ 0 := by linarith
  have h1 : nu - 1 ≠ 0 := by linarith
  have g1 : Real.Gamma (nu + 1) = nu * Real.Gamma nu := Real.Gamma_add_one h0
  have g2 : Real.Gamma nu = (nu - 1) * Real.Gamma (nu - 1) := by
    have := Real.Gamma_add_one h1
    rwa [sub_add_cancel] at this
  have hg : Real.Gamma (nu - 1) ≠ 0 := (Real.Gamma_pos_of_pos (by linarith)).ne'
  have p1 : t ^ nu = t ^ (nu - 1) * t := by
    rw [← Real.rpow_add_one ht.ne']
    congr 1
    ring
  have p2 : t ^ (nu + 1) = t ^ (nu - 1) * t * t := by rw [Real.rpow_add_one ht.ne', p1]
  have e1 : (2 : ℝ) ^ (1 - nu) = 2 ^ (1 - (nu + 1)) * 2 := by
    rw [← Real.rpow_add_one two_ne_zero]
    congr 1
    ring
  have e2 : (2 : ℝ) ^ (1 - (nu - 1)) = 2 ^ (1 - (nu + 1)) * 2 * 2 := by
    rw [← Real.rpow_add_one two_ne_zero, ← Real.rpow_add_one two_ne_zero]
    congr 1
    ring
  rw [besselK_rec ht nu, g1, p2, e1, e2, g2, p1]
  field_simp
  ring

theorem scaledBessel_half {t : ℝ} (ht : 0 < t) : scaledBessel (1 / 2) t = Real.exp (-t) := by
  unfold scaledBessel
  rw [besselK_half ht, Real.Gamma_one_half_eq, ← Real.sqrt_eq_rpow]
  have e : (2 : ℝ) ^ (1 - 1 / 2 : ℝ) = √2 := by
    rw [Real.sqrt_eq_rpow]
    norm_num
  rw [e, Real.sqrt_div Real.pi_pos.le, Real.sqrt_mul two_pos.le]
  have := Real.sqrt_pos.mpr ht
  have := Real.sqrt_pos.mpr Real.pi_pos
  have := Real.sqrt_pos.mpr (two_pos : (0 : ℝ) < 2)
  field_simp

theorem scaledBessel_three_half {t : ℝ} (ht : 0 < t) : scaledBessel (1 + 1 / 2) t = (1 + t) * Real.exp (-t) := by
  have h := besselK_rec ht (1 / 2)
  rw [show (1 / 2 : ℝ) - 1 = -(1 / 2) by norm_num, besselK_neg] at h
  have hh := scaledBessel_half ht
  unfold scaledBessel at hh ⊢
  rw [add_comm (1 : ℝ) (1 / 2), h, Real.Gamma_add_one (by norm_num), Real.rpow_add_one ht.ne']
  have e1 : (2 : ℝ) ^ (1 - 1 / 2 : ℝ) = 2 ^ (1 - (1 / 2 + 1) : ℝ) * 2 := by
    rw [← Real.rpow_add_one two_ne_zero]
    congr 1
    ring
  rw [e1] at hh
  rw [← hh]
  have : Real.Gamma (1 / 2) ≠ 0 := (Real.Gamma_pos_of_pos (by norm_num)).ne'
  field_simp
  ring

theorem scaledBessel_shape {t : ℝ} (ht : 0 < t) (p : ℕ) : scaledBessel (p + 1 / 2) t = shape p t := by
  induction p using Nat.twoStepInduction with
  | zero =>
    simp only [Nat.cast_zero, zero_add, scaledBessel_half ht, shape, Finset.sum_range_one, coef_zero, pow_zero, mul_one]
  | one =>
    rw [Nat.cast_one, scaledBessel_three_half ht, shape, Finset.sum_range_succ, Finset.sum_range_one, coef_zero, PD.coef_one 0]
    ring
  | more p h0 h1 =>
    have hp : (0 : ℝ) ≤ p := Nat.cast_nonneg p
    have h := scaledBessel_rec ht (nu := p + 1 + 1 / 2) (by linarith)
    push_cast at h1 ⊢
    rw [show (p : ℝ) + 2 + 1 / 2 = p + 1 + 1 / 2 + 1 by ring, h, h1, show (p : ℝ) + 1 + 1 / 2 - 1 = p + 1 / 2 by ring, h0,
      PD.shape_rec p t]
    congr 3
    ring

/-- **C241** At every positive distance `maternp_kernel(p, h)` is the Matérn correlation function of
regularity `p + 1/2`, written with the modified Bessel function of the second kind. -/
theorem maternp_bessel {g : ℕ → ℝ} (hg : IsGammaln g) (bigf : ℝ) (ops : List CacheOp) (p : ℕ) {h : ℝ} (hh : 0 < h) :
    (maternp g bigf p (h : WithTop ℝ) (ops.foldl (cacheStep g) none)).1 = .ok (maternBessel (p + 1 / 2) h) := by
  rw [maternp_formula hg, maternFormula_shape]
  have hp : (0 : ℝ) < p + 1 / 2 := by positivity
  have ht : 0 < 2 * √(p + 1 / 2 : ℝ) * h := by
    have := Real.sqrt_pos.mpr hp
    positivity
  rw [← scaledBessel_shape ht]
  rfl

/-- **C241** `matern32_kernel` is the function of regularity `3/2`. -/
theorem matern32_bessel {h : ℝ} (hh : 0 < h) : matern32 h = maternBessel (3 / 2) h := by
  rw [← matern_one, maternFormula_shape]
  have ht : 0 < 2 * √((1 : ℕ) + 1 / 2 : ℝ) * h := by
    have := Real.sqrt_pos.mpr (show (0 : ℝ) < (1 : ℕ) + 1 / 2 by positivity)
    positivity
  rw [← scaledBessel_shape ht]
  unfold maternBessel scaledBessel
  norm_num

/-- **C241** At distance zero the kernel is 1, the limit of that function. -/
theorem maternBessel_zero (p : ℕ) : Tendsto (maternBessel (p + 1 / 2)) (𝓝[>] 0) (𝓝 (maternFormula p 0)) ∧ maternFormula p 0 = 1 := by
  have h1 : Continuous fun h => shape p (2 * √(p + 1 / 2 : ℝ) * h) := by
    unfold shape
    fun_prop
  refine ⟨?_, (maternFormula_shape_props p).1⟩
  rw [maternFormula_shape]
  refine (h1.continuousWithinAt.tendsto).congr' ?_
  filter_upwards [self_mem_nhdsWithin] with h hh
  have hp : (0 : ℝ) < p + 1 / 2 := by positivity
  have ht : 0 < 2 * √(p + 1 / 2 : ℝ) * h := by
    have := Real.sqrt_pos.mpr hp
    have : 0 < h := hh
    positivity
  rw [← scaledBessel_shape ht]
  rfl

example : matern32 1 = maternBessel (3 / 2) 1 ∧ 0 < besselK (3 / 2) (2 * √(3 / 2)) :=
  ⟨matern32_bessel one_pos, besselK_pos (by positivity) _⟩

end Verif.Kernel
