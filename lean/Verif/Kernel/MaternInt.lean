import Verif.Kernel.PropsMatern
import Mathlib.Analysis.SpecialFunctions.Gaussian.GaussianIntegral
import Mathlib.MeasureTheory.Function.JacobianOneDim
import Mathlib.MeasureTheory.Integral.IntegralEqImproper

/-!
# The Matérn kernel as a mixture of Gaussian kernels

Mathematics used by the kernel theorems; no gpmp code is modelled here.
-/

set_option autoImplicit false

namespace Verif.PD

open MeasureTheory Set Filter Topology
open Verif.Kernel (shape coef)

/-- `exp(-s² - a²/s²)`. -/
noncomputable def bump (a s : ℝ) : ℝ := Real.exp (-s ^ 2 - a ^ 2 / s ^ 2)

theorem bump_pos (a s : ℝ) : 0 < bump a s := Real.exp_pos _

theorem bump_le (a s : ℝ) : bump a s ≤ Real.exp (-s ^ 2) := by
  unfold bump
  apply Real.exp_le_exp.mpr
  have : 0 ≤ a ^ 2 / s ^ 2 := by positivity
  linarith

theorem bump_measurable (a : ℝ) : Measurable (bump a) := by
  unfold bump; fun_prop

theorem moment_gauss_integrable (n : ℕ) :
    IntegrableOn (fun s : ℝ => s ^ n * Real.exp (-s ^ 2)) (Ioi 0) := by
  have := integrableOn_rpow_mul_exp_neg_mul_sq (b := 1) one_pos (s := n)
    (by have : (0 : ℝ) ≤ n := Nat.cast_nonneg n
        linarith)
  simpa using this

theorem moment_integrable (a : ℝ) (n : ℕ) :
    IntegrableOn (fun s : ℝ => s ^ n * bump a s) (Ioi 0) := by
  refine Integrable.mono' (moment_gauss_integrable n) ?_ ?_
  · exact ((measurable_id.pow_const n).mul (bump_measurable a)).aestronglyMeasurable
  · refine (ae_restrict_mem measurableSet_Ioi).mono fun s hs => ?_
    have hs' : (0 : ℝ) < s := hs
    rw [Real.norm_of_nonneg (mul_nonneg (by positivity) (bump_pos a s).le)]
    exact mul_le_mul_of_nonneg_left (bump_le a s) (by positivity)

/-- Moments of the bump. -/
noncomputable def moment (a : ℝ) (n : ℕ) : ℝ := ∫ s in Ioi (0 : ℝ), s ^ n * bump a s

/-! ## Zeroth moment -/

theorem bump_split (a s : ℝ) (hs : s ≠ 0) :
    bump a s = Real.exp (-2 * a) * Real.exp (-1 * (s - a / s) ^ 2) := by
  unfold bump
  rw [← Real.exp_add]
  congr 1
  field_simp
  ring

theorem image_sub (a : ℝ) (ha : 0 < a) : (fun s : ℝ => s - a / s) '' Ioi 0 = univ := by
  rw [eq_univ_iff_forall]
  intro u
  have h1 : |u| < Real.sqrt (u ^ 2 + 4 * a) := by
    apply Real.lt_sqrt_of_sq_lt
    rw [sq_abs]; linarith
  have h2 : 0 ≤ u ^ 2 + 4 * a := by positivity
  have h3 := Real.sq_sqrt h2
  have h4 : 0 < (u + Real.sqrt (u ^ 2 + 4 * a)) / 2 := by
    have := neg_abs_le u
    linarith
  refine ⟨(u + Real.sqrt (u ^ 2 + 4 * a)) / 2, h4, ?_⟩
  dsimp only
  have h5 : u + Real.sqrt (u ^ 2 + 4 * a) ≠ 0 := by
    intro h; rw [h] at h4; norm_num at h4
  field_simp
  nlinarith

theorem inj_sub (a : ℝ) (ha : 0 < a) : InjOn (fun s : ℝ => s - a / s) (Ioi 0) := by
  intro s hs t ht h
  have hs' : (0 : ℝ) < s := hs
  have ht' : (0 : ℝ) < t := ht
  dsimp only at h
  have h1 : (s - t) * (1 + a / (s * t)) = 0 := by
    have : a / s - a / t = -(s - t) * (a / (s * t)) := by field_simp; ring
    linear_combination h - (a / s - a / t) + this + a / s - a / t
  rcases mul_eq_zero.mp h1 with h2 | h2
  · linarith
  · have : 0 < a / (s * t) := by positivity
    linarith

theorem hasDeriv_div (a s : ℝ) (hs : s ≠ 0) : HasDerivAt (fun s : ℝ => a / s) (-(a / s ^ 2)) s := by
  have h := (hasDerivAt_inv hs).const_mul a
  refine (h.congr_deriv ?_).congr_of_eventuallyEq ?_
  · field_simp
  · exact Eventually.of_forall fun x => by simp [div_eq_mul_inv]

theorem two_integrals (a : ℝ) (ha : 0 < a) :
    IntegrableOn (fun s : ℝ => a / s ^ 2 * bump a s) (Ioi 0) ∧
    (∫ s in Ioi (0 : ℝ), bump a s) = Real.sqrt Real.pi / 2 * Real.exp (-2 * a) ∧
    (∫ s in Ioi (0 : ℝ), a / s ^ 2 * bump a s) = Real.sqrt Real.pi / 2 * Real.exp (-2 * a) := by
  have hA : IntegrableOn (fun s : ℝ => bump a s) (Ioi 0) := by
    simpa using moment_integrable a 0
  have hd1 : ∀ s ∈ Ioi (0 : ℝ), HasDerivWithinAt (fun s : ℝ => s - a / s) (1 + a / s ^ 2)
      (Ioi 0) s := by
    intro s hs
    have hs' : (0 : ℝ) < s := hs
    exact (((hasDerivAt_id s).sub (hasDeriv_div a s hs'.ne')).congr_deriv
      (by ring)).hasDerivWithinAt
  let g : ℝ → ℝ := fun u => Real.exp (-2 * a) * Real.exp (-1 * u ^ 2)
  have hg : Integrable g := (integrable_exp_neg_mul_sq one_pos).const_mul _
  have hgi : ∫ u, g u = Real.exp (-2 * a) * Real.sqrt Real.pi := by
    show ∫ u, Real.exp (-2 * a) * Real.exp (-1 * u ^ 2) = _
    rw [integral_const_mul, integral_gaussian, div_one]
  have hcongr : ∀ s ∈ Ioi (0 : ℝ), |1 + a / s ^ 2| • g (s - a / s) =
      bump a s + a / s ^ 2 * bump a s := by
    intro s hs
    have hs' : (0 : ℝ) < s := hs
    have : (0 : ℝ) < 1 + a / s ^ 2 := by positivity
    rw [abs_of_pos this, smul_eq_mul, bump_split a s hs'.ne']
    simp only [g]
    ring
  have hsum : IntegrableOn (fun s : ℝ => bump a s + a / s ^ 2 * bump a s) (Ioi 0) := by
    have h := (integrableOn_image_iff_integrableOn_abs_deriv_smul measurableSet_Ioi hd1
      (inj_sub a ha) g).mp (by rw [image_sub a ha]; exact hg.integrableOn)
    exact h.congr_fun hcongr measurableSet_Ioi
  have hB : IntegrableOn (fun s : ℝ => a / s ^ 2 * bump a s) (Ioi 0) := by
    have := hsum.sub hA
    refine this.congr_fun (fun s _ => ?_) measurableSet_Ioi
    simp
  have hAB : (∫ s in Ioi (0 : ℝ), bump a s) + (∫ s in Ioi (0 : ℝ), a / s ^ 2 * bump a s) =
      Real.exp (-2 * a) * Real.sqrt Real.pi := by
    rw [← integral_add hA hB, ← hgi]
    have h := integral_image_eq_integral_abs_deriv_smul measurableSet_Ioi hd1 (inj_sub a ha) g
    rw [image_sub a ha, setIntegral_univ] at h
    rw [h]
    exact (setIntegral_congr_fun measurableSet_Ioi hcongr).symm
  have hEq : (∫ s in Ioi (0 : ℝ), bump a s) = ∫ s in Ioi (0 : ℝ), a / s ^ 2 * bump a s := by
    have himg : (fun s : ℝ => a / s) '' Ioi 0 = Ioi 0 := by
      ext u
      constructor
      · rintro ⟨s, hs, rfl⟩
        exact div_pos ha hs
      · intro hu
        have hu' : (0 : ℝ) < u := hu
        refine ⟨a / u, div_pos ha hu', ?_⟩
        dsimp only
        field_simp
    have hinj : InjOn (fun s : ℝ => a / s) (Ioi 0) := by
      intro s hs t ht h
      have hs' : (0 : ℝ) < s := hs
      have ht' : (0 : ℝ) < t := ht
      dsimp only at h
      rw [div_eq_div_iff hs'.ne' ht'.ne'] at h
      exact (mul_left_cancel₀ ha.ne' h).symm
    have h := integral_image_eq_integral_abs_deriv_smul (s := Ioi (0 : ℝ))
      (f := fun s : ℝ => a / s) (f' := fun s => -(a / s ^ 2)) measurableSet_Ioi
      (fun s hs => (hasDeriv_div a s (ne_of_gt hs)).hasDerivWithinAt) hinj (bump a)
    rw [himg] at h
    rw [h]
    refine setIntegral_congr_fun measurableSet_Ioi fun s hs => ?_
    have hs' : (0 : ℝ) < s := hs
    have : (0 : ℝ) < a / s ^ 2 := by positivity
    rw [abs_neg, abs_of_pos this, smul_eq_mul]
    congr 1
    unfold bump
    congr 1
    field_simp
    ring
  refine ⟨hB, ?_, ?_⟩ <;> linarith

theorem moment_zero (a : ℝ) (ha : 0 ≤ a) :
    moment a 0 = Real.sqrt Real.pi / 2 * Real.exp (-2 * a) := by
  unfold moment
  simp only [pow_zero, one_mul]
  rcases ha.eq_or_lt with rfl | ha
  · have : ∀ s : ℝ, bump 0 s = Real.exp (-1 * s ^ 2) := by intro s; simp [bump]
    simp only [this]
    rw [integral_gaussian_Ioi]
    simp
  · exact (two_integrals a ha).2.1

/-! ## Recurrence -/

theorem hasDeriv_bump (a s : ℝ) (hs : s ≠ 0) :
    HasDerivAt (bump a) ((-2 * s + 2 * a ^ 2 / s ^ 3) * bump a s) s := by
  have h1 : HasDerivAt (fun s : ℝ => -s ^ 2) (-2 * s) s := by
    refine (hasDerivAt_pow 2 s).neg.congr_deriv ?_
    simp
  have h2 : HasDerivAt (fun s : ℝ => a ^ 2 / s ^ 2) (-(2 * a ^ 2 / s ^ 3)) s := by
    have h := ((hasDerivAt_pow 2 s).inv (pow_ne_zero 2 hs)).const_mul (a ^ 2)
    refine (h.congr_deriv ?_).congr_of_eventuallyEq ?_
    · field_simp
      simp
      ring
    · exact Eventually.of_forall fun x => by simp [div_eq_mul_inv]
  have h3 := (h1.sub h2).exp
  refine h3.congr_deriv ?_
  unfold bump
  simp only [Pi.sub_apply]
  ring

theorem pow_bump_tendsto (a : ℝ) (n : ℕ) :
    Tendsto (fun s : ℝ => s ^ n * bump a s) atTop (𝓝 0) := by
  have h1 : Tendsto (fun s : ℝ => s ^ n * Real.exp (-s)) atTop (𝓝 0) :=
    Real.tendsto_pow_mul_exp_neg_atTop_nhds_zero n
  refine tendsto_of_tendsto_of_tendsto_of_le_of_le' tendsto_const_nhds h1 ?_ ?_
  · filter_upwards [eventually_gt_atTop 0] with s hs
    exact mul_nonneg (by positivity) (bump_pos a s).le
  · filter_upwards [eventually_ge_atTop 1] with s hs
    refine mul_le_mul_of_nonneg_left ((bump_le a s).trans ?_) (by positivity)
    apply Real.exp_le_exp.mpr
    nlinarith

theorem pow_bump_continuous (a : ℝ) (n : ℕ) :
    ContinuousWithinAt (fun s : ℝ => s ^ (n + 1) * bump a s) (Ici 0) 0 := by
  unfold ContinuousWithinAt
  have h0 : (0 : ℝ) ^ (n + 1) * bump a 0 = 0 := by simp
  show Tendsto _ _ (𝓝 ((0 : ℝ) ^ (n + 1) * bump a 0))
  rw [h0]
  have h1 : Tendsto (fun s : ℝ => s ^ (n + 1)) (𝓝[Ici 0] 0) (𝓝 0) := by
    have : Tendsto (fun s : ℝ => s ^ (n + 1)) (𝓝 0) (𝓝 (0 ^ (n + 1))) :=
      (continuous_pow (n + 1)).tendsto 0
    simp only [zero_pow (Nat.succ_ne_zero n)] at this
    exact this.mono_left nhdsWithin_le_nhds
  refine tendsto_of_tendsto_of_tendsto_of_le_of_le' tendsto_const_nhds h1 ?_ ?_
  · filter_upwards [self_mem_nhdsWithin] with s hs
    have hs' : (0 : ℝ) ≤ s := hs
    exact mul_nonneg (by positivity) (bump_pos a s).le
  · filter_upwards [self_mem_nhdsWithin] with s hs
    have hs' : (0 : ℝ) ≤ s := hs
    refine mul_le_of_le_one_right (by positivity) ((bump_le a s).trans ?_)
    apply Real.exp_le_one_iff.mpr
    nlinarith [sq_nonneg s]

theorem integral_three {f g h : ℝ → ℝ} (hf : IntegrableOn f (Ioi 0)) (hg : IntegrableOn g (Ioi 0))
    (hh : IntegrableOn h (Ioi 0)) :
    IntegrableOn (fun s => f s - g s + h s) (Ioi 0) ∧
      ∫ s in Ioi (0 : ℝ), (f s - g s + h s) =
        (∫ s in Ioi (0 : ℝ), f s) - (∫ s in Ioi (0 : ℝ), g s) + ∫ s in Ioi (0 : ℝ), h s := by
  have h1 : IntegrableOn (fun s => f s - g s) (Ioi 0) := hf.sub hg
  refine ⟨h1.add hh, ?_⟩
  rw [integral_add h1 hh, integral_sub hf hg]

/-- First moment step. -/
theorem moment_two (a : ℝ) (ha : 0 ≤ a) : 2 * moment a 2 = (1 + 2 * a) * moment a 0 := by
  rcases ha.eq_or_lt with rfl | ha
  · have hI : IntegrableOn (fun s : ℝ => bump 0 s - 2 * (s ^ 2 * bump 0 s)) (Ioi 0) := by
      have := moment_integrable 0 0
      simp only [pow_zero, one_mul] at this
      exact this.sub ((moment_integrable 0 2).const_mul 2)
    have h := integral_Ioi_of_hasDerivAt_of_tendsto (f := fun s => s ^ 1 * bump 0 s)
      (f' := fun s => bump 0 s - 2 * (s ^ 2 * bump 0 s)) (a := 0) (m := 0)
      (pow_bump_continuous 0 0) (fun s hs => by
        have h1 := (hasDerivAt_pow 1 s).mul (hasDeriv_bump 0 s (ne_of_gt hs))
        refine h1.congr_deriv ?_
        simp
        ring) hI (pow_bump_tendsto 0 1)
    have hA : IntegrableOn (fun s : ℝ => bump 0 s) (Ioi 0) := by
      simpa using moment_integrable 0 0
    rw [integral_sub hA ((moment_integrable 0 2).const_mul 2), integral_const_mul] at h
    unfold moment
    simp only [pow_zero, one_mul]
    simp at h
    linarith
  · obtain ⟨hB, hA', hB'⟩ := two_integrals a ha
    have hA : IntegrableOn (fun s : ℝ => bump a s) (Ioi 0) := by
      simpa using moment_integrable a 0
    have h2 := (moment_integrable a 2).const_mul 2
    have h3 := hB.const_mul (2 * a)
    obtain ⟨i1, e1⟩ := integral_three hA h2 h3
    have h := integral_Ioi_of_hasDerivAt_of_tendsto (f := fun s => s ^ 1 * bump a s)
      (f' := fun s => bump a s - 2 * (s ^ 2 * bump a s) + 2 * a * (a / s ^ 2 * bump a s))
      (a := 0) (m := 0)
      (pow_bump_continuous a 0) (fun s hs => by
        have hs' : (0 : ℝ) < s := hs
        have h1 := (hasDerivAt_pow 1 s).mul (hasDeriv_bump a s hs'.ne')
        refine h1.congr_deriv ?_
        simp only [pow_zero, Nat.cast_one, mul_one, one_mul, pow_one, Nat.sub_self]
        field_simp
        ring) i1 (pow_bump_tendsto a 1)
    rw [e1, integral_const_mul, integral_const_mul, hB', hA'] at h
    rw [moment_zero a ha.le]
    unfold moment
    simp only [one_mul, pow_one, zero_mul, sub_zero] at h
    linarith

theorem moment_step (a : ℝ) (n : ℕ) :
    2 * moment a (n + 4) = (n + 3 : ℕ) * moment a (n + 2) + 2 * a ^ 2 * moment a n := by
  have h1 := (moment_integrable a (n + 2)).const_mul ((n + 3 : ℕ) : ℝ)
  have h2 := (moment_integrable a (n + 4)).const_mul 2
  have h3 := (moment_integrable a n).const_mul (2 * a ^ 2)
  obtain ⟨i1, e1⟩ := integral_three h1 h2 h3
  have h := integral_Ioi_of_hasDerivAt_of_tendsto (f := fun s => s ^ (n + 3) * bump a s)
      (f' := fun s => ((n + 3 : ℕ) : ℝ) * (s ^ (n + 2) * bump a s) - 2 * (s ^ (n + 4) * bump a s) +
        2 * a ^ 2 * (s ^ n * bump a s))
      (a := 0) (m := 0)
      (pow_bump_continuous a (n + 2)) (fun s hs => by
        have hs' : (0 : ℝ) < s := hs
        have h1 := (hasDerivAt_pow (n + 3) s).mul (hasDeriv_bump a s hs'.ne')
        refine h1.congr_deriv ?_
        have e : n + 3 - 1 = n + 2 := by omega
        rw [e]
        field_simp
        ring) i1 (pow_bump_tendsto a (n + 3))
  rw [e1, integral_const_mul, integral_const_mul, integral_const_mul] at h
  have : (0 : ℝ) ^ (n + 3) * bump a 0 = 0 := by simp
  rw [this] at h
  unfold moment
  linarith

/-! ## The coefficients -/

theorem coef_a (k m : ℕ) :
    coef (k + m + 2) (k + 2) * (4 * (2 * (k + m) + 3) * (2 * (k + m) + 1) * (k + 1) * (k + 2)) =
      coef (k + m) k * ((k + 2 * m + 2) * (k + 2 * m + 1)) := by
  unfold coef
  have e1 : 2 * (k + m + 2) - (k + 2) = k + 2 * m + 2 := by omega
  have e2 : k + m + 2 - (k + 2) = m := by omega
  have e3 : 2 * (k + m) - k = k + 2 * m := by omega
  have e4 : k + m - k = m := by omega
  have e5 : 2 * (k + m + 2) = 2 * (k + m) + 4 := by omega
  rw [e1, e2, e3, e4, e5]
  simp only [Nat.factorial_succ]
  push_cast
  have h1 : ((2 * (k + m)).factorial : ℝ) ≠ 0 := by exact_mod_cast (Nat.factorial_pos _).ne'
  have h2 : (m.factorial : ℝ) ≠ 0 := by exact_mod_cast (Nat.factorial_pos _).ne'
  have h3 : (k.factorial : ℝ) ≠ 0 := by exact_mod_cast (Nat.factorial_pos _).ne'
  have hk : (0 : ℝ) ≤ k := Nat.cast_nonneg k
  have hm : (0 : ℝ) ≤ m := Nat.cast_nonneg m
  have h4 : 2 * ((k : ℝ) + m) + 3 + 1 ≠ 0 := by positivity
  have h5 : 2 * ((k : ℝ) + m) + 2 + 1 ≠ 0 := by positivity
  have h6 : 2 * ((k : ℝ) + m) + 1 + 1 ≠ 0 := by positivity
  have h7 : 2 * ((k : ℝ) + m) + 1 ≠ 0 := by positivity
  have h8 : (k : ℝ) + 1 ≠ 0 := by positivity
  have h9 : (k : ℝ) + 1 + 1 ≠ 0 := by positivity
  field_simp
  ring

theorem coef_b (k m : ℕ) :
    coef (k + (m + 1) + 1) (k + 2) * (2 * (2 * (k + (m + 1)) + 1) * (k + 1) * (k + 2)) =
      coef (k + (m + 1)) k * (m + 1) := by
  unfold coef
  have e1 : 2 * (k + (m + 1) + 1) - (k + 2) = k + 2 * m + 2 := by omega
  have e2 : k + (m + 1) + 1 - (k + 2) = m := by omega
  have e3 : 2 * (k + (m + 1)) - k = k + 2 * m + 2 := by omega
  have e4 : k + (m + 1) - k = m + 1 := by omega
  have e5 : 2 * (k + (m + 1) + 1) = 2 * (k + (m + 1)) + 2 := by omega
  rw [e1, e2, e3, e4, e5]
  have h0 : ((k + 2 * m + 2).factorial : ℝ) ≠ 0 := by exact_mod_cast (Nat.factorial_pos _).ne'
  rw [Nat.factorial_succ (k + (m + 1)), Nat.factorial_succ (2 * (k + (m + 1)) + 1),
    Nat.factorial_succ (2 * (k + (m + 1))), Nat.factorial_succ (k + 1), Nat.factorial_succ k,
    Nat.factorial_succ m]
  push_cast
  have h1 : ((2 * (k + (m + 1))).factorial : ℝ) ≠ 0 := by exact_mod_cast (Nat.factorial_pos _).ne'
  have h2 : (m.factorial : ℝ) ≠ 0 := by exact_mod_cast (Nat.factorial_pos _).ne'
  have h3 : (k.factorial : ℝ) ≠ 0 := by exact_mod_cast (Nat.factorial_pos _).ne'
  have hk : (0 : ℝ) ≤ k := Nat.cast_nonneg k
  have hm : (0 : ℝ) ≤ m := Nat.cast_nonneg m
  have h6 : 2 * ((k : ℝ) + (m + 1)) + 1 + 1 ≠ 0 := by positivity
  have h7 : 2 * ((k : ℝ) + (m + 1)) + 1 ≠ 0 := by positivity
  have h8 : (k : ℝ) + 1 ≠ 0 := by positivity
  have h9 : (k : ℝ) + 1 + 1 ≠ 0 := by positivity
  have h10 : (m : ℝ) + 1 ≠ 0 := by positivity
  field_simp
  ring

/-- Recurrence of the coefficients. -/
theorem coef_rec (p k : ℕ) (hk : k < p) :
    coef (p + 2) (k + 2) =
      coef (p + 1) (k + 2) + coef p k / (4 * ((2 * p + 3) * (2 * p + 1))) := by
  obtain ⟨m, rfl⟩ : ∃ m, p = k + (m + 1) := ⟨p - k - 1, by omega⟩
  have ha := coef_a k (m + 1)
  have hb := coef_b k m
  push_cast at ha hb ⊢
  have hk : (0 : ℝ) ≤ k := Nat.cast_nonneg k
  have hm : (0 : ℝ) ≤ m := Nat.cast_nonneg m
  have h1 : (0 : ℝ) < 2 * (k + (m + 1)) + 3 := by positivity
  have h2 : (0 : ℝ) < 2 * (k + (m + 1)) + 1 := by positivity
  have h3 : (0 : ℝ) < (k + 1) * (k + 2) := by positivity
  rw [← sub_eq_zero]
  have hne : (4 * (2 * ((k : ℝ) + (m + 1)) + 3) * (2 * (k + (m + 1)) + 1) * ((k + 1) * (k + 2))) ≠ 0 := by
    positivity
  apply mul_left_cancel₀ hne
  rw [mul_zero]
  have e : coef (k + (m + 1)) k / (4 * ((2 * ((k : ℝ) + (m + 1)) + 3) * (2 * (k + (m + 1)) + 1))) *
      (4 * (2 * ((k : ℝ) + (m + 1)) + 3) * (2 * (k + (m + 1)) + 1) * ((k + 1) * (k + 2))) =
      coef (k + (m + 1)) k * ((k + 1) * (k + 2)) := by
    field_simp
  linear_combination ha - 2 * (2 * ((k : ℝ) + (m + 1)) + 3) * hb - e

theorem coef_rec_last (p : ℕ) :
    coef (p + 2) (p + 2) = coef p p / (4 * ((2 * p + 3) * (2 * p + 1))) := by
  have ha := coef_a p 0
  simp only [add_zero, Nat.cast_zero, mul_zero] at ha
  have hp : (0 : ℝ) ≤ p := Nat.cast_nonneg p
  rw [eq_div_iff (by positivity)]
  have h3 : ((p : ℝ) + 1) * (p + 2) ≠ 0 := by positivity
  apply mul_right_cancel₀ h3
  linear_combination ha

theorem coef_one (p : ℕ) : coef (p + 1) 1 = 1 / 2 := by
  have h := Verif.Kernel.coef_succ_eq (p + 1) 0 (by omega)
  rw [Verif.Kernel.coef_zero] at h
  simp only [Nat.sub_zero, Nat.cast_zero, zero_add, mul_one, one_mul] at h
  push_cast at h
  have hp : (0 : ℝ) ≤ p := Nat.cast_nonneg p
  have : (p : ℝ) + 1 ≠ 0 := by positivity
  have h2 : coef (p + 1) 1 * 2 = 1 := by
    apply mul_right_cancel₀ this
    linear_combination h
  linarith

/-- Recurrence of the kernels in the order. -/
theorem shape_rec (p : ℕ) (t : ℝ) :
    shape (p + 2) t = shape (p + 1) t + t ^ 2 / ((2 * p + 3) * (2 * p + 1)) * shape p t := by
  have hp : (0 : ℝ) ≤ p := Nat.cast_nonneg p
  have h1 : (2 * (p : ℝ) + 3) ≠ 0 := by positivity
  have h2 : (2 * (p : ℝ) + 1) ≠ 0 := by positivity
  unfold shape
  have two : ∀ (f : ℕ → ℝ) (n : ℕ), ∑ k ∈ Finset.range (n + 2), f k =
      ∑ k ∈ Finset.range n, f (k + 2) + f 1 + f 0 := by
    intro f n
    rw [Finset.sum_range_succ', Finset.sum_range_succ']
  rw [show p + 2 + 1 = (p + 1) + 2 from rfl, show p + 1 + 1 = p + 2 from rfl, two _ (p + 1),
    two _ p, Finset.sum_range_succ _ p, Finset.sum_range_succ _ p, coef_rec_last,
    Verif.Kernel.coef_zero, Verif.Kernel.coef_zero, coef_one p, coef_one (p + 1)]
  have hs : (∑ k ∈ Finset.range p, coef (p + 2) (k + 2) * (2 * t) ^ (k + 2)) =
      (∑ k ∈ Finset.range p, coef (p + 1) (k + 2) * (2 * t) ^ (k + 2)) +
        t ^ 2 / ((2 * p + 3) * (2 * p + 1)) * ∑ k ∈ Finset.range p, coef p k * (2 * t) ^ k := by
    rw [Finset.mul_sum, ← Finset.sum_add_distrib]
    refine Finset.sum_congr rfl fun k hk => ?_
    rw [coef_rec p k (Finset.mem_range.mp hk)]
    field_simp
    ring
  rw [hs]
  field_simp
  ring

/-! ## The mixture -/

/-- Normalising constants: half the Gamma function at `p + 1/2`. -/
noncomputable def mixConst : ℕ → ℝ
  | 0 => Real.sqrt Real.pi / 2
  | p + 1 => (2 * p + 1) / 2 * mixConst p

theorem mixConst_pos (p : ℕ) : 0 < mixConst p := by
  induction p with
  | zero => simp only [mixConst]; have := Real.pi_pos; positivity
  | succ p ih => simp only [mixConst]; positivity

theorem moment_shape_pair (a : ℝ) (ha : 0 ≤ a) (p : ℕ) :
    moment a (2 * p) = mixConst p * shape p (2 * a) ∧
      moment a (2 * (p + 1)) = mixConst (p + 1) * shape (p + 1) (2 * a) := by
  induction p with
  | zero =>
    have h0 : shape 0 (2 * a) = Real.exp (-2 * a) := by
      simp [shape, Verif.Kernel.coef_zero]
    have h1 : shape 1 (2 * a) = Real.exp (-2 * a) * (1 + 2 * a) := by
      unfold shape
      rw [Finset.sum_range_succ, Finset.sum_range_one, Verif.Kernel.coef_zero, coef_one 0]
      rw [neg_mul]
      ring
    constructor
    · rw [mul_zero, moment_zero a ha, h0]; rfl
    · have h := moment_two a ha
      rw [moment_zero a ha] at h
      rw [h1]
      simp only [mixConst]
      push_cast
      linarith
  | succ p ih =>
    refine ⟨ih.2, ?_⟩
    have h := moment_step a (2 * p)
    have e1 : 2 * p + 4 = 2 * (p + 1 + 1) := by ring
    have e2 : 2 * p + 2 = 2 * (p + 1) := by ring
    rw [e1, e2, ih.1, ih.2] at h
    rw [show p + 1 + 1 = p + 2 from rfl] at h ⊢
    rw [shape_rec]
    simp only [mixConst] at h ⊢
    rw [Nat.cast_add, Nat.cast_one]
    push_cast at h
    have hp : (0 : ℝ) ≤ p := Nat.cast_nonneg p
    have h2 : (2 * (p : ℝ) + 1) ≠ 0 := by positivity
    have h3 : (2 * (p : ℝ) + 3) ≠ 0 := by positivity
    have e3 : (2 * ((p : ℝ) + 1) + 1) / 2 * ((2 * p + 1) / 2 * mixConst p) *
        ((2 * a) ^ 2 / ((2 * p + 3) * (2 * p + 1)) * shape p (2 * a)) =
        a ^ 2 * (mixConst p * shape p (2 * a)) := by
      field_simp
      ring
    linear_combination h / 2 - e3

/-- The Matérn kernel is a mixture of Gaussian kernels. -/
theorem shape_mixture (p : ℕ) (t : ℝ) (ht : 0 ≤ t) :
    mixConst p * shape p t = ∫ s in Ioi (0 : ℝ), s ^ (2 * p) * bump (t / 2) s := by
  have h := (moment_shape_pair (t / 2) (by linarith) p).1
  rw [show 2 * (t / 2) = t by ring] at h
  exact h.symm

/-- The Matérn 3/2 shape at 2 as a mixture. -/
example : mixConst 1 * shape 1 2 = ∫ s in Ioi (0 : ℝ), s ^ 2 * bump 1 s := by
  rw [shape_mixture 1 2 (by norm_num)]
  norm_num

end Verif.PD
