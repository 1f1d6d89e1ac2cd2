import Verif.Kernel.PropsGaussPrior
import Mathlib.MeasureTheory.Integral.IntegralEqImproper
import Mathlib.MeasureTheory.Integral.IntervalIntegral.FundThmCalculus
import Mathlib.Analysis.SpecialFunctions.Gaussian.GaussianIntegral
import Mathlib.Tactic.Ring

/-!
# The standard normal distribution function: derivatives, limits and integrals

Mathematics used by the properties of the scoring rules; nothing of gpmp is modelled here.
-/

set_option autoImplicit false

namespace Verif.Score

open Verif ProbabilityTheory MeasureTheory Set Filter Topology

/-- The standard normal distribution function. -/
noncomputable def Phi (x : ℝ) : ℝ := cdf (gaussianReal 0 1) x

/-- The standard normal density. -/
noncomputable def phi (x : ℝ) : ℝ := (√(2 * Real.pi))⁻¹ * Real.exp (-x ^ 2 / 2)

theorem phi_pdf (x : ℝ) : gaussianPDFReal 0 1 x = phi x := by
  simp [gaussianPDFReal, phi]

theorem phi_pos (x : ℝ) : 0 < phi x := by
  unfold phi
  have := Real.pi_pos
  positivity

theorem phi_neg (x : ℝ) : phi (-x) = phi x := by simp [phi]

theorem phi_continuous : Continuous phi := by
  unfold phi
  fun_prop

theorem phi_deriv (x : ℝ) : HasDerivAt phi (-x * phi x) x := by
  unfold phi
  have h1 : HasDerivAt (fun x : ℝ => -x ^ 2 / 2) (-x) x := by
    have := ((hasDerivAt_pow 2 x).neg).div_const 2
    refine this.congr_deriv ?_
    simp
    ring
  refine (h1.exp.const_mul _).congr_deriv ?_
  ring

theorem Phi_neg (x : ℝ) : Phi (-x) = 1 - Phi x := by
  unfold Phi
  rw [cdf_eq_real, cdf_eq_real, Kernel.gauss_neg]

theorem Phi_nonneg (x : ℝ) : 0 ≤ Phi x := cdf_nonneg _ x
theorem Phi_le_one (x : ℝ) : Phi x ≤ 1 := cdf_le_one _ x
theorem Phi_mono : Monotone Phi := monotone_cdf _
theorem Phi_top : Tendsto Phi atTop (𝓝 1) := tendsto_cdf_atTop _
theorem Phi_bot : Tendsto Phi atBot (𝓝 0) := tendsto_cdf_atBot _

theorem Phi_eq_integral (x : ℝ) : Phi x = ∫ y in Iic x, phi y := by
  unfold Phi
  rw [cdf_eq_real, measureReal_def, gaussianReal_apply_eq_integral 0 one_ne_zero, ENNReal.toReal_ofReal]
  · simp only [phi_pdf]
  · exact setIntegral_nonneg measurableSet_Iic fun y _ => gaussianPDFReal_nonneg _ _ _

theorem phi_integrable : Integrable phi := by
  have := integrable_gaussianPDFReal 0 1
  exact this.congr (ae_of_all _ fun x => phi_pdf x)

theorem Phi_deriv (x : ℝ) : HasDerivAt Phi (phi x) x := by
  have h : Phi = fun y => Phi x + ∫ t in x..y, phi t := by
    funext y
    have := intervalIntegral.integral_Iic_sub_Iic (μ := volume) (a := x) (b := y) phi_integrable.integrableOn
      phi_integrable.integrableOn
    rw [← Phi_eq_integral, ← Phi_eq_integral] at this
    rw [← this]; ring
  rw [h]
  exact (intervalIntegral.integral_hasDerivAt_right (phi_continuous.intervalIntegrable _ _)
    phi_continuous.aestronglyMeasurable.stronglyMeasurableAtFilter phi_continuous.continuousAt).const_add _

theorem Phi_continuous : Continuous Phi := continuous_iff_continuousAt.mpr fun x => (Phi_deriv x).continuousAt

theorem phi_top : Tendsto phi atTop (𝓝 0) := by
  unfold phi
  have h1 : Tendsto (fun x : ℝ => -x ^ 2 / 2) atTop atBot := by
    have := (tendsto_pow_atTop (α := ℝ) (n := 2) two_ne_zero).atTop_div_const (show (0 : ℝ) < 2 by norm_num)
    refine (tendsto_neg_atTop_atBot.comp this).congr fun x => ?_
    simp [neg_div]
  have := (Real.tendsto_exp_atBot.comp h1).const_mul (√(2 * Real.pi))⁻¹
  simpa using this

/-- `E[Y; Y > x]` for a standard normal `Y`. -/
theorem integral_id_phi (x : ℝ) (hx : 0 ≤ x) : IntegrableOn (fun y => y * phi y) (Ioi x) ∧
    ∫ y in Ioi x, y * phi y = phi x := by
  have hd : ∀ y ∈ Ici x, HasDerivAt (fun y => -phi y) (y * phi y) y := by
    intro y _
    refine (phi_deriv y).neg.congr_deriv ?_
    ring
  have hp : ∀ y ∈ Ioi x, 0 ≤ y * phi y := fun y hy => mul_nonneg (hx.trans (le_of_lt hy)) (phi_pos y).le
  have ht : Tendsto (fun y => -phi y) atTop (𝓝 0) := by simpa using phi_top.neg
  refine ⟨integrableOn_Ioi_deriv_of_nonneg' hd hp ht, ?_⟩
  rw [integral_Ioi_of_hasDerivAt_of_nonneg' hd hp ht]
  ring

theorem tail_integral (x : ℝ) : 1 - Phi x = ∫ y in Ioi x, phi y := by
  rw [integral_Ioi_of_hasDerivAt_of_nonneg' (fun y _ => Phi_deriv y) (fun y _ => (phi_pos y).le) Phi_top]

/-- The bound of Mills. -/
theorem mills (x : ℝ) (hx : 0 ≤ x) : x * (1 - Phi x) ≤ phi x := by
  obtain ⟨h1, h2⟩ := integral_id_phi x hx
  rw [← h2, tail_integral, ← integral_const_mul]
  exact setIntegral_mono_on (phi_integrable.integrableOn.const_mul _) h1 measurableSet_Ioi
    fun y hy => mul_le_mul_of_nonneg_right (le_of_lt hy) (phi_pos y).le

theorem tail_top : Tendsto (fun x => x * (1 - Phi x)) atTop (𝓝 0) := by
  refine tendsto_of_tendsto_of_tendsto_of_le_of_le' tendsto_const_nhds phi_top ?_ ?_
  · filter_upwards [eventually_ge_atTop 0] with x hx
    exact mul_nonneg hx (sub_nonneg.mpr (Phi_le_one x))
  · filter_upwards [eventually_ge_atTop 0] with x hx using mills x hx

theorem tail_bot : Tendsto (fun x => x * Phi x) atBot (𝓝 0) := by
  have := (tail_top.comp tendsto_neg_atBot_atTop).neg
  rw [neg_zero] at this
  refine this.congr fun x => ?_
  simp only [Function.comp, Phi_neg]
  ring

theorem phi_bot : Tendsto phi atBot (𝓝 0) := by
  refine (phi_top.comp tendsto_neg_atBot_atTop).congr fun x => phi_neg x

/-! ## Primitives of `Phi` and `Phi²` -/

/-- A primitive of `Phi`. -/
noncomputable def H (t : ℝ) : ℝ := t * Phi t + phi t

/-- A primitive of `Phi²`. -/
noncomputable def G (t : ℝ) : ℝ := t * Phi t ^ 2 + 2 * phi t * Phi t - (√Real.pi)⁻¹ * Phi (√2 * t)

theorem H_deriv (t : ℝ) : HasDerivAt H (Phi t) t := by
  have h := ((hasDerivAt_id t).mul (Phi_deriv t)).add (phi_deriv t)
  refine (h.congr_deriv ?_).congr_of_eventuallyEq ?_
  · simp
  · exact Eventually.of_forall fun x => by simp [H]

theorem phi_sq (t : ℝ) : 2 * phi t ^ 2 = (√Real.pi)⁻¹ * (phi (√2 * t) * √2) := by
  have hpi := Real.pi_pos
  have h2 : (√2 * t) ^ 2 = 2 * t ^ 2 := by rw [mul_pow, Real.sq_sqrt (by norm_num)]
  have he : Real.exp (-t ^ 2 / 2) ^ 2 = Real.exp (-(2 * t ^ 2) / 2) := by
    rw [← Real.exp_nat_mul]; congr 1; push_cast; ring
  unfold phi
  rw [h2, mul_pow, he, inv_pow, Real.sq_sqrt (by positivity), Real.sqrt_mul (by norm_num)]
  have h3 : √2 ≠ 0 := by positivity
  have h4 : √Real.pi ≠ 0 := by positivity
  have h5 : √Real.pi ^ 2 = Real.pi := Real.sq_sqrt hpi.le
  field_simp
  rw [h5]

theorem G_deriv (t : ℝ) : HasDerivAt G (Phi t ^ 2) t := by
  have h1 := (hasDerivAt_id t).mul ((Phi_deriv t).pow 2)
  have h2 := ((phi_deriv t).const_mul 2).mul (Phi_deriv t)
  have h3 : HasDerivAt (fun t => Phi (√2 * t)) (phi (√2 * t) * √2) t := by
    have := HasDerivAt.comp t (h₂ := Phi) (Phi_deriv (√2 * t)) ((hasDerivAt_id t).const_mul √2)
    rw [mul_one] at this
    exact this
  have h := (h1.add h2).sub (h3.const_mul (√Real.pi)⁻¹)
  refine (h.congr_deriv ?_).congr_of_eventuallyEq ?_
  · rw [← phi_sq]
    simp
    ring
  · exact Eventually.of_forall fun x => by simp [G]

theorem H_bot : Tendsto H atBot (𝓝 0) := by
  have := tail_bot.add phi_bot
  rw [add_zero] at this
  exact this

theorem G_bot : Tendsto G atBot (𝓝 0) := by
  have h1 : Tendsto (fun t => t * Phi t ^ 2) atBot (𝓝 0) := by
    have := tail_bot.mul Phi_bot
    rw [zero_mul] at this
    exact this.congr fun t => by ring
  have h2 : Tendsto (fun t => 2 * phi t * Phi t) atBot (𝓝 0) := by
    have := (phi_bot.const_mul 2).mul Phi_bot
    simpa using this
  have h3 : Tendsto (fun t => (√Real.pi)⁻¹ * Phi (√2 * t)) atBot (𝓝 0) := by
    have h : Tendsto (fun t : ℝ => √2 * t) atBot atBot :=
      tendsto_id.const_mul_atBot (by positivity)
    have := (Phi_bot.comp h).const_mul (√Real.pi)⁻¹
    simpa using this
  have := (h1.add h2).sub h3
  rw [add_zero, sub_zero] at this
  exact this

theorem H_reflect (t : ℝ) : H t - H (-t) = t := by
  unfold H
  rw [Phi_neg, phi_neg]
  ring

theorem G_reflect (t : ℝ) : G t + G (-t) = t * (2 * Phi t - 1) + 2 * phi t - (√Real.pi)⁻¹ := by
  unfold G
  rw [mul_neg, Phi_neg, Phi_neg, phi_neg]
  ring

theorem integrableOn_Iic_of_deriv {f f' : ℝ → ℝ} {m : ℝ} (hd : ∀ x, HasDerivAt f (f' x) x) (hp : ∀ x, 0 ≤ f' x)
    (hf : Tendsto f atBot (𝓝 m)) (a : ℝ) : IntegrableOn f' (Iic a) := by
  have hd' : ∀ x ∈ Ici (-a), HasDerivAt (fun x => -f (-x)) (f' (-x)) x := by
    intro x _
    have := ((hd (-x)).comp x (hasDerivAt_neg x)).neg
    refine this.congr_deriv ?_
    ring
  have h := integrableOn_Ioi_deriv_of_nonneg' hd' (fun x _ => hp _) (hf.comp tendsto_neg_atTop_atBot).neg
  have h' := ((integrableOn_Ici_iff_integrableOn_Ioi).mpr h).comp_neg_Iic
  simpa using h'

theorem integral_Iic_of_deriv {f f' : ℝ → ℝ} {m : ℝ} (hd : ∀ x, HasDerivAt f (f' x) x) (hp : ∀ x, 0 ≤ f' x)
    (hf : Tendsto f atBot (𝓝 m)) (a : ℝ) : ∫ x in Iic a, f' x = f a - m :=
  integral_Iic_of_hasDerivAt_of_tendsto' (fun x _ => hd x) (integrableOn_Iic_of_deriv hd hp hf a) hf

/-! ## Location and scale -/

/-- Distribution function of the normal law of mean `mu` and standard deviation `s`. -/
theorem cdf_gauss (mu : ℝ) {s : ℝ} (hs : 0 < s) (u : ℝ) :
    cdf (gaussianReal mu (NNReal.mk (s ^ 2) (sq_nonneg s))) u = Phi ((u - mu) / s) := by
  have h1 : gaussianReal mu (NNReal.mk (s ^ 2) (sq_nonneg s)) = (gaussianReal 0 1).map (fun y => s * y + mu) := by
    have e : (fun y : ℝ => s * y + mu) = (fun y => y + mu) ∘ fun y => s * y := rfl
    rw [e, ← Measure.map_map (by fun_prop) (by fun_prop), gaussianReal_map_const_mul, gaussianReal_map_add_const]
    simp
  unfold Phi
  rw [cdf_eq_real, cdf_eq_real, h1, measureReal_def, Measure.map_apply (by fun_prop) measurableSet_Iic, ← measureReal_def]
  congr 1
  ext y
  simp only [mem_preimage, mem_Iic]
  rw [le_div_iff₀ hs]
  constructor <;> intro h <;> linarith

end Verif.Score
