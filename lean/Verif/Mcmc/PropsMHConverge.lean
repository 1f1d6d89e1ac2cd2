import Verif.Mcmc.PropsMH
import Mathlib.Probability.Kernel.Invariance
import Mathlib.Probability.Kernel.Composition.IntegralCompProd
import Mathlib.MeasureTheory.Measure.Sub
import Mathlib.Analysis.Complex.ExponentialBounds
import Mathlib.Probability.Distributions.Gaussian.Real

/-!
# C244: convergence of the Metropolis-Hastings chain

With a fixed proposal, as after a burn-in with `freeze_adaptation` set.
-/

set_option autoImplicit false

namespace Verif.MH

open Verif MeasureTheory ProbabilityTheory
open scoped ENNReal

/-! ## Markov kernels with a uniform part -/

section Doeblin

theorem bounded_integrable {X : Type} [MeasurableSpace X] (m : Measure X) [IsFiniteMeasure m] {h : X → ℝ}
    (hm : Measurable h) {c : ℝ} (hc : ∀ x, |h x| ≤ c) : Integrable h m :=
  Integrable.of_bound hm.aestronglyMeasurable c (Filter.Eventually.of_forall hc)

variable {X : Type} [MeasurableSpace X] {K : Kernel X X} [IsMarkovKernel K] {π : Measure X}
  [IsProbabilityMeasure π] {e : ℝ}

theorem contract (he0 : 0 ≤ e) (hd : ∀ x, ENNReal.ofReal e • π ≤ K x) {h : X → ℝ}
    (hm : Measurable h) {c : ℝ} (hc : ∀ x, |h x| ≤ c) (h0 : ∫ y, h y ∂π = 0) (x : X) :
    |∫ y, h y ∂K x| ≤ (1 - e) * c := by
  have hfin : IsFiniteMeasure (ENNReal.ofReal e • π) := by
    refine ⟨?_⟩
    simp
  have hs : K x = (K x - ENNReal.ofReal e • π) + ENNReal.ofReal e • π := (Measure.sub_add_cancel_of_le (hd x)).symm
  have hmass : (K x - ENNReal.ofReal e • π).real Set.univ = 1 - e := by
    have h1 : (K x) Set.univ = (K x - ENNReal.ofReal e • π) Set.univ + ENNReal.ofReal e := by
      conv_lhs => rw [hs]
      simp
    rw [show (K x) Set.univ = 1 from measure_univ] at h1
    have h2 := congrArg ENNReal.toReal h1
    rw [ENNReal.toReal_add (measure_ne_top _ _) ENNReal.ofReal_ne_top, ENNReal.toReal_ofReal he0] at h2
    simp only [ENNReal.toReal_one] at h2
    rw [Measure.real]
    linarith
  conv_lhs => rw [hs]
  rw [integral_add_measure (bounded_integrable _ hm hc) (bounded_integrable _ hm hc), integral_smul_measure,
    h0, smul_zero, add_zero]
  have := norm_integral_le_of_norm_le_const (μ := K x - ENNReal.ofReal e • π) (f := h) (C := c)
    (Filter.Eventually.of_forall hc)
  rw [hmass, Real.norm_eq_abs] at this
  linarith

omit [IsMarkovKernel K] in
theorem T_measurable {h : X → ℝ} (hm : Measurable h) : Measurable fun x => ∫ y, h y ∂K x :=
  (StronglyMeasurable.integral_kernel hm.stronglyMeasurable).measurable

theorem T_bound {h : X → ℝ} {c : ℝ} (hc : ∀ x, |h x| ≤ c) (x : X) : |∫ y, h y ∂K x| ≤ c := by
  have := norm_integral_le_of_norm_le_const (μ := K x) (f := h) (C := c) (Filter.Eventually.of_forall hc)
  simpa using this

theorem T_mean (hinv : Kernel.Invariant K π) {h : X → ℝ} (hm : Measurable h) {c : ℝ} (hc : ∀ x, |h x| ≤ c) :
    ∫ x, ∫ y, h y ∂K x ∂π = ∫ y, h y ∂π := by
  have hi : Integrable h ((K ∘ₖ Kernel.const Unit π) ()) := bounded_integrable _ hm hc
  have := Kernel.integral_comp hi
  rw [Kernel.comp_apply, Kernel.const_apply, hinv] at this
  exact this.symm

theorem doeblin (he0 : 0 ≤ e) (hd : ∀ x, ENNReal.ofReal e • π ≤ K x) (hinv : Kernel.Invariant K π) {h : X → ℝ}
    (hm : Measurable h) {c : ℝ} (hc : ∀ x, |h x| ≤ c) (h0 : ∫ y, h y ∂π = 0) (n : ℕ) :
    Measurable ((fun (g : X → ℝ) x => ∫ y, g y ∂K x)^[n] h) ∧
    (∀ x, |(fun (g : X → ℝ) x => ∫ y, g y ∂K x)^[n] h x| ≤ (1 - e) ^ n * c) ∧
    ∫ x, (fun (g : X → ℝ) x => ∫ y, g y ∂K x)^[n] h x ∂π = 0 := by
  induction n with
  | zero => exact ⟨hm, by simpa using hc, h0⟩
  | succ n ih =>
    obtain ⟨h1, h2, h3⟩ := ih
    rw [Function.iterate_succ_apply']
    refine ⟨T_measurable h1, fun x => ?_, ?_⟩
    · rw [pow_succ, mul_comm ((1 - e) ^ n), mul_assoc]
      exact contract he0 hd h1 h2 h3 x
    · rw [T_mean hinv h1 h2, h3]

/-- Mean of the square of `t` plus the sum of `g` over the next `n` states of the chain. -/
noncomputable def sumSq (K : Kernel X X) (g : X → ℝ) : ℕ → X → ℝ → ℝ
  | 0, _, t => t ^ 2
  | n + 1, x, t => ∫ y, sumSq K g n y (t + g x) ∂K x

theorem sumSq_form (he0 : 0 < e) (hd : ∀ x, ENNReal.ofReal e • π ≤ K x)
    (hinv : Kernel.Invariant K π) {g : X → ℝ} (hg : Measurable g) (hg1 : ∀ x, |g x| ≤ 1)
    (h0 : ∫ y, g y ∂π = 0) (n : ℕ) :
    ∃ H W : X → ℝ, Measurable H ∧ Measurable W ∧ (∀ x, |H x| ≤ 1 / e) ∧ ∫ y, H y ∂π = 0 ∧
      (∀ x, |W x| ≤ n * (1 + 2 / e)) ∧ ∀ x t, sumSq K g n x t = t ^ 2 + 2 * t * H x + W x := by
  induction n with
  | zero =>
    refine ⟨fun _ => 0, fun _ => 0, measurable_const, measurable_const, ?_, by simp, by simp, by simp [sumSq]⟩
    intro x
    simp [he0.le]
  | succ n ih =>
    obtain ⟨H, W, hH, hW, hH1, hH0, hW1, hf⟩ := ih
    have hTH := contract he0.le hd hH hH1 hH0
    have hTW : ∀ x, |∫ y, W y ∂K x| ≤ n * (1 + 2 / e) := T_bound hW1
    have hmH : Measurable fun x => ∫ y, H y ∂K x := T_measurable hH
    have hmW : Measurable fun x => ∫ y, W y ∂K x := T_measurable hW
    have hTH' : ∀ x, |∫ y, H y ∂K x| ≤ 1 / e - 1 := fun x => by
      refine (hTH x).trans (le_of_eq ?_)
      field_simp
    refine ⟨fun x => g x + ∫ y, H y ∂K x, fun x => g x ^ 2 + 2 * g x * (∫ y, H y ∂K x) + ∫ y, W y ∂K x,
      hg.add hmH, ((hg.pow_const 2).add ((hg.const_mul 2).mul hmH)).add hmW, ?_, ?_, ?_, ?_⟩
    · intro x
      calc |g x + ∫ y, H y ∂K x| ≤ |g x| + |∫ y, H y ∂K x| := abs_add_le _ _
        _ ≤ 1 + (1 / e - 1) := add_le_add (hg1 x) (hTH' x)
        _ = 1 / e := by ring
    · rw [integral_add (bounded_integrable _ hg hg1) (bounded_integrable _ hmH hTH'), h0, T_mean hinv hH hH1, hH0,
        add_zero]
    · intro x
      have h1 : |g x ^ 2| ≤ 1 := by
        rw [abs_pow]
        exact pow_le_one₀ (abs_nonneg _) (hg1 x)
      have h2 : |2 * g x * ∫ y, H y ∂K x| ≤ 2 / e := by
        rw [abs_mul, abs_mul, abs_two]
        have := mul_le_mul (hg1 x) (hTH' x) (abs_nonneg _) zero_le_one
        have e2 : 2 / e = 2 * (1 / e) := by ring
        rw [e2]
        nlinarith
      calc _ ≤ |g x ^ 2 + 2 * g x * ∫ y, H y ∂K x| + |∫ y, W y ∂K x| := abs_add_le _ _
        _ ≤ |g x ^ 2| + |2 * g x * ∫ y, H y ∂K x| + |∫ y, W y ∂K x| := by gcongr; exact abs_add_le _ _
        _ ≤ 1 + 2 / e + n * (1 + 2 / e) := add_le_add (add_le_add h1 h2) (hTW x)
        _ = _ := by push_cast; ring
    · intro x t
      have iH : Integrable H (K x) := bounded_integrable _ hH hH1
      have iW : Integrable W (K x) := bounded_integrable _ hW hW1
      show ∫ y, sumSq K g n y (t + g x) ∂K x = _
      simp only [hf]
      have i1 : Integrable (fun y => (t + g x) ^ 2 + 2 * (t + g x) * H y) (K x) :=
        (integrable_const _).add (iH.const_mul _)
      rw [integral_add i1 iW, integral_add (integrable_const _) (iH.const_mul _), integral_const, integral_const_mul]
      simp only [probReal_univ, one_smul]
      ring

end Doeblin

/-! ## The chain -/

section Chain
variable {X : Type} [MeasurableSpace X]

/-- Mean of `f` at the state that follows `x`: the proposal is drawn from the density `q x`, the
uniform number from `[0, 1)`. -/
noncomputable def stepMean (mu : Measure X) (lt : X → Py Flt) (sym : Bool) (lq : X → X → Py Flt) (q : X → X → ℝ)
    (f : X → ℝ≥0∞) (x : X) : ℝ≥0∞ :=
  ∫⁻ y, ENNReal.ofReal (q x y) * (∫⁻ u in Set.Ico (0 : ℝ) 1, match mhStep lt sym lq x none (.ok y) u with
    | .ok r => f r.1
    | .error _ => 0) ∂mu

/-- Mean of `F` at the number `s` plus the sum of `f` over the next `n` states, from `x` on. -/
noncomputable def sumMean (mu : Measure X) (lt : X → Py Flt) (sym : Bool) (lq : X → X → Py Flt) (q : X → X → ℝ)
    (f : X → ℝ) (F : ℝ → ℝ≥0∞) : ℕ → X → ℝ → ℝ≥0∞
  | 0, _, s => F s
  | n + 1, x, s => stepMean mu lt sym lq q (fun y => sumMean mu lt sym lq q f F n y (s + f x)) x

/-- The law with density proportional to `p`. -/
noncomputable def targetLaw (mu : Measure X) (p : X → ℝ) : Measure X :=
  (∫⁻ x, ENNReal.ofReal (p x) ∂mu)⁻¹ • mu.withDensity fun x => ENNReal.ofReal (p x)

variable {mu : Measure X} {lt : X → Py Flt} {sym : Bool} {lq : X → X → Py Flt} {p : X → ℝ} {q : X → X → ℝ}

theorem stepMean_mono {f g : X → ℝ≥0∞} (h : ∀ x, f x ≤ g x) (x : X) :
    stepMean mu lt sym lq q f x ≤ stepMean mu lt sym lq q g x := by
  unfold stepMean
  refine lintegral_mono fun y => mul_le_mul_right (lintegral_mono fun u => ?_) _
  split
  · exact h _
  · exact le_rfl

theorem sumMean_mono {f : X → ℝ} {F G : ℝ → ℝ≥0∞} (h : ∀ s, F s ≤ G s) (n : ℕ) (x : X) (s : ℝ) :
    sumMean mu lt sym lq q f F n x s ≤ sumMean mu lt sym lq q f G n x s := by
  induction n generalizing x s with
  | zero => exact h s
  | succ n ih => exact stepMean_mono (fun y => ih y _) x

omit [MeasurableSpace X] in
theorem acc_le_one (x y : X) : acc p q x y ≤ 1 := by
  unfold acc
  split
  · rw [acceptSet_volume]
    split
    · refine (ENNReal.ofReal_le_ofReal (min_le_left _ _)).trans (by simp)
    · exact zero_le
  · exact zero_le

theorem stepMean_eq (hp : TargetOf lt p) (hq : ProposalOf sym lq q) {x : X} (hx : 0 < p x) (f : X → ℝ≥0∞) :
    stepMean mu lt sym lq q f x =
      ∫⁻ y, ENNReal.ofReal (q x y) * (acc p q x y * f y + (1 - acc p q x y) * f x) ∂mu := by
  classical
  unfold stepMean
  refine lintegral_congr fun y => ?_
  congr 1
  obtain ⟨S, hSm, hS1, hSa, hstep⟩ := mhStep_draws hp hq hx y
  have hacc : volume S = acc p q x y := hSa
  have h1 : ∫⁻ u in Set.Ico (0 : ℝ) 1, (match mhStep lt sym lq x none (.ok y) u with
      | .ok r => f r.1
      | .error _ => 0) = ∫⁻ u in Set.Ico (0 : ℝ) 1, S.indicator (fun _ => f y) u + Sᶜ.indicator (fun _ => f x) u := by
    refine setLIntegral_congr_fun measurableSet_Ico fun u hu => ?_
    obtain ⟨r, hr, he⟩ := hstep u hu
    simp only [hr, he]
    by_cases huS : u ∈ S <;> simp [huS]
  rw [h1, lintegral_add_left (measurable_const.indicator hSm), lintegral_indicator_const hSm,
    lintegral_indicator_const hSm.compl, Measure.restrict_apply hSm, Measure.restrict_apply hSm.compl,
    Set.inter_eq_self_of_subset_left hS1, hacc]
  have h2 : volume (Sᶜ ∩ Set.Ico (0 : ℝ) 1) = 1 - acc p q x y := by
    rw [← hacc, ← Set.sdiff_eq_compl_inter, measure_sdiff hS1 hSm.nullMeasurableSet (by
      rw [hacc]; exact ne_top_of_le_ne_top ENNReal.one_ne_top (acc_le_one x y))]
    simp
  rw [h2, mul_comm (f y), mul_comm (f x)]

theorem stepMean_congr (hp : TargetOf lt p) (hq : ProposalOf sym lq q) {x : X} (hx : 0 < p x) {f g : X → ℝ≥0∞}
    (h : ∀ y, 0 < p y → f y = g y) : stepMean mu lt sym lq q f x = stepMean mu lt sym lq q g x := by
  rw [stepMean_eq hp hq hx, stepMean_eq hp hq hx]
  refine lintegral_congr fun y => ?_
  rw [h x hx]
  by_cases hy : 0 < p y
  · rw [h y hy]
  · simp [acc, hy]

variable (hpm : Measurable p) (hqm : Measurable (Function.uncurry q))

include hpm hqm in
theorem acc_measurable : Measurable (Function.uncurry (acc p q)) := by
  classical
  have h2 : Measurable fun z : X × X => p z.2 := hpm.comp measurable_snd
  have hl := logRatio_measurable hpm hqm
  have hv : Measurable fun l : ℝ => volume (acceptSet l) := by
    simp only [acceptSet_volume]
    refine Measurable.ite (measurableSet_lt measurable_const measurable_id) ?_ measurable_const
    exact ENNReal.measurable_ofReal.comp (measurable_const.min Real.measurable_exp)
  exact Measurable.ite (measurableSet_lt measurable_const h2) (hv.comp hl) measurable_const

/-- The probability of being rejected. -/
noncomputable def stay (mu : Measure X) (p : X → ℝ) (q : X → X → ℝ) (x : X) : ℝ≥0∞ :=
  ∫⁻ y, ENNReal.ofReal (q x y) * (1 - acc p q x y) ∂mu

open Classical in
/-- The law of the next state. -/
noncomputable def moveLaw (mu : Measure X) (p : X → ℝ) (q : X → X → ℝ) (x : X) : Measure X :=
  if 0 < p x then mu.withDensity (fun y => ENNReal.ofReal (q x y) * acc p q x y) + stay mu p q x • Measure.dirac x
  else targetLaw mu p

include hpm hqm in
theorem moves_measurable : Measurable fun z : X × X => ENNReal.ofReal (q z.1 z.2) * acc p q z.1 z.2 :=
  (ENNReal.measurable_ofReal.comp hqm).mul (acc_measurable hpm hqm)

include hpm hqm in
theorem stay_measurable [SFinite mu] : Measurable (stay mu p q) := by
  have h : Measurable fun z : X × X => ENNReal.ofReal (q z.1 z.2) * (1 - acc p q z.1 z.2) :=
    (ENNReal.measurable_ofReal.comp hqm).mul (measurable_const.sub (acc_measurable hpm hqm))
  exact h.lintegral_prod_right'

include hpm hqm in
theorem moveLaw_measurable [SFinite mu] : Measurable (moveLaw mu p q) := by
  classical
  refine Measure.measurable_of_measurable_coe _ fun s hs => ?_
  have e : (fun x => moveLaw mu p q x s) = fun x => if 0 < p x then
      (∫⁻ y in s, ENNReal.ofReal (q x y) * acc p q x y ∂mu) + stay mu p q x * s.indicator 1 x
      else targetLaw mu p s := by
    funext x
    unfold moveLaw
    split
    · rw [Measure.add_apply, withDensity_apply _ hs, Measure.smul_apply, Measure.dirac_apply' _ hs, smul_eq_mul]
    · rfl
  rw [e]
  refine Measurable.ite (measurableSet_lt measurable_const hpm) ?_ measurable_const
  refine Measurable.add ?_ ((stay_measurable hpm hqm).mul (measurable_one.indicator hs))
  exact (moves_measurable hpm hqm).lintegral_prod_right'

include hpm hqm in
theorem stepMean_law (hp : TargetOf lt p) (hq : ProposalOf sym lq q) {x : X} (hx : 0 < p x) {f : X → ℝ≥0∞}
    (hf : Measurable f) : stepMean mu lt sym lq q f x = ∫⁻ y, f y ∂moveLaw mu p q x := by
  have hm : Measurable fun y => ENNReal.ofReal (q x y) * acc p q x y :=
    (moves_measurable hpm hqm).comp measurable_prodMk_left
  have hs : Measurable fun y => ENNReal.ofReal (q x y) * (1 - acc p q x y) := by
    have h : Measurable fun z : X × X => ENNReal.ofReal (q z.1 z.2) * (1 - acc p q z.1 z.2) :=
      (ENNReal.measurable_ofReal.comp hqm).mul (measurable_const.sub (acc_measurable hpm hqm))
    exact h.comp measurable_prodMk_left
  rw [stepMean_eq hp hq hx, moveLaw, if_pos hx, lintegral_add_measure, lintegral_withDensity_eq_lintegral_mul _ hm hf,
    lintegral_smul_measure, lintegral_dirac' _ hf, stay, smul_eq_mul, ← lintegral_mul_const _ hs,
    ← lintegral_add_left (hm.mul hf)]
  refine lintegral_congr fun y => ?_
  simp only [Pi.mul_apply]
  ring

include hpm hqm in
theorem moveLaw_univ (hp : TargetOf lt p) (hq : ProposalOf sym lq q)
    (hq1 : ∀ x, ∫⁻ y, ENNReal.ofReal (q x y) ∂mu = 1) {x : X} (hx : 0 < p x) : moveLaw mu p q x Set.univ = 1 := by
  have h := stepMean_law (mu := mu) hpm hqm hp hq hx (f := fun _ => 1) measurable_const
  rw [lintegral_one, stepMean_eq hp hq hx] at h
  rw [← h]
  refine Eq.trans (lintegral_congr fun y => ?_) (hq1 x)
  rw [mul_one, mul_one, add_tsub_cancel_of_le (acc_le_one x y), mul_one]

theorem targetLaw_prob (hZ0 : ∫⁻ x, ENNReal.ofReal (p x) ∂mu ≠ 0) (hZ1 : ∫⁻ x, ENNReal.ofReal (p x) ∂mu ≠ ⊤) :
    IsProbabilityMeasure (targetLaw mu p) := by
  refine ⟨?_⟩
  rw [targetLaw, Measure.smul_apply, withDensity_apply _ MeasurableSet.univ, Measure.restrict_univ, smul_eq_mul,
    ENNReal.inv_mul_cancel hZ0 hZ1]

include hpm hqm in
/-- The kernel of the chain. -/
theorem exists_kernel [SFinite mu] (hp : TargetOf lt p) (hq : ProposalOf sym lq q)
    (hq1 : ∀ x, ∫⁻ y, ENNReal.ofReal (q x y) ∂mu = 1) {Z : ℝ} (hZ0 : 0 < Z)
    (hZ : ∫⁻ x, ENNReal.ofReal (p x) ∂mu = ENNReal.ofReal Z)
    (hfloor : ∀ x y, 0 < p x → 0 < p y → uFloor * (p x * q x y) < p y * q y x) {e : ℝ} (he0 : 0 < e) (he1 : e ≤ 1)
    (he : ∀ x y, 0 < p x → 0 < p y → e * p y ≤ Z * q x y) :
    IsProbabilityMeasure (targetLaw mu p) ∧ ∃ K : Kernel X X, IsMarkovKernel K ∧ (∀ x, K x = moveLaw mu p q x) ∧
      (∀ x, ENNReal.ofReal e • targetLaw mu p ≤ K x) ∧ Kernel.Invariant K (targetLaw mu p) := by
  classical
  have hZp : ENNReal.ofReal Z ≠ 0 := by simpa using hZ0
  have hpo : Measurable fun x => ENNReal.ofReal (p x) := ENNReal.measurable_ofReal.comp hpm
  have hpr : IsProbabilityMeasure (targetLaw mu p) := targetLaw_prob (by rw [hZ]; exact hZp) (by rw [hZ]; exact ENNReal.ofReal_ne_top)
  refine ⟨hpr, ⟨moveLaw mu p q, moveLaw_measurable hpm hqm⟩, ⟨fun x => ⟨?_⟩⟩, fun _ => rfl, fun x => ?_, ?_⟩
  · show moveLaw mu p q x Set.univ = 1
    by_cases hx : 0 < p x
    · exact moveLaw_univ hpm hqm hp hq hq1 hx
    · rw [moveLaw, if_neg hx]; exact measure_univ
  · show _ ≤ moveLaw mu p q x
    by_cases hx : 0 < p x
    · rw [moveLaw, if_pos hx]
      refine le_trans ?_ (Measure.le_add_right le_rfl)
      rw [targetLaw, hZ, smul_smul, ← withDensity_smul _ hpo]
      refine withDensity_mono (Filter.Eventually.of_forall fun y => ?_)
      rw [Pi.smul_apply, smul_eq_mul]
      rcases hp y with ⟨hy, _⟩ | ⟨hy, _⟩
      · have hr : 0 < p y * q y x / (p x * q x y) := div_pos (mul_pos hy (hq.1 y x)) (mul_pos hx (hq.1 x y))
        have hl : Real.log uFloor < logRatio p q x y := by
          unfold logRatio
          rw [Real.log_lt_log_iff uFloor_pos hr, lt_div_iff₀ (mul_pos hx (hq.1 x y))]
          exact hfloor x y hx hy
        show _ ≤ ENNReal.ofReal (q x y) * acc p q x y
        rw [show acc p q x y = volume (acceptSet (logRatio p q x y)) from if_pos hy, acceptSet_volume, if_pos hl, logRatio, Real.exp_log hr, ← ENNReal.ofReal_inv_of_pos hZ0,
          ← ENNReal.ofReal_mul he0.le, ← ENNReal.ofReal_mul (by positivity), ← ENNReal.ofReal_mul (hq.1 x y).le]
        refine ENNReal.ofReal_le_ofReal ?_
        rw [mul_min_of_nonneg _ _ (hq.1 x y).le, mul_one]
        refine le_min ?_ ?_
        · have := he x y hx hy
          rw [mul_assoc, mul_comm Z⁻¹, ← mul_assoc, ← div_eq_mul_inv, div_le_iff₀ hZ0]
          linarith
        · have := he y x hy hx
          have hq0 := hq.1 x y
          rw [show q x y * (p y * q y x / (p x * q x y)) = p y * q y x / p x by field_simp, le_div_iff₀ hx]
          rw [show e * Z⁻¹ * p y * p x = p y * (e * p x) / Z by field_simp, div_le_iff₀ hZ0]
          nlinarith
      · simp [hy]
    · rw [moveLaw, if_neg hx]
      refine Measure.le_iff.mpr fun s _ => ?_
      rw [Measure.smul_apply, smul_eq_mul]
      exact mul_le_of_le_one_left zero_le (by simpa using he1)
  · show Measure.bind _ _ = _
    refine Measure.ext fun s hs => ?_
    rw [Measure.bind_apply hs (Kernel.aemeasurable _)]
    show ∫⁻ x, moveLaw mu p q x s ∂targetLaw mu p = _
    have hms : Measurable fun x => moveLaw mu p q x s := (Measure.measurable_coe hs).comp (moveLaw_measurable hpm hqm)
    rw [targetLaw, lintegral_smul_measure, lintegral_withDensity_eq_lintegral_mul _ hpo hms, Measure.smul_apply,
      withDensity_apply _ hs, ← mh_invariant_partial (mu := mu) hpm hqm hp hq hq1 hfloor s hs]
    congr 1
    refine lintegral_congr fun x => ?_
    simp only [Pi.mul_apply]
    rcases hp x with ⟨hx, _⟩ | ⟨hx, _⟩
    · congr 1
      have h := stepMean_law (mu := mu) hpm hqm hp hq hx (f := s.indicator 1) (measurable_one.indicator hs)
      rw [lintegral_indicator_one hs] at h
      rw [← h, stepMean_eq hp hq hx, transition]
      refine lintegral_congr fun y => ?_
      obtain ⟨a, ha, _, hh⟩ := stepProb_eq hp hq hx y s
      have haa : a = acc p q x y := ha
      rw [hh, haa]
      by_cases hys : y ∈ s <;> by_cases hxs : x ∈ s <;> simp [hys, hxs]
    · simp [hx]

variable {K : Kernel X X} [IsMarkovKernel K]

include hpm hqm in
theorem step_real (hp : TargetOf lt p) (hq : ProposalOf sym lq q) (hK : ∀ x, K x = moveLaw mu p q x) {x : X}
    (hx : 0 < p x) {f : X → ℝ≥0∞} {h : X → ℝ} (hm : Measurable h) (h0 : ∀ y, 0 ≤ h y) {c : ℝ} (hc : ∀ y, |h y| ≤ c)
    (hf : ∀ y, 0 < p y → f y = ENNReal.ofReal (h y)) :
    stepMean mu lt sym lq q f x = ENNReal.ofReal (∫ y, h y ∂K x) := by
  have hm' : Measurable fun y => ENNReal.ofReal (h y) := ENNReal.measurable_ofReal.comp hm
  rw [stepMean_congr hp hq hx hf, stepMean_law hpm hqm hp hq hx hm', ← hK,
    ofReal_integral_eq_lintegral_ofReal (bounded_integrable _ hm hc) (Filter.Eventually.of_forall h0)]

include hpm hqm in
theorem steps_real (hp : TargetOf lt p) (hq : ProposalOf sym lq q) (hK : ∀ x, K x = moveLaw mu p q x) {h : X → ℝ}
    (hm : Measurable h) (h0 : ∀ y, 0 ≤ h y) {c : ℝ} (hc : ∀ y, |h y| ≤ c) (n : ℕ) :
    (∀ x, 0 < p x → (stepMean mu lt sym lq q)^[n] (fun y => ENNReal.ofReal (h y)) x =
      ENNReal.ofReal ((fun (g : X → ℝ) x => ∫ y, g y ∂K x)^[n] h x)) ∧
    Measurable ((fun (g : X → ℝ) x => ∫ y, g y ∂K x)^[n] h) ∧
    (∀ x, 0 ≤ (fun (g : X → ℝ) x => ∫ y, g y ∂K x)^[n] h x) ∧
    ∀ x, |(fun (g : X → ℝ) x => ∫ y, g y ∂K x)^[n] h x| ≤ c := by
  induction n with
  | zero => exact ⟨fun _ _ => rfl, hm, h0, hc⟩
  | succ n ih =>
    obtain ⟨i1, i2, i3, i4⟩ := ih
    simp only [Function.iterate_succ_apply']
    exact ⟨fun x hx => step_real hpm hqm hp hq hK hx i2 i3 i4 i1, T_measurable i2, fun x => integral_nonneg i3,
      fun x => T_bound i4 x⟩

omit [IsMarkovKernel K] in
theorem sumSq_nonneg (g : X → ℝ) (n : ℕ) (x : X) (t : ℝ) : 0 ≤ sumSq K g n x t := by
  induction n generalizing x t with
  | zero => exact sq_nonneg t
  | succ n ih => exact integral_nonneg fun y => ih y _

include hpm hqm in
theorem sumMean_real (hp : TargetOf lt p) (hq : ProposalOf sym lq q) (hK : ∀ x, K x = moveLaw mu p q x)
    {π : Measure X} [IsProbabilityMeasure π] {e : ℝ} (he0 : 0 < e) (hd : ∀ x, ENNReal.ofReal e • π ≤ K x)
    (hinv : Kernel.Invariant K π) {f : X → ℝ} (hf : Measurable f) {m : ℝ} (hg1 : ∀ x, |f x - m| ≤ 1)
    (h0 : ∫ y, f y - m ∂π = 0) (k c : ℝ) (hk : 0 ≤ k) (n : ℕ) : ∀ (x : X) (s : ℝ), 0 < p x →
    sumMean mu lt sym lq q f (fun t => ENNReal.ofReal (k * (t - c) ^ 2)) n x s =
      ENNReal.ofReal (k * sumSq K (fun x => f x - m) n x (s + n * m - c)) := by
  have hg : Measurable fun x => f x - m := hf.sub_const m
  induction n with
  | zero => intro x s _; simp [sumMean, sumSq]
  | succ n ih =>
    intro x s hx
    obtain ⟨H, W, hH, hW, hH1, -, hW1, hform⟩ := sumSq_form he0 hd hinv hg hg1 h0 n
    have hm : ∀ t, Measurable fun y => sumSq K (fun x => f x - m) n y t := fun t => by
      simp only [hform]
      exact (measurable_const.add (hH.const_mul _)).add hW
    have hb : ∀ t y, |sumSq K (fun x => f x - m) n y t| ≤ t ^ 2 + |2 * t| * (1 / e) + n * (1 + 2 / e) := fun t y => by
      rw [hform]
      refine (abs_add_le _ _).trans (add_le_add ((abs_add_le _ _).trans (add_le_add ?_ ?_)) (hW1 y))
      · rw [abs_of_nonneg (sq_nonneg t)]
      · rw [abs_mul]
        exact mul_le_mul_of_nonneg_left (hH1 y) (abs_nonneg _)
    have := step_real (x := x) (f := fun y => sumMean mu lt sym lq q f (fun t => ENNReal.ofReal (k * (t - c) ^ 2)) n y (s + f x))
      (h := fun y => k * sumSq K (fun x => f x - m) n y (s + f x + n * m - c)) hpm hqm hp hq hK hx ((hm _).const_mul k)
      (fun y => mul_nonneg hk (sumSq_nonneg _ _ _ _)) (c := k * _) (fun y => by
        rw [abs_mul, abs_of_nonneg hk]
        exact mul_le_mul_of_nonneg_left (hb _ y) hk) (fun y hy => ih y _ hy)
    rw [sumMean, this, integral_const_mul, sumSq]
    congr 5
    funext y
    congr 1
    push_cast
    ring

include hpm hqm in
/-- **C244** The chain forgets its starting point: the law of the state after `n` steps is within
`(1 - e)^n` of the target, from every point of positive density. -/
theorem mh_converges [SFinite mu] (hp : TargetOf lt p) (hq : ProposalOf sym lq q)
    (hq1 : ∀ x, ∫⁻ y, ENNReal.ofReal (q x y) ∂mu = 1) {Z : ℝ} (hZ0 : 0 < Z)
    (hZ : ∫⁻ x, ENNReal.ofReal (p x) ∂mu = ENNReal.ofReal Z)
    (hfloor : ∀ x y, 0 < p x → 0 < p y → uFloor * (p x * q x y) < p y * q y x) {e : ℝ} (he0 : 0 < e) (he1 : e ≤ 1)
    (he : ∀ x y, 0 < p x → 0 < p y → e * p y ≤ Z * q x y) {x : X} (hx : 0 < p x) (n : ℕ) {B : Set X}
    (hB : MeasurableSet B) :
    |((stepMean mu lt sym lq q)^[n] (B.indicator 1) x).toReal - (targetLaw mu p).real B| ≤ (1 - e) ^ n := by
  obtain ⟨hpr, K, hKm, hK, hd, hinv⟩ := exists_kernel (mu := mu) hpm hqm hp hq hq1 hZ0 hZ hfloor he0 he1 he
  set m := (targetLaw mu p).real B
  have hind : Measurable (B.indicator (1 : X → ℝ)) := measurable_one.indicator hB
  have hi0 : ∀ y, 0 ≤ B.indicator (1 : X → ℝ) y := fun y => Set.indicator_nonneg (fun _ _ => zero_le_one) y
  have hi1 : ∀ y, B.indicator (1 : X → ℝ) y ≤ 1 := fun y => Set.indicator_le_self' (fun _ _ => zero_le_one) y
  have hm0 : 0 ≤ m := measureReal_nonneg
  have hm1 : m ≤ 1 := measureReal_le_one
  have hint : ∫ y, B.indicator (1 : X → ℝ) y ∂targetLaw mu p = m := integral_indicator_one hB
  have h1 := steps_real hpm hqm hp hq hK hind hi0 (c := 1) (fun y => abs_le.mpr ⟨by linarith [hi0 y], hi1 y⟩) n
  have hfun : (B.indicator (1 : X → ℝ≥0∞)) = fun y => ENNReal.ofReal (B.indicator (1 : X → ℝ) y) := by
    funext y
    by_cases hy : y ∈ B <;> simp [hy]
  rw [hfun, h1.1 x hx, ENNReal.toReal_ofReal (h1.2.2.1 x)]
  have h2 := doeblin (K := K) (π := targetLaw mu p) he0.le hd hinv (h := fun y => B.indicator (1 : X → ℝ) y - m)
    (hind.sub_const m) (c := 1) (fun y => abs_le.mpr ⟨by linarith [hi0 y], by linarith [hi1 y]⟩) (by
      rw [integral_sub (bounded_integrable _ hind (c := 1) fun y => abs_le.mpr ⟨by linarith [hi0 y], hi1 y⟩)
        (integrable_const _), hint, integral_const]
      simp) n
  have hlin : ∀ k, (fun (g : X → ℝ) x => ∫ y, g y ∂K x)^[k] (fun y => B.indicator (1 : X → ℝ) y - m) =
      fun x => (fun (g : X → ℝ) x => ∫ y, g y ∂K x)^[k] (B.indicator (1 : X → ℝ)) x - m := by
    intro k
    induction k with
    | zero => rfl
    | succ k ih =>
      rw [Function.iterate_succ_apply', Function.iterate_succ_apply', ih]
      funext x
      have hk := steps_real hpm hqm hp hq hK hind hi0 (c := 1) (fun y => abs_le.mpr ⟨by linarith [hi0 y], hi1 y⟩) k
      rw [integral_sub (bounded_integrable _ hk.2.1 hk.2.2.2) (integrable_const _), integral_const]
      simp
  have h3 := h2.2.1 x
  rw [hlin, mul_one] at h3
  exact h3

include hpm hqm in
theorem averages_scaled [SFinite mu] (hp : TargetOf lt p) (hq : ProposalOf sym lq q)
    (hq1 : ∀ x, ∫⁻ y, ENNReal.ofReal (q x y) ∂mu = 1) {Z : ℝ} (hZ0 : 0 < Z)
    (hZ : ∫⁻ x, ENNReal.ofReal (p x) ∂mu = ENNReal.ofReal Z)
    (hfloor : ∀ x y, 0 < p x → 0 < p y → uFloor * (p x * q x y) < p y * q y x) {e : ℝ} (he0 : 0 < e) (he1 : e ≤ 1)
    (he : ∀ x y, 0 < p x → 0 < p y → e * p y ≤ Z * q x y) {x : X} (hx : 0 < p x) {n : ℕ} (hn : 0 < n) {f : X → ℝ}
    (hf : Measurable f) (hf01 : ∀ x, f x ∈ Set.Icc (0 : ℝ) 1) {k : ℝ} (hk : 0 ≤ k) :
    sumMean mu lt sym lq q f (fun s => ENNReal.ofReal (k * (s / n - ∫ y, f y ∂targetLaw mu p) ^ 2)) n x 0 ≤
      ENNReal.ofReal (k * ((1 + 2 / e) / n)) := by
  obtain ⟨hpr, K, hKm, hK, hd, hinv⟩ := exists_kernel (mu := mu) hpm hqm hp hq hq1 hZ0 hZ hfloor he0 he1 he
  set m := ∫ y, f y ∂targetLaw mu p
  have hn' : (0 : ℝ) < n := by exact_mod_cast hn
  have hb : ∀ x, |f x| ≤ 1 := fun x => abs_le.mpr ⟨by linarith [(hf01 x).1], (hf01 x).2⟩
  have hm0 : 0 ≤ m := integral_nonneg fun x => (hf01 x).1
  have hm1 : m ≤ 1 := by
    have := integral_mono (bounded_integrable (targetLaw mu p) hf hb) (integrable_const 1) fun x => (hf01 x).2
    simpa using this
  have hg1 : ∀ x, |f x - m| ≤ 1 := fun x => abs_le.mpr ⟨by linarith [(hf01 x).1], by linarith [(hf01 x).2]⟩
  have h0 : ∫ y, f y - m ∂targetLaw mu p = 0 := by
    rw [integral_sub (bounded_integrable _ hf hb) (integrable_const _), integral_const]
    simp [m]
  have hF : (fun s : ℝ => ENNReal.ofReal (k * (s / n - m) ^ 2)) = fun s => ENNReal.ofReal (k * (1 / (n : ℝ) ^ 2) * (s - n * m) ^ 2) := by
    funext s
    congr 1
    field_simp
  rw [hF, sumMean_real hpm hqm hp hq hK he0 hd hinv hf hg1 h0 _ _ (by positivity) n x 0 hx]
  refine ENNReal.ofReal_le_ofReal ?_
  obtain ⟨H, W, -, -, -, -, hW1, hform⟩ := sumSq_form he0 hd hinv (hf.sub_const m) hg1 h0 n
  rw [hform]
  have := (le_abs_self _).trans (hW1 x)
  rw [show (0 : ℝ) + n * m - n * m = 0 by ring]
  rw [mul_assoc]
  refine mul_le_mul_of_nonneg_left ?_ hk
  rw [one_div, inv_mul_le_iff₀ (by positivity), show (n : ℝ) ^ 2 * ((1 + 2 / e) / n) = n * (1 + 2 / e) by field_simp]
  linarith

include hpm hqm in
/-- **C244** Averages over a run converge to the mean under the target: the mean square error of the
average over `n` states is at most `(1 + 2/e)/n`, from every starting point of positive density. -/
theorem mh_averages [SFinite mu] (hp : TargetOf lt p) (hq : ProposalOf sym lq q)
    (hq1 : ∀ x, ∫⁻ y, ENNReal.ofReal (q x y) ∂mu = 1) {Z : ℝ} (hZ0 : 0 < Z)
    (hZ : ∫⁻ x, ENNReal.ofReal (p x) ∂mu = ENNReal.ofReal Z)
    (hfloor : ∀ x y, 0 < p x → 0 < p y → uFloor * (p x * q x y) < p y * q y x) {e : ℝ} (he0 : 0 < e) (he1 : e ≤ 1)
    (he : ∀ x y, 0 < p x → 0 < p y → e * p y ≤ Z * q x y) {x : X} (hx : 0 < p x) {n : ℕ} (hn : 0 < n) {f : X → ℝ}
    (hf : Measurable f) (hf01 : ∀ x, f x ∈ Set.Icc (0 : ℝ) 1) :
    sumMean mu lt sym lq q f (fun s => ENNReal.ofReal ((s / n - ∫ y, f y ∂targetLaw mu p) ^ 2)) n x 0 ≤
      ENNReal.ofReal ((1 + 2 / e) / n) := by
  simpa using averages_scaled (mu := mu) hpm hqm hp hq hq1 hZ0 hZ hfloor he0 he1 he hx hn hf hf01 (k := 1) zero_le_one

include hpm hqm in
/-- **C244** The average over `n` states differs by `δ` or more from the mean under the target with
probability at most `(1 + 2/e)/(n δ²)`. -/
theorem mh_averages_prob [SFinite mu] (hp : TargetOf lt p) (hq : ProposalOf sym lq q)
    (hq1 : ∀ x, ∫⁻ y, ENNReal.ofReal (q x y) ∂mu = 1) {Z : ℝ} (hZ0 : 0 < Z)
    (hZ : ∫⁻ x, ENNReal.ofReal (p x) ∂mu = ENNReal.ofReal Z)
    (hfloor : ∀ x y, 0 < p x → 0 < p y → uFloor * (p x * q x y) < p y * q y x) {e : ℝ} (he0 : 0 < e) (he1 : e ≤ 1)
    (he : ∀ x y, 0 < p x → 0 < p y → e * p y ≤ Z * q x y) {x : X} (hx : 0 < p x) {n : ℕ} (hn : 0 < n) {f : X → ℝ}
    (hf : Measurable f) (hf01 : ∀ x, f x ∈ Set.Icc (0 : ℝ) 1) {δ : ℝ} (hδ : 0 < δ) :
    sumMean mu lt sym lq q f ({s | δ ≤ |s / n - ∫ y, f y ∂targetLaw mu p|}.indicator 1) n x 0 ≤
      ENNReal.ofReal ((1 + 2 / e) / (n * δ ^ 2)) := by
  have h := averages_scaled (mu := mu) hpm hqm hp hq hq1 hZ0 hZ hfloor he0 he1 he hx hn hf hf01 (k := 1 / δ ^ 2)
    (by positivity)
  rw [show 1 / δ ^ 2 * ((1 + 2 / e) / n) = (1 + 2 / e) / (n * δ ^ 2) by field_simp] at h
  refine le_trans (sumMean_mono (fun s => ?_) n x 0) h
  by_cases hs : δ ≤ |s / n - ∫ y, f y ∂targetLaw mu p|
  · rw [Set.indicator_of_mem (by exact hs), Pi.one_apply, ← ENNReal.ofReal_one]
    refine ENNReal.ofReal_le_ofReal ?_
    rw [one_div, le_inv_mul_iff₀ (by positivity), mul_one, ← sq_abs (s / n - _)]
    exact pow_le_pow_left₀ hδ.le hs 2
  · rw [Set.indicator_of_notMem (by exact hs)]
    exact zero_le

end Chain

/-! ## A bounded domain -/

section Box
variable {X : Type} [MetricSpace X] [SecondCountableTopology X] [MeasurableSpace X] [BorelSpace X]

/-- **C244** A sampler of a criterion on a compact domain (`sample_from_selection_criterion_mh` with a
box): the target is `exp(-J)` on the domain, the proposal has a positive continuous symmetric
density, and `J` varies by less than 690. There is then one rate for all starting points of the
domain, all numbers of steps and all events. -/
theorem mh_box_converges {mu : Measure X} [SFinite mu] [IsFiniteMeasureOnCompacts mu] {C : Set X} (hC : IsCompact C)
    (hC0 : mu C ≠ 0) {J : X → ℝ} (hJ : ContinuousOn J C) (hosc : ∀ x ∈ C, ∀ y ∈ C, J y - J x ≤ 690) {lt : X → Py Flt}
    (hin : ∀ x ∈ C, lt x = .ok (.fin (-J x))) (hout : ∀ x ∉ C, lt x = .ok (.num ⊥) ∨ ∃ er, lt x = .error er)
    (lq : X → X → Py Flt) {q : X → X → ℝ} (hqc : Continuous (Function.uncurry q)) (hq0 : ∀ x y, 0 < q x y)
    (hqs : ∀ x y, q x y = q y x) (hq1 : ∀ x, ∫⁻ y, ENNReal.ofReal (q x y) ∂mu = 1) :
    let law := targetLaw mu (C.indicator fun x => Real.exp (-J x))
    IsProbabilityMeasure law ∧ ∃ e : ℝ, 0 < e ∧ e ≤ 1 ∧ ∀ x ∈ C,
      (∀ (n : ℕ) (B : Set X), MeasurableSet B →
        |((stepMean mu lt true lq q)^[n] (B.indicator 1) x).toReal - law.real B| ≤ (1 - e) ^ n) ∧
      ∀ (n : ℕ) (f : X → ℝ) (δ : ℝ), 0 < n → Measurable f → (∀ x, f x ∈ Set.Icc (0 : ℝ) 1) → 0 < δ →
        sumMean mu lt true lq q f ({s | δ ≤ |s / n - ∫ y, f y ∂law|}.indicator 1) n x 0 ≤
          ENNReal.ofReal ((1 + 2 / e) / (n * δ ^ 2)) := by
  classical
  intro law
  set p : X → ℝ := C.indicator fun x => Real.exp (-J x) with hpdef
  have hpin : ∀ x ∈ C, p x = Real.exp (-J x) := fun x hx => Set.indicator_of_mem hx _
  have hpout : ∀ x ∉ C, p x = 0 := fun x hx => Set.indicator_of_notMem hx _
  have hpos : ∀ x, 0 < p x ↔ x ∈ C := fun x => by
    by_cases hx : x ∈ C
    · simp [hpin x hx, hx, Real.exp_pos]
    · simp [hpout x hx, hx]
  have hCm : MeasurableSet C := hC.measurableSet
  have hcont : ContinuousOn (fun x => Real.exp (-J x)) C := Real.continuous_exp.comp_continuousOn hJ.neg
  have hpm : Measurable p := by
    have := hcont.measurable_piecewise (continuousOn_const (c := (0 : ℝ))) hCm
    convert this using 1
    funext x
    by_cases hx : x ∈ C <;> simp [hpdef, hx]
  have hqm : Measurable (Function.uncurry q) := hqc.measurable
  have hne : C.Nonempty := by
    by_contra h
    rw [Set.not_nonempty_iff_eq_empty] at h
    exact hC0 (by simp [h])
  have hp : TargetOf lt p := fun x => by
    by_cases hx : x ∈ C
    · exact Or.inl ⟨(hpos x).mpr hx, by rw [hin x hx, hpin x hx, Real.log_exp]⟩
    · exact Or.inr ⟨hpout x hx, hout x hx⟩
  have hq : ProposalOf true lq q := ⟨hq0, fun _ => hqs, fun h => by cases h⟩
  obtain ⟨a, ha, hmax⟩ := hC.exists_isMaxOn hne hcont
  obtain ⟨b, hb, hmin⟩ := hC.exists_isMinOn hne hcont
  have hZle : ∫⁻ x, ENNReal.ofReal (p x) ∂mu ≠ ⊤ := by
    have : ∫⁻ x, ENNReal.ofReal (p x) ∂mu ≤ ∫⁻ x, C.indicator (fun _ => ENNReal.ofReal (Real.exp (-J a))) x ∂mu := by
      refine lintegral_mono fun x => ?_
      by_cases hx : x ∈ C
      · rw [hpin x hx, Set.indicator_of_mem hx]
        exact ENNReal.ofReal_le_ofReal (hmax hx)
      · simp [hpout x hx]
    refine ne_top_of_le_ne_top ?_ this
    rw [lintegral_indicator_const hCm]
    exact ENNReal.mul_ne_top ENNReal.ofReal_ne_top hC.measure_lt_top.ne
  have hZge : ∫⁻ x, ENNReal.ofReal (p x) ∂mu ≠ 0 := by
    have : ∫⁻ x, C.indicator (fun _ => ENNReal.ofReal (Real.exp (-J b))) x ∂mu ≤ ∫⁻ x, ENNReal.ofReal (p x) ∂mu := by
      refine lintegral_mono fun x => ?_
      by_cases hx : x ∈ C
      · rw [hpin x hx, Set.indicator_of_mem hx]
        exact ENNReal.ofReal_le_ofReal (hmin hx)
      · simp [Set.indicator_of_notMem hx]
    rw [lintegral_indicator_const hCm] at this
    intro h0
    rw [h0] at this
    exact (mul_ne_zero (by simpa using Real.exp_pos _) hC0) (le_antisymm this zero_le)
  set Z := (∫⁻ x, ENNReal.ofReal (p x) ∂mu).toReal with hZdef
  have hZ0 : 0 < Z := ENNReal.toReal_pos hZge hZle
  have hZ : ∫⁻ x, ENNReal.ofReal (p x) ∂mu = ENNReal.ofReal Z := (ENNReal.ofReal_toReal hZle).symm
  obtain ⟨⟨c1, c2⟩, hc, hcm⟩ := (hC.prod hC).exists_isMinOn (hne.prod hne) hqc.continuousOn
  have hqmin : ∀ x ∈ C, ∀ y ∈ C, q c1 c2 ≤ q x y := fun x hx y hy => hcm (Set.mk_mem_prod hx hy)
  have hfloor : ∀ x y, 0 < p x → 0 < p y → uFloor * (p x * q x y) < p y * q y x := by
    intro x y hx hy
    rw [hpos] at hx hy
    rw [hpin x hx, hpin y hy, hqs y x, ← mul_assoc]
    refine mul_lt_mul_of_pos_right ?_ (hq0 x y)
    have h10 : (2.3 : ℝ) < Real.log 10 := by
      have h := Real.log_le_log (by norm_num) (show (2 : ℝ) ^ 93 ≤ 10 ^ 28 by norm_num)
      rw [Real.log_pow, Real.log_pow] at h
      have := Real.log_two_gt_d9
      norm_num at h
      linarith
    have hu : uFloor = Real.exp (-(300 * Real.log 10)) := by
      rw [Real.exp_neg, show (300 : ℝ) * Real.log 10 = ((300 : ℕ) : ℝ) * Real.log 10 by norm_num, Real.exp_nat_mul,
        Real.exp_log (by norm_num), uFloor, inv_pow]
    rw [hu, ← Real.exp_add, Real.exp_lt_exp]
    linarith [hosc x hx y hy]
  set e := min 1 (Z * q c1 c2 / Real.exp (-J a)) with hedef
  have he0 : 0 < e := lt_min one_pos (div_pos (mul_pos hZ0 (hq0 _ _)) (Real.exp_pos _))
  have he : ∀ x y, 0 < p x → 0 < p y → e * p y ≤ Z * q x y := by
    intro x y hx hy
    rw [hpos] at hx hy
    rw [hpin y hy]
    calc e * Real.exp (-J y) ≤ Z * q c1 c2 / Real.exp (-J a) * Real.exp (-J a) :=
          mul_le_mul (min_le_right _ _) (hmax hy) (Real.exp_pos _).le (div_pos (mul_pos hZ0 (hq0 _ _)) (Real.exp_pos _)).le
      _ = Z * q c1 c2 := div_mul_cancel₀ _ (Real.exp_pos _).ne'
      _ ≤ _ := mul_le_mul_of_nonneg_left (hqmin x hx y hy) hZ0.le
  refine ⟨targetLaw_prob hZge hZle, e, he0, min_le_left _ _, fun x hx => ⟨fun n B hB => ?_, fun n f δ hn hf hf1 hδ => ?_⟩⟩
  · exact mh_converges hpm hqm hp hq hq1 hZ0 hZ hfloor he0 (min_le_left _ _) he ((hpos x).mpr hx) n hB
  · exact mh_averages_prob hpm hqm hp hq hq1 hZ0 hZ hfloor he0 (min_le_left _ _) he ((hpos x).mpr hx) hn hf hf1 hδ

end Box

/-- The density proportional to `exp(-x²)` on `[0, 1]`, normal proposals. -/
example : ∃ e : ℝ, 0 < e ∧ ∀ (n : ℕ) (B : Set ℝ), MeasurableSet B →
    |((stepMean volume (fun x => if x ∈ Set.Icc (0 : ℝ) 1 then .ok (.fin (-x ^ 2)) else .ok (.num ⊥)) true
        (fun _ _ => .error .valueError) fun x y => gaussianPDFReal x 1 y)^[n] (B.indicator 1) (1 / 3)).toReal -
      (targetLaw volume ((Set.Icc (0 : ℝ) 1).indicator fun x => Real.exp (-x ^ 2))).real B| ≤ (1 - e) ^ n := by
  have hsym : ∀ x y : ℝ, gaussianPDFReal x 1 y = gaussianPDFReal y 1 x := fun x y => by
    simp only [gaussianPDFReal]
    congr 3
    ring
  obtain ⟨-, e, he, -, h⟩ := mh_box_converges (mu := volume) (C := Set.Icc (0 : ℝ) 1) isCompact_Icc (by simp)
    (J := fun x => x ^ 2) (by fun_prop) (fun x hx y hy => by nlinarith [hx.1, hx.2, hy.1, hy.2])
    (lt := fun x => if x ∈ Set.Icc (0 : ℝ) 1 then .ok (.fin (-x ^ 2)) else .ok (.num ⊥)) (fun x hx => if_pos hx)
    (fun x hx => Or.inl (if_neg hx)) (fun _ _ => .error .valueError) (q := fun x y => gaussianPDFReal x 1 y)
    (by
      show Continuous fun z : ℝ × ℝ => gaussianPDFReal z.1 1 z.2
      simp only [gaussianPDFReal]
      fun_prop) (fun x y => gaussianPDFReal_pos _ _ _ one_ne_zero) hsym (fun x => lintegral_gaussianPDFReal_eq_one x one_ne_zero)
  exact ⟨e, he, fun n B hB => (h (1 / 3) ⟨by norm_num, by norm_num⟩).1 n B hB⟩
end Verif.MH
