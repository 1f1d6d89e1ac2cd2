import Verif.Mcmc.PropsSVGDStep
import Verif.Mcmc.PropsMHConverge
import Mathlib.Analysis.Calculus.LineDeriv.IntegrationByParts
import Mathlib.Probability.StrongLaw
import Mathlib.Probability.Independence.InfinitePi
import Mathlib.MeasureTheory.Integral.Pi

/-!
# C253: particles that follow the target law are left where they are
-/

set_option autoImplicit false

namespace Verif.SVGD

open Verif MeasureTheory ProbabilityTheory Filter
open Verif.Nuts (finite? finite?_fin finite?_some)
open scoped Topology

variable {n d : ℕ}

/-- Contribution of a particle at `y` with score `s` to the direction at `x`. -/
noncomputable def stein (h : ℝ) (s : Pt d → Pt d) (x : Pt d) (c : Fin d) (y : Pt d) : ℝ :=
  gauss h y x * s y c + gradK h y x c

/-- The score of the tempered density. -/
noncomputable def scoreOf (F : Pt d → ℝ) (T : ℝ) (y : Pt d) : Pt d := fun c => fderiv ℝ F y (Pi.single c 1) / T

theorem gauss_continuous (h : ℝ) (x : Pt d) : Continuous fun y => gauss h y x := by
  unfold gauss
  fun_prop

theorem gauss_hasLineDeriv (h : ℝ) (x y : Pt d) (c : Fin d) :
    HasLineDerivAt ℝ (fun y => gauss h y x) (gradK h y x c) y (Pi.single c 1) := by
  have hd : Differentiable ℝ fun t => gauss h (Function.update y c t) x := by
    unfold gauss
    have : ∀ e, Differentiable ℝ fun t => Function.update y c t e := fun e => by
      by_cases he : e = c
      · subst he; simp
      · simp [Function.update_of_ne he]
    fun_prop
  have h1 := (hd (y c)).hasDerivAt
  have h2 : HasDerivAt (fun t : ℝ => y c + t) 1 0 := by
    simpa using (hasDerivAt_id (0 : ℝ)).const_add (y c)
  have h1' : HasDerivAt (fun t => gauss h (Function.update y c t) x) (gradK h y x c) (y c + 0) := by
    rw [add_zero]; exact h1
  have h3 := HasDerivAt.comp (0 : ℝ) h1' h2
  unfold HasLineDerivAt
  rw [mul_one] at h3
  refine h3.congr_of_eventuallyEq (Eventually.of_forall fun t => ?_)
  simp only [Function.comp]
  congr 1
  funext e
  by_cases he : e = c
  · subst he; simp
  · simp [he]

theorem gauss_bound {h : ℝ} (hh : 0 < h) (x y : Pt d) : |gauss h y x| ≤ 1 := by
  rw [abs_of_pos (gauss_pos _ _ _)]
  exact gauss_le_one hh _ _

/-- The gradient of the kernel is bounded. -/
theorem gradK_bound {h : ℝ} (hh : 0 < h) (x y : Pt d) (c : Fin d) : |gradK h y x c| ≤ 2 / h * (1 + h) := by
  rw [gradK_eq, abs_mul, abs_of_pos (by positivity : (0 : ℝ) < 2 / h)]
  refine mul_le_mul_of_nonneg_left ?_ (by positivity)
  rw [abs_mul, abs_of_pos (gauss_pos _ _ _)]
  set u := |x c - y c| with hu
  have hu0 : 0 ≤ u := abs_nonneg _
  have h1 : gauss h y x ≤ Real.exp (-u ^ 2 / h) := by
    unfold gauss
    apply Real.exp_le_exp.2
    have : u ^ 2 ≤ ∑ e, (y e - x e) ^ 2 := by
      rw [hu, sq_abs, ← neg_sub, neg_sq]
      exact Finset.single_le_sum (f := fun e => (y e - x e) ^ 2) (fun e _ => sq_nonneg _) (Finset.mem_univ c)
    gcongr
  have h2 : Real.exp (-u ^ 2 / h) ≤ (1 + u ^ 2 / h)⁻¹ := by
    rw [neg_div, Real.exp_neg]
    have := Real.add_one_le_exp (u ^ 2 / h)
    gcongr
    linarith
  calc gauss h y x * u ≤ (1 + u ^ 2 / h)⁻¹ * u := mul_le_mul_of_nonneg_right (h1.trans h2) hu0
    _ ≤ 1 + h := by
      rw [inv_mul_le_iff₀ (by positivity)]
      have : (1 + u ^ 2 / h) * (1 + h) = 1 + h + u ^ 2 / h + u ^ 2 := by
        field_simp
        ring
      rw [this]
      have : 0 ≤ u ^ 2 / h := by positivity
      nlinarith [sq_nonneg (u - 1)]

theorem gradK_continuous (h : ℝ) (x : Pt d) (c : Fin d) : Continuous fun y => gradK h y x c := by
  simp only [gradK_eq, gauss]
  fun_prop

variable {F : Pt d → ℝ} {T h : ℝ}

/-- Hypotheses on the target: a differentiable log-density whose tempered density has a finite integral
and a score with a mean. -/
structure Smooth (F : Pt d → ℝ) (T : ℝ) : Prop where
  pos : 0 < T
  diff : Differentiable ℝ F
  mass : Integrable fun y => Real.exp (F y / T)
  score : ∀ c, Integrable fun y => Real.exp (F y / T) * fderiv ℝ F y (Pi.single c 1)

theorem dens_hasLineDeriv (hF : Differentiable ℝ F) (T : ℝ) (y : Pt d) (c : Fin d) :
    HasLineDerivAt ℝ (fun y => Real.exp (F y / T)) (Real.exp (F y / T) * scoreOf F T y c) y (Pi.single c 1) := by
  have h1 := (hF y).hasFDerivAt.hasLineDerivAt (Pi.single c (1 : ℝ))
  unfold HasLineDerivAt at h1 ⊢
  have h2 := (h1.div_const T).exp
  simpa [scoreOf] using h2

theorem lebesgue_stein (hS : Smooth F T) (hh : 0 < h) (x : Pt d) (c : Fin d) :
    Integrable (fun y => stein h (scoreOf F T) x c y * Real.exp (F y / T)) ∧
      ∫ y, stein h (scoreOf F T) x c y * Real.exp (F y / T) = 0 := by
  have hs : Integrable fun y => Real.exp (F y / T) * scoreOf F T y c := by
    have := (hS.score c).div_const T
    simpa [scoreOf, mul_div_assoc] using this
  have i1 : Integrable fun y => gauss h y x * (Real.exp (F y / T) * scoreOf F T y c) :=
    hs.bdd_mul (c := 1) (gauss_continuous h x).aestronglyMeasurable (ae_of_all _ fun y => by
      rw [Real.norm_eq_abs]; exact gauss_bound hh x y)
  have i2 : Integrable fun y => gradK h y x c * Real.exp (F y / T) :=
    hS.mass.bdd_mul (c := 2 / h * (1 + h)) (gradK_continuous h x c).aestronglyMeasurable (ae_of_all _ fun y => by
      rw [Real.norm_eq_abs]; exact gradK_bound hh x y c)
  have i3 : Integrable fun y => gauss h y x * Real.exp (F y / T) :=
    hS.mass.bdd_mul (c := 1) (gauss_continuous h x).aestronglyMeasurable (ae_of_all _ fun y => by
      rw [Real.norm_eq_abs]; exact gauss_bound hh x y)
  have key := integral_bilinear_hasLineDerivAt_right_eq_neg_left_of_integrable (μ := (volume : Measure (Pt d)))
    (B := ContinuousLinearMap.mul ℝ ℝ) (f := fun y => gauss h y x) (f' := fun y => gradK h y x c)
    (g := fun y => Real.exp (F y / T)) (g' := fun y => Real.exp (F y / T) * scoreOf F T y c)
    (v := Pi.single c 1) i2 i1 i3 (fun y _ => gauss_hasLineDeriv h x y c) (fun y _ => dens_hasLineDeriv hS.diff T y c)
  simp only [ContinuousLinearMap.mul_apply'] at key
  have e : (fun y => stein h (scoreOf F T) x c y * Real.exp (F y / T)) =
      fun y => gauss h y x * (Real.exp (F y / T) * scoreOf F T y c) + gradK h y x c * Real.exp (F y / T) := by
    funext y
    unfold stein
    ring
  rw [e]
  exact ⟨i1.add i2, by rw [integral_add i1 i2, key]; ring⟩

theorem lebesgue_score (hS : Smooth F T) (c : Fin d) :
    Integrable (fun y => scoreOf F T y c * Real.exp (F y / T)) ∧ ∫ y, scoreOf F T y c * Real.exp (F y / T) = 0 := by
  have hs : Integrable fun y => Real.exp (F y / T) * scoreOf F T y c := by
    have := (hS.score c).div_const T
    simpa [scoreOf, mul_div_assoc] using this
  have key := integral_bilinear_hasLineDerivAt_right_eq_neg_left_of_integrable (μ := (volume : Measure (Pt d)))
    (B := ContinuousLinearMap.mul ℝ ℝ) (f := fun _ => (1 : ℝ)) (f' := fun _ => (0 : ℝ))
    (g := fun y => Real.exp (F y / T)) (g' := fun y => Real.exp (F y / T) * scoreOf F T y c)
    (v := Pi.single c 1) (by simp) (by simpa using hs) (by simpa using hS.mass)
    (fun y _ => (hasFDerivAt_const (𝕜 := ℝ) (1 : ℝ) y).hasLineDerivAt _) (fun y _ => dens_hasLineDeriv hS.diff T y c)
  simp only [ContinuousLinearMap.mul_apply', one_mul, zero_mul, integral_zero, neg_zero] at key
  have e : (fun y => scoreOf F T y c * Real.exp (F y / T)) = fun y => Real.exp (F y / T) * scoreOf F T y c := by
    funext y; ring
  rw [e]
  exact ⟨hs, key⟩

/-- The law with density proportional to the tempered density. -/
noncomputable abbrev law (F : Pt d → ℝ) (T : ℝ) : Measure (Pt d) := MH.targetLaw volume fun y => Real.exp (F y / T)

theorem law_integral (hc : Continuous F) (hS : Smooth F T) {g : Pt d → ℝ}
    (hg : Integrable fun y => g y * Real.exp (F y / T)) :
    Integrable g (law F T) ∧ (∫ y, g y * Real.exp (F y / T) = 0 → ∫ y, g y ∂(law F T) = 0) := by
  have hZ : ∫⁻ y, ENNReal.ofReal (Real.exp (F y / T)) ≠ ⊤ := by
    have := hS.mass.2
    rw [hasFiniteIntegral_iff_ofReal (ae_of_all _ fun y => (Real.exp_pos _).le)] at this
    exact this.ne
  have hZ0 : ∫⁻ y, ENNReal.ofReal (Real.exp (F y / T)) ≠ 0 := by
    rw [Ne, lintegral_eq_zero_iff (by fun_prop)]
    intro h0
    have : (volume : Measure (Pt d)) = 0 := by
      rw [← ae_eq_bot, ← Filter.eventually_false_iff_eq_bot]
      filter_upwards [h0] with y hy
      simp only [Pi.zero_apply, ENNReal.ofReal_eq_zero] at hy
      exact absurd hy (not_le.2 (Real.exp_pos _))
    exact NeZero.ne _ this
  unfold law MH.targetLaw
  have hm : Measurable fun y => ENNReal.ofReal (Real.exp (F y / T)) := by fun_prop
  have hi : Integrable g (volume.withDensity fun y => ENNReal.ofReal (Real.exp (F y / T))) := by
    rw [integrable_withDensity_iff_integrable_smul' hm (by simp)]
    refine hg.congr (ae_of_all _ fun y => ?_)
    simp only [smul_eq_mul]
    rw [ENNReal.toReal_ofReal (Real.exp_pos _).le]
    ring
  refine ⟨hi.smul_measure (ENNReal.inv_ne_top.2 hZ0), fun h0 => ?_⟩
  rw [integral_smul_measure, integral_withDensity_eq_integral_toReal_smul hm (by simp)]
  have e : (fun y => (ENNReal.ofReal (Real.exp (F y / T))).toReal • g y) = fun y => g y * Real.exp (F y / T) := by
    funext y
    rw [ENNReal.toReal_ofReal (Real.exp_pos _).le, smul_eq_mul, mul_comm]
  rw [e, h0, smul_zero]

/-- **C253** The direction in which a particle at any place is moved by the others has mean zero when
these follow the tempered density. -/
theorem stein_zero (hS : Smooth F T) (hh : 0 < h) (x : Pt d) (c : Fin d) :
    Integrable (stein h (scoreOf F T) x c) (law F T) ∧ ∫ y, stein h (scoreOf F T) x c y ∂(law F T) = 0 ∧
      Integrable (fun y => scoreOf F T y c) (law F T) ∧ ∫ y, scoreOf F T y c ∂(law F T) = 0 := by
  have h1 := lebesgue_stein hS hh x c
  have h2 := lebesgue_score hS c
  have l1 := law_integral hS.diff.continuous hS h1.1
  have l2 := law_integral hS.diff.continuous hS h2.1
  exact ⟨l1.1, l1.2 h1.2, l2.1, l2.2 h2.2⟩

/-! ## One step -/

/-- What is assumed of the call: no box, a given bandwidth, admissible options, and exact values and
gradients of the log-density. -/
structure Exact (vg : ValGrad d) (f : LogProb d) (o : StepOpts) (F : Pt d → ℝ) (pre : Pt d) (h : ℝ) : Prop where
  box : o.box = none
  step : 0 < o.stepSize
  scale : 0 < o.scale
  bmin : ∀ m ∈ o.bmin, 0 < m
  band : ∃ b, o.bandwidth = some b ∧ h = guardBandwidth o.toKOpts (o.scale * b)
  jitter : 0 ≤ o.jitter
  pre : precond o.precondDiag d o.jitter = .ok pre
  val : ∀ y, f y = .ok (.fin (F y))
  grad : ∀ y, vg (fun z => .ok (.fin (F z / o.temperature))) y =
    .ok (.fin (F y / o.temperature), fun c => .fin (scoreOf F o.temperature y c))

/-- The direction of every particle, under these assumptions. -/
noncomputable def dirs (F : Pt d → ℝ) (T h : ℝ) (pre : Pt d) (x : Pts n d) : Pts n d := fun i c =>
  pre c * ((∑ j, stein h (scoreOf F T) (x i) c (x j)) / n)

theorem exact_step {vg : ValGrad d} {f : LogProb d} {o : StepOpts} {pre : Pt d}
    (hE : Exact vg f o F pre h) (hT : 0 < o.temperature) (x : Pts (n + 1) d) : 0 < h ∧ ∃ y info,
      step vg f o x = .ok (y, info) ∧ info.velocity = dirs F o.temperature h pre x ∧
      ∀ i c, y i c = x i c + o.stepSize * dirs F o.temperature h pre x i c := by
  have hb : normBox o.box d = .ok none := by rw [hE.box]; rfl
  obtain ⟨y, info, hs⟩ := (step_succeeds vg f o x).2 ⟨hE.step, hT, by omega, ⟨none, hb⟩, ⟨pre, hE.pre⟩, hE.scale, hE.bmin⟩
  obtain ⟨b, hbw, hhb⟩ := hE.band
  have hh : info.h = h := (step_fixed_bandwidth hbw hs).trans hhb.symm
  have hp : proj o x = x := by unfold proj; rw [hb]; rfl
  have hl : logDens f o = fun z => .ok (.fin (F z / o.temperature)) := by
    unfold logDens
    rw [hb]
    funext z
    simp only [tempered, hE.val, Bind.bind, Except.bind, Pure.pure, Except.pure]
    congr 1
    exact Flt.div_fin hT.ne'
  have hv : ∀ y, vgAt vg f o y = (.fin (F y / o.temperature), scoreOf F o.temperature y) := fun y => by
    unfold vgAt safeValGrad
    rw [hl, hE.grad]
    simp [finite?_fin]
  have hal : ∀ y, Alive vg f o y := fun y => ⟨_, by rw [hv]⟩
  have hvel : info.velocity = dirs F o.temperature h pre x := by
    funext i c
    have h1 := step_stein hs i c
    have hpre : info.precond = pre := by
      have := h1.2.2.symm.trans hE.pre
      injection this
    have hcard : info.aliveCount = n + 1 := by
      rw [h1.2.1, hp]
      simp [hal]
    rw [h1.1, if_pos (hal _), hp, hcard, hpre, hh]
    simp [hal, hv, dirs, stein]
  refine ⟨?_, y, info, hs, hvel, fun i c => ?_⟩
  · obtain ⟨_, _, _, b', pre', k0, h', hb', hp', hk, hr⟩ := (step_ok vg f o x _).mp hs
    have := (bandwidth_pos hE.jitter hk).1
    have h2 := congrArg Prod.snd hr
    dsimp only at h2
    rw [← hh, h2]
    exact this
  · obtain ⟨b', hb', hy⟩ := step_moves hs i
    rw [hb] at hb'
    injection hb' with hb'
    rw [hy, ← hb', hp, hvel]
    rfl

theorem law_prob (hS : Smooth F T) : IsProbabilityMeasure (law F T) := by
  have hc := hS.diff.continuous
  refine MH.targetLaw_prob ?_ ?_
  · rw [Ne, lintegral_eq_zero_iff (by fun_prop)]
    intro h0
    have : (volume : Measure (Pt d)) = 0 := by
      rw [← ae_eq_bot, ← Filter.eventually_false_iff_eq_bot]
      filter_upwards [h0] with y hy
      simp only [Pi.zero_apply, ENNReal.ofReal_eq_zero] at hy
      exact absurd hy (not_le.2 (Real.exp_pos _))
    exact NeZero.ne _ this
  · have := hS.mass.2
    rw [hasFiniteIntegral_iff_ofReal (ae_of_all _ fun y => (Real.exp_pos _).le)] at this
    exact this.ne

theorem scoreOf_measurable (F : Pt d → ℝ) (T : ℝ) (c : Fin d) : Measurable fun y => scoreOf F T y c := by
  unfold scoreOf
  exact (measurable_fderiv_apply_const ℝ F _).div_const T

/-- **C253** For particles drawn independently from the tempered density, the directions computed by a
step have mean zero. -/
theorem svgd_mean {vg : ValGrad d} {f : LogProb d} {o : StepOpts} {pre : Pt d} (hE : Exact vg f o F pre h)
    (hS : Smooth F o.temperature) (n : ℕ) : ∃ V : Pts (n + 1) d → Pts (n + 1) d,
      (∀ x, ∃ y info, step vg f o x = .ok (y, info) ∧ info.velocity = V x ∧
        ∀ i c, y i c = x i c + o.stepSize * V x i c) ∧
      ∀ i c, Integrable (fun x => V x i c) (Measure.pi fun _ => law F o.temperature) ∧
        ∫ x, V x i c ∂(Measure.pi fun _ => law F o.temperature) = 0 := by
  have hh : 0 < h := (exact_step (n := 0) hE hS.pos fun _ _ => 0).1
  refine ⟨dirs F o.temperature h pre, fun x => (exact_step hE hS.pos x).2, fun i c => ?_⟩
  set T := o.temperature with hT
  have := law_prob hS
  set L := Measure.pi fun _ : Fin (n + 1) => law F T with hL
  have hmp : ∀ j, MeasurePreserving (fun x : Pts (n + 1) d => x j) L (law F T) := fun j => measurePreserving_eval _ j
  have hg : ∀ j, Measurable fun x : Pts (n + 1) d => gauss h (x j) (x i) := fun j => by
    apply Continuous.measurable
    unfold gauss
    fun_prop
  have hgk : ∀ j, Measurable fun x : Pts (n + 1) d => gradK h (x j) (x i) c := fun j => by
    apply Continuous.measurable
    simp only [gradK_eq, gauss]
    fun_prop
  have hsc : ∀ j, Integrable (fun x : Pts (n + 1) d => scoreOf F T (x j) c) L := fun j =>
    (hmp j).integrable_comp_of_integrable (stein_zero hS hh 0 c).2.2.1
  have hI : ∀ j, Integrable (fun x : Pts (n + 1) d => stein h (scoreOf F T) (x i) c (x j)) L := fun j => by
    unfold stein
    refine ((hsc j).bdd_mul (c := 1) (hg j).aestronglyMeasurable (ae_of_all _ fun x => ?_)).add
      (Integrable.of_bound (hgk j).aestronglyMeasurable (2 / h * (1 + h)) (ae_of_all _ fun x => ?_))
    · rw [Real.norm_eq_abs]; exact gauss_bound hh _ _
    · rw [Real.norm_eq_abs]; exact gradK_bound hh _ _ c
  have hZ : ∀ j, ∫ x, stein h (scoreOf F T) (x i) c (x j) ∂L = 0 := fun j => by
    by_cases hij : j = i
    · subst hij
      have e : ∀ x : Pts (n + 1) d, stein h (scoreOf F T) (x j) c (x j) = scoreOf F T (x j) c := fun x => by
        simp [stein, gradK_eq, gauss_self]
      simp only [e]
      have h1 := (hmp j).map_eq
      rw [← (stein_zero hS hh 0 c).2.2.2]
      conv_rhs => rw [← h1]
      rw [integral_map (hmp j).measurable.aemeasurable]
      exact (scoreOf_measurable F T c).aestronglyMeasurable
    · have hind : IndepFun (fun x : Pts (n + 1) d => x i) (fun x => x j) L :=
        (iIndepFun_pi (μ := fun _ : Fin (n + 1) => law F T) (X := fun _ x => x) fun _ => aemeasurable_id).indepFun
          (Ne.symm hij)
      have hmap := (indepFun_iff_map_prod_eq_prod_map_map (hmp i).measurable.aemeasurable
        (hmp j).measurable.aemeasurable).1 hind
      rw [(hmp i).map_eq, (hmp j).map_eq] at hmap
      have hpm : Measurable fun x : Pts (n + 1) d => (x i, x j) := by fun_prop
      have hst : Measurable fun p : Pt d × Pt d => stein h (scoreOf F T) p.1 c p.2 := by
        unfold stein
        have h1 : Measurable fun p : Pt d × Pt d => gauss h p.2 p.1 := by
          apply Continuous.measurable; unfold gauss; fun_prop
        have h2 : Measurable fun p : Pt d × Pt d => gradK h p.2 p.1 c := by
          apply Continuous.measurable; simp only [gradK_eq, gauss]; fun_prop
        exact (h1.mul ((scoreOf_measurable F T c).comp measurable_snd)).add h2
      have e1 : ∫ x, stein h (scoreOf F T) (x i) c (x j) ∂L =
          ∫ p, stein h (scoreOf F T) p.1 c p.2 ∂((law F T).prod (law F T)) := by
        rw [← hmap, integral_map hpm.aemeasurable hst.aestronglyMeasurable]
      have hIp : Integrable (fun p : Pt d × Pt d => stein h (scoreOf F T) p.1 c p.2) ((law F T).prod (law F T)) := by
        rw [← hmap, integrable_map_measure hst.aestronglyMeasurable hpm.aemeasurable]
        exact hI j
      rw [e1, integral_prod _ hIp]
      simp only [(stein_zero hS hh _ c).2.1, integral_zero]
  unfold dirs
  refine ⟨((integrable_finsetSum _ fun j _ => hI j).div_const _).const_mul _, ?_⟩
  rw [integral_const_mul, integral_div, integral_finsetSum _ fun j _ => hI j]
  simp [hZ]

/-- Averages over independent draws, with one term more, tend to the mean. -/
theorem avg_limit {mu0 : Measure (Pt d)} {Om : Type} [MeasurableSpace Om] {P : Measure Om} [IsProbabilityMeasure P]
    {X : ℕ → Om → Pt d} (hX : ∀ j, Measurable (X j)) (hlaw : ∀ j, P.map (X j) = mu0)
    (hind : Pairwise fun i j => IndepFun (X i) (X j) P) {g : Pt d → ℝ} (hg : Measurable g) (hi : Integrable g mu0)
    (b : ℝ) : ∀ᵐ w ∂P, Tendsto (fun n : ℕ => (b + ∑ j ∈ Finset.range n, g (X j w)) / ((n : ℝ) + 1)) atTop
      (𝓝 (∫ y, g y ∂mu0)) := by
  have hint : Integrable (fun w => g (X 0 w)) P := by
    have := hi
    rw [← hlaw 0] at this
    exact this.comp_measurable (hX 0)
  have hsl := strong_law_ae_real (μ := P) (fun j w => g (X j w)) hint
    (fun i j hij => (hind hij).comp hg hg) fun j => by
      have : IdentDistrib (X j) (X 0) P P := ⟨(hX j).aemeasurable, (hX 0).aemeasurable, by rw [hlaw, hlaw]⟩
      exact this.comp hg
  have hz : ∫ w, g (X 0 w) ∂P = ∫ y, g y ∂mu0 := by
    rw [← hlaw 0, integral_map (hX 0).aemeasurable hg.aestronglyMeasurable]
  rw [hz] at hsl
  filter_upwards [hsl] with w hw
  have h1 : Tendsto (fun n : ℕ => (n : ℝ) / (n + 1)) atTop (𝓝 1) := tendsto_natCast_div_add_atTop 1
  have h2 := (tendsto_one_div_add_atTop_nhds_zero_nat (𝕜 := ℝ)).const_mul b
  have h3 := h2.add (hw.mul h1)
  rw [mul_zero, zero_add, mul_one] at h3
  refine h3.congr fun n => ?_
  rcases Nat.eq_zero_or_pos n with rfl | hn
  · simp
  · have : (n : ℝ) ≠ 0 := by positivity
    field_simp

/-- **C253** A particle surrounded by ever more particles drawn independently from the tempered density
is, in the limit, not moved by a step: its direction and its displacement tend to zero almost surely. -/
theorem svgd_limit {vg : ValGrad d} {f : LogProb d} {o : StepOpts} {pre : Pt d} (hE : Exact vg f o F pre h)
    (hS : Smooth F o.temperature) {Om : Type} [MeasurableSpace Om] {P : Measure Om} [IsProbabilityMeasure P]
    {X : ℕ → Om → Pt d} (hX : ∀ j, Measurable (X j)) (hlaw : ∀ j, P.map (X j) = law F o.temperature)
    (hind : Pairwise fun i j => IndepFun (X i) (X j) P) (a : Pt d) :
    ∀ᵐ w ∂P, ∃ (y : ∀ n, Pts (n + 1) d) (info : ∀ n, StepInfo (n + 1) d),
      (∀ n, step vg f o (Fin.cons a fun j : Fin n => X j w) = .ok (y n, info n)) ∧
      (∀ c, Tendsto (fun n => (info n).velocity 0 c) atTop (𝓝 0)) ∧
      ∀ c, Tendsto (fun n => y n 0 c) atTop (𝓝 (a c)) := by
  have hh : 0 < h := (exact_step (n := 0) hE hS.pos fun _ _ => 0).1
  set T := o.temperature with hT
  have hm : ∀ c, Measurable fun y => stein h (scoreOf F T) a c y := fun c => by
    unfold stein
    exact ((gauss_continuous h a).measurable.mul (scoreOf_measurable F T c)).add (gradK_continuous h a c).measurable
  have hsl : ∀ c, ∀ᵐ w ∂P, Tendsto (fun n : ℕ => (stein h (scoreOf F T) a c a +
      ∑ j ∈ Finset.range n, stein h (scoreOf F T) a c (X j w)) / ((n : ℝ) + 1)) atTop (𝓝 0) := fun c => by
    have h0 := stein_zero hS hh a c
    have := avg_limit hX hlaw hind (hm c) h0.1 (stein h (scoreOf F T) a c a)
    rw [h0.2.1] at this
    exact this
  filter_upwards [ae_all_iff.2 hsl] with w hw
  choose hp y info hs hv hy using fun n : ℕ => exact_step (n := n) hE hS.pos (Fin.cons a fun j : Fin n => X j w)
  have hd : ∀ c, Tendsto (fun n : ℕ => dirs F T h pre (Fin.cons a fun j : Fin n => X j w : Pts (n + 1) d) 0 c) atTop (𝓝 0) := fun c => by
    have h3 := (hw c).const_mul (pre c)
    rw [mul_zero] at h3
    refine h3.congr fun n => ?_
    unfold dirs
    rw [Fin.sum_univ_succ]
    simp only [Fin.cons_zero, Fin.cons_succ, Nat.cast_add, Nat.cast_one]
    rw [Fin.sum_univ_eq_sum_range (fun j => stein h (scoreOf F T) a c (X j w)) n]
  refine ⟨y, info, hs, fun c => ?_, fun c => ?_⟩
  · simp only [hv]
    exact hd c
  · simp only [hy, Fin.cons_zero]
    simpa using (hd c).const_mul o.stepSize |>.const_add (a c)

/-! ## With a box -/

/-- The box `[0, 1]` in dimension one. -/
def boxOpts : StepOpts :=
  { bandwidth := some 1, scale := 1, bmin := none, jitter := 0, stepSize := 1, temperature := 1,
    precondDiag := none, box := some [.scalar 0, .scalar 1] }

/-- Exact values and gradients of a constant log-density. -/
noncomputable def flatGrad : ValGrad 1 := fun g y => do
  let v ← g y
  return (v, fun _ => .fin 0)

theorem box_step (x : Pts (n + 1) 1) (hx : ∀ i c, 0 ≤ x i c ∧ x i c ≤ 1) : ∃ y info,
    step flatGrad (fun _ => .ok (.fin 0)) boxOpts x = .ok (y, info) ∧
    (∀ i, info.velocity i 0 = (∑ j, gradK 1 (x j) (x i) 0) / (n + 1)) ∧
    ∀ i, y i 0 = min (max (x i 0 + info.velocity i 0) 0) 1 := by
  have hb : normBox boxOpts.box 1 = .ok (some (fun _ => 0, fun _ => 1)) := rfl
  have hpre : precond boxOpts.precondDiag 1 boxOpts.jitter = .ok fun _ => 1 := rfl
  obtain ⟨y, info, hs⟩ := (step_succeeds flatGrad (fun _ => .ok (.fin 0)) boxOpts x).2
    ⟨by norm_num [boxOpts], by norm_num [boxOpts], by omega, ⟨_, hb⟩, ⟨_, hpre⟩, by norm_num [boxOpts], by simp [boxOpts]⟩
  have hh : info.h = 1 := by
    rw [step_fixed_bandwidth (b := 1) rfl hs]
    norm_num [guardBandwidth, boxOpts]
  have hp : proj boxOpts x = x := by
    unfold proj; rw [hb]
    funext i c
    simp [project, (hx i c).1, (hx i c).2]
  have hv : ∀ j, vgAt flatGrad (fun _ => .ok (.fin 0)) boxOpts (x j) = (.fin 0, fun _ => 0) := fun j => by
    unfold vgAt safeValGrad
    have : logDens (fun _ => .ok (.fin 0)) boxOpts (x j) = .ok (.fin 0) := by
      unfold logDens
      rw [hb]
      have hn : ¬((∃ c, x j c < 0) ∨ ∃ c, 1 < x j c) := by
        push Not
        exact ⟨fun c => (hx j c).1, fun c => (hx j c).2⟩
      simp only [tempered, if_neg hn, Bind.bind, Except.bind, Pure.pure, Except.pure]
      congr 1
      have := Flt.div_fin (a := 0) (b := boxOpts.temperature) (by norm_num [boxOpts])
      simpa using this
    simp [flatGrad, this, Bind.bind, Except.bind, Pure.pure, Except.pure, finite?_fin]
  have hal : ∀ j, Alive flatGrad (fun _ => .ok (.fin 0)) boxOpts (x j) := fun j => ⟨_, by rw [hv]⟩
  refine ⟨y, info, hs, fun i => ?_, fun i => ?_⟩
  · have h1 := step_stein hs i 0
    have hpi : info.precond = fun _ => 1 := by
      have := h1.2.2.symm.trans hpre
      injection this
    have hcard : info.aliveCount = n + 1 := by
      rw [h1.2.1, hp]
      simp [hal]
    rw [h1.1, hp, if_pos (hal _), hcard, hpi, hh]
    simp [hal, hv]
  · obtain ⟨b', hb', hy⟩ := step_moves hs i
    rw [hb] at hb'
    injection hb' with hb'
    subst hb'
    rw [hy, hp]
    simp [project, boxOpts]

/-- **C253 (false with a box)** On the box `[0, 1]` with a constant density, particles drawn
independently from the uniform law do not stay: the particle at `1/4` is pushed to the nearer side by
an amount which does not vanish as the number of particles grows. -/
theorem svgd_box_false {Om : Type} [MeasurableSpace Om] {P : Measure Om} [IsProbabilityMeasure P]
    {X : ℕ → Om → Pt 1} (hX : ∀ j, Measurable (X j)) (hlaw : ∀ j, P.map (X j) = volume.restrict (Set.Icc 0 1))
    (hind : Pairwise fun i j => IndepFun (X i) (X j) P) :
    ∀ᵐ w ∂P, ∃ (y : ∀ n, Pts (n + 1) 1) (info : ∀ n, StepInfo (n + 1) 1),
      (∀ n, step flatGrad (fun _ => .ok (.fin 0)) boxOpts (Fin.cons (fun _ => 1 / 4) fun j : Fin n => X j w) =
        .ok (y n, info n)) ∧
      Tendsto (fun n => (info n).velocity 0 0) atTop (𝓝 (Real.exp (-(9 / 16)) - Real.exp (-(1 / 16)))) ∧
      Real.exp (-(9 / 16)) - Real.exp (-(1 / 16)) < 0 ∧
      ∃ l < 1 / 4, Tendsto (fun n => y n 0 0) atTop (𝓝 l) := by
  set a : Pt 1 := fun _ => 1 / 4 with ha
  have hneg : Real.exp (-(9 / 16)) - Real.exp (-(1 / 16)) < 0 := by
    rw [sub_neg, Real.exp_lt_exp]; norm_num
  have hgm : Measurable fun y : Pt 1 => gradK 1 y a 0 := (gradK_continuous 1 a 0).measurable
  have hI : Integrable (fun y : Pt 1 => gradK 1 y a 0) (volume.restrict (Set.Icc 0 1)) :=
    (Continuous.continuousOn (gradK_continuous 1 a 0)).integrableOn_compact isCompact_Icc
  have hval : ∫ y in Set.Icc (0 : Pt 1) 1, gradK 1 y a 0 = Real.exp (-(9 / 16)) - Real.exp (-(1 / 16)) := by
    have hpre : Set.Icc (0 : Pt 1) 1 = (MeasurableEquiv.funUnique (Fin 1) ℝ) ⁻¹' Set.Icc 0 1 := by
      ext y
      simp [Pi.le_def, MeasurableEquiv.funUnique]
    have hmp := volume_preserving_funUnique (Fin 1) ℝ
    have e1 := hmp.setIntegral_preimage_emb (MeasurableEquiv.measurableEmbedding _)
      (fun t : ℝ => gradK 1 (fun _ : Fin 1 => t) a 0) (Set.Icc 0 1)
    have e2 : ∀ y : Pt 1, gradK 1 (fun _ : Fin 1 => (MeasurableEquiv.funUnique (Fin 1) ℝ) y) a 0 = gradK 1 y a 0 := fun y => by
      congr 1
      funext i
      have : i = 0 := Subsingleton.elim _ _
      subst this
      rfl
    simp only [e2] at e1
    rw [hpre]
    refine Eq.trans e1 ?_
    rw [integral_Icc_eq_integral_Ioc, ← intervalIntegral.integral_of_le zero_le_one]
    have hder : ∀ t : ℝ, HasDerivAt (fun t : ℝ => Real.exp (-(t - 1 / 4) ^ 2)) (gradK 1 (fun _ : Fin 1 => t) a 0) t := fun t => by
      have h1 : HasDerivAt (fun t : ℝ => -(t - 1 / 4) ^ 2) (-(2 * (t - 1 / 4))) t := by
        have := (((hasDerivAt_id t).sub_const (1 / 4)).fun_pow 2).fun_neg
        simpa using this
      have := h1.exp
      convert this using 1
      rw [gradK_eq]
      simp only [gauss, Finset.univ_unique, Finset.sum_singleton, ha]
      rw [div_one]
      ring_nf
    rw [intervalIntegral.integral_eq_sub_of_hasDerivAt (fun t _ => hder t)]
    · norm_num
    · apply Continuous.intervalIntegrable
      have := (gradK_continuous 1 a 0)
      exact this.comp (by fun_prop)
  have hin : ∀ᵐ w ∂P, ∀ j, X j w ∈ Set.Icc (0 : Pt 1) 1 := ae_all_iff.2 fun j => by
    have : ∀ᵐ y ∂(P.map (X j)), y ∈ Set.Icc (0 : Pt 1) 1 := by
      rw [hlaw j]
      exact ae_restrict_mem measurableSet_Icc
    exact ae_of_ae_map (hX j).aemeasurable this
  filter_upwards [hin, avg_limit hX hlaw hind hgm hI (gradK 1 a a 0)] with w hw hl
  have hx : ∀ n : ℕ, ∀ i c, 0 ≤ (Fin.cons a fun j : Fin n => X j w : Pts (n + 1) 1) i c ∧
      (Fin.cons a fun j : Fin n => X j w : Pts (n + 1) 1) i c ≤ 1 := fun n i c => by
    refine Fin.cases ?_ (fun j => ?_) i
    · simp only [Fin.cons_zero, ha]; norm_num
    · simp only [Fin.cons_succ]
      exact ⟨(hw j).1 c, (hw j).2 c⟩
  choose y info hs hv hy using fun n : ℕ => box_step _ (hx n)
  have hd : Tendsto (fun n => (info n).velocity 0 0) atTop (𝓝 (Real.exp (-(9 / 16)) - Real.exp (-(1 / 16)))) := by
    rw [← hval]
    refine hl.congr fun n => ?_
    rw [hv, Fin.sum_univ_succ]
    simp only [Fin.cons_zero, Fin.cons_succ]
    rw [Fin.sum_univ_eq_sum_range (fun j => gradK 1 (X j w) a 0) n]
  refine ⟨y, info, hs, hd, hneg, min (max (1 / 4 + (Real.exp (-(9 / 16)) - Real.exp (-(1 / 16)))) 0) 1, ?_, ?_⟩
  · refine lt_of_le_of_lt (min_le_left _ _) (max_lt (by linarith) (by norm_num))
  · simp only [hy, Fin.cons_zero]
    have h1 := hd.const_add (1 / 4 : ℝ)
    exact (h1.max tendsto_const_nhds).min tendsto_const_nhds

/-! ## A concrete case: the normal law -/

/-- The log-density of the standard normal law, up to a constant. -/
noncomputable def normalLog (y : Pt 1) : ℝ := -(y 0) ^ 2 / 2

theorem normalLog_fderiv (y : Pt 1) : fderiv ℝ normalLog y (Pi.single 0 1) = -(y 0) := by
  have h1 : HasFDerivAt (fun z : Pt 1 => z 0) (ContinuousLinearMap.proj (R := ℝ) (φ := fun _ : Fin 1 => ℝ) 0) y :=
    (ContinuousLinearMap.proj (R := ℝ) (φ := fun _ : Fin 1 => ℝ) 0).hasFDerivAt
  have h2 : HasFDerivAt normalLog (-(y 0) • ContinuousLinearMap.proj (R := ℝ) (φ := fun _ : Fin 1 => ℝ) 0) y := by
    have h3 : HasDerivAt (fun t : ℝ => -t ^ 2 / 2) (-(y 0)) (y 0) := by
      have := (((hasDerivAt_id (y 0)).fun_pow 2).fun_neg).div_const 2
      simpa [neg_div] using this
    exact h3.comp_hasFDerivAt y h1
  rw [h2.fderiv]
  simp

theorem normal_smooth : Smooth normalLog 1 := by
  have hmp := volume_preserving_funUnique (Fin 1) ℝ
  have tr : ∀ g : ℝ → ℝ, Integrable g → Integrable fun y : Pt 1 => g (y 0) := fun g hg =>
    hmp.integrable_comp_of_integrable hg
  refine ⟨one_pos, ?_, ?_, fun c => ?_⟩
  · unfold normalLog; fun_prop
  · have := tr _ (integrable_exp_neg_mul_sq (b := 1 / 2) (by norm_num))
    refine this.congr (ae_of_all _ fun y => ?_)
    simp only [normalLog]
    congr 1; ring
  · have hc : c = 0 := Subsingleton.elim _ _
    subst hc
    simp only [normalLog_fderiv]
    have := (tr _ (integrable_mul_exp_neg_mul_sq (b := 1 / 2) (by norm_num))).neg
    refine this.congr (ae_of_all _ fun y => ?_)
    simp only [normalLog, Pi.neg_apply]
    rw [show -(y 0) ^ 2 / 2 / 1 = -(1 / 2) * (y 0) ^ 2 by ring]
    ring

/-- Options without a box. -/
noncomputable def freeOpts : StepOpts :=
  { bandwidth := some 1, scale := 1, bmin := none, jitter := 0, stepSize := 1 / 10, temperature := 1,
    precondDiag := none, box := none }

theorem normal_exact : Exact (fun g y => do
    let v ← g y
    return (v, fun _ => .fin (-(y 0)))) (fun y => .ok (.fin (normalLog y))) freeOpts normalLog (fun _ => 1) 1 := by
  refine ⟨rfl, by norm_num [freeOpts], by norm_num [freeOpts], by simp [freeOpts], ⟨1, rfl, ?_⟩, le_refl _, rfl,
    fun y => rfl, fun y => ?_⟩
  · norm_num [guardBandwidth, freeOpts]
  · simp only [Bind.bind, Except.bind, Pure.pure, Except.pure]
    congr 2
    funext c
    have hc : c = 0 := Subsingleton.elim _ _
    subst hc
    simp [scoreOf, normalLog_fderiv, freeOpts]

/-- Independent draws of the standard normal law exist, and the particle at `3` which they surround
is not moved in the limit. -/
example : ∃ (P : Measure (ℕ → Pt 1)), IsProbabilityMeasure P ∧
    ∀ᵐ w ∂P, ∃ (y : ∀ n, Pts (n + 1) 1) (info : ∀ n, StepInfo (n + 1) 1),
      (∀ n, step (fun g y => do
          let v ← g y
          return (v, fun _ => .fin (-(y 0)))) (fun y => .ok (.fin (normalLog y))) freeOpts
        (Fin.cons (fun _ => 3) fun j : Fin n => w j) = .ok (y n, info n)) ∧
      Tendsto (fun n => y n 0 0) atTop (𝓝 3) := by
  have := law_prob normal_smooth
  refine ⟨Measure.infinitePi fun _ => law normalLog 1, inferInstance, ?_⟩
  have := svgd_limit (P := Measure.infinitePi fun _ : ℕ => law normalLog 1) (X := fun j w => w j) normal_exact
    normal_smooth (fun j => by fun_prop)
    (fun j => (measurePreserving_eval_infinitePi (fun _ : ℕ => law normalLog 1) j).map_eq)
    (fun i j hij => (iIndepFun_infinitePi (P := fun _ : ℕ => law normalLog 1) (X := fun _ z => z)
      fun _ => measurable_id).indepFun hij) (fun _ => 3)
  filter_upwards [this] with w hw
  obtain ⟨y, info, hs, -, hy⟩ := hw
  exact ⟨y, info, hs, hy 0⟩

end Verif.SVGD
