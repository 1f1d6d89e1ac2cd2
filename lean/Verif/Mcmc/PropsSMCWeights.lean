import Verif.Mcmc.PropsResampleLaw
import Verif.Mcmc.PropsSMCRun
import Verif.Mcmc.PropsMHConverge
import Mathlib.Probability.StrongLaw
import Mathlib.MeasureTheory.Measure.WithDensity
import Mathlib.MeasureTheory.Integral.Bochner.Basic
import Mathlib.MeasureTheory.Measure.Lebesgue.Basic
import Mathlib.Probability.Independence.InfinitePi

/-!
# C249: reweighting and resampling are consistent

The particles are the first `N` terms of an independent sequence with density proportional to
`g0`, as the algorithm intends at each stage; the initial particles are uniform in the box
(`g0 = 1`, `m` the volume in the box).
-/

set_option autoImplicit false

open MeasureTheory ProbabilityTheory Filter Topology

namespace Verif.SMC

open Verif

variable {d : ℕ}

/-- `l` is the logarithm of `g`, `-inf` where `g` vanishes. -/
def LogOf (l : Pt d → Flt) (g : Pt d → ℝ) : Prop :=
  ∀ y, (0 < g y ∧ l y = .fin (Real.log (g y))) ∨ (g y = 0 ∧ l y = .num ⊥)

theorem LogOf.nonneg {l : Pt d → Flt} {g : Pt d → ℝ} (h : LogOf l g) (y : Pt d) : 0 ≤ g y := by
  rcases h y with h | h
  · exact h.1.le
  · exact h.1.ge

variable {m : Measure (Pt d)} {g0 g1 : Pt d → ℝ}

theorem lintegral_density (h0 : ∀ y, 0 ≤ g0 y) (hi : Integrable g0 m) :
    ∫⁻ y, ENNReal.ofReal (g0 y) ∂m = ENNReal.ofReal (∫ y, g0 y ∂m) :=
  (ofReal_integral_eq_lintegral_ofReal hi (ae_of_all _ h0)).symm

/-- Expectation under the law with density proportional to `g0`. -/
theorem target_integral (hm0 : Measurable g0) (h0 : ∀ y, 0 ≤ g0 y) (hi : Integrable g0 m)
    (h : Pt d → ℝ) :
    ∫ y, h y ∂MH.targetLaw m g0 = (∫ y, h y * g0 y ∂m) / ∫ y, g0 y ∂m := by
  unfold MH.targetLaw
  rw [integral_smul_measure, lintegral_density h0 hi,
    integral_withDensity_eq_integral_toReal_smul (by fun_prop) (by simp), ENNReal.toReal_inv,
    ENNReal.toReal_ofReal (integral_nonneg h0), smul_eq_mul, div_eq_inv_mul]
  congr 1
  refine integral_congr_ae (ae_of_all _ fun y => ?_)
  simp only [smul_eq_mul]
  rw [ENNReal.toReal_ofReal (h0 y), mul_comm]

theorem target_integrable (hm0 : Measurable g0) (h0 : ∀ y, 0 ≤ g0 y) (hi : Integrable g0 m)
    (hZ : 0 < ∫ y, g0 y ∂m) {h : Pt d → ℝ} (hh : Integrable (fun y => h y * g0 y) m) :
    Integrable h (MH.targetLaw m g0) := by
  unfold MH.targetLaw
  refine Integrable.smul_measure ?_ ?_
  · rw [integrable_withDensity_iff (by fun_prop) (by simp)]
    refine hh.congr (ae_of_all _ fun y => ?_)
    simp only
    rw [ENNReal.toReal_ofReal (h0 y)]
  · rw [lintegral_density h0 hi]
    simp [hZ]

theorem target_pos (hm0 : Measurable g0) : ∀ᵐ y ∂MH.targetLaw m g0, 0 < g0 y := by
  unfold MH.targetLaw
  refine Measure.ae_smul_measure ?_ _
  rw [ae_withDensity_iff (by fun_prop)]
  refine ae_of_all _ fun y hy => ?_
  simpa using hy

/-- The weight that `reweight` computes. -/
theorem weight_eq {l0 l1 : Pt d → Flt} (hl0 : LogOf l0 g0) (hl1 : LogOf l1 g1) {y : Pt d}
    (hy : 0 < g0 y) (c : ℝ) :
    (Flt.fin c).mul ((l1 y).sub (l0 y)).exp = .fin (c * (g1 y / g0 y)) := by
  have e0 : l0 y = .fin (Real.log (g0 y)) := by
    rcases hl0 y with h | h
    · exact h.2
    · exact absurd h.1 hy.ne'
  rw [e0]
  rcases hl1 y with h | h
  · rw [h.2, Flt.sub_fin, Flt.exp_fin, Flt.mul_fin, Real.exp_sub, Real.exp_log h.1, Real.exp_log hy]
  · rw [h.2, h.1]
    have : (Flt.num ⊥).sub (Flt.fin (Real.log (g0 y))) = .num ⊥ := by
      simp [Flt.sub, Flt.neg, Flt.add, Flt.fin]
    rw [this, Flt.exp_bot, Flt.mul_fin]
    simp

variable {Ω : Type} [MeasurableSpace Ω]

/-- Independent particles with density proportional to `g0` with respect to `m`. -/
structure Sample (P : Measure Ω) (X : ℕ → Ω → Pt d) (m : Measure (Pt d)) (g0 : Pt d → ℝ) : Prop where
  meas : ∀ i, Measurable (X i)
  law : ∀ i, P.map (X i) = MH.targetLaw m g0
  indep : iIndepFun X P

/-- A particle set made of the first `N` of them, with their cached log-densities and equal
weights, about to be reweighted to the log-density `l1`. -/
structure Cloud (X : ℕ → Ω → Pt d) (l0 l1 : Pt d → Flt) (ω : Ω) {N : ℕ} (p : Parts N d) : Prop where
  x : p.x = fun i : Fin N => X i ω
  logpx : p.logpx = fun i : Fin N => l0 (X i ω)
  w : p.w = uniformW N
  logpdf : p.logpdf = pointwise l1

theorem Sample.lln {P : Measure Ω} [IsProbabilityMeasure P] {X : ℕ → Ω → Pt d}
    (S : Sample P X m g0) (hm0 : Measurable g0) (h0 : ∀ y, 0 ≤ g0 y) (hi : Integrable g0 m)
    (hZ : 0 < ∫ y, g0 y ∂m) {phi : Pt d → ℝ} (hphi : Measurable phi)
    (hint : Integrable (fun y => phi y * g0 y) m) :
    ∀ᵐ ω ∂P, Tendsto (fun N : ℕ => (∑ i : Fin N, phi (X i ω)) / N) atTop
      (𝓝 ((∫ y, phi y * g0 y ∂m) / ∫ y, g0 y ∂m)) := by
  have key := strong_law_ae_real (fun i ω => phi (X i ω)) (μ := P) ?_ ?_ ?_
  · have e : P[fun ω => phi (X 0 ω)] = (∫ y, phi y * g0 y ∂m) / ∫ y, g0 y ∂m := by
      rw [← target_integral hm0 h0 hi, ← S.law 0, integral_map (S.meas 0).aemeasurable
        hphi.aestronglyMeasurable]
    rw [e] at key
    filter_upwards [key] with ω hω
    refine hω.congr fun N => ?_
    rw [Fin.sum_univ_eq_sum_range fun i => phi (X i ω)]
  · have := target_integrable hm0 h0 hi hZ hint
    rw [← S.law 0, integrable_map_measure hphi.aestronglyMeasurable (S.meas 0).aemeasurable] at this
    exact this
  · intro i j hij
    exact (S.indep.indepFun hij).comp hphi hphi
  · intro i
    refine IdentDistrib.comp (u := phi) ⟨(S.meas i).aemeasurable, (S.meas 0).aemeasurable, ?_⟩ hphi
    rw [S.law i, S.law 0]

/-- **C249** Reweighting is consistent importance sampling.  As the number of particles grows,
almost surely: the sum of the weights tends to the ratio of the normalising constants, the
weighted averages of `f` to its expectation under the new density, and the effective sample
size divided by the number of particles to `Z1² / (Z0 ∫ g1²/g0)`. -/
theorem reweight_consistent {P : Measure Ω} [IsProbabilityMeasure P] {X : ℕ → Ω → Pt d}
    (S : Sample P X m g0) {l0 l1 : Pt d → Flt} (hl0 : LogOf l0 g0) (hl1 : LogOf l1 g1)
    (hm0 : Measurable g0) (hm1 : Measurable g1) (hi0 : Integrable g0 m) (hi1 : Integrable g1 m)
    (hZ0 : 0 < ∫ y, g0 y ∂m) (hZ1 : 0 < ∫ y, g1 y ∂m)
    (hdom : ∀ᵐ y ∂m, g0 y = 0 → g1 y = 0)
    {f : Pt d → ℝ} (hf : Measurable f) (hfi : Integrable (fun y => f y * g1 y) m)
    (start : (N : ℕ) → Ω → Parts N d) (hstart : ∀ N ω, Cloud X l0 l1 ω (start N ω)) :
    ∀ᵐ ω ∂P, ∃ (out : (N : ℕ) → Parts N d) (w : (N : ℕ) → Fin N → ℝ),
      (∀ N, reweight true (start N ω) = .ok (out N) ∧ (out N).x = (start N ω).x ∧
        (out N).logpx = (fun i => l1 ((out N).x i)) ∧
        (out N).w = (fun i => .fin (w N i)) ∧ (out N).wtmp = (out N).w ∧ ∀ i, 0 ≤ w N i) ∧
      Tendsto (fun N => ∑ i, w N i) atTop (𝓝 ((∫ y, g1 y ∂m) / ∫ y, g0 y ∂m)) ∧
      Tendsto (fun N => ∑ i, nw (w N) i * f ((out N).x i)) atTop
        (𝓝 ((∫ y, f y * g1 y ∂m) / ∫ y, g1 y ∂m)) ∧
      (Integrable (fun y => g1 y ^ 2 / g0 y) m →
        ∃ e : ℕ → ℝ, (∀ᶠ N in atTop, ess (out N).wtmp = .fin (e N)) ∧
          Tendsto (fun N => e N / N) atTop
            (𝓝 ((∫ y, g1 y ∂m) ^ 2 / ((∫ y, g0 y ∂m) * ∫ y, g1 y ^ 2 / g0 y ∂m)))) := by
  have h0 := hl0.nonneg
  have h1 := hl1.nonneg
  have hr : ∀ᵐ y ∂m, g1 y / g0 y * g0 y = g1 y := by
    filter_upwards [hdom] with y hy
    by_cases h : g0 y = 0
    · rw [h, hy h]; simp
    · exact div_mul_cancel₀ _ h
  have hrf : ∀ᵐ y ∂m, (g1 y / g0 y * f y) * g0 y = f y * g1 y := by
    filter_upwards [hr] with y hy
    rw [mul_right_comm, hy, mul_comm]
  have hrr : ∀ᵐ y ∂m, (g1 y / g0 y) ^ 2 * g0 y = g1 y ^ 2 / g0 y := by
    filter_upwards [hdom] with y hy
    by_cases h : g0 y = 0
    · rw [h]; simp
    · field_simp
  have L1 := S.lln hm0 h0 hi0 hZ0 (phi := fun y => g1 y / g0 y) (by fun_prop)
    (hi1.congr (hr.mono fun y hy => hy.symm))
  rw [integral_congr_ae hr] at L1
  have L2 := S.lln hm0 h0 hi0 hZ0 (phi := fun y => g1 y / g0 y * f y) (by fun_prop)
    (hfi.congr (hrf.mono fun y hy => hy.symm))
  rw [integral_congr_ae hrf] at L2
  have L3 : Integrable (fun y => g1 y ^ 2 / g0 y) m → ∀ᵐ ω ∂P,
      Tendsto (fun N : ℕ => (∑ i : Fin N, (g1 (X i ω) / g0 (X i ω)) ^ 2) / N) atTop
        (𝓝 ((∫ y, g1 y ^ 2 / g0 y ∂m) / ∫ y, g0 y ∂m)) := by
    intro h
    have := S.lln hm0 h0 hi0 hZ0 (phi := fun y => (g1 y / g0 y) ^ 2) (by fun_prop)
      (h.congr (hrr.mono fun y hy => hy.symm))
    rwa [integral_congr_ae hrr] at this
  have L3' : ∀ᵐ ω ∂P, Integrable (fun y => g1 y ^ 2 / g0 y) m →
      Tendsto (fun N : ℕ => (∑ i : Fin N, (g1 (X i ω) / g0 (X i ω)) ^ 2) / N) atTop
        (𝓝 ((∫ y, g1 y ^ 2 / g0 y ∂m) / ∫ y, g0 y ∂m)) := by
    by_cases h : Integrable (fun y => g1 y ^ 2 / g0 y) m
    · filter_upwards [L3 h] with ω hω _ using hω
    · exact ae_of_all _ fun ω h' => absurd h' h
  have hpos : ∀ᵐ ω ∂P, ∀ i, 0 < g0 (X i ω) := by
    rw [ae_all_iff]
    intro i
    have := target_pos (m := m) hm0
    rw [← S.law i] at this
    exact ae_of_ae_map (S.meas i).aemeasurable this
  filter_upwards [L1, L2, L3', hpos] with ω t1 t2 t3 hp
  obtain ⟨r, hrdef⟩ : ∃ r : ℕ → ℝ, ∀ i, g1 (X i ω) / g0 (X i ω) = r i := ⟨_, fun _ => rfl⟩
  simp only [hrdef] at t1 t2 t3
  have hr0 : ∀ i, 0 ≤ r i := fun i => by rw [← hrdef]; exact div_nonneg (h1 _) (h0 _)
  have hout : ∀ N, reweight true (start N ω) = .ok
      { start N ω with
        wtmp := fun i => .fin (1 / N * r i), logpx := fun i => l1 (X i ω),
        w := fun i => .fin (1 / N * r i) } := by
    intro N
    have C := hstart N ω
    have e : (fun i : Fin N => (uniformW N i).mul ((l1 (X i ω)).sub (l0 (X i ω))).exp)
        = fun i : Fin N => Flt.fin (1 / N * r i) := by
      funext i
      rw [← hrdef]
      exact weight_eq hl0 hl1 (hp i) _
    unfold reweight
    rw [C.logpdf, C.w, C.logpx]
    simp only [pointwise, Bind.bind, Except.bind, if_true, e, C.x, C.logpdf]
    rfl
  have hsum : ∀ N : ℕ, ∑ i : Fin N, 1 / (N : ℝ) * r i = (∑ i : Fin N, r i) / N := by
    intro N
    rw [← Finset.mul_sum]; ring
  refine ⟨_, fun N i => 1 / N * r i, fun N => ⟨hout N, rfl, ?_, rfl, rfl, fun i => ?_⟩, ?_, ?_, fun hI => ?_⟩
  · funext i; simp only [(hstart N ω).x]
  · exact mul_nonneg (by positivity) (hr0 i)
  · simp only [hsum]; exact t1
  · have := t2.div t1 (div_pos hZ1 hZ0).ne'
    have e : (∫ y, f y * g1 y ∂m) / (∫ y, g0 y ∂m) / ((∫ y, g1 y ∂m) / ∫ y, g0 y ∂m) =
        (∫ y, f y * g1 y ∂m) / ∫ y, g1 y ∂m := div_div_div_cancel_right₀ hZ0.ne' _ _
    rw [e] at this
    refine this.congr' ?_
    filter_upwards [eventually_gt_atTop 0] with N hN
    have hN' : (N : ℝ) ≠ 0 := by exact_mod_cast hN.ne'
    simp only [nw, (hstart N ω).x, hsum, Pi.div_apply]
    rw [div_div_div_cancel_right₀ hN', Finset.sum_div]
    refine Finset.sum_congr rfl fun i _ => ?_
    field_simp
  · have hsq : ∀ N : ℕ, ∑ i : Fin N, (1 / (N : ℝ) * r i) ^ 2 = (∑ i : Fin N, r i ^ 2) / N / N := by
      intro N
      simp only [mul_pow]
      rw [← Finset.mul_sum]; ring
    have hne : ∀ᶠ N : ℕ in atTop, ∑ i : Fin N, (1 / (N : ℝ) * r i) ^ 2 ≠ 0 := by
      have := (tendsto_order.1 t1).1 0 (div_pos hZ1 hZ0)
      filter_upwards [this, eventually_gt_atTop 0] with N hN hN0 h
      rw [Finset.sum_eq_zero_iff_of_nonneg (fun i _ => sq_nonneg _)] at h
      have h' : ∀ i : Fin N, r i = 0 := by
        intro i
        have := pow_eq_zero_iff (two_ne_zero) |>.1 (h i (Finset.mem_univ _))
        have hN' : (1 / (N : ℝ)) ≠ 0 := by positivity
        exact (mul_eq_zero.1 this).resolve_left hN'
      have : (∑ i : Fin N, r i) = 0 := Finset.sum_eq_zero fun i _ => h' i
      rw [this] at hN
      simp at hN
    have hs2 : 0 < (∫ y, g1 y ^ 2 / g0 y ∂m) := by
      refine lt_of_le_of_ne (integral_nonneg fun y => div_nonneg (sq_nonneg _) (h0 y)) fun h => ?_
      have h2 := (integral_eq_zero_iff_of_nonneg (fun y => div_nonneg (sq_nonneg _) (h0 y)) hI).1 h.symm
      refine hZ1.ne' ?_
      rw [integral_eq_zero_iff_of_nonneg h1 hi1]
      filter_upwards [h2, hdom] with y hy hd
      by_cases h3 : g0 y = 0
      · exact hd h3
      · have : g1 y ^ 2 / g0 y = 0 := hy
        rw [div_eq_zero_iff] at this
        simpa using this.resolve_right h3
    refine ⟨fun N => (∑ i : Fin N, 1 / (N : ℝ) * r i) ^ 2 / ∑ i : Fin N, (1 / (N : ℝ) * r i) ^ 2, ?_, ?_⟩
    · filter_upwards [hne] with N hN
      exact ess_fin _ hN
    · have := (t1.pow 2).div (t3 hI) (div_pos hs2 hZ0).ne'
      have e : ((∫ y, g1 y ∂m) / ∫ y, g0 y ∂m) ^ 2 / ((∫ y, g1 y ^ 2 / g0 y ∂m) / ∫ y, g0 y ∂m) =
          (∫ y, g1 y ∂m) ^ 2 / ((∫ y, g0 y ∂m) * ∫ y, g1 y ^ 2 / g0 y ∂m) := by
        field_simp
      rw [e] at this
      refine this.congr' ?_
      filter_upwards [eventually_gt_atTop 0] with N hN
      have hN' : (N : ℝ) ≠ 0 := by exact_mod_cast hN.ne'
      simp only [hsum, hsq, Pi.div_apply]
      rw [div_div, div_mul_cancel₀ _ hN']

/-! ## Resampling -/

/-- Mean squared distance of an average from `mu`. -/
theorem expect_dist {n N : ℕ} (hn : 0 < n) {q : Fin n → ℝ} (hone : expect N q (fun _ => 1) = 1)
    (F : (Fin N → Fin n) → ℝ) {a b : ℝ} (h1 : expect N q F = n * a)
    (h2 : variance N q F ≤ n * (b - a ^ 2)) (mu : ℝ) :
    expect N q (fun g => (F g / n - mu) ^ 2) ≤ b / n + (a - mu) ^ 2 := by
  have hn' : (0 : ℝ) < n := by exact_mod_cast hn
  have e : (fun g => (F g / n - mu) ^ 2) = fun g =>
      (1 / (n : ℝ) ^ 2 * (F g - expect N q F) ^ 2 + 2 * (a - mu) / n * F g) +
        ((a - mu) ^ 2 - 2 * (a - mu) * a) * 1 := by
    funext g
    rw [h1]
    field_simp
    ring
  rw [e, expect_add, expect_add, expect_mul, expect_mul, expect_mul, hone, h1]
  have hv : expect N q (fun g => (F g - n * a) ^ 2) = variance N q F := by
    unfold variance
    rw [h1]
  rw [hv]
  have h3 : 1 / (n : ℝ) ^ 2 * variance N q F ≤ (b - a ^ 2) / n := by
    calc 1 / (n : ℝ) ^ 2 * variance N q F ≤ 1 / (n : ℝ) ^ 2 * (n * (b - a ^ 2)) :=
          mul_le_mul_of_nonneg_left h2 (by positivity)
      _ = (b - a ^ 2) / n := by field_simp
  have h4 : 2 * (a - mu) / n * (n * a) = 2 * (a - mu) * a := by field_simp
  have h5 : (b - a ^ 2) / n ≤ b / n := by
    apply div_le_div_of_nonneg_right _ hn'.le
    linarith [sq_nonneg a]
  rw [h4]
  linarith

/-- **C249** Resampling keeps the consistency: almost surely, the mean squared distance (over
the draws of the resampling step) between the average of `f` over the resampled particles and
its expectation under the new density tends to zero, for both schemes. -/
theorem resample_consistent {P : Measure Ω} [IsProbabilityMeasure P] {X : ℕ → Ω → Pt d}
    (S : Sample P X m g0) {l0 l1 : Pt d → Flt} (hl0 : LogOf l0 g0) (hl1 : LogOf l1 g1)
    (hm0 : Measurable g0) (hm1 : Measurable g1) (hi0 : Integrable g0 m) (hi1 : Integrable g1 m)
    (hZ0 : 0 < ∫ y, g0 y ∂m) (hZ1 : 0 < ∫ y, g1 y ∂m)
    (hdom : ∀ᵐ y ∂m, g0 y = 0 → g1 y = 0)
    {f : Pt d → ℝ} (hf : Measurable f) (hfi : Integrable (fun y => f y * g1 y) m)
    (hfi2 : Integrable (fun y => f y ^ 2 * g1 y) m)
    (start : (N : ℕ) → Ω → Parts N d) (hstart : ∀ N ω, Cloud X l0 l1 ω (start N ω)) :
    ∀ᵐ ω ∂P, ∃ (out : (N : ℕ) → Parts N d) (w : (N : ℕ) → Fin N → ℝ),
      (∀ N, reweight true (start N ω) = .ok (out N) ∧ (out N).wtmp = fun i => .fin (w N i)) ∧
      (∀ (cfg : PConfig), cfg.scheme = .multinomial →
        ∀ env : (N : ℕ) → (Fin N → Fin N) → Env N d,
        (∀ N g, Draws (env N g) (out N).clock N (nw (w N)) g) →
        ∃ new : (N : ℕ) → (Fin N → Fin N) → Parts N d,
          (∀ᶠ N in atTop, ∀ g, resample (env N g) cfg (out N) = .ok (new N g)) ∧
          Tendsto (fun N => expect N (nw (w N)) fun g => ((∑ i, f ((new N g).x i)) / N -
            (∫ y, f y * g1 y ∂m) / ∫ y, g1 y ∂m) ^ 2) atTop (𝓝 0)) ∧
      (∀ (cfg : PConfig), cfg.scheme = .residual →
        ∀ env : (N : ℕ) → (Fin (rest (w N)) → Fin N) → Env N d,
        (∀ N, rest (w N) ≠ 0 → ∀ g, Draws (env N g) (out N).clock (rest (w N)) (fracs (w N)) g) →
        ∃ new : (N : ℕ) → (Fin (rest (w N)) → Fin N) → Parts N d,
          (∀ᶠ N in atTop, ∀ g, resample (env N g) cfg (out N) = .ok (new N g)) ∧
          Tendsto (fun N => expect (rest (w N)) (fracs (w N)) fun g =>
            ((∑ i, f ((new N g).x i)) / N -
            (∫ y, f y * g1 y ∂m) / ∫ y, g1 y ∂m) ^ 2) atTop (𝓝 0)) := by
  have A1 := reweight_consistent S hl0 hl1 hm0 hm1 hi0 hi1 hZ0 hZ1 hdom hf hfi start hstart
  have A2 := reweight_consistent S hl0 hl1 hm0 hm1 hi0 hi1 hZ0 hZ1 hdom (f := fun y => f y ^ 2)
    (by fun_prop) hfi2 start hstart
  filter_upwards [A1, A2] with ω a1 a2
  obtain ⟨out, w, ho, ts, tf, -⟩ := a1
  obtain ⟨out', w', ho', -, tf2, -⟩ := a2
  have eo : out' = out := by
    funext N
    have := (ho' N).1
    rw [(ho N).1] at this
    exact (Except.ok.inj this).symm
  subst eo
  have ew : w' = w := by
    funext N i
    have h1 := (ho N).2.2.2.1
    have h2 := (ho' N).2.2.2.1
    rw [h1] at h2
    have := congrFun h2 i
    exact (Flt.fin_inj.1 this).symm
  subst ew
  have hwt : ∀ N, (out' N).wtmp = fun i => .fin (w' N i) := fun N =>
    (ho N).2.2.2.2.1.trans (ho N).2.2.2.1
  have hpos : ∀ᶠ N in atTop, 0 < ∑ i, w' N i :=
    (tendsto_order.1 ts).1 0 (div_pos hZ1 hZ0)
  have hbound : Tendsto (fun N : ℕ => (∑ i, nw (w' N) i * f ((out' N).x i) ^ 2) / N +
      ((∑ i, nw (w' N) i * f ((out' N).x i)) - (∫ y, f y * g1 y ∂m) / ∫ y, g1 y ∂m) ^ 2) atTop (𝓝 0) := by
    have h1 := tf2.div_atTop tendsto_natCast_atTop_atTop
    have h2 := (tf.sub_const ((∫ y, f y * g1 y ∂m) / ∫ y, g1 y ∂m)).pow 2
    simpa using h1.add h2
  refine ⟨out', w', fun N => ⟨(ho N).1, hwt N⟩, fun cfg hs env hd => ?_, fun cfg hs env hd => ?_⟩
  · have key : ∀ N, ∃ new : (Fin N → Fin N) → Parts N d, 0 < ∑ i, w' N i →
        (∀ g, resample (env N g) cfg (out' N) = .ok (new g)) ∧
        ∀ f : Pt d → ℝ,
        expect N (nw (w' N)) (fun g => ∑ i, f ((new g).x i)) = N * ∑ j, nw (w' N) j * f ((out' N).x j) ∧
        variance N (nw (w' N)) (fun g => ∑ i, f ((new g).x i)) =
          N * (∑ j, nw (w' N) j * f ((out' N).x j) ^ 2 - (∑ j, nw (w' N) j * f ((out' N).x j)) ^ 2) := by
      intro N
      by_cases h : 0 < ∑ i, w' N i
      · obtain ⟨new, h1, h2⟩ := multinomial_law cfg hs (out' N) (w' N) (hwt N) h (env N) (hd N)
        exact ⟨new, fun _ => ⟨h1, h2⟩⟩
      · exact ⟨fun _ => out' N, fun h' => absurd h' h⟩
    choose new hnew using key
    refine ⟨new, hpos.mono fun N h => (hnew N h).1, ?_⟩
    refine squeeze_zero' ?_ ?_ hbound
    · filter_upwards [hpos] with N h
      refine Finset.sum_nonneg fun g _ => mul_nonneg (Finset.prod_nonneg fun k _ => ?_) (sq_nonneg _)
      exact div_nonneg ((ho N).2.2.2.2.2 _) h.le
    · filter_upwards [hpos, eventually_gt_atTop 0] with N h hN
      obtain ⟨h1, h2⟩ := (hnew N h).2 f
      exact expect_dist hN (expect_one N _ (nw_sum h)) _ h1 h2.le _
  · have key : ∀ N, ∃ new : (Fin (rest (w' N)) → Fin N) → Parts N d, 0 < ∑ i, w' N i →
        (∀ g, resample (env N g) cfg (out' N) = .ok (new g)) ∧
        (rest (w' N) ≠ 0 → (∀ i, 0 ≤ fracs (w' N) i) ∧ ∑ i, fracs (w' N) i = 1) ∧
        ∀ f : Pt d → ℝ,
        expect (rest (w' N)) (fracs (w' N)) (fun g => ∑ i, f ((new g).x i)) =
          N * ∑ j, nw (w' N) j * f ((out' N).x j) ∧
        variance (rest (w' N)) (fracs (w' N)) (fun g => ∑ i, f ((new g).x i)) ≤
          N * (∑ j, nw (w' N) j * f ((out' N).x j) ^ 2 - (∑ j, nw (w' N) j * f ((out' N).x j)) ^ 2) := by
      intro N
      by_cases h : 0 < ∑ i, w' N i
      · obtain ⟨new, h1, h2, h3⟩ := residual_law cfg hs (out' N) (w' N) (hwt N) (ho N).2.2.2.2.2 h
          (env N) (hd N)
        exact ⟨new, fun _ => ⟨h1, h2, h3⟩⟩
      · exact ⟨fun _ => out' N, fun h' => absurd h' h⟩
    choose new hnew using key
    refine ⟨new, hpos.mono fun N h => (hnew N h).1, ?_⟩
    refine squeeze_zero' ?_ ?_ hbound
    · filter_upwards [hpos] with N h
      refine Finset.sum_nonneg fun g _ => mul_nonneg (Finset.prod_nonneg fun k _ => ?_) (sq_nonneg _)
      exact ((hnew N h).2.1 (fun h0 => absurd k.2 (by omega))).1 _
    · filter_upwards [hpos, eventually_gt_atTop 0] with N h hN
      obtain ⟨h1, h2⟩ := (hnew N h).2.2 f
      refine expect_dist hN ?_ _ h1 h2 _
      by_cases h0 : rest (w' N) = 0
      · rw [expect_empty h0 _ _ (fun k => absurd k.2 (by omega))]
      · exact expect_one _ _ ((hnew N h).2.1 h0).2

/-! ## The initial particles -/

/-- A draw of the unit cube scaled to the box. -/
def toBox (lo hi u : Pt d) : Pt d := fun j => lo j + u j * (hi j - lo j)

theorem toBox_map {lo hi : Pt d} (h : ∀ j, lo j < hi j) :
    (volume.restrict (Set.Icc (0 : Pt d) 1)).map (toBox lo hi) =
      MH.targetLaw (volume.restrict (Set.Icc lo hi)) fun _ => 1 := by
  have hmeas : Measurable (toBox lo hi) := by
    unfold toBox
    fun_prop
  set D : Pt d := fun j => hi j - lo j with hD
  have hdet : Matrix.det (Matrix.diagonal D) = ∏ j, D j := Matrix.det_diagonal
  have hpos : 0 < ∏ j, D j := Finset.prod_pos fun j _ => sub_pos.2 (h j)
  have hpre : toBox lo hi ⁻¹' Set.Icc lo hi = Set.Icc (0 : Pt d) 1 := by
    ext u
    simp only [Set.mem_preimage, Set.mem_Icc, Pi.le_def, toBox, Pi.zero_apply, Pi.one_apply]
    refine and_congr (forall_congr' fun j => ?_) (forall_congr' fun j => ?_)
    · have := sub_pos.2 (h j)
      constructor
      · intro h1
        by_contra h2
        push Not at h2
        nlinarith
      · intro h1
        nlinarith
    · have := sub_pos.2 (h j)
      constructor
      · intro h1
        by_contra h2
        push Not at h2
        nlinarith
      · intro h1
        nlinarith
  have hvol : (volume : Measure (Pt d)).map (toBox lo hi) = (ENNReal.ofReal (∏ j, D j))⁻¹ • volume := by
    have e : toBox lo hi = (fun z => lo + z) ∘ Matrix.toLin' (Matrix.diagonal D) := by
      funext u j
      simp [toBox, D, Matrix.toLin'_apply, Matrix.mulVec_diagonal, mul_comm]
    have h1 := Real.smul_map_diagonal_volume_pi (D := D) (by rw [hdet]; exact hpos.ne')
    rw [hdet, abs_of_pos hpos] at h1
    have h2 : Measure.map (Matrix.toLin' (Matrix.diagonal D)) (volume : Measure (Pt d)) =
        (ENNReal.ofReal (∏ j, D j))⁻¹ • volume := by
      conv_rhs => rw [← h1]
      rw [smul_smul, ENNReal.inv_mul_cancel (by simpa using hpos) (by simp), one_smul]
    rw [e, ← Measure.map_map (by fun_prop) (LinearMap.continuous_of_finiteDimensional _).measurable,
      h2, Measure.map_smul, map_add_left_eq_self]
  have hI : volume (Set.Icc lo hi) = ENNReal.ofReal (∏ j, D j) := by
    rw [Real.volume_Icc_pi, ENNReal.ofReal_prod_of_nonneg fun j _ => (sub_pos.2 (h j)).le]
  rw [← hpre, ← Measure.restrict_map hmeas measurableSet_Icc, hvol]
  unfold MH.targetLaw
  simp only [ENNReal.ofReal_one, lintegral_const, Measure.restrict_apply MeasurableSet.univ,
    Set.univ_inter, one_mul, hI]
  rw [Measure.restrict_smul]
  congr 1
  exact withDensity_one.symm

/-- **C249** The initial particles, from independent uniform draws, are such a sample for
constant density on the box, with log-density 0, so that `reweight_consistent` applies to the
first reweighting. -/
theorem init_sample {P : Measure Ω} {U : ℕ → Ω → Pt d} {lo hi : Pt d} (hb : ∀ j, lo j < hi j)
    (hU : ∀ i, Measurable (U i)) (hlaw : ∀ i, P.map (U i) = volume.restrict (Set.Icc 0 1))
    (hind : iIndepFun U P) (l1 : Pt d → Flt) :
    Sample P (fun i ω => toBox lo hi (U i ω)) (volume.restrict (Set.Icc lo hi)) (fun _ => 1) ∧
    LogOf (fun _ : Pt d => .fin 0) (fun _ => 1) ∧
    ∀ (N : ℕ) (ω : Ω) (env : Env N d), (env.init 0 = fun i : Fin N => U i ω) →
      ∃ p, newParts env {} lo hi = .ok p ∧
        Cloud (fun i ω => toBox lo hi (U i ω)) (fun _ => .fin 0) l1 ω (setLogpdf (pointwise l1) p) := by
  have hmeas : Measurable (toBox lo hi) := by
    unfold toBox
    fun_prop
  refine ⟨⟨fun i => hmeas.comp (hU i), fun i => ?_, ?_⟩, fun y => .inl ⟨one_pos, by simp⟩, ?_⟩
  · have : P.map (fun ω => toBox lo hi (U i ω)) = (P.map (U i)).map (toBox lo hi) :=
      (Measure.map_map hmeas (hU i)).symm
    rw [this, hlaw, toBox_map hb]
  · exact hind.comp (fun _ => toBox lo hi) fun _ => hmeas
  · intro N ω env he
    refine ⟨⟨fun i => toBox lo hi (U i ω), fun _ => .fin 0, uniformW N, uniformW N, 0.5,
      fun _ => .error .typeError, 1⟩, ?_, rfl, rfl, rfl, rfl⟩
    simp only [newParts, particlesInit, scaleBox, if_pos hb, he, Bind.bind, Except.bind]
    rfl

/-- Example: uniform draws exist, and reweighting them from the unit interval to the density
`exp (-y²)` gives the sum of weights `∫₀¹ exp (-y²)` in the limit. -/
example : ∃ (P : Measure (ℕ → Pt 1)), IsProbabilityMeasure P ∧
    ∀ start : (N : ℕ) → (ℕ → Pt 1) → Parts N 1,
    (∀ N ω, Cloud (fun i ω => toBox 0 1 (ω i)) (fun _ => .fin 0) (fun y => .fin (-(y 0) ^ 2)) ω
      (start N ω)) →
    ∀ᵐ ω ∂P, ∃ (out : (N : ℕ) → Parts N 1) (w : (N : ℕ) → Fin N → ℝ),
      (∀ N, reweight true (start N ω) = .ok (out N) ∧ (out N).w = (fun i => .fin (w N i))) ∧
      Tendsto (fun N => ∑ i, w N i) atTop
        (𝓝 ((∫ y in Set.Icc (0 : Pt 1) 1, Real.exp (-(y 0) ^ 2)) / ∫ y in Set.Icc (0 : Pt 1) 1, (1 : ℝ))) := by
  have hv : volume (Set.Icc (0 : Pt 1) 1) = 1 := by
    rw [Real.volume_Icc_pi]; simp
  haveI hp : IsProbabilityMeasure (volume.restrict (Set.Icc (0 : Pt 1) 1)) :=
    ⟨by rw [Measure.restrict_apply MeasurableSet.univ, Set.univ_inter, hv]⟩
  refine ⟨Measure.infinitePi fun _ => volume.restrict (Set.Icc (0 : Pt 1) 1), inferInstance, fun start hs => ?_⟩
  obtain ⟨S, hl, -⟩ := init_sample (P := Measure.infinitePi fun _ : ℕ => volume.restrict (Set.Icc (0 : Pt 1) 1))
    (U := fun i ω => ω i) (lo := 0) (hi := 1) (fun j => by simp) (fun i => by fun_prop)
    (fun i => by
      have := measurePreserving_eval_infinitePi (fun _ : ℕ => volume.restrict (Set.Icc (0 : Pt 1) 1)) i
      exact this.map_eq)
    (iIndepFun_infinitePi (X := fun _ z => z) fun _ => measurable_id) (fun y => .fin (-(y 0) ^ 2))
  have hexp : LogOf (fun y : Pt 1 => .fin (-(y 0) ^ 2)) (fun y => Real.exp (-(y 0) ^ 2)) :=
    fun y => .inl ⟨Real.exp_pos _, by rw [Real.log_exp]⟩
  have hi : Integrable (fun y : Pt 1 => Real.exp (-(y 0) ^ 2)) (volume.restrict (Set.Icc (0 : Pt 1) 1)) :=
    (Continuous.continuousOn (by fun_prop)).integrableOn_compact isCompact_Icc
  have hpos : 0 < ∫ y in Set.Icc (0 : Pt 1) 1, Real.exp (-(y 0) ^ 2) := by
    rw [integral_pos_iff_support_of_nonneg (fun y => (Real.exp_pos _).le) hi]
    have : Function.support (fun y : Pt 1 => Real.exp (-(y 0) ^ 2)) = Set.univ := by
      ext y; simp
    rw [this]
    simp [hv]
  have := reweight_consistent S hl hexp measurable_const (by fun_prop) (integrable_const _) hi
    (by simp [hv]) hpos (ae_of_all _ fun y h => absurd h one_ne_zero) (f := fun _ => 1)
    measurable_const (by simpa using hi) start hs
  filter_upwards [this] with ω hω
  obtain ⟨out, w, h1, h2, -⟩ := hω
  exact ⟨out, w, fun N => ⟨(h1 N).1, (h1 N).2.2.2.1⟩, h2⟩

end Verif.SMC
