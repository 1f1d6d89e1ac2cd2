import Verif.Mcmc.PropsSMCMove
import Mathlib.Probability.Moments.Variance
import Mathlib.MeasureTheory.Integral.Pi

/-!
# C263: a whole run with temperatures and proposals fixed in advance is consistent
-/

set_option autoImplicit false

open MeasureTheory ProbabilityTheory Filter Topology
open scoped ENNReal

namespace Verif.SMC

open Verif

variable {d : ℕ}

/-! ## The expectation over the random draws of the code -/

/-- The number of moves in a stage when the acceptance rate is always accepted. -/
def moveCount (sc : SConfig) : ℕ := (if sc.maxIter = 0 then 0 else 1) + (sc.mhSteps - 1).toNat

open Classical in
/-- The random draws of a stage that starts (after reweighting) from `a`: `c` are the
particles chosen in the resampling, `t` the displacements and the uniform numbers of the moves.
Other requests fail.  The proposals have the covariance `s C` whatever the particles. -/
noncomputable def stageEnv {N : ℕ} (a : Parts N d) (C : Matrix (Fin d) (Fin d) ℝ) {J : ℕ}
    (c : Fin N → Fin N) (t : Fin J → Fin N → Pt d × ℝ) : Env N d where
  init _ _ _ := 0
  mult k M q := if k = a.clock ∧ M = N ∧ q = probs a.wtmp then .ok (tally c) else .error .valueError
  rvs k A := if h : a.clock < k ∧ k - a.clock - 1 < J then
      (if A = a.s • C then .ok fun i => (t ⟨k - a.clock - 1, h.2⟩ i).1 else .error .valueError)
    else .error .valueError
  unif k i := if h : k - a.clock - 1 < J then (t ⟨k - a.clock - 1, h⟩ i).2 else 0
  cov _ _ := .ok C
  junkX _ _ _ := 0
  junkL _ _ := .nan

/-- The law of the displacement and of the uniform number of a particle. -/
noncomputable def noiseLaw (A : Matrix (Fin d) (Fin d) ℝ) : Measure (Pt d × ℝ) :=
  (Core.normalLaw 0 A).prod unitLaw

/-- Log-density of particles with a temperature. -/
def rowwise (ell : ℝ → Pt d → Flt) (N : ℕ) : LogPdfP N d := fun x t => .ok fun i => ell t (x i)

/-- Expectation of `F` after a call of `step`; infinite if the code fails. -/
noncomputable def stageMean {N : ℕ} (cfg : PConfig) (sc : SConfig) (ell : ℝ → Pt d → Flt)
    (st : ℝ × Matrix (Fin d) (Fin d) ℝ) (p : Parts N d) (F : Parts N d → ℝ≥0∞) : ℝ≥0∞ :=
  match reweight true (setLogpdfParam (rowwise ell N) st.1 p) with
  | .error _ => ⊤
  | .ok a => ∑ c : Fin N → Fin N, ENNReal.ofReal (∏ i, toReal (probs a.wtmp (c i))) *
      ∫⁻ t : Fin (moveCount sc) → Fin N → Pt d × ℝ,
        (match step (stageEnv a st.2 c t) cfg sc (rowwise ell N) st.1 p with
          | .ok p' => F p'
          | .error _ => ⊤)
        ∂(Measure.pi fun _ => Measure.pi fun _ => noiseLaw (a.s • st.2))

/-- Expectation of `F` after the calls of `step` for the listed temperatures and proposals. -/
noncomputable def stagesMean {N : ℕ} (cfg : PConfig) (sc : SConfig) (ell : ℝ → Pt d → Flt) :
    List (ℝ × Matrix (Fin d) (Fin d) ℝ) → Parts N d → (Parts N d → ℝ≥0∞) → ℝ≥0∞
  | [], p, F => F p
  | st :: sts, p, F => stageMean cfg sc ell st p fun p' => stagesMean cfg sc ell sts p' F

/-- Uniform numbers for the first particles. -/
def initEnv {N : ℕ} (U : Fin N → Pt d) : Env N d where
  init _ := U
  mult _ _ _ := .error .valueError
  rvs _ _ := .error .valueError
  unif _ _ := 0
  cov _ _ := .error .valueError
  junkX _ _ _ := 0
  junkL _ _ := .nan

/-- Expectation of `F` after a run from fresh particles in the box. -/
noncomputable def runMean (N : ℕ) (cfg : PConfig) (sc : SConfig) (lo hi : Pt d)
    (ell : ℝ → Pt d → Flt) (sts : List (ℝ × Matrix (Fin d) (Fin d) ℝ))
    (F : Parts N d → ℝ≥0∞) : ℝ≥0∞ :=
  ∫⁻ U : Fin N → Pt d, (match newParts (initEnv U) cfg lo hi with
    | .ok p => stagesMean cfg sc ell sts p F
    | .error _ => ⊤) ∂(Measure.pi fun _ => volume.restrict (Set.Icc 0 1))

/-! ## Averages over independent numbers -/

/-- Mean over the particles. -/
noncomputable def avg {N : ℕ} (f : Pt d → ℝ) (x : Fin N → Pt d) : ℝ := (∑ i, f (x i)) / N

/-- Measurable with values between -1 and 1. -/
structure Unit1 (f : Pt d → ℝ) : Prop where
  meas : Measurable f
  bound : ∀ y, |f y| ≤ 1

theorem pi_mse {N : ℕ} (hN : 0 < N) {X : Type} [MeasurableSpace X] (mu : Measure X)
    [IsProbabilityMeasure mu] (h : Fin N → X → ℝ) (hm : ∀ i, Measurable (h i))
    (hb : ∀ i y, |h i y| ≤ 1) (c : ℝ) :
    ∫⁻ t : Fin N → X, ENNReal.ofReal (((∑ i, h i (t i)) / N - c) ^ 2) ∂(Measure.pi fun _ => mu) ≤
      ENNReal.ofReal (1 / N + ((∑ i, ∫ y, h i y ∂mu) / N - c) ^ 2) := by
  have hN' : (0 : ℝ) < N := by exact_mod_cast hN
  have hL : ∀ i, MemLp (h i) 2 mu := fun i =>
    MemLp.of_bound (hm i).aestronglyMeasurable 1 (ae_of_all _ fun y => by
      rw [Real.norm_eq_abs]; exact hb i y)
  set Y : (Fin N → X) → ℝ := ∑ i, fun t => h i (t i) with hY
  have hYm : Measurable Y := by
    have e : Y = fun t => ∑ i, h i (t i) := by funext t; rw [hY, Finset.sum_apply]
    rw [e]
    exact Finset.measurable_sum _ fun i _ => (hm i).comp (measurable_pi_apply i)
  have hYb : ∀ t, |Y t| ≤ N := by
    intro t
    rw [hY, Finset.sum_apply]
    refine (Finset.abs_sum_le_sum_abs _ _).trans ?_
    calc ∑ i, |h i (t i)| ≤ ∑ _i : Fin N, (1 : ℝ) := Finset.sum_le_sum fun i _ => hb i _
      _ = N := by simp
  have hYL : MemLp Y 2 (Measure.pi fun _ : Fin N => mu) :=
    MemLp.of_bound hYm.aestronglyMeasurable N (ae_of_all _ fun y => by
      rw [Real.norm_eq_abs]; exact hYb y)
  have hYi : Integrable Y (Measure.pi fun _ : Fin N => mu) := hYL.integrable (by norm_num)
  have hE : ∫ t, Y t ∂(Measure.pi fun _ : Fin N => mu) = ∑ i, ∫ y, h i y ∂mu := by
    have e : ∀ t, Y t = ∑ i, h i (t i) := fun t => by rw [hY, Finset.sum_apply]
    simp only [e]
    rw [integral_finsetSum _ fun i _ => ?_]
    · refine Finset.sum_congr rfl fun i _ => ?_
      have := (measurePreserving_eval (fun _ : Fin N => mu) i).map_eq
      conv_rhs => rw [← this]
      rw [integral_map (measurable_pi_apply i).aemeasurable (hm i).aestronglyMeasurable]
    · exact (Integrable.of_bound ((hm i).comp (measurable_pi_apply i)).aestronglyMeasurable 1
        (ae_of_all _ fun y => by rw [Real.norm_eq_abs]; exact hb i _))
  have hV : Var[Y; Measure.pi fun _ : Fin N => mu] ≤ N := by
    rw [hY, variance_sum_pi hL]
    calc ∑ i, Var[h i; mu] ≤ ∑ _i : Fin N, (1 : ℝ) := Finset.sum_le_sum fun i _ => by
          refine (variance_le_expectation_sq (hm i).aestronglyMeasurable).trans ?_
          have : ∫ y, (h i ^ 2) y ∂mu ≤ ∫ _y, (1 : ℝ) ∂mu := by
            refine integral_mono_of_nonneg (ae_of_all _ fun y => sq_nonneg (h i y)) (integrable_const _)
              (ae_of_all _ fun y => ?_)
            have := hb i y
            simp only [Pi.pow_apply]
            rw [← sq_abs]
            nlinarith [abs_nonneg (h i y)]
          simpa using this
      _ = N := by simp
  have hsq : Integrable (fun t => (Y t / N - c) ^ 2) (Measure.pi fun _ : Fin N => mu) := by
    refine Integrable.of_bound (by fun_prop) ((1 + |c|) ^ 2) (ae_of_all _ fun t => ?_)
    rw [Real.norm_eq_abs, abs_pow]
    refine pow_le_pow_left₀ (abs_nonneg _) ((abs_sub _ _).trans ?_) 2
    rw [abs_div, abs_of_pos hN']
    have := hYb t
    have : |Y t| / N ≤ 1 := by rw [div_le_one hN']; exact this
    linarith
  have hmain : ∫ t, (Y t / N - c) ^ 2 ∂(Measure.pi fun _ : Fin N => mu) ≤
      1 / N + ((∑ i, ∫ y, h i y ∂mu) / N - c) ^ 2 := by
    rw [variance_eq_integral hYm.aemeasurable, hE] at hV
    set m := ∑ i, ∫ y, h i y ∂mu with hm'
    have e : (fun t => (Y t / N - c) ^ 2) = fun t => (1 / (N : ℝ) ^ 2 * (Y t - m) ^ 2 +
        2 * (m / N - c) / N * (Y t - m)) + (m / N - c) ^ 2 := by
      funext t
      field_simp
      ring
    have i1 : Integrable (fun t => (Y t - m) ^ 2) (Measure.pi fun _ : Fin N => mu) := by
      have : MemLp (fun t => Y t - m) 2 (Measure.pi fun _ : Fin N => mu) := hYL.sub (memLp_const _)
      exact this.integrable_sq
    have i2 : Integrable (fun t => Y t - m) (Measure.pi fun _ : Fin N => mu) :=
      hYi.sub (integrable_const _)
    have e3 : ∫ t, (Y t / N - c) ^ 2 ∂(Measure.pi fun _ : Fin N => mu) =
        1 / (N : ℝ) ^ 2 * ∫ t, (Y t - m) ^ 2 ∂(Measure.pi fun _ : Fin N => mu) +
          (m / N - c) ^ 2 := by
      rw [e]
      refine (integral_add ((i1.const_mul _).add (i2.const_mul _)) (integrable_const _)).trans ?_
      rw [integral_add' (i1.const_mul _) (i2.const_mul _), integral_const_mul, integral_const_mul,
        integral_sub hYi (integrable_const _), hE, integral_const, integral_const]
      simp only [probReal_univ, smul_eq_mul, one_mul, sub_self, mul_zero, add_zero]
    rw [e3]
    have : 1 / (N : ℝ) ^ 2 * ∫ t, (Y t - m) ^ 2 ∂(Measure.pi fun _ : Fin N => mu) ≤
        1 / (N : ℝ) ^ 2 * N := mul_le_mul_of_nonneg_left hV (by positivity)
    have e2 : 1 / (N : ℝ) ^ 2 * N = 1 / N := by field_simp
    linarith
  have e : ∀ t, (∑ i, h i (t i)) = Y t := fun t => by rw [hY, Finset.sum_apply]
  simp only [e]
  rw [← ofReal_integral_eq_lintegral_ofReal hsq (ae_of_all _ fun t => sq_nonneg _)]
  exact ENNReal.ofReal_le_ofReal hmain

/-! ## The moves -/

/-- Expectation of `f` after a move from `x`. -/
noncomputable def kern (g : Pt d → ℝ) (A : Matrix (Fin d) (Fin d) ℝ) (f : Pt d → ℝ) (x : Pt d) : ℝ :=
  ∫ v, f (moved g (x, v)) ∂(noiseLaw A)

instance (A : Matrix (Fin d) (Fin d) ℝ) : IsProbabilityMeasure (noiseLaw A) := by
  unfold noiseLaw; infer_instance

variable {g : Pt d → ℝ} {A : Matrix (Fin d) (Fin d) ℝ} {f : Pt d → ℝ}

theorem kern_unit1 (hg : Measurable g) (hf : Unit1 f) : Unit1 (kern g A f) := by
  refine ⟨?_, fun y => ?_⟩
  · have : Measurable fun q : Pt d × (Pt d × ℝ) => f (moved g q) := hf.meas.comp (moved_measurable hg)
    exact (this.stronglyMeasurable.integral_prod_right' (ν := noiseLaw A)).measurable
  · have := norm_integral_le_of_norm_le_const (μ := noiseLaw A) (f := fun v => f (moved g (y, v)))
      (C := 1) (ae_of_all _ fun v => by rw [Real.norm_eq_abs]; exact hf.bound _)
    rw [probReal_univ, mul_one, Real.norm_eq_abs] at this
    exact this

theorem kern_target (hg : Measurable g) (h0 : ∀ y, 0 ≤ g y) (hp : IsProbabilityMeasure (MH.targetLaw volume g))
    (hA : A.PosSemidef) (hf : Unit1 f) :
    ∫ y, kern g A f y ∂MH.targetLaw volume g = ∫ y, f y ∂MH.targetLaw volume g := by
  have h := moved_law hg h0 (Core.normalLaw 0 A) (normal_symm hA)
  have hm := moved_measurable (d := d) hg
  conv_rhs => rw [← h]
  rw [integral_map hm.aemeasurable hf.meas.aestronglyMeasurable]
  have hi : Integrable (fun t => f (moved g t)) ((MH.targetLaw volume g).prod ((Core.normalLaw 0 A).prod unitLaw)) :=
    Integrable.of_bound (hf.meas.comp hm).aestronglyMeasurable 1
      (ae_of_all _ fun v => by rw [Real.norm_eq_abs]; exact hf.bound _)
  rw [integral_prod _ hi]
  rfl

/-- Positions after `J` moves. -/
noncomputable def walk {N : ℕ} (g : Pt d → ℝ) :
    (J : ℕ) → (Fin N → Pt d) → (Fin J → Fin N → Pt d × ℝ) → Fin N → Pt d
  | 0, x, _ => x
  | J + 1, x, t => walk g J (fun i => moved g (x i, t 0 i)) (Fin.tail t)

theorem walk_measurable {N : ℕ} (hg : Measurable g) (J : ℕ) :
    Measurable fun q : (Fin N → Pt d) × (Fin J → Fin N → Pt d × ℝ) => walk g J q.1 q.2 := by
  induction J with
  | zero => exact measurable_fst
  | succ J ih =>
    have h : Measurable fun q : (Fin N → Pt d) × (Fin (J + 1) → Fin N → Pt d × ℝ) =>
        ((fun i => moved g (q.1 i, q.2 0 i), Fin.tail q.2) :
          (Fin N → Pt d) × (Fin J → Fin N → Pt d × ℝ)) := by
      refine Measurable.prodMk (measurable_pi_lambda _ fun i => (moved_measurable hg).comp ?_) ?_
      · fun_prop
      · refine measurable_pi_lambda _ fun i => ?_
        unfold Fin.tail
        fun_prop
    exact ih.comp h

theorem avg_measurable {N : ℕ} (hf : Measurable f) : Measurable fun x : Fin N → Pt d => avg f x := by
  unfold avg
  fun_prop

/-- Squared error after the moves. -/
theorem walk_mse {N : ℕ} (hN : 0 < N) (hg : Measurable g) (J : ℕ) (x : Fin N → Pt d) (hf : Unit1 f)
    (c : ℝ) :
    ∫⁻ t : Fin J → Fin N → Pt d × ℝ, ENNReal.ofReal ((avg f (walk g J x t) - c) ^ 2)
      ∂(Measure.pi fun _ => Measure.pi fun _ => noiseLaw A) ≤
      ENNReal.ofReal (J / N + (avg ((kern g A)^[J] f) x - c) ^ 2) := by
  induction J generalizing x with
  | zero => simp [walk]
  | succ J ih =>
    have hmp := measurePreserving_piFinSuccAbove
      (fun _ : Fin (J + 1) => Measure.pi fun _ : Fin N => noiseLaw (d := d) A) 0
    have hH : Measurable fun q : (Fin N → Pt d × ℝ) × (Fin J → Fin N → Pt d × ℝ) =>
        ENNReal.ofReal ((avg f (walk g J (fun i => moved g (x i, q.1 i)) q.2) - c) ^ 2) := by
      have h1 : Measurable fun q : (Fin N → Pt d × ℝ) × (Fin J → Fin N → Pt d × ℝ) =>
          ((fun i => moved g (x i, q.1 i), q.2) : (Fin N → Pt d) × (Fin J → Fin N → Pt d × ℝ)) := by
        refine Measurable.prodMk (measurable_pi_lambda _ fun i => (moved_measurable hg).comp ?_) ?_
        · fun_prop
        · fun_prop
      have h2 := (avg_measurable hf.meas).comp ((walk_measurable hg J).comp h1)
      exact ENNReal.measurable_ofReal.comp ((h2.sub_const c).pow_const 2)
    have e := hmp.lintegral_comp hH
    have e' : ∫⁻ t : Fin (J + 1) → Fin N → Pt d × ℝ,
        ENNReal.ofReal ((avg f (walk g (J + 1) x t) - c) ^ 2)
          ∂(Measure.pi fun _ => Measure.pi fun _ => noiseLaw A) = _ := e
    rw [e', lintegral_prod _ hH.aemeasurable]
    have hk : Unit1 ((kern g A)^[J] f) := by
      clear ih hmp hH e e'
      induction J with
      | zero => exact hf
      | succ J ih => rw [Function.iterate_succ_apply']; exact kern_unit1 hg ih
    have step1 : ∀ v : Fin N → Pt d × ℝ,
        ∫⁻ w, ENNReal.ofReal ((avg f (walk g J (fun i => moved g (x i, v i)) w) - c) ^ 2)
          ∂(Measure.pi fun _ => Measure.pi fun _ => noiseLaw A) ≤
        ENNReal.ofReal (J / N) + ENNReal.ofReal ((avg ((kern g A)^[J] f) (fun i => moved g (x i, v i)) - c) ^ 2) :=
      fun v => (ih _).trans (ENNReal.ofReal_add (by positivity) (sq_nonneg _)).le
    refine (lintegral_mono step1).trans ?_
    rw [lintegral_add_left measurable_const, lintegral_const, measure_univ, mul_one]
    have h3 := pi_mse hN (noiseLaw A) (fun i v => (kern g A)^[J] f (moved g (x i, v)))
      (fun i => hk.meas.comp ((moved_measurable hg).comp measurable_prodMk_left))
      (fun i y => hk.bound _) c
    refine (add_le_add le_rfl h3).trans ?_
    rw [← ENNReal.ofReal_add (by positivity) (by positivity)]
    refine ENNReal.ofReal_le_ofReal (le_of_eq ?_)
    have e4 : ∀ i, ∫ y, (kern g A)^[J] f (moved g (x i, y)) ∂(noiseLaw A) = (kern g A)^[J + 1] f (x i) := by
      intro i
      rw [Function.iterate_succ_apply']
      rfl
    simp only [e4, avg]
    push_cast
    ring

/-! ## The code of a stage -/

/-- Positive exactly on `S`, with a finite positive integral. -/
structure Dens (S : Set (Pt d)) (g : Pt d → ℝ) : Prop where
  meas : Measurable g
  nonneg : ∀ y, 0 ≤ g y
  pos : ∀ y, 0 < g y ↔ y ∈ S
  int : Integrable g volume
  mass : 0 < ∫ y, g y

/-- The particles between two stages. -/
structure Ready {N : ℕ} (S : Set (Pt d)) (g : Pt d → ℝ) (s : ℝ) (p : Parts N d) : Prop where
  mem : ∀ i, p.x i ∈ S
  logpx : ∀ i, p.logpx i = .fin (Real.log (g (p.x i)))
  w : p.w = uniformW N
  s : p.s = s

/-- Particles about to be moved. -/
structure Mobile {N : ℕ} (S : Set (Pt d)) (l : Pt d → Flt) (s : ℝ) (p : Parts N d) : Prop where
  mem : ∀ i, p.x i ∈ S
  logpx : ∀ i, p.logpx i = l (p.x i)
  w : p.w = uniformW N
  s : p.s = s
  logpdf : p.logpdf = pointwise l

theorem LogOf.fin_of {l : Pt d → Flt} (h : LogOf l g) {y : Pt d} (hy : 0 < g y) :
    l y = .fin (Real.log (g y)) := by
  rcases h y with h | h
  · exact h.2
  · exact absurd h.1 hy.ne'

theorem Mobile.ready {N : ℕ} {S : Set (Pt d)} {l : Pt d → Flt} {s : ℝ} {p : Parts N d}
    (h : Mobile S l s p) (hg : Dens S g) (hl : LogOf l g) : Ready S g s p :=
  ⟨h.mem, fun i => by rw [h.logpx, hl.fin_of ((hg.pos _).2 (h.mem i))], h.w, h.s⟩

theorem accept_iff0 {l : Pt d → Flt} (hl : LogOf l g) {x y : Pt d} (hx : 0 < g x) {u : ℝ}
    (hu : 0 ≤ u) : (Flt.logU u).lt ((l y).sub (l x)) ↔ u * g x < g y := by
  rcases hu.eq_or_lt with h | h
  · subst h
    rw [Flt.logU_zero, hl.fin_of hx, zero_mul]
    rcases hl y with ⟨hy, ey⟩ | ⟨hy, ey⟩
    · rw [ey, Flt.sub_fin]
      simp only [hy, iff_true, Flt.lt, Flt.fin]
      exact EReal.bot_lt_coe _
    · rw [ey, hy]
      simp [Flt.fin, Flt.sub, Flt.lt, Flt.add, Flt.neg]
  · exact accept_iff hl hx h

theorem moved_mem {S : Set (Pt d)} (hg : Dens S g) {x : Pt d} (hx : x ∈ S) {v : Pt d × ℝ}
    (hv : 0 ≤ v.2) : moved g (x, v) ∈ S := by
  unfold moved
  split_ifs with h
  · refine (hg.pos _).1 (lt_of_le_of_lt (mul_nonneg hv (hg.nonneg x)) h)
  · exact hx

theorem move_walk {N : ℕ} {S : Set (Pt d)} (hg : Dens S g) {l : Pt d → Flt} (hl : LogOf l g)
    {s : ℝ} {C : Matrix (Fin d) (Fin d) ℝ} {cfg : PConfig} (hcov : cfg.cov ≠ .other)
    (hlo : cfg.sLower ≤ s) (hup : s ≤ cfg.sUpper) (env : Env N d) (hc : ∀ m x, env.cov m x = .ok C)
    (p : Parts N d) (v : Fin N → Pt d × ℝ)
    (he : env.rvs p.clock (s • C) = .ok fun i => (v i).1)
    (hu : ∀ i, env.unif p.clock i = (v i).2) (h0 : ∀ i, 0 ≤ (v i).2) (hp : Mobile S l s p) :
    ∃ p' r, move env cfg p = .ok (p', r) ∧ p'.x = (fun i => moved g (p.x i, v i)) ∧
      Mobile S l s p' ∧ p'.clock = p.clock + 1 := by
  classical
  obtain ⟨r, hr⟩ := move_eq (l := l) (C := C) (e := fun i => (v i).1) (cfg := cfg) hcov (env := env)
    (p := p) (by rw [hp.s]; exact hlo) (by rw [hp.s]; exact hup) hp.logpx hp.logpdf (hc _ _)
    (by rw [hp.s]; exact he)
  have hacc : ∀ i, accepts env p (fun i => l (p.x i + (v i).1)) i ↔
      (v i).2 * g (p.x i) < g (p.x i + (v i).1) := by
    intro i
    unfold accepts
    rw [hu, hp.logpx]
    exact accept_iff0 hl ((hg.pos _).2 (hp.mem i)) (h0 i)
  have ex : (fun i => if accepts env p (fun i => l (p.x i + (v i).1)) i then p.x i + (v i).1
      else p.x i) = fun i => moved g (p.x i, v i) := by
    funext i
    simp only [hacc, moved]
  refine ⟨_, r, hr, ex, ⟨fun i => ?_, fun i => ?_, hp.w, hp.s, hp.logpdf⟩, rfl⟩
  · have := congrFun ex i
    dsimp only at this ⊢
    rw [this]
    exact moved_mem hg (hp.mem i) (h0 i)
  · dsimp only
    split_ifs <;> rfl

theorem moves_walk {N : ℕ} {S : Set (Pt d)} (hg : Dens S g) {l : Pt d → Flt} (hl : LogOf l g)
    {s : ℝ} {C : Matrix (Fin d) (Fin d) ℝ} {cfg : PConfig} (hcov : cfg.cov ≠ .other)
    (hlo : cfg.sLower ≤ s) (hup : s ≤ cfg.sUpper) (env : Env N d) (hc : ∀ m x, env.cov m x = .ok C)
    (J : ℕ) (p : Parts N d) (t : Fin J → Fin N → Pt d × ℝ)
    (he : ∀ j : Fin J, env.rvs (p.clock + j) (s • C) = .ok fun i => (t j i).1)
    (hu : ∀ (j : Fin J) i, env.unif (p.clock + j) i = (t j i).2) (h0 : ∀ j i, 0 ≤ (t j i).2)
    (hp : Mobile S l s p) :
    ∃ p', moves env cfg J p = .ok p' ∧ p'.x = walk g J p.x t ∧ Mobile S l s p' := by
  induction J generalizing p with
  | zero => exact ⟨p, rfl, rfl, hp⟩
  | succ J ih =>
    obtain ⟨p1, r, h1, h2, h3, h4⟩ := move_walk hg hl hcov hlo hup env hc p (t 0)
      (by have := he 0; simpa using this) (fun i => by have := hu 0 i; simpa using this) (h0 0) hp
    obtain ⟨p2, h5, h6, h7⟩ := ih p1 (Fin.tail t)
      (fun j => by
        have := he j.succ
        rw [Fin.val_succ, ← add_assoc, add_right_comm, ← h4] at this
        exact this)
      (fun j i => by
        have := hu j.succ i
        rw [Fin.val_succ, ← add_assoc, add_right_comm, ← h4] at this
        exact this)
      (fun j i => h0 j.succ i) h3
    refine ⟨p2, ?_, ?_, h7⟩
    · unfold moves
      rw [h1]
      exact h5
    · rw [h6, h2]
      rfl

theorem moves_add {N : ℕ} (env : Env N d) (cfg : PConfig) (a b : ℕ) (p : Parts N d) :
    moves env cfg (a + b) p = (moves env cfg a p >>= moves env cfg b) := by
  induction a generalizing p with
  | zero => simp [moves, Bind.bind, Except.bind]
  | succ a ih =>
    rw [Nat.succ_add]
    simp only [moves]
    cases h : move env cfg p with
    | error e => rfl
    | ok r =>
      simp only [Bind.bind, Except.bind]
      exact ih r.1

/-- Without limits on the acceptance rate, one move. -/
theorem controlled_one {N : ℕ} (env : Env N d) (cfg : PConfig) (sc : SConfig) (h0 : sc.accMin ≤ 0)
    (h1 : 1 ≤ sc.accMax) (p : Parts N d) :
    controlledMove env cfg sc sc.maxIter p = moves env cfg (if sc.maxIter = 0 then 0 else 1) p := by
  classical
  cases hk : sc.maxIter with
  | zero => simp [controlledMove, moves]
  | succ k =>
    simp only [Nat.succ_ne_zero, if_false, controlledMove, moves]
    have hr : ∀ p' r, move env cfg p = .ok (p', r) → 0 ≤ r ∧ r ≤ 1 := by
      intro p' r h
      unfold move at h
      cases h2 : perturb env cfg p with
      | error e => rw [h2] at h; simp [Bind.bind, Except.bind] at h
      | ok y =>
        rw [h2] at h
        simp only [Bind.bind, Except.bind] at h
        cases h3 : p.logpdf y with
        | error e => rw [h3] at h; simp at h
        | ok ly =>
          rw [h3] at h
          simp only [Pure.pure, Except.pure, Except.ok.injEq, Prod.mk.injEq] at h
          rw [← h.2]
          refine ⟨by positivity, ?_⟩
          have := (Finset.card_le_univ (Finset.univ.filter fun i => accepts env p ly i))
          rw [Fintype.card_fin] at this
          exact div_le_one_of_le₀ (by exact_mod_cast this) (by positivity)
    cases h : move env cfg p with
    | error e => rfl
    | ok q =>
      obtain ⟨p', r⟩ := q
      have := hr p' r h
      simp only [Bind.bind, Except.bind]
      rw [if_neg (by linarith), if_neg (by linarith)]

/-- The reweighted particles. -/
theorem reweight_ready {N : ℕ} {S : Set (Pt d)} {g' : Pt d → ℝ} (hg : Dens S g) (hg' : Dens S g')
    {ell : ℝ → Pt d → Flt} {τ : ℝ} (hl : LogOf (ell τ) g') {s : ℝ} {p : Parts N d}
    (hp : Ready S g s p) :
    ∃ a, reweight true (setLogpdfParam (rowwise ell N) τ p) = .ok a ∧ a.x = p.x ∧
      (∀ i, a.logpx i = ell τ (p.x i)) ∧ a.logpdf = pointwise (ell τ) ∧ a.s = s ∧
      a.wtmp = fun i => .fin (1 / N * (g' (p.x i) / g (p.x i))) := by
  refine ⟨_, rfl, rfl, fun i => rfl, rfl, hp.s, ?_⟩
  funext i
  have h1 := (hg.pos _).2 (hp.mem i)
  have h2 := (hg'.pos _).2 (hp.mem i)
  simp only [setLogpdfParam, setLogpdf, hp.logpx, hp.w, uniformW]
  rw [hl.fin_of h2, Flt.sub_fin, Flt.exp_fin, Flt.mul_fin, Real.exp_sub, Real.exp_log h2,
    Real.exp_log h1]

/-- What a call of `step` does with the draws. -/
theorem step_walk {N : ℕ} {S : Set (Pt d)} {g' : Pt d → ℝ} (hg : Dens S g) (hg' : Dens S g')
    {ell : ℝ → Pt d → Flt} {τ : ℝ} (hl : LogOf (ell τ) g') {s : ℝ} {C : Matrix (Fin d) (Fin d) ℝ}
    {cfg : PConfig} (hsch : cfg.scheme = .multinomial) (hcov : cfg.cov ≠ .other)
    (hlo : cfg.sLower ≤ s) (hup : s ≤ cfg.sUpper) {sc : SConfig} (h0 : sc.accMin ≤ 0)
    (h1 : 1 ≤ sc.accMax) {p : Parts N d} (hp : Ready S g s p) {a : Parts N d}
    (ha : reweight true (setLogpdfParam (rowwise ell N) τ p) = .ok a) (c : Fin N → Fin N) :
    ∃ x' : Fin N → Pt d, (∀ h : Pt d → ℝ, ∑ i, h (x' i) = ∑ k, h (p.x (c k))) ∧
      ∀ t : Fin (moveCount sc) → Fin N → Pt d × ℝ, (∀ j i, 0 ≤ (t j i).2) →
      ∃ p', step (stageEnv a C c t) cfg sc (rowwise ell N) τ p = .ok p' ∧
        p'.x = walk g' (moveCount sc) x' t ∧ Ready S g' s p' := by
  obtain ⟨a', e, hax, hal, had, has, -⟩ := reweight_ready hg hg' hl hp
  rw [ha] at e
  obtain rfl := Except.ok.inj e
  have hcp : ∀ t : Fin (moveCount sc) → Fin N → Pt d × ℝ,
      ∃ b, resample (stageEnv a C c t) cfg a = .ok b ∧ copyParts (stageEnv a C c t) (tally c) a = .ok b := by
    intro t
    obtain ⟨b, hb, -⟩ := copyParts_ok (stageEnv a C c t) (tally c) (tally_total c) a
    refine ⟨b, ?_, hb⟩
    unfold resample
    rw [hsch]
    simp only [multinomialCounts, stageEnv, true_and, if_true, Bind.bind, Except.bind]
    exact hb
  -- the copies do not depend on the noise
  obtain ⟨b0, hb0, hcop, hw, -, hpd, hs⟩ := copyParts_ok (stageEnv a C c (J := 0) Fin.elim0) (tally c) (tally_total c) a
  have hclock : b0.clock = a.clock + 1 := by
    unfold copyParts at hb0
    cases h : copyLoop a.x a.logpx (tally c) ⟨0, (stageEnv a C c (J := 0) Fin.elim0).junkX a.clock,
      (stageEnv a C c (J := 0) Fin.elim0).junkL a.clock⟩ with
    | error e => rw [h] at hb0; simp [Bind.bind, Except.bind] at hb0
    | ok q =>
      rw [h] at hb0
      simp only [Bind.bind, Except.bind, Pure.pure, Except.pure, Except.ok.injEq] at hb0
      rw [← hb0]
  have hmob : Mobile S (ell τ) s b0 := by
    obtain ⟨σ, h2, -⟩ := hcop
    refine ⟨fun i => ?_, fun i => ?_, hw, hs.trans has, hpd.trans had⟩
    · rw [(h2 i).1, hax]; exact hp.mem _
    · rw [(h2 i).2, (h2 i).1, hal, hax]
  refine ⟨b0.x, fun h => ?_, fun t ht => ?_⟩
  · rw [copies_sum hcop h, tally_sum c fun j => h (a.x j), hax]
  · have hb : copyParts (stageEnv a C c t) (tally c) a = .ok b0 := hb0
    have hres : resample (stageEnv a C c t) cfg a = .ok b0 := by
      obtain ⟨b, h2, h3⟩ := hcp t
      rw [h2, ← h3, hb]
    obtain ⟨p', h2, h3, h4⟩ := moves_walk (J := moveCount sc) hg' hl hcov hlo hup (stageEnv a C c t)
      (fun m x => rfl) b0 t
      (fun j => by
        have e1 : b0.clock + (j : ℕ) - a.clock - 1 = j := by omega
        have e2 : a.clock < b0.clock + (j : ℕ) := by omega
        simp only [stageEnv, has, if_true, e1, e2, true_and, j.2, dif_pos])
      (fun j i => by
        have e1 : b0.clock + (j : ℕ) - a.clock - 1 = j := by omega
        simp only [stageEnv, e1, j.2, dif_pos]) ht hmob
    refine ⟨p', ?_, h3, h4.ready hg' hl⟩
    unfold step
    rw [ha]
    simp only [Bind.bind, Except.bind, mutate]
    rw [hres]
    simp only [controlled_one _ _ _ h0 h1]
    have h5 : moves (stageEnv a C c t) cfg ((if sc.maxIter = 0 then 0 else 1) + (sc.mhSteps - 1).toNat) b0
        = .ok p' := h2
    rw [moves_add] at h5
    exact h5

/-! ## The error of a stage -/

theorem Dens.prob {S : Set (Pt d)} (hg : Dens S g) : IsProbabilityMeasure (MH.targetLaw volume g) :=
  MH.targetLaw_prob (by rw [lintegral_density hg.nonneg hg.int]; simpa using hg.mass)
    (by rw [lintegral_density hg.nonneg hg.int]; exact ENNReal.ofReal_ne_top)

theorem iterate_unit1 (hg : Measurable g) (hf : Unit1 f) (J : ℕ) : Unit1 ((kern g A)^[J] f) := by
  induction J with
  | zero => exact hf
  | succ J ih => rw [Function.iterate_succ_apply']; exact kern_unit1 hg ih

theorem iterate_target {S : Set (Pt d)} (hg : Dens S g) (hA : A.PosSemidef) (hf : Unit1 f) (J : ℕ) :
    ∫ y, (kern g A)^[J] f y ∂MH.targetLaw volume g = ∫ y, f y ∂MH.targetLaw volume g := by
  induction J with
  | zero => rfl
  | succ J ih =>
    rw [Function.iterate_succ_apply', kern_target hg.meas hg.nonneg hg.prob hA
      (iterate_unit1 hg.meas hf J), ih]

/-- Ratio of two averages. -/
theorem ratio_error {P Q a b : ℝ} (hQ : 0 < Q) (hb : 0 < b) (hP : |P| ≤ Q) :
    (P / Q - a / b) ^ 2 ≤ 2 / b ^ 2 * (P - a) ^ 2 + 2 / b ^ 2 * (Q - b) ^ 2 := by
  have e : P / Q - a / b = ((P - a) - P / Q * (Q - b)) / b := by field_simp; ring
  have h1 : (P / Q) ^ 2 ≤ 1 := by
    rw [← sq_abs, abs_div, abs_of_pos hQ]
    have : |P| / Q ≤ 1 := by rw [div_le_one hQ]; exact hP
    have : 0 ≤ |P| / Q := by positivity
    nlinarith
  rw [e, div_pow]
  have h2 : ((P - a) - P / Q * (Q - b)) ^ 2 ≤ 2 * (P - a) ^ 2 + 2 * (Q - b) ^ 2 := by
    nlinarith [sq_nonneg ((P - a) + P / Q * (Q - b)), sq_nonneg (Q - b),
      mul_le_mul_of_nonneg_right h1 (sq_nonneg (Q - b))]
  calc _ ≤ (2 * (P - a) ^ 2 + 2 * (Q - b) ^ 2) / b ^ 2 := div_le_div_of_nonneg_right h2 (by positivity)
    _ = _ := by ring

/-- The squared error of the average of `f` over the particles, relative to the density `g`. -/
noncomputable def err {N : ℕ} (g : Pt d → ℝ) (f : Pt d → ℝ) (x : Fin N → Pt d) : ℝ :=
  (avg f x - ∫ y, f y ∂MH.targetLaw volume g) ^ 2

/-- The importance ratio, scaled. -/
noncomputable def ratio (g g' : Pt d → ℝ) (M : ℝ) (y : Pt d) : ℝ := g' y / g y / M

theorem ratio_unit1 {S : Set (Pt d)} {g' : Pt d → ℝ} (hg : Dens S g) (hg' : Dens S g') {M : ℝ} (hM : 0 < M)
    (hr : ∀ y ∈ S, g' y ≤ M * g y) : Unit1 (ratio g g' M) := by
  have h1 := hg.meas
  have h2 := hg'.meas
  refine ⟨by unfold ratio; fun_prop, fun y => ?_⟩
  unfold ratio
  rw [abs_of_nonneg (div_nonneg (div_nonneg (hg'.nonneg y) (hg.nonneg y)) hM.le), div_le_one hM]
  by_cases hy : y ∈ S
  · rw [div_le_iff₀ ((hg.pos y).2 hy)]
    exact hr y hy
  · have : g' y = 0 := le_antisymm (not_lt.1 fun h => hy ((hg'.pos y).1 h)) (hg'.nonneg y)
    rw [this, zero_div]
    exact hM.le

/-- Importance sampling: expectation of the weighted function. -/
theorem ratio_integral {S : Set (Pt d)} {g' : Pt d → ℝ} (hg : Dens S g) (hg' : Dens S g') {M : ℝ}
    (h : Pt d → ℝ) :
    ∫ y, ratio g g' M y * h y ∂MH.targetLaw volume g =
      (∫ y, h y ∂MH.targetLaw volume g') * ((∫ y, g' y) / (∫ y, g y) / M) := by
  rw [target_integral hg.meas hg.nonneg hg.int, target_integral hg'.meas hg'.nonneg hg'.int]
  have e : ∀ y, ratio g g' M y * h y * g y = h y * g' y / M := by
    intro y
    unfold ratio
    by_cases hy : y ∈ S
    · have := (hg.pos y).2 hy
      field_simp
    · have h1 : g' y = 0 := le_antisymm (not_lt.1 fun h => hy ((hg'.pos y).1 h)) (hg'.nonneg y)
      have h2 : g y = 0 := le_antisymm (not_lt.1 fun h => hy ((hg.pos y).1 h)) (hg.nonneg y)
      simp [h1, h2]
  simp only [e]
  rw [integral_div]
  have h1 := hg.mass
  have h2 := hg'.mass
  field_simp

/-- The weighted average of a function over the particles estimates its expectation under the
new density. -/
theorem weighted_mse {N : ℕ} (hN : 0 < N) {S : Set (Pt d)} {g' : Pt d → ℝ} (hg : Dens S g)
    (hg' : Dens S g') {M : ℝ} (hM : 0 < M) (hr : ∀ y ∈ S, g' y ≤ M * g y) {h : Pt d → ℝ} (hh1 : Unit1 h)
    (x : Fin N → Pt d) (hx : ∀ i, x i ∈ S) :
    (∑ j, nw (fun j => 1 / (N : ℝ) * (g' (x j) / g (x j))) j * h (x j) -
        ∫ y, h y ∂MH.targetLaw volume g') ^ 2 ≤
      2 * (M / ((∫ y, g' y) / ∫ y, g y)) ^ 2 *
        (err g (fun y => ratio g g' M y * h y) x + err g (ratio g g' M) x) := by
  have hN' : (0 : ℝ) < N := by exact_mod_cast hN
  set w : Fin N → ℝ := fun j => 1 / (N : ℝ) * (g' (x j) / g (x j)) with hw
  set mu := ∫ y, h y ∂MH.targetLaw volume g' with hmu
  set G := ratio g g' M with hG
  have hGu := ratio_unit1 hg hg' hM hr
  set r := (∫ y, g' y) / ∫ y, g y with hr'
  have hrp : 0 < r := div_pos hg'.mass hg.mass
  have hGpos : ∀ j, 0 < G (x j) := fun j => by
    have h1 := (hg.pos _).2 (hx j)
    have h2 := (hg'.pos _).2 (hx j)
    simp only [hG, ratio]
    positivity
  have hQ : 0 < avg G x :=
    div_pos (Finset.sum_pos (fun j _ => hGpos j) ⟨⟨0, hN⟩, Finset.mem_univ _⟩) hN'
  have hP : |avg (fun y => G y * h y) x| ≤ avg G x := by
    unfold avg
    rw [abs_div, abs_of_pos hN']
    refine div_le_div_of_nonneg_right ((Finset.abs_sum_le_sum_abs _ _).trans ?_) hN'.le
    refine Finset.sum_le_sum fun j _ => ?_
    rw [abs_mul, abs_of_pos (hGpos j)]
    exact mul_le_of_le_one_right (hGpos j).le (hh1.bound _)
  have ew : ∑ j, nw w j * h (x j) = avg (fun y => G y * h y) x / avg G x := by
    have ewG : ∀ j, w j = M / N * G (x j) := fun j => by
      simp only [hw, hG, ratio]
      field_simp
    have : ∀ j, nw w j * h (x j) = (G (x j) * h (x j)) / ∑ k, G (x k) := by
      intro j
      simp only [nw, ewG, ← Finset.mul_sum]
      have : (∑ k, G (x k)) ≠ 0 := (Finset.sum_pos (fun j _ => hGpos j) ⟨⟨0, hN⟩, Finset.mem_univ _⟩).ne'
      field_simp
    simp only [this, ← Finset.sum_div, avg]
    rw [div_div_div_cancel_right₀ hN'.ne']
  have eb : ∫ y, G y ∂MH.targetLaw volume g = r / M := by
    have := ratio_integral hg hg' (M := M) fun _ => 1
    have hp := hg'.prob
    simp only [mul_one, integral_const, probReal_univ, smul_eq_mul, one_mul] at this
    exact this
  have ea : ∫ y, G y * h y ∂MH.targetLaw volume g = mu * (r / M) := by
    have := ratio_integral hg hg' (M := M) h
    exact this
  have hbp : 0 < r / M := div_pos hrp hM
  have key := ratio_error (a := mu * (r / M)) hQ hbp hP
  rw [mul_div_cancel_right₀ _ hbp.ne', ← ew] at key
  have ec : 2 / (r / M) ^ 2 = 2 * (M / r) ^ 2 := by field_simp
  rw [ec] at key
  unfold err
  rw [ea, eb]
  nlinarith [key]

/-- Squared error after the resampling and the moves, over the draws. -/
theorem stage_mse {N : ℕ} (hN : 0 < N) {S : Set (Pt d)} {g' : Pt d → ℝ} (hg : Dens S g)
    (hg' : Dens S g') {M : ℝ} (hM : 0 < M) (hr : ∀ y ∈ S, g' y ≤ M * g y) (hA : A.PosSemidef)
    (J : ℕ) (hf : Unit1 f) (x : Fin N → Pt d) (hx : ∀ i, x i ∈ S)
    (x' : (Fin N → Fin N) → Fin N → Pt d) (hx' : ∀ c (h : Pt d → ℝ), ∑ i, h (x' c i) = ∑ k, h (x (c k))) :
    ∑ c : Fin N → Fin N, ENNReal.ofReal (∏ i, nw (fun j => 1 / (N : ℝ) * (g' (x j) / g (x j))) (c i)) *
      ∫⁻ t : Fin J → Fin N → Pt d × ℝ, ENNReal.ofReal (err g' f (walk g' J (x' c) t))
        ∂(Measure.pi fun _ => Measure.pi fun _ => noiseLaw A) ≤
    ENNReal.ofReal ((J + 1) / N + 2 * (M / ((∫ y, g' y) / ∫ y, g y)) ^ 2 *
      (err g (fun y => ratio g g' M y * (kern g' A)^[J] f y) x + err g (ratio g g' M) x)) := by
  have hN' : (0 : ℝ) < N := by exact_mod_cast hN
  set w : Fin N → ℝ := fun j => 1 / (N : ℝ) * (g' (x j) / g (x j)) with hw
  set h := (kern g' A)^[J] f with hh
  have hh1 : Unit1 h := iterate_unit1 hg'.meas hf J
  set mu := ∫ y, f y ∂MH.targetLaw volume g' with hmu
  have hmu' : ∫ y, h y ∂MH.targetLaw volume g' = mu := iterate_target hg' hA hf J
  have hw0 : ∀ j, 0 < w j := fun j => by
    have h1 := (hg.pos _).2 (hx j)
    have h2 := (hg'.pos _).2 (hx j)
    simp only [hw]
    positivity
  have hsum : 0 < ∑ j, w j := Finset.sum_pos (fun j _ => hw0 j) ⟨⟨0, hN⟩, Finset.mem_univ _⟩
  have hq0 : ∀ j, 0 ≤ nw w j := fun j => div_nonneg (hw0 j).le hsum.le
  -- the inner integral
  have e1 : ∀ c : Fin N → Fin N,
      ∫⁻ t : Fin J → Fin N → Pt d × ℝ, ENNReal.ofReal (err g' f (walk g' J (x' c) t))
        ∂(Measure.pi fun _ => Measure.pi fun _ => noiseLaw A) ≤
      ENNReal.ofReal (J / N + ((∑ k, h (x (c k))) / N - mu) ^ 2) := by
    intro c
    have := walk_mse (A := A) hN hg'.meas J (x' c) hf mu
    unfold err
    refine this.trans (le_of_eq ?_)
    rw [← hh, avg, hx' c h]
  calc _ ≤ ∑ c : Fin N → Fin N, ENNReal.ofReal (∏ i, nw w (c i)) *
        ENNReal.ofReal (J / N + ((∑ k, h (x (c k))) / N - mu) ^ 2) :=
        Finset.sum_le_sum fun c _ => mul_le_mul_right (e1 c) _
    _ = ENNReal.ofReal (expect N (nw w) fun c => J / N + ((∑ k, h (x (c k))) / N - mu) ^ 2) := by
        unfold expect
        rw [ENNReal.ofReal_sum_of_nonneg fun c _ => mul_nonneg (Finset.prod_nonneg fun i _ => hq0 _) (by positivity)]
        exact Finset.sum_congr rfl fun c _ =>
          (ENNReal.ofReal_mul (Finset.prod_nonneg fun i _ => hq0 _)).symm
    _ ≤ _ := ENNReal.ofReal_le_ofReal ?_
  have hone := expect_one N _ (nw_sum hsum)
  have hsplit : expect N (nw w) (fun c => J / N + ((∑ k, h (x (c k))) / N - mu) ^ 2) =
      J / N + expect N (nw w) fun c => ((∑ k, h (x (c k))) / N - mu) ^ 2 := by
    have : (fun c : Fin N → Fin N => (J : ℝ) / N + ((∑ k, h (x (c k))) / N - mu) ^ 2) =
        fun c => (J : ℝ) / N * 1 + ((∑ k, h (x (c k))) / N - mu) ^ 2 := by simp
    rw [this, expect_add, expect_mul, hone, mul_one]
  rw [hsplit]
  have t1 := expect_total N _ (nw_sum hsum) (fun j => h (x j)) 0
  have t2 := variance_total N _ (nw_sum hsum) (fun j => h (x j)) 0
  simp only [zero_add] at t1 t2
  have d1 := expect_dist hN hone (fun c => ∑ k, h (x (c k))) (by rw [t1]) t2.le mu
  refine (add_le_add le_rfl d1).trans ?_
  have hb : ∑ j, nw w j * h (x j) ^ 2 ≤ 1 := by
    rw [← nw_sum hsum]
    refine Finset.sum_le_sum fun j _ => ?_
    have := hh1.bound (x j)
    have h2 : h (x j) ^ 2 ≤ 1 := by rw [← sq_abs]; nlinarith [abs_nonneg (h (x j))]
    nlinarith [hq0 j]
  have hb' : (∑ j, nw w j * h (x j) ^ 2) / N ≤ 1 / N := div_le_div_of_nonneg_right hb hN'.le
  have key := weighted_mse hN hg hg' hM hr hh1 x hx
  rw [hmu'] at key
  have e5 : ((J : ℝ) + 1) / N = J / N + 1 / N := by ring
  rw [e5]
  linarith [key, hb']

/-! ## All stages -/

/-- The weights at each stage are bounded and the covariances of the proposals are positive
semi-definite. -/
def Schedule (S : Set (Pt d)) (dens : ℝ → Pt d → ℝ) (s : ℝ) :
    (Pt d → ℝ) → List (ℝ × Matrix (Fin d) (Fin d) ℝ) → Prop
  | _, [] => True
  | g, st :: sts => (∃ M, ∀ y ∈ S, dens st.1 y ≤ M * g y) ∧ (s • st.2).PosSemidef ∧
      Schedule S dens s (dens st.1) sts

/-- The density of the last stage. -/
def lastDens (dens : ℝ → Pt d → ℝ) : (Pt d → ℝ) → List (ℝ × Matrix (Fin d) (Fin d) ℝ) → Pt d → ℝ
  | g, [] => g
  | _, st :: sts => lastDens dens (dens st.1) sts

theorem err_nonneg {N : ℕ} (x : Fin N → Pt d) : 0 ≤ err g f x := sq_nonneg _

theorem err_measurable {N : ℕ} (hf : Measurable f) : Measurable fun x : Fin N → Pt d => err g f x :=
  ((avg_measurable hf).sub_const _).pow_const 2

theorem noise_nonneg {N J : ℕ} : ∀ᵐ t : Fin J → Fin N → Pt d × ℝ
    ∂(Measure.pi fun _ => Measure.pi fun _ => noiseLaw A), ∀ j i, 0 ≤ (t j i).2 := by
  have h1 : ∀ᵐ v : ℝ ∂unitLaw, 0 ≤ v := by
    have : ∀ᵐ v : ℝ ∂unitLaw, v ∈ Set.Ico (0 : ℝ) 1 := ae_restrict_mem measurableSet_Ico
    exact this.mono fun v hv => hv.1
  have h2 : ∀ᵐ v ∂noiseLaw A, 0 ≤ v.2 :=
    (Measure.quasiMeasurePreserving_snd (μ := Core.normalLaw 0 A) (ν := unitLaw)).ae h1
  have h3 : ∀ᵐ t : Fin N → Pt d × ℝ ∂(Measure.pi fun _ => noiseLaw A), ∀ i, 0 ≤ (t i).2 :=
    ae_all_iff.2 fun i => (Measure.quasiMeasurePreserving_eval (fun _ : Fin N => noiseLaw A) i).ae h2
  exact ae_all_iff.2 fun j => (Measure.quasiMeasurePreserving_eval
    (fun _ : Fin J => Measure.pi fun _ : Fin N => noiseLaw A) j).ae h3

theorem bound_arith {B m J N kap E E0 : ℝ} (hN : 0 < N) (hB : 0 ≤ B) (hm : 0 ≤ m) (hJ : 0 ≤ J)
    (hk : 0 ≤ kap) (hE : 0 ≤ E) (hE0 : 0 ≤ E0) :
    B / N + (B * (m * ((J + 1) / N)) + B * kap * (E + m * E0)) ≤
      (B * (1 + m * (J + 1)) + B * kap * (m + 1)) / N +
        (B * (1 + m * (J + 1)) + B * kap * (m + 1)) * (E0 + E) := by
  have a1 : B / N + B * (m * ((J + 1) / N)) = B * (1 + m * (J + 1)) / N := by field_simp
  have a2 : 0 ≤ B * kap * (m + 1) / N := by positivity
  have a3 : 0 ≤ B * (1 + m * (J + 1)) * (E0 + E) := by positivity
  have a4 : 0 ≤ B * kap * (m * E + E0) := by positivity
  have a5 : (B * (1 + m * (J + 1)) + B * kap * (m + 1)) / N =
      B * (1 + m * (J + 1)) / N + B * kap * (m + 1) / N := add_div _ _ _
  have a6 : B * kap * (m + 1) * (E0 + E) = B * kap * (E + m * E0) + B * kap * (m * E + E0) := by ring
  rw [a5, add_mul, a6]
  linarith

theorem stages_bound {S : Set (Pt d)} {dens : ℝ → Pt d → ℝ} {ell : ℝ → Pt d → Flt} {s : ℝ}
    {cfg : PConfig} (hsch : cfg.scheme = .multinomial) (hcov : cfg.cov ≠ .other)
    (hlo : cfg.sLower ≤ s) (hup : s ≤ cfg.sUpper) {sc : SConfig} (h0 : sc.accMin ≤ 0)
    (h1 : 1 ≤ sc.accMax) (sts : List (ℝ × Matrix (Fin d) (Fin d) ℝ))
    (hd : ∀ st ∈ sts, Dens S (dens st.1) ∧ LogOf (ell st.1) (dens st.1)) :
    ∀ (g : Pt d → ℝ), Dens S g → Schedule S dens s g sts →
    ∃ (ι : Type) (_ : Fintype ι) (B : ℝ), 0 ≤ B ∧ ∀ f, Unit1 f → ∃ phi : ι → Pt d → ℝ,
      (∀ j, Unit1 (phi j)) ∧ ∀ (N : ℕ), 0 < N → ∀ p : Parts N d, Ready S g s p →
        stagesMean cfg sc ell sts p (fun p' => ENNReal.ofReal (err (lastDens dens g sts) f p'.x)) ≤
          ENNReal.ofReal (B / N + B * ∑ j, err g (phi j) p.x) := by
  induction sts with
  | nil =>
    intro g hg _
    refine ⟨Unit, inferInstance, 1, zero_le_one, fun f hf => ⟨fun _ => f, fun _ => hf, fun N hN p _ => ?_⟩⟩
    simp only [stagesMean, lastDens]
    refine ENNReal.ofReal_le_ofReal ?_
    have : (0 : ℝ) ≤ 1 / N := by positivity
    simpa using this
  | cons st sts ih =>
    intro g hg hS
    obtain ⟨⟨M0, hM0⟩, hA, hS'⟩ := hS
    obtain ⟨hg', hl⟩ := hd st (by simp)
    obtain ⟨ι, _, B, hB, hphi⟩ := ih (fun st' h => hd st' (by simp [h])) (dens st.1) hg' hS'
    set g' := dens st.1 with hgdef
    set M := max M0 1 with hMdef
    have hM : 0 < M := lt_of_lt_of_le one_pos (le_max_right _ _)
    have hr : ∀ y ∈ S, g' y ≤ M * g y := fun y hy =>
      (hM0 y hy).trans (mul_le_mul_of_nonneg_right (le_max_left _ _) (hg.nonneg y))
    set J := moveCount sc with hJ
    set kap := 2 * (M / ((∫ y, g' y) / ∫ y, g y)) ^ 2 with hkap
    have hkap0 : 0 ≤ kap := by positivity
    have hcard : (0 : ℝ) ≤ Fintype.card ι := by positivity
    refine ⟨Option ι, inferInstance,
      B * (1 + Fintype.card ι * (J + 1)) + B * kap * (Fintype.card ι + 1), by positivity,
      fun f hf => ?_⟩
    obtain ⟨phi, hu, hbd⟩ := hphi f hf
    refine ⟨fun o => match o with
      | none => ratio g g' M
      | some j => fun y => ratio g g' M y * (kern g' (s • st.2))^[J] (phi j) y, ?_, ?_⟩
    · have hG := ratio_unit1 hg hg' hM hr
      rintro (_ | j)
      · exact hG
      · have hk := iterate_unit1 (A := s • st.2) hg'.meas (hu j) J
        refine ⟨hG.meas.mul hk.meas, fun y => ?_⟩
        rw [abs_mul]
        exact mul_le_one₀ (hG.bound y) (abs_nonneg _) (hk.bound y)
    · intro N hN p hp
      have hN' : (0 : ℝ) < N := by exact_mod_cast hN
      obtain ⟨a, ha, -, -, -, has, haw⟩ := reweight_ready hg hg' hl hp
      choose x' hx' hstep using fun c => step_walk (C := st.2) hg hg' hl hsch hcov hlo hup h0 h1 hp ha c
      simp only [stagesMean, lastDens, stageMean]
      rw [ha]
      dsimp only
      set w : Fin N → ℝ := fun j => 1 / (N : ℝ) * (g' (p.x j) / g (p.x j)) with hw
      have hw0 : ∀ j, 0 < w j := fun j => by
        have h1 := (hg.pos _).2 (hp.mem j)
        have h2 := (hg'.pos _).2 (hp.mem j)
        simp only [hw]
        positivity
      have hsum : 0 < ∑ j, w j := Finset.sum_pos (fun j _ => hw0 j) ⟨⟨0, hN⟩, Finset.mem_univ _⟩
      have hq0 : ∀ j, 0 ≤ nw w j := fun j => div_nonneg (hw0 j).le hsum.le
      have hpr : ∀ j, toReal (probs a.wtmp j) = nw w j := by
        intro j
        rw [haw, probs_fin w hsum.ne']
        simp [toReal, Flt.fin, nw]
      simp only [hpr, has]
      set ν : Measure (Fin J → Fin N → Pt d × ℝ) :=
        Measure.pi fun _ => Measure.pi fun _ => noiseLaw (s • st.2) with hν
      -- bound of the rest of the run
      have inner : ∀ c : Fin N → Fin N,
          ∫⁻ t, (match step (stageEnv a st.2 c t) cfg sc (rowwise ell N) st.1 p with
            | .ok p' => stagesMean cfg sc ell sts p' fun p' =>
                ENNReal.ofReal (err (lastDens dens g' sts) f p'.x)
            | .error _ => ⊤) ∂ν ≤
          ENNReal.ofReal (B / N) + ∑ j, ENNReal.ofReal B *
            ∫⁻ t, ENNReal.ofReal (err g' (phi j) (walk g' J (x' c) t)) ∂ν := by
        intro c
        have hme : ∀ j, Measurable fun t : Fin J → Fin N → Pt d × ℝ =>
            ENNReal.ofReal (err g' (phi j) (walk g' J (x' c) t)) := fun j =>
          ENNReal.measurable_ofReal.comp ((err_measurable (hu j).meas).comp
            ((walk_measurable hg'.meas J).comp measurable_prodMk_left))
        calc _ ≤ ∫⁻ t, (ENNReal.ofReal (B / N) + ∑ j, ENNReal.ofReal B *
              ENNReal.ofReal (err g' (phi j) (walk g' J (x' c) t))) ∂ν := by
              refine lintegral_mono_ae ?_
              filter_upwards [noise_nonneg (A := s • st.2) (N := N) (J := J)] with t ht
              obtain ⟨p', e1, e2, e3⟩ := hstep c t ht
              rw [e1]
              dsimp only
              refine (hbd N hN p' e3).trans (le_of_eq ?_)
              rw [ENNReal.ofReal_add (by positivity)
                (mul_nonneg hB (Finset.sum_nonneg fun j _ => err_nonneg _)), ENNReal.ofReal_mul hB,
                ENNReal.ofReal_sum_of_nonneg fun j _ => err_nonneg _, Finset.mul_sum, e2]
          _ = _ := by
              rw [lintegral_add_left measurable_const, lintegral_const, measure_univ, mul_one,
                lintegral_finsetSum _ fun j _ => (hme j).const_mul _]
              congr 1
              exact Finset.sum_congr rfl fun j _ => lintegral_const_mul _ (hme j)
      have hpc : ∑ c : Fin N → Fin N, ENNReal.ofReal (∏ i, nw w (c i)) = 1 := by
        rw [← ENNReal.ofReal_sum_of_nonneg fun c _ => Finset.prod_nonneg fun i _ => hq0 _]
        have := expect_one N _ (nw_sum hsum)
        unfold expect at this
        simp only [mul_one] at this
        rw [this, ENNReal.ofReal_one]
      have hj : ∀ j, ∑ c : Fin N → Fin N, ENNReal.ofReal (∏ i, nw w (c i)) *
          ∫⁻ t, ENNReal.ofReal (err g' (phi j) (walk g' J (x' c) t)) ∂ν ≤
          ENNReal.ofReal ((J + 1) / N + kap * (err g (fun y => ratio g g' M y *
            (kern g' (s • st.2))^[J] (phi j) y) p.x + err g (ratio g g' M) p.x)) := fun j =>
        stage_mse hN hg hg' hM hr hA J (hu j) p.x hp.mem x' hx'
      calc _ ≤ ∑ c : Fin N → Fin N, ENNReal.ofReal (∏ i, nw w (c i)) *
            (ENNReal.ofReal (B / N) + ∑ j, ENNReal.ofReal B *
              ∫⁻ t, ENNReal.ofReal (err g' (phi j) (walk g' J (x' c) t)) ∂ν) :=
            Finset.sum_le_sum fun c _ => mul_le_mul_right (inner c) _
        _ = ENNReal.ofReal (B / N) + ∑ j, ENNReal.ofReal B *
            ∑ c : Fin N → Fin N, ENNReal.ofReal (∏ i, nw w (c i)) *
              ∫⁻ t, ENNReal.ofReal (err g' (phi j) (walk g' J (x' c) t)) ∂ν := by
            simp only [mul_add, Finset.sum_add_distrib, ← Finset.sum_mul, hpc, one_mul,
              Finset.mul_sum]
            congr 1
            rw [Finset.sum_comm]
            refine Finset.sum_congr rfl fun j _ => Finset.sum_congr rfl fun c _ => ?_
            ring
        _ ≤ ENNReal.ofReal (B / N) + ∑ j, ENNReal.ofReal B *
            ENNReal.ofReal ((J + 1) / N + kap * (err g (fun y => ratio g g' M y *
            (kern g' (s • st.2))^[J] (phi j) y) p.x + err g (ratio g g' M) p.x)) :=
            add_le_add le_rfl (Finset.sum_le_sum fun j _ => mul_le_mul_right (hj j) _)
        _ = ENNReal.ofReal (B / N + ∑ j, B * ((J + 1) / N + kap * (err g (fun y => ratio g g' M y *
            (kern g' (s • st.2))^[J] (phi j) y) p.x + err g (ratio g g' M) p.x))) := by
            have hnn : ∀ j, 0 ≤ ((J : ℝ) + 1) / N + kap * (err g (fun y => ratio g g' M y *
                (kern g' (s • st.2))^[J] (phi j) y) p.x + err g (ratio g g' M) p.x) := fun j =>
              add_nonneg (by positivity) (mul_nonneg hkap0 (add_nonneg (err_nonneg _) (err_nonneg _)))
            rw [ENNReal.ofReal_add (by positivity)
              (Finset.sum_nonneg fun j _ => mul_nonneg hB (hnn j)),
              ENNReal.ofReal_sum_of_nonneg fun j _ => mul_nonneg hB (hnn j)]
            congr 1
            exact Finset.sum_congr rfl fun j _ => (ENNReal.ofReal_mul hB).symm
        _ ≤ _ := ENNReal.ofReal_le_ofReal ?_
      rw [Fintype.sum_option]
      dsimp only
      set E := ∑ j, err g (fun y => ratio g g' M y * (kern g' (s • st.2))^[J] (phi j) y) p.x with hE
      set E0 := err g (ratio g g' M) p.x with hE0
      have hEn : 0 ≤ E := Finset.sum_nonneg fun j _ => err_nonneg _
      have hE0n : 0 ≤ E0 := err_nonneg _
      have e6 : ∑ j, B * (((J : ℝ) + 1) / N + kap * (err g (fun y => ratio g g' M y *
            (kern g' (s • st.2))^[J] (phi j) y) p.x + E0)) =
          B * (Fintype.card ι * ((J + 1) / N)) + B * kap * (E + Fintype.card ι * E0) := by
        simp only [mul_add, Finset.sum_add_distrib, Finset.sum_const, Finset.card_univ, nsmul_eq_mul,
          ← Finset.mul_sum, hE]
        ring
      rw [e6]
      exact bound_arith hN' hB hcard (by positivity) hkap0 hEn hE0n

/-! ## The first particles -/

open Classical in
/-- Constant on the box. -/
noncomputable def flat (lo hi : Pt d) (y : Pt d) : ℝ := if y ∈ Set.Icc lo hi then 1 else 0

theorem flat_eq (lo hi : Pt d) : flat lo hi = (Set.Icc lo hi).indicator fun _ => (1 : ℝ) := by
  classical
  funext y
  simp [flat, Set.indicator_apply]

theorem box_volume {lo hi : Pt d} (h : ∀ j, lo j < hi j) :
    volume (Set.Icc lo hi) = ENNReal.ofReal (∏ j, (hi j - lo j)) := by
  rw [Real.volume_Icc_pi, ENNReal.ofReal_prod_of_nonneg fun j _ => (sub_pos.2 (h j)).le]

theorem flat_dens {lo hi : Pt d} (h : ∀ j, lo j < hi j) : Dens (Set.Icc lo hi) (flat lo hi) := by
  classical
  have hint : Integrable (flat lo hi) volume := by
    rw [flat_eq]
    refine (integrable_indicator_iff measurableSet_Icc).2 (integrableOn_const ?_)
    rw [box_volume h]
    exact ENNReal.ofReal_ne_top
  refine ⟨?_, fun y => ?_, fun y => ?_, hint, ?_⟩
  · rw [flat_eq]
    exact measurable_const.indicator measurableSet_Icc
  · unfold flat; split_ifs <;> norm_num
  · unfold flat; split_ifs with hy <;> simp [hy]
  · rw [flat_eq, integral_indicator measurableSet_Icc, setIntegral_const, smul_eq_mul, mul_one,
      Measure.real, box_volume h, ENNReal.toReal_ofReal (Finset.prod_nonneg fun j _ => (sub_pos.2 (h j)).le)]
    exact Finset.prod_pos fun j _ => sub_pos.2 (h j)

theorem flat_target (lo hi : Pt d) :
    MH.targetLaw (volume.restrict (Set.Icc lo hi)) (fun _ => 1) = MH.targetLaw volume (flat lo hi) := by
  have e : (fun y => ENNReal.ofReal (flat lo hi y)) = (Set.Icc lo hi).indicator fun _ => 1 := by
    funext y
    rw [flat_eq]
    by_cases hy : y ∈ Set.Icc lo hi <;> simp [hy]
  unfold MH.targetLaw
  rw [e, withDensity_indicator measurableSet_Icc, lintegral_indicator measurableSet_Icc]
  simp

/-- **C263** A run of SMC with multinomial resampling, with temperatures and proposal
covariances fixed in advance and no control of the acceptance rate, is consistent: for
densities positive on the box and bounded weights, the mean squared difference between
the average of a function over the final particles and its expectation under the last density
is at most a constant divided by the number of particles, the same constant for all functions
with values between -1 and 1.  Failures of the code would count as infinite errors. -/
theorem run_consistent {lo hi : Pt d} (hbox : ∀ j, lo j < hi j) {dens : ℝ → Pt d → ℝ}
    {ell : ℝ → Pt d → Flt} {cfg : PConfig} (hunif : cfg.randunif = true)
    (hsch : cfg.scheme = .multinomial) (hcov : cfg.cov ≠ .other)
    (hlo : cfg.sLower ≤ cfg.s0) (hup : cfg.s0 ≤ cfg.sUpper) {sc : SConfig} (h0 : sc.accMin ≤ 0)
    (h1 : 1 ≤ sc.accMax) (sts : List (ℝ × Matrix (Fin d) (Fin d) ℝ))
    (hd : ∀ st ∈ sts, Dens (Set.Icc lo hi) (dens st.1) ∧ LogOf (ell st.1) (dens st.1))
    (hS : Schedule (Set.Icc lo hi) dens cfg.s0 (flat lo hi) sts) :
    ∃ B : ℝ, ∀ f : Pt d → ℝ, Measurable f → (∀ y, |f y| ≤ 1) → ∀ N : ℕ, 0 < N →
      runMean N cfg sc lo hi ell sts (fun p => ENNReal.ofReal (((∑ i, f (p.x i)) / N -
        ∫ y, f y ∂MH.targetLaw volume (lastDens dens (flat lo hi) sts)) ^ 2)) ≤
      ENNReal.ofReal (B / N) := by
  obtain ⟨ι, _, B, hB, hphi⟩ := stages_bound hsch hcov hlo hup h0 h1 sts hd (flat lo hi)
    (flat_dens hbox) hS
  refine ⟨B * (1 + Fintype.card ι), fun f hf hf1 N hN => ?_⟩
  have hN' : (0 : ℝ) < N := by exact_mod_cast hN
  obtain ⟨phi, hu, hbd⟩ := hphi f ⟨hf, hf1⟩
  set mu : Measure (Pt d) := volume.restrict (Set.Icc 0 1) with hmu
  have hprob : IsProbabilityMeasure mu := ⟨by
    rw [hmu, Measure.restrict_apply MeasurableSet.univ, Set.univ_inter,
      Real.volume_Icc_pi]
    simp⟩
  have hmeas : Measurable (toBox lo hi) := by
    unfold toBox
    fun_prop
  have hint : ∀ j, ∫ u, phi j (toBox lo hi u) ∂mu = ∫ y, phi j y ∂MH.targetLaw volume (flat lo hi) := by
    intro j
    rw [← flat_target, ← toBox_map hbox,
      integral_map hmeas.aemeasurable (hu j).meas.aestronglyMeasurable]
  have hme : ∀ j, Measurable fun U : Fin N → Pt d =>
      ENNReal.ofReal (err (flat lo hi) (phi j) fun i => toBox lo hi (U i)) := fun j => by
    refine ENNReal.measurable_ofReal.comp ((err_measurable (hu j).meas).comp
      (measurable_pi_lambda _ fun i => hmeas.comp (measurable_pi_apply i)))
  have hone : ∀ j, ∫⁻ U : Fin N → Pt d, ENNReal.ofReal (err (flat lo hi) (phi j) fun i => toBox lo hi (U i))
      ∂(Measure.pi fun _ => mu) ≤ ENNReal.ofReal (1 / N) := by
    intro j
    have := pi_mse hN mu (fun _ u => phi j (toBox lo hi u)) (fun i => (hu j).meas.comp hmeas)
      (fun i y => (hu j).bound _) (∫ y, phi j y ∂MH.targetLaw volume (flat lo hi))
    refine this.trans (le_of_eq ?_)
    rw [hint, Finset.sum_const, Finset.card_univ, Fintype.card_fin, nsmul_eq_mul,
      mul_div_cancel_left₀ _ hN'.ne', sub_self]
    simp
  unfold runMean
  calc _ ≤ ∫⁻ U : Fin N → Pt d, (ENNReal.ofReal (B / N) + ∑ j, ENNReal.ofReal B *
        ENNReal.ofReal (err (flat lo hi) (phi j) fun i => toBox lo hi (U i)))
        ∂(Measure.pi fun _ => mu) := by
        have hIcc : ∀ᵐ U : Fin N → Pt d ∂(Measure.pi fun _ => mu), ∀ i, U i ∈ Set.Icc (0 : Pt d) 1 := by
          refine ae_all_iff.2 fun i => ?_
          have : ∀ᵐ u ∂mu, u ∈ Set.Icc (0 : Pt d) 1 := ae_restrict_mem measurableSet_Icc
          exact (Measure.quasiMeasurePreserving_eval (fun _ : Fin N => mu) i).ae this
        refine lintegral_mono_ae ?_
        filter_upwards [hIcc] with U hU
        have hnew : newParts (initEnv U) cfg lo hi = .ok
            { x := fun i => toBox lo hi (U i), logpx := fun _ => .fin 0, w := uniformW N,
              wtmp := uniformW N, s := cfg.s0, logpdf := fun _ => .error .typeError, clock := 1 } := by
          unfold newParts particlesInit scaleBox
          rw [if_pos hbox]
          simp only [hunif, initEnv, Bool.not_true, Bool.false_eq_true, if_false, Bind.bind,
            Except.bind, Pure.pure, Except.pure, zero_add]
          rfl
        rw [hnew]
        dsimp only
        have hready : Ready (Set.Icc lo hi) (flat lo hi) cfg.s0
            (⟨fun i => toBox lo hi (U i), fun _ => .fin 0, uniformW N, uniformW N, cfg.s0,
              fun _ => .error .typeError, 1⟩ : Parts N d) := by
          have hmem : ∀ i, toBox lo hi (U i) ∈ Set.Icc lo hi := by
            intro i
            have := hU i
            simp only [Set.mem_Icc, Pi.le_def, toBox, Pi.zero_apply, Pi.one_apply] at this ⊢
            refine ⟨fun j => ?_, fun j => ?_⟩
            · have h2 := this.1 j
              have h3 := sub_pos.2 (hbox j)
              nlinarith
            · have h2 := this.2 j
              have h3 := sub_pos.2 (hbox j)
              nlinarith
          refine ⟨hmem, fun i => ?_, rfl, rfl⟩
          simp [flat, hmem i]
        refine (hbd N hN _ hready).trans (le_of_eq ?_)
        dsimp only
        rw [ENNReal.ofReal_add (by positivity)
          (mul_nonneg hB (Finset.sum_nonneg fun j _ => err_nonneg _)), ENNReal.ofReal_mul hB,
          ENNReal.ofReal_sum_of_nonneg fun j _ => err_nonneg _, Finset.mul_sum]
    _ = ENNReal.ofReal (B / N) + ∑ j, ENNReal.ofReal B * ∫⁻ U : Fin N → Pt d,
        ENNReal.ofReal (err (flat lo hi) (phi j) fun i => toBox lo hi (U i)) ∂(Measure.pi fun _ => mu) := by
        rw [lintegral_add_left measurable_const, lintegral_const, measure_univ, mul_one,
          lintegral_finsetSum _ fun j _ => (hme j).const_mul _]
        congr 1
        exact Finset.sum_congr rfl fun j _ => lintegral_const_mul _ (hme j)
    _ ≤ ENNReal.ofReal (B / N) + ∑ _j : ι, ENNReal.ofReal B * ENNReal.ofReal (1 / N) :=
        add_le_add le_rfl (Finset.sum_le_sum fun j _ => mul_le_mul_right (hone j) _)
    _ = ENNReal.ofReal (B * (1 + Fintype.card ι) / N) := by
        rw [Finset.sum_const, Finset.card_univ, nsmul_eq_mul, ← ENNReal.ofReal_mul hB,
          ← ENNReal.ofReal_natCast, ← ENNReal.ofReal_mul (by positivity), ← ENNReal.ofReal_add
            (by positivity) (by positivity)]
        congr 1
        ring

theorem stagesMean_mono {N : ℕ} (cfg : PConfig) (sc : SConfig) (ell : ℝ → Pt d → Flt)
    (sts : List (ℝ × Matrix (Fin d) (Fin d) ℝ)) {F G : Parts N d → ℝ≥0∞} (h : ∀ p, F p ≤ G p)
    (p : Parts N d) : stagesMean cfg sc ell sts p F ≤ stagesMean cfg sc ell sts p G := by
  induction sts generalizing p with
  | nil => exact h p
  | cons st sts ih =>
    simp only [stagesMean, stageMean]
    cases h2 : reweight true (setLogpdfParam (rowwise ell N) st.1 p) with
    | error e => exact le_rfl
    | ok a =>
      refine Finset.sum_le_sum fun c _ => mul_le_mul_right (lintegral_mono fun t => ?_) _
      cases h3 : step (stageEnv a st.2 c t) cfg sc (rowwise ell N) st.1 p with
      | error e => exact le_rfl
      | ok p' => exact ih p'

theorem stagesMean_mul {N : ℕ} (cfg : PConfig) (sc : SConfig) (ell : ℝ → Pt d → Flt)
    (sts : List (ℝ × Matrix (Fin d) (Fin d) ℝ)) (F : Parts N d → ℝ≥0∞) {k : ℝ≥0∞} (hk : k ≠ 0)
    (hk' : k ≠ ⊤) (p : Parts N d) :
    stagesMean cfg sc ell sts p (fun q => k * F q) = k * stagesMean cfg sc ell sts p F := by
  induction sts generalizing p with
  | nil => rfl
  | cons st sts ih =>
    simp only [stagesMean, stageMean]
    cases h2 : reweight true (setLogpdfParam (rowwise ell N) st.1 p) with
    | error e => simp [ENNReal.mul_top hk]
    | ok a =>
      simp only [Finset.mul_sum]
      refine Finset.sum_congr rfl fun c _ => ?_
      rw [mul_left_comm, ← lintegral_const_mul' _ _ hk']
      congr 1
      refine lintegral_congr fun t => ?_
      cases h3 : step (stageEnv a st.2 c t) cfg sc (rowwise ell N) st.1 p with
      | error e => simp [ENNReal.mul_top hk]
      | ok p' => exact ih p'

open Classical in
/-- **C263** Hence the probability that the code fails or that the average is off by `ε` or
more is at most a constant divided by `N ε²`. -/
theorem run_probability {lo hi : Pt d} (hbox : ∀ j, lo j < hi j) {dens : ℝ → Pt d → ℝ}
    {ell : ℝ → Pt d → Flt} {cfg : PConfig} (hunif : cfg.randunif = true)
    (hsch : cfg.scheme = .multinomial) (hcov : cfg.cov ≠ .other)
    (hlo : cfg.sLower ≤ cfg.s0) (hup : cfg.s0 ≤ cfg.sUpper) {sc : SConfig} (h0 : sc.accMin ≤ 0)
    (h1 : 1 ≤ sc.accMax) (sts : List (ℝ × Matrix (Fin d) (Fin d) ℝ))
    (hd : ∀ st ∈ sts, Dens (Set.Icc lo hi) (dens st.1) ∧ LogOf (ell st.1) (dens st.1))
    (hS : Schedule (Set.Icc lo hi) dens cfg.s0 (flat lo hi) sts) :
    ∃ B : ℝ, ∀ f : Pt d → ℝ, Measurable f → (∀ y, |f y| ≤ 1) → ∀ ε : ℝ, 0 < ε → ∀ N : ℕ, 0 < N →
      runMean N cfg sc lo hi ell sts (fun p => if ε ≤ |(∑ i, f (p.x i)) / N -
        ∫ y, f y ∂MH.targetLaw volume (lastDens dens (flat lo hi) sts)| then 1 else 0) ≤
      ENNReal.ofReal (B / (N * ε ^ 2)) := by
  obtain ⟨B, hB⟩ := run_consistent hbox hunif hsch hcov hlo hup h0 h1 sts hd hS
  refine ⟨B, fun f hf hf1 ε hε N hN => ?_⟩
  have key := hB f hf hf1 N hN
  set m := ∫ y, f y ∂MH.targetLaw volume (lastDens dens (flat lo hi) sts) with hm
  have he : ENNReal.ofReal (1 / ε ^ 2) ≠ 0 := by
    rw [ne_eq, ENNReal.ofReal_eq_zero, not_le]; positivity
  have hmul : ENNReal.ofReal (B / (N * ε ^ 2)) = ENNReal.ofReal (1 / ε ^ 2) * ENNReal.ofReal (B / N) := by
    rw [← ENNReal.ofReal_mul (by positivity)]
    congr 1
    field_simp
  rw [hmul]
  refine le_trans ?_ (mul_le_mul_right key _)
  unfold runMean
  rw [← lintegral_const_mul' _ _ ENNReal.ofReal_ne_top]
  refine lintegral_mono fun U => ?_
  cases h : newParts (initEnv U) cfg lo hi with
  | error e => exact (ENNReal.mul_top he).ge
  | ok p =>
    dsimp only
    rw [← stagesMean_mul cfg sc ell sts _ he ENNReal.ofReal_ne_top]
    refine stagesMean_mono cfg sc ell sts (fun q => ?_) p
    split_ifs with hq
    · rw [← ENNReal.ofReal_mul (by positivity), ← ENNReal.ofReal_one]
      refine ENNReal.ofReal_le_ofReal ?_
      rw [div_mul_eq_mul_div, one_mul, le_div_iff₀ (by positivity), one_mul, ← sq_abs (_ - m)]
      exact pow_le_pow_left₀ hε.le hq 2
    · exact zero_le

/-! ## An example -/

open Classical in
/-- `exp (t y)` on the unit interval. -/
noncomputable def tilt (t : ℝ) (y : Pt 1) : ℝ := if y ∈ Set.Icc (0 : Pt 1) 1 then Real.exp (t * y 0) else 0

open Classical in
noncomputable def logTilt (t : ℝ) (y : Pt 1) : Flt := if y ∈ Set.Icc (0 : Pt 1) 1 then .fin (t * y 0) else .num ⊥

theorem tilt_log (t : ℝ) : LogOf (logTilt t) (tilt t) := by
  intro y
  unfold logTilt tilt
  split_ifs with h
  · left; exact ⟨Real.exp_pos _, by rw [Real.log_exp]⟩
  · right; exact ⟨rfl, rfl⟩

theorem tilt_dens {t : ℝ} (ht : 0 ≤ t) : Dens (Set.Icc (0 : Pt 1) 1) (tilt t) := by
  classical
  have hb := flat_dens (lo := (0 : Pt 1)) (hi := 1) (fun _ => by simp)
  have hm : Measurable (tilt t) :=
    Measurable.ite measurableSet_Icc (by fun_prop) measurable_const
  have hle : ∀ y, tilt t y ≤ Real.exp t * flat 0 1 y := by
    intro y
    unfold tilt flat
    split_ifs with h
    · rw [mul_one]
      refine Real.exp_le_exp.2 ?_
      have := h.2 0
      simp only [Pi.one_apply] at this
      nlinarith
    · simp
  have hge : ∀ y, flat 0 1 y ≤ tilt t y := by
    intro y
    unfold tilt flat
    split_ifs with h
    · refine Real.one_le_exp (mul_nonneg ht ?_)
      exact h.1 0
    · exact le_rfl
  have h0 : ∀ y, 0 ≤ tilt t y := fun y => (hb.nonneg y).trans (hge y)
  have hint : Integrable (tilt t) volume := by
    refine (hb.int.const_mul (Real.exp t)).mono' hm.aestronglyMeasurable (ae_of_all _ fun y => ?_)
    rw [Real.norm_eq_abs, abs_of_nonneg (h0 y)]
    exact hle y
  refine ⟨hm, h0, fun y => ?_, hint, hb.mass.trans_le (integral_mono hb.int hint hge)⟩
  unfold tilt
  split_ifs with h <;> simp [h, Real.exp_pos]

/-- Two temperatures, with proposals of unit covariance and no limits on the acceptance rate. -/
example : ∃ B : ℝ, ∀ f : Pt 1 → ℝ, Measurable f → (∀ y, |f y| ≤ 1) → ∀ N : ℕ, 0 < N →
    runMean N {} { accMin := 0, accMax := 1 } 0 1 logTilt [(1 / 2, 1), (1, 1)]
      (fun p => ENNReal.ofReal (((∑ i, f (p.x i)) / N -
        ∫ y, f y ∂MH.targetLaw volume (tilt 1)) ^ 2)) ≤ ENNReal.ofReal (B / N) := by
  have hC : ((0.5 : ℝ) • (1 : Matrix (Fin 1) (Fin 1) ℝ)).PosSemidef :=
    Matrix.PosSemidef.one.smul (by norm_num)
  refine run_consistent (dens := tilt) (fun _ => by simp) rfl rfl (by simp) (by norm_num)
    (by norm_num) le_rfl le_rfl _ ?_ ?_
  · intro st hst
    have : 0 ≤ st.1 := by
      simp only [List.mem_cons, List.not_mem_nil, or_false] at hst
      rcases hst with h | h <;> rw [h] <;> norm_num
    exact ⟨tilt_dens this, tilt_log _⟩
  · refine ⟨⟨Real.exp 1, fun y hy => ?_⟩, hC, ⟨Real.exp 1, fun y hy => ?_⟩, hC, trivial⟩
    · have h2 := hy.2 0
      have h1 := hy.1 0
      simp only [Pi.one_apply, Pi.zero_apply] at h1 h2
      simp only [tilt, flat, hy, if_true, mul_one]
      exact Real.exp_le_exp.2 (by linarith)
    · have h2 := hy.2 0
      have h1 := hy.1 0
      simp only [Pi.one_apply, Pi.zero_apply] at h1 h2
      simp only [tilt, hy, if_true]
      rw [← Real.exp_add]
      exact Real.exp_le_exp.2 (by linarith)

end Verif.SMC
