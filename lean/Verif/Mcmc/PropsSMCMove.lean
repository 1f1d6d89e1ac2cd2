import Verif.Mcmc.PropsSMCWeights
import Verif.Core.PropsLaw
import Mathlib.MeasureTheory.Constructions.Pi
import Mathlib.MeasureTheory.Group.Measure
import Mathlib.MeasureTheory.Group.LIntegral
import Mathlib.Probability.Distributions.Gaussian.Real

/-!
# C250: a move keeps the target law if the noise does not depend on the particles
-/

set_option autoImplicit false

open MeasureTheory ProbabilityTheory Filter Topology
open scoped ENNReal

namespace Verif.SMC

open Verif

variable {d : ℕ}

/-- The uniform law on `[0, 1)`. -/
noncomputable def unitLaw : Measure ℝ := volume.restrict (Set.Ico 0 1)

instance : IsProbabilityMeasure unitLaw := ⟨by simp [unitLaw]⟩

open Classical in
/-- Where a particle at `x` is after the noise `e` and the uniform number `u`, if the density
is `g`. -/
noncomputable def moved (g : Pt d → ℝ) (t : Pt d × Pt d × ℝ) : Pt d :=
  if t.2.2 * g t.1 < g (t.1 + t.2.1) then t.1 + t.2.1 else t.1

variable {g : Pt d → ℝ}

theorem moved_measurable (hg : Measurable g) : Measurable (moved g) := by
  classical
  unfold moved
  refine Measurable.ite ?_ (by fun_prop) (by fun_prop)
  exact measurableSet_lt (by fun_prop) (by fun_prop)

/-- The probability of acceptance times the density is the smaller of the two densities. -/
theorem accept_mass {a b : ℝ} (ha : 0 ≤ a) (hb : 0 ≤ b) :
    ENNReal.ofReal a * unitLaw {u | u * a < b} = ENNReal.ofReal (min a b) := by
  rcases ha.eq_or_lt with h | h
  · subst h
    simp [hb]
  · have e : {u : ℝ | u * a < b} ∩ Set.Ico 0 1 = Set.Ico 0 (min 1 (b / a)) := by
      ext u
      simp only [Set.mem_inter_iff, Set.mem_ofPred_eq, Set.mem_Ico, lt_min_iff, lt_div_iff₀ h]
      tauto
    have hm : MeasurableSet {u : ℝ | u * a < b} := measurableSet_lt (by fun_prop) (by fun_prop)
    rw [unitLaw, Measure.restrict_apply hm, e, Real.volume_Ico, sub_zero,
      ← ENNReal.ofReal_mul ha, mul_min_of_nonneg _ _ ha, mul_one, mul_div_cancel₀ _ h.ne']

/-- **C250** One particle whose law has density proportional to `g` still has this law after
symmetric noise and the acceptance test. -/
theorem moved_law (hg : Measurable g) (h0 : ∀ y, 0 ≤ g y) (nu : Measure (Pt d))
    [IsProbabilityMeasure nu] (hs : nu.map (fun e => -e) = nu) :
    ((MH.targetLaw volume g).prod (nu.prod unitLaw)).map (moved g) = MH.targetLaw volume g := by
  classical
  ext A hA
  rw [Measure.map_apply (moved_measurable hg) hA]
  have hgm : Measurable fun x => ENNReal.ofReal (g x) := by fun_prop
  have hpre := moved_measurable hg hA
  rw [Measure.prod_apply hpre]
  unfold MH.targetLaw
  rw [lintegral_smul_measure, Measure.smul_apply, withDensity_apply _ hA,
    lintegral_withDensity_eq_lintegral_mul₀ hgm.aemeasurable
      (measurable_measure_prodMk_left hpre).aemeasurable]
  congr 1
  -- the inner law
  set m : Pt d → Pt d → ℝ≥0∞ := fun x y => ENNReal.ofReal (min (g x) (g y)) with hm
  set I : Pt d → ℝ≥0∞ := A.indicator 1 with hI
  have hIm : Measurable I := measurable_const.indicator hA
  set b : Pt d → Pt d → ℝ≥0∞ := fun x y => unitLaw {u | ¬ u * g x < g y} with hb
  have hset : ∀ x y, MeasurableSet {u : ℝ | u * g x < g y} := fun x y =>
    measurableSet_lt (by fun_prop) (by fun_prop)
  have hab : ∀ x y, unitLaw {u | u * g x < g y} + b x y = 1 := fun x y => by
    rw [hb]
    have := measure_add_measure_compl (μ := unitLaw) (hset x y)
    rw [measure_univ] at this
    exact this
  have hgb : ∀ x y, m x y + ENNReal.ofReal (g x) * b x y = ENNReal.ofReal (g x) := fun x y => by
    rw [hm]
    beta_reduce
    rw [← accept_mass (h0 x) (h0 y), ← mul_add, hab, mul_one]
  have hbm : Measurable fun t : Pt d × Pt d => b t.1 (t.1 + t.2) := by
    have hq : MeasurableSet {q : (Pt d × Pt d) × ℝ | ¬ q.2 * g q.1.1 < g (q.1.1 + q.1.2)} :=
      have hq0 : MeasurableSet {q : (Pt d × Pt d) × ℝ | q.2 * g q.1.1 < g (q.1.1 + q.1.2)} :=
        measurableSet_lt (by fun_prop) (by fun_prop)
      hq0.compl
    exact measurable_measure_prodMk_left hq
  have hmm : Measurable fun t : Pt d × Pt d => m t.1 (t.1 + t.2) := by
    rw [hm]; fun_prop
  have inner : ∀ x, ENNReal.ofReal (g x) * (nu.prod unitLaw) (Prod.mk x ⁻¹' (moved g ⁻¹' A)) =
      ∫⁻ e, (m x (x + e) * I (x + e) + ENNReal.ofReal (g x) * b x (x + e) * I x) ∂nu := by
    intro x
    have h1 : MeasurableSet (Prod.mk x ⁻¹' (moved g ⁻¹' A)) := measurable_prodMk_left hpre
    rw [Measure.prod_apply h1, ← lintegral_const_mul _ (measurable_measure_prodMk_left h1)]
    refine lintegral_congr fun e => ?_
    have hspl : unitLaw (Prod.mk e ⁻¹' (Prod.mk x ⁻¹' (moved g ⁻¹' A))) =
        unitLaw {u | u * g x < g (x + e)} * I (x + e) + b x (x + e) * I x := by
      have hms : MeasurableSet (Prod.mk e ⁻¹' (Prod.mk x ⁻¹' (moved g ⁻¹' A))) :=
        measurable_prodMk_left h1
      rw [← measure_inter_add_sdiff _ (hset x (x + e))]
      congr 1
      · by_cases hA1 : x + e ∈ A
        · rw [hI, Set.indicator_of_mem hA1, Pi.one_apply, mul_one]
          congr 1
          ext u
          simp only [Set.mem_inter_iff, Set.mem_preimage, Set.mem_ofPred_eq, moved]
          refine ⟨fun h => h.2, fun h => ⟨?_, h⟩⟩
          rw [if_pos h]; exact hA1
        · rw [hI, Set.indicator_of_notMem hA1, mul_zero]
          convert measure_empty (μ := unitLaw)
          ext u
          simp only [Set.mem_inter_iff, Set.mem_preimage, Set.mem_ofPred_eq, moved,
            Set.mem_empty_iff_false, iff_false, not_and]
          intro h h2
          rw [if_pos h2] at h
          exact hA1 h
      · by_cases hA1 : x ∈ A
        · rw [hI, Set.indicator_of_mem hA1, Pi.one_apply, mul_one, hb]
          congr 1
          ext u
          simp only [Set.mem_sdiff, Set.mem_preimage, Set.mem_ofPred_eq, moved]
          refine ⟨fun h => h.2, fun h => ⟨?_, h⟩⟩
          rw [if_neg h]; exact hA1
        · rw [hI, Set.indicator_of_notMem hA1, mul_zero]
          convert measure_empty (μ := unitLaw)
          ext u
          simp only [Set.mem_sdiff, Set.mem_preimage, Set.mem_ofPred_eq, moved,
            Set.mem_empty_iff_false, iff_false, not_and, not_not]
          intro h
          by_contra h2
          rw [if_neg h2] at h
          exact hA1 h
    rw [hspl, mul_add, ← mul_assoc, accept_mass (h0 x) (h0 _), mul_assoc]
  have e1 : ∫⁻ x, ((fun x => ENNReal.ofReal (g x)) * fun x => (nu.prod unitLaw)
        (Prod.mk x ⁻¹' (moved g ⁻¹' A))) x ∂volume =
      ∫⁻ x, ∫⁻ e, (m x (x + e) * I (x + e) + ENNReal.ofReal (g x) * b x (x + e) * I x) ∂nu :=
    lintegral_congr fun x => inner x
  rw [e1]
  have f1 : Measurable fun t : Pt d × Pt d => m t.1 (t.1 + t.2) * I (t.1 + t.2) :=
    hmm.mul (hIm.comp (by fun_prop))
  have f2 : Measurable fun t : Pt d × Pt d => ENNReal.ofReal (g t.1) * b t.1 (t.1 + t.2) * I t.1 :=
    ((by fun_prop : Measurable fun t : Pt d × Pt d => ENNReal.ofReal (g t.1)).mul hbm).mul
      (hIm.comp (by fun_prop))
  have f3 : Measurable fun t : Pt d × Pt d => m t.1 (t.1 + t.2) * I t.1 :=
    hmm.mul (hIm.comp (by fun_prop))
  have f1' : Measurable fun x => ∫⁻ e, m x (x + e) * I (x + e) ∂nu := f1.lintegral_prod_right'
  have f3' : Measurable fun x => ∫⁻ e, m x (x + e) * I x ∂nu := f3.lintegral_prod_right'
  have swap : ∫⁻ x, ∫⁻ e, m x (x + e) * I (x + e) ∂nu = ∫⁻ x, ∫⁻ e, m x (x + e) * I x ∂nu := by
    have w1 := lintegral_lintegral_swap (μ := volume) (ν := nu)
      (f := fun x e : Pt d => m x (x + e) * I (x + e)) f1.aemeasurable
    have w3 := lintegral_lintegral_swap (μ := volume) (ν := nu)
      (f := fun x e : Pt d => m x (x + e) * I x) f3.aemeasurable
    rw [w1, w3]
    have s1 : ∀ e : Pt d, ∫⁻ x, m x (x + e) * I (x + e) = ∫⁻ x, m x (x + -e) * I x := by
      intro e
      rw [← lintegral_add_right_eq_self (fun x => m x (x + -e) * I x) e]
      refine lintegral_congr fun x => ?_
      rw [hm]
      simp only [add_neg_cancel_right, min_comm]
    simp only [s1]
    have hF : Measurable fun e : Pt d => ∫⁻ x, m x (x + e) * I x :=
      f3.lintegral_prod_left'
    calc ∫⁻ e, ∫⁻ x, m x (x + -e) * I x ∂volume ∂nu
        = ∫⁻ e, ∫⁻ x, m x (x + e) * I x ∂volume ∂(nu.map fun e => -e) := by
          rw [lintegral_map hF (by fun_prop)]
      _ = _ := by rw [hs]
  have split : ∫⁻ x, ∫⁻ e, (m x (x + e) * I (x + e) + ENNReal.ofReal (g x) * b x (x + e) * I x) ∂nu =
      (∫⁻ x, ∫⁻ e, m x (x + e) * I (x + e) ∂nu) +
        ∫⁻ x, ∫⁻ e, ENNReal.ofReal (g x) * b x (x + e) * I x ∂nu := by
    rw [← lintegral_add_left f1']
    refine lintegral_congr fun x => ?_
    have f1x : Measurable fun e => m x (x + e) * I (x + e) := f1.comp measurable_prodMk_left
    rw [lintegral_add_left f1x]
  rw [split, swap, ← lintegral_add_left f3', ← lintegral_indicator hA]
  refine lintegral_congr fun x => ?_
  have f3x : Measurable fun e => m x (x + e) * I x := f3.comp measurable_prodMk_left
  rw [← lintegral_add_left f3x]
  have : ∀ e, m x (x + e) * I x + ENNReal.ofReal (g x) * b x (x + e) * I x =
      ENNReal.ofReal (g x) * I x := fun e => by rw [← add_mul, hgb]
  simp only [this]
  rw [lintegral_const, measure_univ, mul_one, hI]
  by_cases hx : x ∈ A <;> simp [hx]

/-- Gaussian noise of mean zero is symmetric. -/
theorem normal_symm {C : Matrix (Fin d) (Fin d) ℝ} (hC : C.PosSemidef) :
    (Core.normalLaw (0 : Fin d → ℝ) C).map (fun e => -e) = Core.normalLaw 0 C := by
  have := Core.normalLaw_map hC (0 : Fin d → ℝ) (-1 : Matrix (Fin d) (Fin d) ℝ) 0
  simp only [Matrix.neg_mulVec, Matrix.one_mulVec, add_zero, neg_zero, Matrix.neg_mul,
    Matrix.one_mul, Matrix.transpose_neg, Matrix.transpose_one, Matrix.mul_neg, Matrix.mul_one,
    neg_neg] at this
  exact this

/-- The acceptance test without logarithms. -/
theorem accept_iff {l : Pt d → Flt} (hl : LogOf l g) {x y : Pt d} (hx : 0 < g x) {u : ℝ}
    (hu : 0 < u) : (Flt.logU u).lt ((l y).sub (l x)) ↔ u * g x < g y := by
  rcases hl x with ⟨-, ex⟩ | ⟨h, -⟩
  · rw [Flt.logU_pos hu.ne', ex]
    rcases hl y with ⟨hy, ey⟩ | ⟨hy, ey⟩
    · rw [ey, ← lt_div_iff₀ hx, ← Real.log_lt_log_iff hu (div_pos hy hx),
        Real.log_div hy.ne' hx.ne', Flt.sub_fin, Flt.fin_lt]
    · rw [ey, hy]
      have : ¬ u * g x < 0 := not_lt.2 (mul_pos hu hx).le
      simp only [this, iff_false]
      simp [Flt.fin, Flt.sub, Flt.lt, Flt.add, Flt.neg]
  · exact absurd h hx.ne'

variable {n : ℕ} {Ω : Type} [MeasurableSpace Ω]

open Classical in
/-- What `move` returns when the covariance and the noise are there. -/
theorem move_eq {l : Pt d → Flt} {C : Matrix (Fin d) (Fin d) ℝ} {e : Fin n → Pt d} {cfg : PConfig}
    (hcov : cfg.cov ≠ .other) {env : Env n d} {p : Parts n d} (hlo : cfg.sLower ≤ p.s)
    (hup : p.s ≤ cfg.sUpper) (hlx : ∀ i, p.logpx i = l (p.x i)) (hpd : p.logpdf = pointwise l)
    (hc : env.cov cfg.cov p.x = .ok C) (he : env.rvs p.clock (p.s • C) = .ok e) :
    ∃ r, move env cfg p = .ok (({ p with
      x := fun i => if accepts env p (fun i => l (p.x i + e i)) i then p.x i + e i else p.x i
      logpx := fun i => if accepts env p (fun i => l (p.x i + e i)) i
        then l (p.x i + e i) else l (p.x i)
      clock := p.clock + 1 } : Parts n d), r) := by
  have hbase : baseCov env cfg p.x = .ok C := by
    unfold baseCov
    cases h : cfg.cov with
    | other => exact absurd h hcov
    | normal => rw [h] at hc; exact hc
    | knn => rw [h] at hc; exact hc
  have hpert : perturb env cfg p = .ok fun i => p.x i + e i := by
    unfold perturb
    rw [if_neg (by push Not; exact ⟨hup, hlo⟩), hbase]
    simp only [Bind.bind, Except.bind, Pure.pure, Except.pure, drawEps, he]
  unfold move
  rw [hpert]
  simp only [Bind.bind, Except.bind, Pure.pure, Except.pure, hpd, pointwise, hlx]
  exact ⟨_, rfl⟩

/-- **C250** If the particles are independent with density proportional to `g`, the noise is
Gaussian with a covariance that does not depend on them, and the uniform numbers are
independent of both, then after `move` the particles are again independent with density
proportional to `g`, and the stored log-densities are theirs. -/
theorem move_law {P : Measure Ω} (hg : Measurable g) (h0 : ∀ y, 0 ≤ g y)
    (hi : Integrable g volume) (hZ : 0 < ∫ y, g y) {l : Pt d → Flt} (hl : LogOf l g)
    {C : Matrix (Fin d) (Fin d) ℝ} {s : ℝ} (hC : (s • C).PosSemidef)
    {x e : Ω → Fin n → Pt d} {u : Ω → Fin n → ℝ}
    (hm : AEMeasurable (fun ω i => (x ω i, e ω i, u ω i)) P)
    (hlaw : P.map (fun ω i => (x ω i, e ω i, u ω i)) = Measure.pi fun _ =>
      (MH.targetLaw volume g).prod ((Core.normalLaw 0 (s • C)).prod unitLaw))
    {cfg : PConfig} (hcov : cfg.cov ≠ .other) (hlo : cfg.sLower ≤ s) (hup : s ≤ cfg.sUpper)
    (env : Ω → Env n d) (p : Ω → Parts n d)
    (hx : ∀ ω, (p ω).x = x ω) (hlx : ∀ ω i, (p ω).logpx i = l (x ω i))
    (hpd : ∀ ω, (p ω).logpdf = pointwise l) (hs : ∀ ω, (p ω).s = s)
    (hc : ∀ ω, (env ω).cov cfg.cov (x ω) = .ok C)
    (he : ∀ ω, (env ω).rvs (p ω).clock (s • C) = .ok (e ω))
    (hu : ∀ ω, (env ω).unif (p ω).clock = u ω) :
    ∃ q : Ω → Parts n d,
      (∀ ω, (∃ r, move (env ω) cfg (p ω) = .ok (q ω, r)) ∧ (∀ i, (q ω).logpx i = l ((q ω).x i)) ∧
        (q ω).logpdf = pointwise l ∧ (q ω).s = s ∧ (q ω).w = (p ω).w) ∧
      P.map (fun ω => (q ω).x) = Measure.pi fun _ => MH.targetLaw volume g := by
  classical
  have hmove : ∀ ω, ∃ r, move (env ω) cfg (p ω) = .ok (({ p ω with
      x := fun i => if accepts (env ω) (p ω) (fun i => l (x ω i + e ω i)) i then x ω i + e ω i
        else x ω i
      logpx := fun i => if accepts (env ω) (p ω) (fun i => l (x ω i + e ω i)) i
        then l (x ω i + e ω i) else l (x ω i)
      clock := (p ω).clock + 1 } : Parts n d), r) := fun ω => by
    have := move_eq (env := env ω) (p := p ω) (e := e ω) (C := C) (l := l) hcov
      (by rw [hs]; exact hlo) (by rw [hs]; exact hup) (fun i => by rw [hx]; exact hlx ω i) (hpd ω)
      (by rw [hx]; exact hc ω) (by rw [hs]; exact he ω)
    simp only [hx] at this
    exact this
  refine ⟨_, fun ω => ⟨hmove ω, fun i => ?_, hpd ω, hs ω, rfl⟩, ?_⟩
  · dsimp only
    split_ifs <;> rfl
  · have : IsProbabilityMeasure (MH.targetLaw volume g) := MH.targetLaw_prob
      (by rw [lintegral_density h0 hi]; simpa using hZ)
      (by rw [lintegral_density h0 hi]; exact ENNReal.ofReal_ne_top)
    have hpos : ∀ᵐ t ∂(Measure.pi fun _ : Fin n =>
        (MH.targetLaw volume g).prod ((Core.normalLaw 0 (s • C)).prod unitLaw)),
        ∀ i, 0 < g (t i).1 ∧ 0 < (t i).2.2 := by
      refine ae_all_iff.2 fun i => ?_
      have h1 : ∀ᵐ t ∂(MH.targetLaw volume g).prod ((Core.normalLaw 0 (s • C)).prod unitLaw),
          0 < g t.1 ∧ 0 < t.2.2 := by
        have a1 := (Measure.quasiMeasurePreserving_fst (μ := MH.targetLaw volume g)
          (ν := (Core.normalLaw 0 (s • C)).prod unitLaw)).ae (target_pos hg)
        have b1 : ∀ᵐ v ∂unitLaw, 0 < v := by
          have hne : ∀ᵐ v : ℝ ∂unitLaw, v ≠ 0 :=
            ae_restrict_of_ae (Measure.ae_ne volume 0)
          have hge : ∀ᵐ v : ℝ ∂unitLaw, v ∈ Set.Ico (0 : ℝ) 1 :=
            ae_restrict_mem measurableSet_Ico
          filter_upwards [hne, hge] with v h1 h2
          exact lt_of_le_of_ne h2.1 h1.symm
        have b2 := (Measure.quasiMeasurePreserving_snd (μ := Core.normalLaw 0 (s • C))
          (ν := unitLaw)).ae b1
        have b3 := (Measure.quasiMeasurePreserving_snd (μ := MH.targetLaw volume g)
          (ν := (Core.normalLaw 0 (s • C)).prod unitLaw)).ae b2
        filter_upwards [a1, b3] with t h1 h2
        exact ⟨h1, h2⟩
      exact (Measure.quasiMeasurePreserving_eval (fun _ : Fin n =>
        (MH.targetLaw volume g).prod ((Core.normalLaw 0 (s • C)).prod unitLaw)) i).ae h1
    have hae : (fun ω i => if accepts (env ω) (p ω) (fun i => l (x ω i + e ω i)) i
        then x ω i + e ω i else x ω i) =ᵐ[P]
        (fun t : Fin n → Pt d × Pt d × ℝ => fun i => moved g (t i)) ∘
          fun ω i => (x ω i, e ω i, u ω i) := by
      rw [← hlaw] at hpos
      filter_upwards [ae_of_ae_map hm hpos] with ω h
      funext i
      have := accept_iff hl (h i).1 (h i).2 (y := x ω i + e ω i)
      simp only [accepts, hu, hlx, Function.comp, moved, this]
    dsimp only
    have hmv : Measurable fun t : Fin n → Pt d × Pt d × ℝ => fun i => moved g (t i) :=
      measurable_pi_lambda _ fun i => (moved_measurable hg).comp (measurable_pi_apply i)
    rw [Measure.map_congr hae, ← AEMeasurable.map_map_of_aemeasurable hmv.aemeasurable hm, hlaw]
    have h1 := moved_law hg h0 (Core.normalLaw 0 (s • C)) (normal_symm hC)
    have : SigmaFinite (((MH.targetLaw volume g).prod ((Core.normalLaw 0 (s • C)).prod unitLaw)).map (moved g)) := by
      rw [h1]; infer_instance
    rw [Measure.pi_map_pi fun i => (moved_measurable hg).aemeasurable]
    simp only [h1]

/-! ## With the covariance of the particles -/

/-- Numpy's covariance of the particles, Gaussian draws with the given variance made from
standard normal `z`, and uniform numbers `u`. -/
noncomputable def covEnv (z u : Fin 2 → ℝ) : Env 2 1 where
  init _ _ _ := 0
  mult _ _ _ := .error .valueError
  rvs _ C := .ok fun i _ => √(C 0 0) * z i
  unif _ := u
  cov _ x := match MH.covRows (List.ofFn x) with
    | some C => .ok C
    | none => .error .valueError
  junkX _ _ _ := 0
  junkL _ _ := .nan

/-- Two particles at `x` with the default scale. -/
noncomputable def pair (l : Pt 1 → Flt) (x : Fin 2 → Pt 1) : Parts 2 1 where
  x := x
  logpx i := l (x i)
  w := uniformW 2
  wtmp := uniformW 2
  s := 0.5
  logpdf := pointwise l
  clock := 0

/-- Two intervals far apart. -/
def left : Set (Pt 1) := {y | y 0 ∈ Set.Icc (0 : ℝ) 1}
def right : Set (Pt 1) := {y | y 0 ∈ Set.Icc (100000000 : ℝ) 100000001}

open Classical in
/-- The uniform density on the two, not normalised. -/
noncomputable def wells (y : Pt 1) : ℝ := if y ∈ left ∪ right then 1 else 0

open Classical in
noncomputable def logWells (y : Pt 1) : Flt := if y ∈ left ∪ right then .fin 0 else .num ⊥

theorem wells_log : LogOf logWells wells := by
  intro y
  unfold logWells wells
  by_cases h : y ∈ left ∪ right
  · left; simp [h]
  · right; simp [h]

theorem left_meas : MeasurableSet left := (measurable_pi_apply 0) measurableSet_Icc
theorem right_meas : MeasurableSet right := (measurable_pi_apply 0) measurableSet_Icc

theorem wells_meas : Measurable wells := by
  unfold wells
  exact Measurable.ite (left_meas.union right_meas) measurable_const measurable_const

theorem vol_slab (a b : ℝ) : volume {y : Pt 1 | y 0 ∈ Set.Icc a b} = ENNReal.ofReal (b - a) := by
  have : {y : Pt 1 | y 0 ∈ Set.Icc a b} = Set.pi Set.univ fun _ => Set.Icc a b := by
    ext y
    simp only [Set.mem_ofPred_eq, Set.mem_pi, Set.mem_univ, forall_const]
    exact ⟨fun h i => by rw [Subsingleton.elim i 0]; exact h, fun h => h 0⟩
  rw [this, volume_pi_pi]
  simp

/-- Both particles are in the same interval. -/
def Same (x : Fin 2 → Pt 1) : Prop := (∀ i, x i ∈ left) ∨ ∀ i, x i ∈ right

/-- The displacement of a particle. -/
theorem pair_move (x : Fin 2 → Pt 1) (z u : Fin 2 → ℝ) :
    ∃ q r, move (covEnv z u) {} (pair logWells x) = .ok (q, r) ∧
      ∀ i, 0 < u i → u i < 1 → x i ∈ left ∪ right →
        ((x i + fun _ => |x 0 0 - x 1 0| / 2 * z i) ∈ left ∪ right ∧
            q.x i = x i + fun _ => |x 0 0 - x 1 0| / 2 * z i) ∨
          ((x i + fun _ => |x 0 0 - x 1 0| / 2 * z i) ∉ left ∪ right ∧ q.x i = x i) := by
  classical
  obtain ⟨C, hC, hC0⟩ : ∃ C, MH.covRows (List.ofFn x) = some C ∧
      C 0 0 = (x 0 0 - x 1 0) ^ 2 / 2 := by
    refine ⟨_, rfl, ?_⟩
    simp [MH.meanRows, List.ofFn_succ]
    ring
  have hsq : √(((0.5 : ℝ) • C) 0 0) = |x 0 0 - x 1 0| / 2 := by
    rw [Matrix.smul_apply, hC0, smul_eq_mul,
      show (0.5 : ℝ) * ((x 0 0 - x 1 0) ^ 2 / 2) = ((x 0 0 - x 1 0) / 2) ^ 2 by ring,
      Real.sqrt_sq_eq_abs, abs_div, abs_two]
  obtain ⟨r, hr⟩ := move_eq (l := logWells) (C := C) (e := fun i _ => |x 0 0 - x 1 0| / 2 * z i)
    (cfg := {}) (env := covEnv z u) (p := pair logWells x) (by simp) (by norm_num [pair])
    (by norm_num [pair]) (fun i => rfl) rfl (by simp only [covEnv, pair, hC])
    (by simp only [covEnv, pair]; rw [hsq])
  refine ⟨_, r, hr, fun i h0 h1 hx => ?_⟩
  have hg1 : wells (x i) = 1 := by simp [wells, hx]
  have hacc : accepts (covEnv z u) (pair logWells x)
      (fun i => logWells ((pair logWells x).x i + fun _ => |x 0 0 - x 1 0| / 2 * z i)) i ↔
      u i * wells (x i) < wells (x i + fun _ => |x 0 0 - x 1 0| / 2 * z i) :=
    accept_iff wells_log (by rw [hg1]; exact one_pos) h0
  by_cases hy : (x i + fun _ => |x 0 0 - x 1 0| / 2 * z i) ∈ left ∪ right
  · left
    refine ⟨hy, ?_⟩
    have : wells (x i + fun _ => |x 0 0 - x 1 0| / 2 * z i) = 1 := by simp [wells, hy]
    dsimp only
    rw [if_pos (hacc.2 (by rw [hg1, this]; linarith))]
    rfl
  · right
    refine ⟨hy, ?_⟩
    have : wells (x i + fun _ => |x 0 0 - x 1 0| / 2 * z i) = 0 := by simp [wells, hy]
    dsimp only
    rw [if_neg (fun h => by have h2 := hacc.1 h; rw [hg1, this] at h2; linarith)]
    rfl

theorem wells_total : ∫⁻ y, ENNReal.ofReal (wells y) = 2 := by
  have : (fun y => ENNReal.ofReal (wells y)) = (left ∪ right).indicator 1 := by
    funext y
    by_cases h : y ∈ left ∪ right
    · rw [Set.indicator_of_mem h]; simp only [wells, if_pos h]; simp
    · rw [Set.indicator_of_notMem h]; simp only [wells, if_neg h]; simp
  rw [this, lintegral_indicator_one (left_meas.union right_meas),
    measure_union _ right_meas]
  · unfold left right
    rw [vol_slab, vol_slab]
    norm_num
  · rw [Set.disjoint_left]
    intro y h1 h2
    have := h1.2
    have := h2.1
    linarith

theorem wells_law {A : Set (Pt 1)} (hA : MeasurableSet A) (hs : A ⊆ left ∪ right) :
    MH.targetLaw volume wells A = volume A / 2 := by
  unfold MH.targetLaw
  rw [wells_total, Measure.smul_apply, withDensity_apply _ hA]
  have : ∫⁻ y in A, ENNReal.ofReal (wells y) = ∫⁻ y in A, 1 := by
    refine setLIntegral_congr_fun hA fun y hy => ?_
    simp only [wells, if_pos (hs hy), ENNReal.ofReal_one]
  rw [this, setLIntegral_one, smul_eq_mul, mul_comm, ENNReal.div_eq_inv_mul, mul_comm]

instance : IsProbabilityMeasure (MH.targetLaw volume wells) :=
  MH.targetLaw_prob (by rw [wells_total]; simp) (by rw [wells_total]; simp)

/-- A crude lower bound for the normal density. -/
theorem gauss_lower {a b : ℝ} (ha : -3 ≤ a) (hb : b ≤ 3) :
    ENNReal.ofReal ((b - a) / 729) ≤ gaussianReal 0 1 (Set.Icc a b) := by
  rw [gaussianReal_apply _ one_ne_zero]
  have h : ∀ x ∈ Set.Icc a b, ENNReal.ofReal (1 / 729) ≤ gaussianPDF 0 1 x := by
    intro x hx
    unfold gaussianPDF
    refine ENNReal.ofReal_le_ofReal ?_
    unfold gaussianPDFReal
    have hx2 : x ^ 2 ≤ 9 := by nlinarith [hx.1, hx.2]
    have h1 : Real.exp (-5) ≤ Real.exp (-(x - 0) ^ 2 / (2 * ((1 : NNReal) : ℝ))) := by
      refine Real.exp_le_exp.2 ?_
      simp only [sub_zero, NNReal.coe_one, mul_one]
      linarith
    have h2 : (1 : ℝ) / 243 ≤ Real.exp (-5) := by
      rw [Real.exp_neg, one_div]
      refine inv_anti₀ (Real.exp_pos _) ?_
      have h3 : Real.exp 5 = Real.exp 1 ^ 5 := by rw [← Real.exp_nat_mul]; norm_num
      rw [h3]
      calc Real.exp 1 ^ 5 ≤ 3 ^ 5 := by
            refine pow_le_pow_left₀ (Real.exp_pos _).le ?_ 5
            linarith [Real.exp_one_lt_d9]
        _ = 243 := by norm_num
    have h4 : (1 : ℝ) / 3 ≤ (√(2 * Real.pi * ((1 : NNReal) : ℝ)))⁻¹ := by
      rw [one_div]
      refine inv_anti₀ (Real.sqrt_pos.2 (by simp [Real.pi_pos])) ?_
      rw [Real.sqrt_le_left (by norm_num)]
      simp only [NNReal.coe_one, mul_one]
      linarith [Real.pi_le_four]
    calc (1 : ℝ) / 729 = 1 / 3 * (1 / 243) := by norm_num
      _ ≤ _ := mul_le_mul h4 (h2.trans h1) (by norm_num) (by positivity)
  calc ENNReal.ofReal ((b - a) / 729) = ENNReal.ofReal (1 / 729) * volume (Set.Icc a b) := by
        rw [Real.volume_Icc, ← ENNReal.ofReal_mul (by norm_num)]; congr 1; ring
    _ = ∫⁻ x in Set.Icc a b, ENNReal.ofReal (1 / 729) := by rw [setLIntegral_const]
    _ ≤ _ := setLIntegral_mono' measurableSet_Icc h

/-- Large values are rare. -/
theorem gauss_upper {c : ℝ} (hc : 0 < c) :
    gaussianReal 0 1 {z | c ≤ |z|} ≤ ENNReal.ofReal (1 / c ^ 2) := by
  have hmem : MemLp (id : ℝ → ℝ) 2 (gaussianReal 0 1) := memLp_id_gaussianReal 2
  have := meas_ge_le_variance_div_sq hmem hc
  rw [variance_id_gaussianReal] at this
  simpa using this

theorem same_meas : MeasurableSet {x : Fin 2 → Pt 1 | Same x} := by
  have h : ∀ A : Set (Pt 1), MeasurableSet A → MeasurableSet {x : Fin 2 → Pt 1 | ∀ i, x i ∈ A} := by
    intro A hA
    have : {x : Fin 2 → Pt 1 | ∀ i, x i ∈ A} = ⋂ i, (fun x => x i) ⁻¹' A := by
      ext x; simp
    rw [this]
    exact MeasurableSet.iInter fun i => (measurable_pi_apply i) hA
  exact (h _ left_meas).union (h _ right_meas)

/-- What is drawn for one particle: its position, a standard normal and a uniform number. -/
noncomputable def drawLaw : Measure (Pt 1 × ℝ × ℝ) :=
  (MH.targetLaw volume wells).prod ((gaussianReal 0 1).prod unitLaw)

instance : IsProbabilityMeasure drawLaw := by unfold drawLaw; infer_instance

/-- The call of `move` for these draws. -/
noncomputable def pairMove (ω : Fin 2 → Pt 1 × ℝ × ℝ) : Py (Parts 2 1 × ℝ) :=
  move (covEnv (fun i => (ω i).2.1) fun i => (ω i).2.2) {} (pair logWells fun i => (ω i).1)

theorem draw_rect {A : Set (Pt 1)} {B : Set ℝ} :
    drawLaw (A ×ˢ (B ×ˢ Set.Ioo (0 : ℝ) 1)) = MH.targetLaw volume wells A * gaussianReal 0 1 B := by
  unfold drawLaw
  rw [Measure.prod_prod, Measure.prod_prod]
  have : unitLaw (Set.Ioo (0 : ℝ) 1) = 1 := by
    rw [unitLaw, Measure.restrict_apply measurableSet_Ioo,
      Set.inter_eq_left.2 Set.Ioo_subset_Ico_self]
    simp
  rw [this, mul_one]

/-- Particles of a common interval rarely leave it. -/
theorem stay {ω : Fin 2 → Pt 1 × ℝ × ℝ} {q : Parts 2 1} {r : ℝ} (hq : pairMove ω = .ok (q, r))
    (hS : Same fun i => (ω i).1) (hz : ∀ i, |(ω i).2.1| < 199999998)
    (hu : ∀ i, (ω i).2.2 ∈ Set.Ioo (0 : ℝ) 1) : Same q.x := by
  obtain ⟨q', r', h1, h2⟩ := pair_move (fun i => (ω i).1) (fun i => (ω i).2.1) fun i => (ω i).2.2
  have e : q' = q := by
    have := h1.symm.trans hq
    exact (Prod.ext_iff.1 (Except.ok.inj this)).1
  subst e
  have hD : |(ω 0).1 0 - (ω 1).1 0| ≤ 1 := by
    rw [abs_le]
    rcases hS with h | h
    · have a := h 0; have b := h 1
      constructor <;> linarith [a.1, a.2, b.1, b.2]
    · have a := h 0; have b := h 1
      constructor <;> linarith [a.1, a.2, b.1, b.2]
  have hstep : ∀ i, |(|(ω 0).1 0 - (ω 1).1 0| / 2 * (ω i).2.1)| < 99999999 := by
    intro i
    rw [abs_mul, abs_of_nonneg (by positivity)]
    have := hz i
    have h0 := abs_nonneg (ω i).2.1
    nlinarith [abs_nonneg ((ω 0).1 0 - (ω 1).1 0)]
  rcases hS with h | h
  · left
    intro i
    have hi := h i
    rcases h2 i (hu i).1 (hu i).2 (Or.inl hi) with ⟨hy, hx⟩ | ⟨-, hx⟩
    · rw [hx]
      rcases hy with hy | hy
      · exact hy
      · exfalso
        have h3 := hy.1
        have h4 := (abs_lt.1 (hstep i)).2
        have h5 := hi.2
        simp only [Pi.add_apply] at h3
        linarith
    · rw [hx]; exact hi
  · right
    intro i
    have hi := h i
    rcases h2 i (hu i).1 (hu i).2 (Or.inr hi) with ⟨hy, hx⟩ | ⟨-, hx⟩
    · rw [hx]
      rcases hy with hy | hy
      · exfalso
        have h3 := hy.2
        have h4 := (abs_lt.1 (hstep i)).1
        have h5 := hi.1
        simp only [Pi.add_apply] at h3
        linarith
      · exact hy
    · rw [hx]; exact hi

/-- Positions and draws for which the left particle joins the right one. -/
def joinLeft : Set (Pt 1 × ℝ × ℝ) :=
  left ×ˢ (Set.Icc (2 - 1 / 400000000) (2 + 1 / 400000000) ×ˢ Set.Ioo (0 : ℝ) 1)

def joinRight : Set (Pt 1 × ℝ × ℝ) :=
  {y | y 0 ∈ Set.Icc (100000000 + 1 / 4 : ℝ) (100000000 + 3 / 4)} ×ˢ
    (Set.Icc 0 1 ×ˢ Set.Ioo (0 : ℝ) 1)

theorem join {ω : Fin 2 → Pt 1 × ℝ × ℝ} {q : Parts 2 1} {r : ℝ} (hq : pairMove ω = .ok (q, r))
    (h0 : ω 0 ∈ joinLeft) (h1 : ω 1 ∈ joinRight) : Same q.x := by
  obtain ⟨q', r', e1, h2⟩ := pair_move (fun i => (ω i).1) (fun i => (ω i).2.1) fun i => (ω i).2.2
  have e : q' = q := by
    have := e1.symm.trans hq
    exact (Prod.ext_iff.1 (Except.ok.inj this)).1
  subst e
  obtain ⟨hx0, hz0, hu0⟩ := h0
  obtain ⟨hx1, hz1, hu1⟩ := h1
  have a1 := hx0.1; have a2 := hx0.2; have b1 := hx1.1; have b2 := hx1.2
  have c1 := hz0.1; have c2 := hz0.2; have d1 := hz1.1
  have hD : |(ω 0).1 0 - (ω 1).1 0| = (ω 1).1 0 - (ω 0).1 0 := by
    rw [abs_sub_comm, abs_of_nonneg (by linarith)]
  have hr1 : (ω 1).1 ∈ right := ⟨by linarith, by linarith⟩
  right
  intro i
  fin_cases i
  · have hy : ((ω 0).1 + fun _ => |(ω 0).1 0 - (ω 1).1 0| / 2 * (ω 0).2.1) ∈ right := by
      rw [hD]
      constructor
      · simp only [Pi.add_apply]
        nlinarith
      · simp only [Pi.add_apply]
        nlinarith
    rcases h2 0 hu0.1 hu0.2 (Or.inl hx0) with ⟨-, hx⟩ | ⟨hn, -⟩
    · exact hx ▸ hy
    · exact absurd (Or.inr hy) hn
  · rcases h2 1 hu1.1 hu1.2 (Or.inr hr1) with ⟨hy, hx⟩ | ⟨-, hx⟩
    · have hx' : q'.x 1 = _ := hx
      show q'.x 1 ∈ right
      rw [hx']
      rcases hy with hy | hy
      · exfalso
        have h3 := hy.2
        simp only [Pi.add_apply] at h3
        rw [hD] at h3
        have : 0 ≤ ((ω 1).1 0 - (ω 0).1 0) / 2 * (ω 1).2.1 :=
          mul_nonneg (by linarith) d1
        linarith
      · exact hy
    · have hx' : q'.x 1 = _ := hx
      show q'.x 1 ∈ right
      rw [hx']; exact hr1

/-- **C250, false in general.** With the covariance of the particles, as the program uses it,
a move does not keep the target law: two independent particles uniform on two distant
intervals are in the same interval more often after one move. -/
theorem move_adaptive_false :
    LogOf logWells wells ∧
      (∀ c : NNReal, (gaussianReal 0 1).map (fun z => √c * z) = gaussianReal 0 c) ∧
      (∀ ω, ∃ q r, pairMove ω = .ok (q, r)) ∧
      ∀ q : (Fin 2 → Pt 1 × ℝ × ℝ) → Parts 2 1, (∀ ω, ∃ r, pairMove ω = .ok (q ω, r)) →
        (Measure.pi fun _ => MH.targetLaw volume wells) {x | Same x} <
          (Measure.pi fun _ => drawLaw) {ω | Same (q ω).x} ∧
        (Measure.pi fun _ => drawLaw).map (fun ω => (q ω).x) ≠
          Measure.pi fun _ => MH.targetLaw volume wells := by
  refine ⟨wells_log, fun c => ?_, fun ω => ?_, fun q hq => ?_⟩
  · rw [gaussianReal_map_const_mul]
    congr 1
    · simp
    · ext
      simp
  · obtain ⟨q, r, h, -⟩ := pair_move (fun i => (ω i).1) (fun i => (ω i).2.1) fun i => (ω i).2.2
    exact ⟨q, r, h⟩
  have key : (Measure.pi fun _ => MH.targetLaw volume wells) {x | Same x} <
      (Measure.pi fun _ => drawLaw) {ω | Same (q ω).x} := by
    set mu : Measure (Fin 2 → Pt 1 × ℝ × ℝ) := Measure.pi fun _ => drawLaw with hmu
    have hfst : mu.map (fun ω i => (ω i).1) = Measure.pi fun _ => MH.targetLaw volume wells := by
      have h1 : drawLaw.map Prod.fst = MH.targetLaw volume wells := by
        unfold drawLaw
        rw [Measure.map_fst_prod, measure_univ, one_smul]
      have : SigmaFinite (drawLaw.map Prod.fst) := by rw [h1]; infer_instance
      rw [hmu, Measure.pi_map_pi (f := fun _ => Prod.fst) fun i => measurable_fst.aemeasurable]
      simp only [h1]
    have hmf : Measurable fun (ω : Fin 2 → Pt 1 × ℝ × ℝ) i => (ω i).1 := by fun_prop
    set S : Set (Fin 2 → Pt 1 × ℝ × ℝ) := {ω | Same fun i => (ω i).1} with hS
    have hSm : MeasurableSet S := hmf same_meas
    rw [← hfst, Measure.map_apply hmf same_meas]
    change mu S < _
    -- the draws that may separate particles
    set T : Set (Pt 1 × ℝ × ℝ) := Set.univ ×ˢ ({z | |z| < 199999998} ×ˢ Set.Ioo (0 : ℝ) 1) with hT
    have hTm : MeasurableSet T := MeasurableSet.univ.prod
      ((measurableSet_lt (by fun_prop) (by fun_prop)).prod measurableSet_Ioo)
    set bad : Set (Fin 2 → Pt 1 × ℝ × ℝ) := ⋃ i, (fun ω => ω i) ⁻¹' Tᶜ with hbad
    have hbadm : MeasurableSet bad := MeasurableSet.iUnion fun i => (measurable_pi_apply i) hTm.compl
    have hcompl : drawLaw Tᶜ ≤ ENNReal.ofReal (1 / 199999998 ^ 2) := by
      rw [prob_compl_eq_one_sub hTm, hT, draw_rect, measure_univ, one_mul]
      have : gaussianReal 0 1 {z | |z| < 199999998} = 1 - gaussianReal 0 1 {z | 199999998 ≤ |z|} := by
        rw [← prob_compl_eq_one_sub (measurableSet_le (by fun_prop) (by fun_prop))]
        congr 1
        ext z
        simp
      rw [this]
      exact tsub_tsub_le.trans (gauss_upper (by norm_num))
    have hb : mu bad ≤ ENNReal.ofReal (2 / 199999998 ^ 2) := by
      refine (measure_iUnion_fintype_le _ _).trans ?_
      have h1 : ∀ i : Fin 2, mu ((fun ω => ω i) ⁻¹' Tᶜ) = drawLaw Tᶜ := fun i =>
        (measurePreserving_eval (fun _ : Fin 2 => drawLaw) i).measure_preimage
          hTm.compl.nullMeasurableSet
      simp only [h1, Fin.sum_univ_two]
      calc drawLaw Tᶜ + drawLaw Tᶜ
          ≤ ENNReal.ofReal (1 / 199999998 ^ 2) + ENNReal.ofReal (1 / 199999998 ^ 2) :=
            add_le_add hcompl hcompl
        _ = ENNReal.ofReal (2 / 199999998 ^ 2) := by
            rw [← ENNReal.ofReal_add (by norm_num) (by norm_num)]
            norm_num
    -- the draws that join separated particles
    set R : Set (Fin 2 → Pt 1 × ℝ × ℝ) := Set.pi Set.univ ![joinLeft, joinRight] with hR
    have hRmem : ∀ ω, ω ∈ R ↔ ω 0 ∈ joinLeft ∧ ω 1 ∈ joinRight := fun ω => by
      simp [hR, Set.mem_pi, Fin.forall_fin_two]
    have hslab : MeasurableSet {y : Pt 1 | y 0 ∈ Set.Icc (100000000 + 1 / 4 : ℝ) (100000000 + 3 / 4)} :=
      (measurable_pi_apply 0) measurableSet_Icc
    have hRm : mu R = drawLaw joinLeft * drawLaw joinRight := by
      rw [hR, hmu, Measure.pi_pi]
      simp [Fin.prod_univ_two]
    have hlow : ENNReal.ofReal (1 / 8 * (1 / 200000000 / 729) * (1 / 729)) ≤ mu R := by
      rw [hRm, joinLeft, joinRight, draw_rect, draw_rect, wells_law left_meas Set.subset_union_left,
        wells_law hslab (fun y hy => Or.inr ⟨by linarith [hy.1], by linarith [hy.2]⟩), left, vol_slab,
        vol_slab]
      have g1 := gauss_lower (a := 2 - 1 / 400000000) (b := 2 + 1 / 400000000) (by norm_num)
        (by norm_num)
      have g2 := gauss_lower (a := 0) (b := 1) (by norm_num) (by norm_num)
      have e1 : ENNReal.ofReal (1 - 0) / 2 = ENNReal.ofReal (1 / 2) := by
        rw [ENNReal.ofReal_div_of_pos (by norm_num)]; norm_num
      have e2 : ENNReal.ofReal (100000000 + 3 / 4 - (100000000 + 1 / 4)) / 2 =
          ENNReal.ofReal (1 / 4) := by
        rw [show (2 : ℝ≥0∞) = ENNReal.ofReal 2 by norm_num, ← ENNReal.ofReal_div_of_pos (by norm_num)]
        norm_num
      rw [e1, e2]
      refine le_trans (le_of_eq ?_) (mul_le_mul' (mul_le_mul' le_rfl g1) (mul_le_mul' le_rfl g2))
      rw [← ENNReal.ofReal_mul (by norm_num), ← ENNReal.ofReal_mul (by norm_num),
        ← ENNReal.ofReal_mul (by norm_num)]
      norm_num
    have hlt : mu bad < mu R := by
      refine lt_of_le_of_lt hb (lt_of_lt_of_le ?_ hlow)
      rw [ENNReal.ofReal_lt_ofReal_iff (by norm_num)]
      norm_num
    have hdis : Disjoint R (S \ bad) := by
      rw [Set.disjoint_left]
      rintro ω h1 ⟨h2, -⟩
      obtain ⟨j1, j2⟩ := (hRmem ω).1 h1
      rcases h2 with h | h
      · have a := (h 1).2
        have b := j2.1.1
        linarith
      · have a := (h 0).1
        have b := j1.1.2
        linarith
    have hsub : R ∪ (S \ bad) ⊆ {ω | Same (q ω).x} := by
      rintro ω (h | ⟨h1, h2⟩)
      · obtain ⟨r, hr⟩ := hq ω
        exact join hr ((hRmem ω).1 h).1 ((hRmem ω).1 h).2
      · obtain ⟨r, hr⟩ := hq ω
        have hin : ∀ i, ω i ∈ T := fun i => by
          by_contra hn
          exact h2 (Set.mem_iUnion.2 ⟨i, hn⟩)
        exact stay hr h1 (fun i => (hin i).2.1) fun i => (hin i).2.2
    calc mu S ≤ mu (S \ bad) + mu bad := by
          refine (measure_mono (t := (S \ bad) ∪ bad) fun ω h => ?_).trans (measure_union_le _ _)
          by_cases hb : ω ∈ bad
          · exact Or.inr hb
          · exact Or.inl ⟨h, hb⟩
      _ < mu (S \ bad) + mu R := ENNReal.add_lt_add_left (measure_ne_top _ _) hlt
      _ = mu (R ∪ (S \ bad)) := by rw [measure_union hdis (MeasurableSet.diff hSm hbadm), add_comm]
      _ ≤ _ := measure_mono hsub
  refine ⟨key, fun h => ?_⟩
  have hm : AEMeasurable (fun ω => (q ω).x) (Measure.pi fun _ => drawLaw) := by
    by_contra hn
    rw [Measure.map_of_not_aemeasurable hn] at h
    have := congrArg (fun m => m Set.univ) h
    simp at this
  have h2 : (Measure.pi fun _ => drawLaw).map (fun ω => (q ω).x) {x | Same x} =
      (Measure.pi fun _ => drawLaw) {ω | Same (q ω).x} := by
    rw [Measure.map_apply_of_aemeasurable hm same_meas]
    rfl
  rw [h] at h2
  exact absurd h2 key.ne

/-- A concrete case of `move_law`: the same two intervals with noise of variance 1/2. -/
example : ∃ (P : Measure (Fin 2 → Pt 1 × Pt 1 × ℝ)) (q : (Fin 2 → Pt 1 × Pt 1 × ℝ) → Parts 2 1),
    P.map (fun ω i => (ω i).1) = Measure.pi (fun _ => MH.targetLaw volume wells) ∧
    (∀ ω, ∃ r, move
      { covEnv 0 (fun i => (ω i).2.2) with
        cov := fun _ _ => .ok 1, rvs := fun _ _ => .ok fun i => (ω i).2.1 }
      {} (pair logWells fun i => (ω i).1) = .ok (q ω, r)) ∧
    P.map (fun ω => (q ω).x) = Measure.pi fun _ => MH.targetLaw volume wells := by
  have hC : ((0.5 : ℝ) • (1 : Matrix (Fin 1) (Fin 1) ℝ)).PosSemidef :=
    Matrix.PosSemidef.one.smul (by norm_num)
  have h0 : ∀ y, 0 ≤ wells y := fun y => by unfold wells; split_ifs <;> norm_num
  have hi : Integrable wells := by
    refine ⟨wells_meas.aestronglyMeasurable, ?_⟩
    rw [hasFiniteIntegral_iff_ofReal (ae_of_all _ h0), wells_total]
    simp
  have hZ : 0 < ∫ y, wells y := by
    have := lintegral_density h0 hi
    rw [wells_total] at this
    by_contra hn
    rw [ENNReal.ofReal_of_nonpos (not_lt.1 hn)] at this
    simp at this
  obtain ⟨q, h1, h2⟩ := move_law (P := Measure.pi fun _ : Fin 2 =>
      (MH.targetLaw volume wells).prod ((Core.normalLaw 0 ((0.5 : ℝ) • (1 : Matrix (Fin 1) (Fin 1) ℝ))).prod unitLaw))
    wells_meas h0 hi hZ wells_log hC (x := fun ω i => (ω i).1) (e := fun ω i => (ω i).2.1)
    (u := fun ω i => (ω i).2.2) (by exact measurable_id.aemeasurable) (by exact Measure.map_id)
    (cfg := {}) (by simp) (by norm_num) (by norm_num)
    (fun ω => { covEnv 0 (fun i => (ω i).2.2) with
        cov := fun _ _ => .ok 1, rvs := fun _ _ => .ok fun i => (ω i).2.1 })
    (fun ω => pair logWells fun i => (ω i).1) (fun _ => rfl) (fun _ _ => rfl) (fun _ => rfl)
    (fun _ => rfl) (fun _ => rfl) (fun _ => rfl) (fun _ => rfl)
  refine ⟨_, q, ?_, fun ω => (h1 ω).1, h2⟩
  have e1 : ((MH.targetLaw volume wells).prod
      ((Core.normalLaw 0 ((0.5 : ℝ) • (1 : Matrix (Fin 1) (Fin 1) ℝ))).prod unitLaw)).map Prod.fst =
      MH.targetLaw volume wells := by
    rw [Measure.map_fst_prod, measure_univ, one_smul]
  have : SigmaFinite (((MH.targetLaw volume wells).prod
      ((Core.normalLaw 0 ((0.5 : ℝ) • (1 : Matrix (Fin 1) (Fin 1) ℝ))).prod unitLaw)).map Prod.fst) := by
    rw [e1]; infer_instance
  rw [Measure.pi_map_pi (f := fun _ => Prod.fst) fun i => measurable_fst.aemeasurable]
  simp only [e1]

end Verif.SMC
