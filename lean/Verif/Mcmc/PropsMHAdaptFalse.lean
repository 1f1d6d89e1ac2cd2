import Verif.Mcmc.PropsMHFrozenRun
import Verif.Mcmc.Posterior
import Mathlib.Analysis.Real.Pi.Bounds

/-!
# C269: adaptation during the sampling phase does not keep the target law
-/

set_option autoImplicit false

namespace Verif.MH

open Verif Matrix MeasureTheory ProbabilityTheory
open scoped ENNReal

/-! ## One step with given proposals keeps the target law -/

section Invariant
variable {d : ℕ} {C : Set (Pt d)} {J : Pt d → ℝ} {S L : Matrix (Fin d) (Fin d) ℝ}

theorem BoxCrit.floor (hb : BoxCrit C J) (hS : S.PosDef) (x y : Pt d) (hx : 0 < boxDens C J x) (hy : 0 < boxDens C J y) :
    uFloor * (boxDens C J x * Core.gaussDensity S x y) < boxDens C J y * Core.gaussDensity S y x := by
  rw [boxDens_pos] at hx hy
  rw [boxDens, Set.indicator_of_mem hx, Set.indicator_of_mem hy, gauss_swap S y x, ← mul_assoc]
  refine mul_lt_mul_of_pos_right ?_ (Core.gaussDensity_pos hS x y)
  have h10 : (2.3 : ℝ) < Real.log 10 := by
    have h := Real.log_le_log (by norm_num) (show (2 : ℝ) ^ 93 ≤ 10 ^ 28 by norm_num)
    rw [Real.log_pow, Real.log_pow] at h
    have := Real.log_two_gt_d9
    norm_num at h
    linarith
  have hu : uFloor = Real.exp (-(300 * Real.log 10)) := by
    rw [Real.exp_neg, show (300 : ℝ) * Real.log 10 = ((300 : ℕ) : ℝ) * Real.log 10 by norm_num, Real.exp_nat_mul,
      Real.exp_log (by norm_num), uFloor, inv_pow]
  rw [hu, ← Real.exp_add, Real.exp_lt_exp]
  linarith [hb.osc x hx y hy]

/-- A step from a state with the target law has the target law. -/
theorem hop_invariant (hb : BoxCrit C J) (hS : S.PosDef) (hL : L * Lᵀ = S) :
    ((targetLaw volume (boxDens C J)).prod (drawLaw d)).map (fun z => hop (boxDens C J) L z.1 z.2) =
      targetLaw volume (boxDens C J) := by
  have ht := boxTarget_exists C J
  have hpm := boxDens_measurable hb.compact.measurableSet hb.cont
  have hqm : Measurable (Function.uncurry fun x y : Pt d => Core.gaussDensity S x y) := by
    apply Continuous.measurable
    show Continuous fun z : Pt d × Pt d => Core.gaussDensity S z.1 z.2
    unfold Core.gaussDensity
    fun_prop
  have hq : ProposalOf true (fun _ _ : Pt d => (.error .valueError : Py Flt)) fun x y => Core.gaussDensity S x y :=
    ⟨fun x y => Core.gaussDensity_pos hS x y, fun _ => gauss_swap S, fun h => by cases h⟩
  have hhop := hop_measurable hpm L
  have hpo : Measurable fun x => ENNReal.ofReal (boxDens C J x) := ENNReal.measurable_ofReal.comp hpm
  refine Measure.ext fun s hs => ?_
  rw [Measure.map_apply hhop hs, Measure.prod_apply (hhop hs)]
  have hm : Measurable fun x => drawLaw d (Prod.mk x ⁻¹' ((fun z : Pt d × (Pt d × ℝ) => hop (boxDens C J) L z.1 z.2) ⁻¹' s)) :=
    measurable_measure_prodMk_left (hhop hs)
  conv_lhs => rw [targetLaw]
  rw [lintegral_smul_measure, lintegral_withDensity_eq_lintegral_mul _ hpo hm, targetLaw, Measure.smul_apply,
    withDensity_apply _ hs, ← mh_invariant_partial (mu := volume) hpm hqm ht.target hq (gauss_one hS) (hb.floor hS) s hs]
  congr 1
  refine lintegral_congr fun x => ?_
  simp only [Pi.mul_apply]
  rcases ht.target x with ⟨hx, _⟩ | ⟨hx, _⟩
  · congr 1
    have h := stepMean_draws ht.target (fun _ _ => .error .valueError) hS hL hx (F := s.indicator 1) hpm
      (measurable_one.indicator hs)
    have h1 : ∫⁻ w, s.indicator 1 (hop (boxDens C J) L x w) ∂drawLaw d =
        drawLaw d (Prod.mk x ⁻¹' ((fun z : Pt d × (Pt d × ℝ) => hop (boxDens C J) L z.1 z.2) ⁻¹' s)) :=
      lintegral_indicator_one (measurable_prodMk_left (hhop hs))
    rw [← h1, ← h, stepMean_eq ht.target hq hx, transition]
    refine lintegral_congr fun y => ?_
    obtain ⟨a, ha, _, hh⟩ := stepProb_eq ht.target hq hx y s
    have haa : a = acc (boxDens C J) (fun x y => Core.gaussDensity S x y) x y := ha
    rw [hh, haa]
    by_cases hys : y ∈ s <;> by_cases hxs : x ∈ s <;> simp [hys, hxs]
  · simp [hx]

/-- Steps with given proposals, from a random state with the target law which is independent of the draws. -/
theorem walk_stationary (hb : BoxCrit C J) (hS : S.PosDef) (hL : L * Lᵀ = S) {Ω : Type} [MeasurableSpace Ω]
    {P : Measure Ω} [IsProbabilityMeasure P] {x : Ω → Pt d} {w : ℕ → Ω → Pt d × ℝ} (hx : Measurable x)
    (hw : Draws P w) (hind : IndepFun x (fun ω k => w k ω) P) (hlaw : P.map x = targetLaw volume (boxDens C J)) (k : ℕ) :
    Measurable (fun ω => walk (boxDens C J) L (x ω) (fun i => w i ω) k) ∧
      P.map (fun ω => walk (boxDens C J) L (x ω) (fun i => w i ω) k) = targetLaw volume (boxDens C J) := by
  have hpm := boxDens_measurable hb.compact.measurableSet hb.cont
  -- the state is a function of the start and of the draws so far
  have hg : ∀ k : ℕ, ∃ g : Pt d × (Finset.range k → Pt d × ℝ) → Pt d, Measurable g ∧
      ∀ (x : Pt d) (w : ℕ → Pt d × ℝ), walk (boxDens C J) L x w k = g (x, fun i => w i) := fun k => by
    induction k with
    | zero => exact ⟨Prod.fst, measurable_fst, fun _ _ => rfl⟩
    | succ k ih =>
      obtain ⟨g, hgm, hg⟩ := ih
      have hk : k ∈ Finset.range (k + 1) := Finset.self_mem_range_succ k
      have h1 : Measurable fun z : Pt d × (Finset.range (k + 1) → Pt d × ℝ) =>
          (z.1, fun i : Finset.range k => z.2 ⟨i, Finset.mem_range.mpr ((Finset.mem_range.mp i.2).trans (Nat.lt_succ_self k))⟩) :=
        measurable_fst.prodMk (measurable_pi_lambda _ fun i => (measurable_pi_apply _).comp measurable_snd)
      have h2 : Measurable fun z : Pt d × (Finset.range (k + 1) → Pt d × ℝ) => z.2 ⟨k, hk⟩ :=
        (measurable_pi_apply _).comp measurable_snd
      refine ⟨_, (hop_measurable hpm L).comp ((hgm.comp h1).prodMk h2), fun x w => ?_⟩
      rw [walk, hg]
      rfl
  have hmeas : ∀ k, Measurable fun ω => walk (boxDens C J) L (x ω) (fun i => w i ω) k := fun k => by
    obtain ⟨g, hgm, hg⟩ := hg k
    simp only [hg]
    exact hgm.comp (hx.prodMk (measurable_pi_lambda _ fun i => hw.meas i))
  refine ⟨hmeas k, ?_⟩
  induction k with
  | zero => exact hlaw
  | succ k ih =>
    obtain ⟨g, hgm, hg⟩ := hg k
    -- the start, the draws so far and the next draw are independent
    have hU : Measurable fun ω (i : Finset.range k) => w i ω := measurable_pi_lambda _ fun i => hw.meas i
    have i1 : IndepFun (fun ω (i : Finset.range k) => w i ω) (w k) P := by
      have := hw.indep.indepFun_finset (Finset.range k) {k} (by simp) hw.meas
      exact this.comp measurable_id (measurable_pi_apply (⟨k, by simp⟩ : ({k} : Finset ℕ)))
    have i2 : IndepFun x (fun ω => (fun i : Finset.range k => w i ω, w k ω)) P :=
      hind.comp (ψ := fun u : ℕ → Pt d × ℝ => (fun i : Finset.range k => u i, u k)) measurable_id (by fun_prop)
    have i3 : IndepFun (fun ω => (x ω, fun i : Finset.range k => w i ω)) (w k) P := by
      have hq : IsProbabilityMeasure (P.map x) := Measure.isProbabilityMeasure_map hx.aemeasurable
      have hq1 : IsProbabilityMeasure (P.map fun ω (i : Finset.range k) => w i ω) :=
        Measure.isProbabilityMeasure_map hU.aemeasurable
      have hq2 : IsProbabilityMeasure (P.map (w k)) := Measure.isProbabilityMeasure_map (hw.meas k).aemeasurable
      have hi := (indepFun_iff_map_prod_eq_prod_map_map hx.aemeasurable hU.aemeasurable).mp
        (i2.comp measurable_id measurable_fst)
      have h2 := (indepFun_iff_map_prod_eq_prod_map_map hx.aemeasurable (hU.prodMk (hw.meas k)).aemeasurable).mp i2
      have h1 := (indepFun_iff_map_prod_eq_prod_map_map hU.aemeasurable (hw.meas k).aemeasurable).mp i1
      rw [indepFun_iff_map_prod_eq_prod_map_map (hx.prodMk hU).aemeasurable (hw.meas k).aemeasurable, hi]
      rw [h1] at h2
      have h3 := congrArg (Measure.map MeasurableEquiv.prodAssoc.symm) h2
      rw [Measure.map_map MeasurableEquiv.prodAssoc.symm.measurable (hx.prodMk (hU.prodMk (hw.meas k)))] at h3
      have h4 : Measure.map MeasurableEquiv.prodAssoc.symm ((P.map x).prod ((P.map fun ω (i : Finset.range k) => w i ω).prod
          (P.map (w k)))) = ((P.map x).prod (P.map fun ω (i : Finset.range k) => w i ω)).prod (P.map (w k)) := by
        rw [← (measurePreserving_prodAssoc _ _ _).map_eq,
          Measure.map_map MeasurableEquiv.prodAssoc.symm.measurable MeasurableEquiv.prodAssoc.measurable]
        simp
      rw [h4] at h3
      exact h3
    have i4 : IndepFun (fun ω => walk (boxDens C J) L (x ω) (fun i => w i ω) k) (w k) P := by
      simp only [hg]
      exact i3.comp hgm measurable_id
    have h5 := (indepFun_iff_map_prod_eq_prod_map_map (hmeas k).aemeasurable (hw.meas k).aemeasurable).mp i4
    rw [ih, hw.law] at h5
    have h6 := congrArg (Measure.map fun z => hop (boxDens C J) L z.1 z.2) h5
    rw [hop_invariant hb hS hL, Measure.map_map (hop_measurable hpm L) ((hmeas k).prodMk (hw.meas k))] at h6
    exact h6

/-- Given states, one for each chain, as the array passed to `scheduler`. -/
noncomputable def initial {m d : ℕ} (x0 : Fin m → Pt d) : InitArr :=
  ⟨m, d, fun i j => if h : i < m ∧ j < d then x0 ⟨i, h.1⟩ ⟨j, h.2⟩ else 0⟩

theorem initial_ok {m d : ℕ} (x0 : Fin m → Pt d) : initStates m d (initial x0) true = .ok x0 := by
  unfold initStates
  rw [if_neg, if_pos ⟨rfl, rfl⟩]
  · congr 1
    funext c j
    exact dif_pos ⟨c.2, j.2⟩
  · rintro ⟨h1, -, -, h2⟩
    change m = 1 at h1
    omega

/-- With frozen adaptation and no burn-in, each returned state of each chain has the target law if the first one has. -/
theorem frozen_stationary {m : ℕ} {o : Opts d} {env : Env d m (Pt d)} (hb : BoxCrit C J) (ht : BoxTarget C J env.logTarget)
    (hN : Normal env) (hsym : o.symmetric = true) (hfr : o.freeze = true) (hint : o.interval ≠ 0)
    {params : Fin m → PropPar d} {scale : Fin m → ℝ} (hp : ∀ c, (params c).Good) {Ω : Type} [MeasurableSpace Ω]
    {P : Measure Ω} [IsProbabilityMeasure P] {x0 : Fin m → Ω → Pt d} {w : ℕ → Fin m → Ω → Pt d × ℝ}
    (hx : ∀ c, Measurable (x0 c)) (hw : ∀ c, Draws P fun k ω => w k c ω)
    (hind : ∀ c, IndepFun (x0 c) (fun ω k => w k c ω) P)
    (hlaw : ∀ c, P.map (x0 c) = targetLaw volume (boxDens C J)) (n : ℕ) :
    ∃ X : Fin m → ℕ → Ω → Pt d, (∀ c t, Measurable (X c t) ∧ P.map (X c t) = targetLaw volume (boxDens C J)) ∧
      ∀ᵐ ω ∂P, ∃ s, scheduler o { env with noise := fun t c => w (t - 1) c ω } (initial fun c => x0 c ω) true params
        scale n 0 = .ok (s, fun c => (List.range n).map fun t => X c t ω) := by
  have hfac : ∀ c, ∃ S L : Matrix (Fin d) (Fin d) ℝ, S.PosDef ∧ L * Lᵀ = S ∧
      ∀ x w, env.prop (params c) x w = .ok (L *ᵥ w + x) := fun c => by
    obtain ⟨S, hS, hpd⟩ := hp c
    obtain ⟨L, hL, hpr⟩ := hN _ S hS hpd
    exact ⟨S, L, hpd, hL, hpr⟩
  choose S L hSpd hSL hLp using hfac
  refine ⟨fun c t ω => walk (boxDens C J) (L c) (x0 c ω) (fun i => w i c ω) t,
    fun c t => walk_stationary hb (hSpd c) (hSL c) (hx c) (hw c) (hind c) (hlaw c) t, ?_⟩
  have hin : ∀ c, ∀ᵐ ω ∂P, x0 c ω ∈ C := fun c => by
    have h0 : targetLaw volume (boxDens C J) Cᶜ = 0 := target_off hb.compact.measurableSet _
    rw [← hlaw c, Measure.map_apply (hx c) hb.compact.measurableSet.compl] at h0
    exact h0
  filter_upwards [ae_all_iff.mpr hin] with ω hω
  set env' : Env d m (Pt d) := { env with noise := fun t c => w (t - 1) c ω } with henv
  set s0 : St d m := initSt o env' (fun c => x0 c ω) params scale n 0 with hs0
  have hlive : Live env' (boxDens C J) s0 := fun c => ⟨boxDens_pos.mpr (hω c), Or.inr (Or.inl rfl)⟩
  obtain ⟨s, hs1, hs2⟩ := runSamples_frozen (env := env') (p := boxDens C J) ht.target hsym n (L := L) (s := s0)
    hLp hlive (show 0 + n < 1 + n by omega)
  obtain ⟨hr2, hb2, -⟩ := runSamples_ok hs1
  have hburn : runBurnin o env' 0 true 20 s0 = .ok s0 := by
    unfold runBurnin
    rw [if_neg hint, Nat.zero_div]
    have : burninRest o env' 0 (s0, false) = .ok s0 := by
      unfold burninRest
      rw [Nat.zero_mod]
      rfl
    change (do
      let s ← burninRest o env' 0 (s0, false)
      let _ ← burninDiag o true (20 * o.interval) s
      return s) = _
    rw [this]
    rfl
  have hrun : schedulerRun o env' (initial fun c => x0 c ω) true params scale n 0 = .ok s := by
    unfold schedulerRun
    rw [initial_ok]
    change (do
      let s ← runBurnin o env' 0 true 20 s0
      if o.freeze then runSamples o env' (n - 0) s
      else runAdaptive o env' (n - 0) { s with hFactor := o.hSampling }) = _
    rw [hburn]
    change (if o.freeze = true then _ else _) = _
    rw [if_pos hfr, Nat.sub_zero]
    exact hs1
  have hsi : s.iter = n := by
    rw [hr2.iter.1]
    exact Nat.zero_add n
  have hsb : s.burnin = 0 := hb2
  refine ⟨s, ?_⟩
  unfold scheduler
  rw [hrun]
  change Except.ok (s, fun c => (List.range' (if o.discard then s.burnin else 0)
    (s.iter - if o.discard then s.burnin else 0)).map (s.x c)) = _
  rw [hsi, hsb, ite_self, Nat.sub_zero]
  congr 2
  funext c
  rw [← List.range_eq_range']
  refine List.map_congr_left fun t htn => ?_
  have := hs2 c t (List.mem_range.mp htn).le
  rw [show s0.iter + t = t from Nat.zero_add t] at this
  rw [this]
  refine walk_congr _ _ _ t fun i _ => ?_
  show w (0 + 1 + i - 1) c ω = w i c ω
  rw [show 0 + 1 + i - 1 = i by omega]

end Invariant

/-! ## Two bounds on the normal law -/

theorem gauss_upper (a b : ℝ) : gaussianReal 0 1 (Set.Icc a b) ≤ ENNReal.ofReal ((b - a) / 2) := by
  rw [gaussianReal_apply 0 one_ne_zero]
  have h : ∀ x, gaussianPDF 0 1 x ≤ ENNReal.ofReal (1 / 2) := fun x => by
    unfold gaussianPDF gaussianPDFReal
    refine ENNReal.ofReal_le_ofReal ?_
    have h1 : (√(2 * Real.pi * ((1 : NNReal) : ℝ)))⁻¹ ≤ 1 / 2 := by
      rw [one_div]
      refine inv_anti₀ (by norm_num) ?_
      rw [Real.le_sqrt' (by norm_num)]
      have := Real.pi_gt_three
      norm_num
      linarith
    have h2 : Real.exp (-(x - 0) ^ 2 / (2 * ((1 : NNReal) : ℝ))) ≤ 1 := by
      rw [Real.exp_le_one_iff]
      exact div_nonpos_of_nonpos_of_nonneg (neg_nonpos.mpr (sq_nonneg _)) (by positivity)
    calc _ ≤ 1 / 2 * 1 := mul_le_mul h1 h2 (Real.exp_pos _).le (by norm_num)
      _ = _ := by norm_num
  refine (lintegral_mono h).trans ?_
  rw [setLIntegral_const, Real.volume_Icc, ← ENNReal.ofReal_mul (by norm_num)]
  exact ENNReal.ofReal_le_ofReal (by linarith)

theorem gauss_lower (a b : ℝ) (ha : -2 ≤ a) (hb : b ≤ 2) : ENNReal.ofReal ((b - a) / 30) ≤ gaussianReal 0 1 (Set.Icc a b) := by
  rw [gaussianReal_apply 0 one_ne_zero]
  have h : ∀ x ∈ Set.Icc a b, ENNReal.ofReal (1 / 30) ≤ gaussianPDF 0 1 x := fun x hx => by
    unfold gaussianPDF gaussianPDFReal
    refine ENNReal.ofReal_le_ofReal ?_
    have h1 : (1 : ℝ) / 3 ≤ (√(2 * Real.pi * ((1 : NNReal) : ℝ)))⁻¹ := by
      rw [one_div]
      refine inv_anti₀ (Real.sqrt_pos.mpr (by have := Real.pi_pos; norm_num; linarith)) ?_
      rw [Real.sqrt_le_left (by norm_num)]
      have := Real.pi_lt_d2
      norm_num
      linarith
    have h2 : (1 : ℝ) / 10 ≤ Real.exp (-(x - 0) ^ 2 / (2 * ((1 : NNReal) : ℝ))) := by
      have e1 : Real.exp (-2) ≤ Real.exp (-(x - 0) ^ 2 / (2 * ((1 : NNReal) : ℝ))) := by
        rw [Real.exp_le_exp]
        norm_num
        nlinarith [hx.1, hx.2]
      have e2 : (1 : ℝ) / 10 ≤ Real.exp (-2) := by
        rw [Real.exp_neg, one_div]
        refine inv_anti₀ (Real.exp_pos _) ?_
        have := Real.exp_one_lt_d9
        have e3 : Real.exp 2 = Real.exp 1 * Real.exp 1 := by rw [← Real.exp_add]; norm_num
        rw [e3]
        nlinarith [Real.exp_pos 1]
      exact e2.trans e1
    calc (1 : ℝ) / 30 = 1 / 3 * (1 / 10) := by norm_num
      _ ≤ _ := mul_le_mul h1 h2 (by norm_num) (by positivity)
  refine le_trans ?_ (setLIntegral_mono' measurableSet_Icc h)
  rw [setLIntegral_const, Real.volume_Icc, ← ENNReal.ofReal_mul (by norm_num)]
  exact ENNReal.ofReal_le_ofReal (by linarith)

theorem gauss_tail (R : ℝ) (hR : 0 < R) : gaussianReal 0 1 {t | R ≤ |t|} ≤ ENNReal.ofReal (1 / R ^ 2) := by
  have h := meas_ge_le_variance_div_sq (μ := gaussianReal 0 1) (X := id) (memLp_id_gaussianReal' 2 (by norm_num)) hR
  simp only [id, variance_id_gaussianReal, integral_id_gaussianReal, sub_zero] at h
  simpa using h

/-! ## A target with two parts -/

/-- A large part. -/
def partA : Set (Pt 1) := Set.Icc (fun _ => 0) fun _ => 1

/-- A small part, far away. -/
def partB : Set (Pt 1) := Set.Icc (fun _ => 100000) fun _ => 100000.01

/-- The domain. -/
def twoParts : Set (Pt 1) := partA ∪ partB

/-- The uniform density on the domain. -/
noncomputable def flat : Pt 1 → ℝ := boxDens twoParts fun _ => 0

/-- The uniform law on the domain. -/
noncomputable def flatLaw : Measure (Pt 1) := targetLaw volume flat

theorem mem_partA {x : Pt 1} : x ∈ partA ↔ 0 ≤ x 0 ∧ x 0 ≤ 1 := by
  simp [partA, Pi.le_def]

theorem mem_partB {x : Pt 1} : x ∈ partB ↔ 100000 ≤ x 0 ∧ x 0 ≤ 100000.01 := by
  simp [partB, Pi.le_def]

theorem parts_disjoint : Disjoint partA partB := Set.disjoint_left.mpr fun x hA hB => by
  rw [mem_partA] at hA
  rw [mem_partB] at hB
  linarith [hA.2, hB.1]

theorem measurable_partA : MeasurableSet partA := measurableSet_Icc

theorem measurable_partB : MeasurableSet partB := measurableSet_Icc

theorem flat_box : BoxCrit twoParts fun _ => 0 := by
  refine ⟨isCompact_Icc.union isCompact_Icc, ?_, continuousOn_const, fun _ _ _ _ => by norm_num⟩
  refine fun h => ?_
  have : volume partA ≤ volume twoParts := measure_mono Set.subset_union_left
  rw [h, partA, Real.volume_Icc_pi] at this
  simp at this

theorem flat_measurable : Measurable flat := boxDens_measurable flat_box.compact.measurableSet flat_box.cont

theorem vol_partA : volume partA = 1 := by
  rw [partA, Real.volume_Icc_pi]
  simp

theorem vol_partB : volume partB = ENNReal.ofReal (1 / 100) := by
  rw [partB, Real.volume_Icc_pi]
  norm_num

theorem flatLaw_apply (s : Set (Pt 1)) (hs : MeasurableSet s) (hsC : s ⊆ twoParts) :
    flatLaw s = ENNReal.ofReal (100 / 101) * volume s := by
  have hC : MeasurableSet twoParts := flat_box.compact.measurableSet
  have e : ∀ t : Set (Pt 1), MeasurableSet t → t ⊆ twoParts → ∫⁻ x in t, ENNReal.ofReal (flat x) = volume t := fun t ht htC => by
    rw [setLIntegral_congr_fun (g := fun _ => 1) ht fun x hx => by
      simp [flat, boxDens, Set.indicator_of_mem (htC hx)]]
    simp
  have hZ : ∫⁻ x, ENNReal.ofReal (flat x) = ENNReal.ofReal (101 / 100) := by
    rw [← setLIntegral_eq_of_support_subset (s := twoParts) (by
      intro x hx
      by_contra hn
      refine hx ?_
      simp [flat, boxDens, Set.indicator_of_notMem hn]), e _ hC subset_rfl, twoParts,
      measure_union parts_disjoint measurable_partB, vol_partA, vol_partB, ← ENNReal.ofReal_one,
      ← ENNReal.ofReal_add (by norm_num) (by norm_num)]
    norm_num
  rw [flatLaw, targetLaw, Measure.smul_apply, withDensity_apply _ hs, e s hs hsC, hZ, smul_eq_mul,
    ← ENNReal.ofReal_inv_of_pos (by norm_num)]
  norm_num

theorem flatLaw_partA : flatLaw partA = ENNReal.ofReal (100 / 101) := by
  rw [flatLaw_apply _ measurable_partA Set.subset_union_left, vol_partA, mul_one]

theorem flatLaw_partB : flatLaw partB = ENNReal.ofReal (1 / 101) := by
  rw [flatLaw_apply _ measurable_partB Set.subset_union_right, vol_partB, ← ENNReal.ofReal_mul (by norm_num)]
  norm_num

instance : IsProbabilityMeasure flatLaw :=
  (walk_averages (P := Measure.infinitePi fun _ : ℕ => drawLaw 1) (w := fun k ω => ω k) flat_box (S := 1) (L := 1)
    Matrix.PosDef.one (by simp) ⟨fun k => measurable_pi_apply k,
      iIndepFun_infinitePi (P := fun _ : ℕ => drawLaw 1) (X := fun _ x => x) fun _ => measurable_id,
      fun k => Measure.infinitePi_map_eval _ k⟩).1

/-! ## Steps with the adapted proposals -/

/-- The variance of the adapted proposal. -/
noncomputable def adVar (k : ℝ) (x z : Pt 1) : ℝ := k * ((x 0 - z 0) ^ 2 / 2) + 1e-6

/-- Its factor. -/
noncomputable def root (v : ℝ) : Matrix (Fin 1) (Fin 1) ℝ := Matrix.diagonal fun _ => √v

theorem root_apply (v : ℝ) (w x : Pt 1) : (root v *ᵥ w + x) 0 = √v * w 0 + x 0 := by
  simp [root]

theorem hop_cases (L : Matrix (Fin 1) (Fin 1) ℝ) (x : Pt 1) (w : Pt 1 × ℝ) :
    hop flat L x w = L *ᵥ w.1 + x ∨ hop flat L x w = x := by
  unfold hop jump
  split_ifs
  · exact Or.inl rfl
  · exact Or.inr rfl

theorem hop_inside (L : Matrix (Fin 1) (Fin 1) ℝ) {x : Pt 1} (hx : x ∈ twoParts) (w : Pt 1 × ℝ) :
    hop flat L x w ∈ twoParts := boxDens_pos.mp (jump_pos (boxDens_pos.mpr hx) _ _)

theorem hop_accept {L : Matrix (Fin 1) (Fin 1) ℝ} {x : Pt 1} (hx : x ∈ twoParts) {w : Pt 1 × ℝ}
    (hy : L *ᵥ w.1 + x ∈ twoParts) (hu : w.2 < 1) : hop flat L x w = L *ᵥ w.1 + x := by
  unfold hop jump
  rw [if_pos]
  refine ⟨boxDens_pos.mpr hy, ?_⟩
  rw [flat, boxDens, Set.indicator_of_mem hx, Set.indicator_of_mem hy, sub_self]
  refine Real.log_neg (lt_max_of_lt_right uFloor_pos) (max_lt hu ?_)
  unfold uFloor
  exact pow_lt_one₀ (by norm_num) (by norm_num) (by norm_num)

theorem draw_normal (T : Set ℝ) (hT : MeasurableSet T) : drawLaw 1 {w | w.1 0 ∈ T} = gaussianReal 0 1 T := by
  have e1 := (measurePreserving_fst (μ := Core.stdLaw (Fin 1)) (ν := volume.restrict (Set.Ico (0 : ℝ) 1)))
  have e2 := measurePreserving_eval (fun _ : Fin 1 => gaussianReal 0 1) 0
  have e3 := (e2.comp e1).measure_preimage hT.nullMeasurableSet
  exact e3

theorem draw_unit : ∀ᵐ w ∂drawLaw 1, w.2 < 1 := by
  have e1 := (measurePreserving_snd (μ := Core.stdLaw (Fin 1)) (ν := volume.restrict (Set.Ico (0 : ℝ) 1)))
  have h : ∀ᵐ u ∂volume.restrict (Set.Ico (0 : ℝ) 1), u < 1 := by
    filter_upwards [ae_restrict_mem measurableSet_Ico] with u hu
    exact hu.2
  exact e1.quasiMeasurePreserving.ae h

/-- From the large part to the small one, with a variance taken from two points of the large part. -/
theorem leave_far {k : ℝ} (hk : k ≤ 3 / 2) {x z : Pt 1} (hx : x ∈ partA) (hz : z ∈ partA) :
    drawLaw 1 {w | hop flat (root (adVar k x z)) x w ∈ partB} ≤ ENNReal.ofReal (2e-10) := by
  have hx' := mem_partA.mp hx
  have hz' := mem_partA.mp hz
  have hv : √(adVar k x z) ≤ 1 := by
    rw [Real.sqrt_le_left (by norm_num)]
    unfold adVar
    have : (x 0 - z 0) ^ 2 ≤ 1 := by nlinarith
    have h0 := sq_nonneg (x 0 - z 0)
    norm_num
    nlinarith
  calc drawLaw 1 {w | hop flat (root (adVar k x z)) x w ∈ partB} ≤ drawLaw 1 {w | w.1 0 ∈ {t : ℝ | 99999 ≤ |t|}} := by
        refine measure_mono fun w hw => ?_
        rcases hop_cases (root (adVar k x z)) x w with h | h
        · have hw' : hop flat (root (adVar k x z)) x w ∈ partB := hw
          rw [h, mem_partB, root_apply] at hw'
          show 99999 ≤ |w.1 0|
          have h1 := hw'.1
          have h2 : √(adVar k x z) * w.1 0 ≤ |w.1 0| := by
            calc _ ≤ |√(adVar k x z) * w.1 0| := le_abs_self _
              _ = √(adVar k x z) * |w.1 0| := by rw [abs_mul, abs_of_nonneg (Real.sqrt_nonneg _)]
              _ ≤ 1 * |w.1 0| := mul_le_mul_of_nonneg_right hv (abs_nonneg _)
              _ = _ := one_mul _
          linarith [hx'.2]
        · have hw' : hop flat (root (adVar k x z)) x w ∈ partB := hw
          rw [h] at hw'
          exact absurd hw' (Set.disjoint_left.mp parts_disjoint hx)
    _ = gaussianReal 0 1 {t | 99999 ≤ |t|} := draw_normal _ (measurableSet_le measurable_const measurable_id.abs)
    _ ≤ _ := (gauss_tail _ (by norm_num)).trans (ENNReal.ofReal_le_ofReal (by norm_num))

/-- The same with a variance taken from points of both parts. -/
theorem leave_both {k : ℝ} (hk0 : 4 / 5 ≤ k) {x z : Pt 1} (hx : x ∈ partA) (hz : z ∈ partB) :
    drawLaw 1 {w | hop flat (root (adVar k x z)) x w ∈ partB} ≤ ENNReal.ofReal (1e-7) := by
  have hx' := mem_partA.mp hx
  have hz' := mem_partB.mp hz
  have hv : (50000 : ℝ) ≤ √(adVar k x z) := by
    rw [Real.le_sqrt' (by norm_num)]
    unfold adVar
    have : (99999 : ℝ) ^ 2 ≤ (x 0 - z 0) ^ 2 := by nlinarith
    norm_num at this ⊢
    nlinarith
  set l := √(adVar k x z) with hl
  have hl0 : 0 < l := by linarith
  calc drawLaw 1 {w | hop flat (root (adVar k x z)) x w ∈ partB} ≤
      drawLaw 1 {w | w.1 0 ∈ Set.Icc ((100000 - x 0) / l) ((100000.01 - x 0) / l)} := by
        refine measure_mono fun w hw => ?_
        have hw' : hop flat (root (adVar k x z)) x w ∈ partB := hw
        rcases hop_cases (root (adVar k x z)) x w with h | h
        · rw [h, mem_partB, root_apply] at hw'
          constructor
          · rw [div_le_iff₀ hl0]; linarith [hw'.1]
          · rw [le_div_iff₀ hl0]; linarith [hw'.2]
        · rw [h] at hw'
          exact absurd hw' (Set.disjoint_left.mp parts_disjoint hx)
    _ = gaussianReal 0 1 (Set.Icc ((100000 - x 0) / l) ((100000.01 - x 0) / l)) := draw_normal _ measurableSet_Icc
    _ ≤ _ := by
      refine (gauss_upper _ _).trans (ENNReal.ofReal_le_ofReal ?_)
      rw [← sub_div, div_div, div_le_iff₀ (by positivity)]
      norm_num
      linarith

/-- From the small part to the large one. -/
theorem return_far {k : ℝ} (hk0 : 4 / 5 ≤ k) (hk : k ≤ 3 / 2) {x z : Pt 1} (hx : x ∈ partB) (hz : z ∈ partA) :
    ENNReal.ofReal (3e-7) ≤ drawLaw 1 {w | hop flat (root (adVar k x z)) x w ∈ partA} := by
  have hx' := mem_partB.mp hx
  have hz' := mem_partA.mp hz
  have hd1 : (99999 : ℝ) ^ 2 ≤ (x 0 - z 0) ^ 2 := by nlinarith
  have hd2 : (x 0 - z 0) ^ 2 ≤ (100000.01 : ℝ) ^ 2 := by nlinarith
  have hv : (60000 : ℝ) ≤ √(adVar k x z) := by
    rw [Real.le_sqrt' (by norm_num)]
    unfold adVar
    norm_num at hd1 ⊢
    nlinarith
  have hv2 : √(adVar k x z) ≤ 100000 := by
    rw [Real.sqrt_le_left (by norm_num)]
    unfold adVar
    have h0 := sq_nonneg (x 0 - z 0)
    norm_num at hd2 ⊢
    nlinarith
  set l := √(adVar k x z) with hl
  have hl0 : 0 < l := by linarith
  calc ENNReal.ofReal (3e-7) ≤ gaussianReal 0 1 (Set.Icc ((0 - x 0) / l) ((1 - x 0) / l)) := by
        refine le_trans (ENNReal.ofReal_le_ofReal ?_) (gauss_lower _ _ ?_ ?_)
        · rw [← sub_div, div_div, le_div_iff₀ (by positivity)]
          norm_num
          linarith
        · rw [le_div_iff₀ hl0]
          norm_num at hx' ⊢
          linarith [hx'.2]
        · rw [div_le_iff₀ hl0]
          linarith [hx'.1]
    _ = drawLaw 1 {w | w.1 0 ∈ Set.Icc ((0 - x 0) / l) ((1 - x 0) / l)} := (draw_normal _ measurableSet_Icc).symm
    _ ≤ _ := by
      refine measure_mono_ae ?_
      filter_upwards [draw_unit] with w hu hw
      have hw' : w.1 0 ∈ Set.Icc ((0 - x 0) / l) ((1 - x 0) / l) := hw
      have hy : root (adVar k x z) *ᵥ w.1 + x ∈ partA := by
        rw [mem_partA, root_apply]
        have h1 := hw'.1
        have h2 := hw'.2
        rw [div_le_iff₀ hl0] at h1
        rw [le_div_iff₀ hl0] at h2
        constructor <;> linarith
      show hop flat (root (adVar k x z)) x w ∈ partA
      rw [hop_accept (Or.inr hx) (Or.inl hy) hu]
      exact hy

theorem root_posDef {v : ℝ} (hv : 0 < v) : (Matrix.diagonal fun _ : Fin 1 => v).PosDef ∧
    root v * (root v)ᵀ = Matrix.diagonal fun _ => v := by
  refine ⟨Matrix.PosDef.diagonal fun _ => hv, ?_⟩
  rw [root, Matrix.diagonal_transpose, Matrix.diagonal_mul_diagonal]
  congr 1
  funext i
  exact Real.mul_self_sqrt hv.le

theorem hop_root_measurable : Measurable fun z : ℝ × Pt 1 × (Pt 1 × ℝ) => hop flat (root z.1) z.2.1 z.2.2 := by
  classical
  unfold hop jump
  have hy : Measurable fun z : ℝ × Pt 1 × (Pt 1 × ℝ) => root z.1 *ᵥ z.2.2.1 + z.2.1 := by
    refine measurable_pi_iff.mpr fun i => ?_
    obtain rfl : i = 0 := Subsingleton.elim _ _
    simp only [root_apply]
    fun_prop
  have hx : Measurable fun z : ℝ × Pt 1 × (Pt 1 × ℝ) => z.2.1 := measurable_fst.comp measurable_snd
  have hu : Measurable fun z : ℝ × Pt 1 × (Pt 1 × ℝ) => z.2.2.2 := by fun_prop
  refine Measurable.ite ?_ hy hx
  have h1 := measurableSet_lt (measurable_const (a := (0 : ℝ))) (flat_measurable.comp hy)
  have h2 := measurableSet_lt (Real.measurable_log.comp (hu.max (measurable_const (a := uFloor))))
    ((Real.measurable_log.comp (flat_measurable.comp hy)).sub (Real.measurable_log.comp (flat_measurable.comp hx)))
  exact h1.inter h2

/-- State and draws of one chain. -/
abbrev Chain1 := Pt 1 × (Pt 1 × ℝ)

/-- The state after the first step. -/
noncomputable def hopOnce (v : ℝ) (q : Chain1) : Pt 1 := hop flat (root v) q.1 q.2

theorem hopOnce_law {v : ℝ} (hv : 0 < v) : (flatLaw.prod (drawLaw 1)).map (hopOnce v) = flatLaw :=
  hop_invariant flat_box (root_posDef hv).1 (root_posDef hv).2

theorem hopOnce_measurable (v : ℝ) : Measurable (hopOnce v) := hop_measurable flat_measurable (root v)

/-- The state of the first chain after the second step; `k` is the scaling factor, which depends on the first step. -/
noncomputable def hopTwice (k : Chain1 → ℝ) (v : ℝ) (q : Chain1 × Chain1) (w : Pt 1 × ℝ) : Pt 1 :=
  hop flat (root (adVar (k q.1) (hopOnce v q.1) (hopOnce v q.2))) (hopOnce v q.1) w

theorem adVar_measurable : Measurable fun z : ℝ × Pt 1 × Pt 1 => adVar z.1 z.2.1 z.2.2 := by
  unfold adVar
  generalize (1e-6 : ℝ) = e
  fun_prop

theorem hopTwice_measurable {k : Chain1 → ℝ} (hk : Measurable k) (v : ℝ) :
    Measurable fun z : (Chain1 × Chain1) × (Pt 1 × ℝ) => hopTwice k v z.1 z.2 := by
  have h0 : Measurable fun z : (Chain1 × Chain1) × (Pt 1 × ℝ) => z.1.1 := by fun_prop
  have h0' : Measurable fun z : (Chain1 × Chain1) × (Pt 1 × ℝ) => z.1.2 := by fun_prop
  have h1 := (hopOnce_measurable v).comp h0
  have h2 := (hopOnce_measurable v).comp h0'
  have h3 := hk.comp h0
  have h5 : Measurable fun z : (Chain1 × Chain1) × (Pt 1 × ℝ) => z.2 := measurable_snd
  have h4 := adVar_measurable.comp (h3.prodMk (h1.prodMk h2))
  have h6 := hop_root_measurable.comp (h4.prodMk (h1.prodMk h5))
  exact h6

/-- Two chains with the target law, and the draws of two steps. -/
noncomputable def startLaw : Measure ((Chain1 × Chain1) × (Pt 1 × ℝ)) :=
  ((flatLaw.prod (drawLaw 1)).prod (flatLaw.prod (drawLaw 1))).prod (drawLaw 1)

instance : IsProbabilityMeasure startLaw := by
  unfold startLaw
  infer_instance

theorem pair_law {v : ℝ} (hv : 0 < v) (s t : Set (Pt 1)) (hs : MeasurableSet s) (ht : MeasurableSet t) :
    ((flatLaw.prod (drawLaw 1)).prod (flatLaw.prod (drawLaw 1))) {q | hopOnce v q.1 ∈ s ∧ hopOnce v q.2 ∈ t} =
      flatLaw s * flatLaw t := by
  have e : {q : Chain1 × Chain1 | hopOnce v q.1 ∈ s ∧ hopOnce v q.2 ∈ t} = (hopOnce v ⁻¹' s) ×ˢ (hopOnce v ⁻¹' t) := rfl
  rw [e, Measure.prod_prod, ← Measure.map_apply (hopOnce_measurable v) hs, ← Measure.map_apply (hopOnce_measurable v) ht,
    hopOnce_law hv]

/-- The second step brings more into the large part than it takes out of it. -/
theorem flow_unbalanced {k : Chain1 → ℝ} (hk : Measurable k) (hk0 : ∀ q, 4 / 5 ≤ k q) (hk1 : ∀ q, k q ≤ 3 / 2) {v : ℝ}
    (hv : 0 < v) : flatLaw partA < startLaw {z | hopTwice k v z.1 z.2 ∈ partA} := by
  set Q := (flatLaw.prod (drawLaw 1)).prod (flatLaw.prod (drawLaw 1)) with hQ
  have hm := hopTwice_measurable hk v
  have hmX : Measurable fun z : (Chain1 × Chain1) × (Pt 1 × ℝ) => hopOnce v z.1.1 :=
    (hopOnce_measurable v).comp (measurable_fst.comp measurable_fst)
  set AA : Set ((Chain1 × Chain1) × (Pt 1 × ℝ)) := {z | hopOnce v z.1.1 ∈ partA ∧ hopTwice k v z.1 z.2 ∈ partA} with hAA
  set AB : Set ((Chain1 × Chain1) × (Pt 1 × ℝ)) := {z | hopOnce v z.1.1 ∈ partA ∧ hopTwice k v z.1 z.2 ∈ partB} with hAB
  set BA : Set ((Chain1 × Chain1) × (Pt 1 × ℝ)) := {z | hopOnce v z.1.1 ∈ partB ∧ hopTwice k v z.1 z.2 ∈ partA} with hBA
  have mAA : MeasurableSet AA := (hmX measurable_partA).inter (hm measurable_partA)
  have mAB : MeasurableSet AB := (hmX measurable_partA).inter (hm measurable_partB)
  have mBA : MeasurableSet BA := (hmX measurable_partB).inter (hm measurable_partA)
  -- the mass of the large part before the step
  have h1 : flatLaw partA ≤ startLaw AA + startLaw AB := by
    have e1 : flatLaw partA = startLaw {z | hopOnce v z.1.1 ∈ partA} := by
      have := pair_law hv partA Set.univ measurable_partA MeasurableSet.univ
      rw [measure_univ, mul_one] at this
      rw [← this]
      have e2 : {z : (Chain1 × Chain1) × (Pt 1 × ℝ) | hopOnce v z.1.1 ∈ partA} =
          {q : Chain1 × Chain1 | hopOnce v q.1 ∈ partA ∧ hopOnce v q.2 ∈ Set.univ} ×ˢ Set.univ := by
        ext z
        simp
      rw [e2, startLaw, Measure.prod_prod, measure_univ, mul_one]
    rw [e1]
    refine (measure_mono fun z hz => ?_).trans (measure_union_le AA AB)
    have hz' : hopOnce v z.1.1 ∈ partA := hz
    rcases hop_inside (root (adVar (k z.1.1) (hopOnce v z.1.1) (hopOnce v z.1.2))) (Or.inl hz') z.2 with h | h
    · exact Or.inl ⟨hz', h⟩
    · exact Or.inr ⟨hz', h⟩
  have h2 : startLaw AA + startLaw BA ≤ startLaw {z | hopTwice k v z.1 z.2 ∈ partA} := by
    rw [← measure_union (Set.disjoint_left.mpr fun z h h' => Set.disjoint_left.mp parts_disjoint h.1 h'.1) mBA]
    exact measure_mono fun z hz => hz.elim (fun h => h.2) fun h => h.2
  -- what leaves it
  have mPair : ∀ s t : Set (Pt 1), MeasurableSet s → MeasurableSet t →
      MeasurableSet {q : Chain1 × Chain1 | hopOnce v q.1 ∈ s ∧ hopOnce v q.2 ∈ t} := fun s t hs ht =>
    ((hopOnce_measurable v).comp measurable_fst hs).inter ((hopOnce_measurable v).comp measurable_snd ht)
  have hZin : ∀ᵐ q ∂Q, hopOnce v q.2 ∈ twoParts := by
    have := pair_law hv Set.univ twoPartsᶜ MeasurableSet.univ flat_box.compact.measurableSet.compl
    rw [show flatLaw twoPartsᶜ = 0 from target_off flat_box.compact.measurableSet _, mul_zero] at this
    rw [ae_iff]
    refine measure_mono_null (fun q hq => ?_) this
    exact ⟨trivial, hq⟩
  have h3 : startLaw AB ≤ ENNReal.ofReal (2e-10) + ENNReal.ofReal (1e-7 * (1 / 101)) := by
    rw [startLaw, Measure.prod_apply mAB]
    calc _ ≤ ∫⁻ q, Set.indicator {q : Chain1 × Chain1 | hopOnce v q.1 ∈ Set.univ ∧ hopOnce v q.2 ∈ partA}
            (fun _ => ENNReal.ofReal (2e-10)) q +
          Set.indicator {q : Chain1 × Chain1 | hopOnce v q.1 ∈ Set.univ ∧ hopOnce v q.2 ∈ partB} (fun _ => ENNReal.ofReal (1e-7)) q ∂Q := by
          refine lintegral_mono_ae ?_
          filter_upwards [hZin] with q hq
          by_cases hX : hopOnce v q.1 ∈ partA
          · have e : Prod.mk q ⁻¹' AB = {w | hopTwice k v q w ∈ partB} := by
              ext w
              exact ⟨fun h => h.2, fun h => ⟨hX, h⟩⟩
            rw [e]
            rcases hq with hq | hq
            · refine le_add_right ?_
              rw [Set.indicator_of_mem (show q ∈ {q : Chain1 × Chain1 | hopOnce v q.1 ∈ Set.univ ∧ hopOnce v q.2 ∈ partA} from
                ⟨trivial, hq⟩)]
              exact leave_far (hk1 _) hX hq
            · refine le_add_left ?_
              rw [Set.indicator_of_mem (show q ∈ {q : Chain1 × Chain1 | hopOnce v q.1 ∈ Set.univ ∧ hopOnce v q.2 ∈ partB} from
                ⟨trivial, hq⟩)]
              exact leave_both (hk0 _) hX hq
          · have e : Prod.mk q ⁻¹' AB = ∅ := by
              ext w
              exact ⟨fun h => hX h.1, fun h => h.elim⟩
            rw [e, measure_empty]
            exact zero_le
      _ = ENNReal.ofReal (2e-10) * flatLaw partA + ENNReal.ofReal (1e-7) * flatLaw partB := by
          rw [lintegral_add_left (measurable_const.indicator (mPair _ _ MeasurableSet.univ measurable_partA)),
            lintegral_indicator_const (mPair _ _ MeasurableSet.univ measurable_partA),
            lintegral_indicator_const (mPair _ _ MeasurableSet.univ measurable_partB),
            pair_law hv _ _ MeasurableSet.univ measurable_partA, pair_law hv _ _ MeasurableSet.univ measurable_partB,
            measure_univ, one_mul, one_mul]
      _ ≤ _ := by
          rw [flatLaw_partB, ← ENNReal.ofReal_mul (by norm_num)]
          gcongr
          exact mul_le_of_le_one_right zero_le prob_le_one
  -- what enters it
  have h4 : ENNReal.ofReal (3e-7 * (1 / 101 * (100 / 101))) ≤ startLaw BA := by
    rw [startLaw, Measure.prod_apply mBA]
    calc _ = ENNReal.ofReal (3e-7) * (flatLaw partB * flatLaw partA) := by
          rw [flatLaw_partA, flatLaw_partB, ← ENNReal.ofReal_mul (by norm_num), ← ENNReal.ofReal_mul (by norm_num)]
      _ = ∫⁻ q, Set.indicator {q : Chain1 × Chain1 | hopOnce v q.1 ∈ partB ∧ hopOnce v q.2 ∈ partA}
            (fun _ => ENNReal.ofReal (3e-7)) q ∂Q := by
          rw [lintegral_indicator_const (mPair _ _ measurable_partB measurable_partA),
            pair_law hv _ _ measurable_partB measurable_partA]
      _ ≤ _ := by
          refine lintegral_mono fun q => ?_
          by_cases hq : q ∈ {q : Chain1 × Chain1 | hopOnce v q.1 ∈ partB ∧ hopOnce v q.2 ∈ partA}
          · rw [Set.indicator_of_mem hq]
            have e : Prod.mk q ⁻¹' BA = {w | hopTwice k v q w ∈ partA} := by
              ext w
              exact ⟨fun h => h.2, fun h => ⟨hq.1, h⟩⟩
            rw [e]
            exact return_far (hk0 _) (hk1 _) hq.1 hq.2
          · rw [Set.indicator_of_notMem hq]
            exact zero_le
  have h5 : startLaw AB < startLaw BA := by
    refine h3.trans_lt (lt_of_lt_of_le ?_ h4)
    rw [← ENNReal.ofReal_add (by norm_num) (by norm_num)]
    exact (ENNReal.ofReal_lt_ofReal_iff (by norm_num)).mpr (by norm_num)
  calc flatLaw partA ≤ startLaw AA + startLaw AB := h1
    _ < startLaw AA + startLaw BA := ENNReal.add_lt_add_left (measure_ne_top _ _) h5
    _ ≤ _ := h2

/-! ## The run -/

/-- Normal proposals in one dimension. -/
noncomputable def rootProp (par : PropPar 1) (x w : Pt 1) : Py (Pt 1) :=
  match par.cov with
  | some S => .ok (root (S 0 0) *ᵥ w + x)
  | none => .error .valueError

open Classical in
/-- Two chains with the uniform target. -/
noncomputable def flatEnv (noise : ℕ → Fin 2 → Pt 1 × ℝ) : Env 1 2 (Pt 1) where
  logTarget := fun x => if x ∈ twoParts then .ok (.fin (-0)) else .ok (.num ⊥)
  prop := rootProp
  logProp := fun _ _ _ => .error .valueError
  noise := noise
  junk := fun _ _ => 0

/-- The options of `sample_from_selection_criterion_mh` with pools of two chains, adapted after each step. -/
def adOpts : Opts 1 := { Posterior.mhOpts 1 2 with interval := 1 }

theorem flat_target (noise : ℕ → Fin 2 → Pt 1 × ℝ) : TargetOf (flatEnv noise).logTarget flat :=
  (boxTarget_exists twoParts fun _ => 0).target

open Classical in
/-- Whether a step is accepted. -/
noncomputable def accepted (v : ℝ) (q : Chain1) : ℝ :=
  if 0 < flat (root v *ᵥ q.2.1 + q.1) ∧
    Real.log (max q.2.2 uFloor) < Real.log (flat (root v *ᵥ q.2.1 + q.1)) - Real.log (flat q.1) then 1 else 0

/-- The scaling factor after the first step. -/
noncomputable def factor (v : ℝ) (q : Chain1) : ℝ := Real.exp (1 / 2 * (accepted v q - 3 / 10))

theorem pair_cov (a b : Pt 1) : ∃ M, covRows [a, b] = some M ∧ M 0 0 = (a 0 - b 0) ^ 2 / 2 := by
  refine ⟨_, rfl, ?_⟩
  simp [meanRows]
  ring

/-- One adaptation block of one step. -/
theorem block_run (noise : ℕ → Fin 2 → Pt 1 × ℝ) {s : St 1 2} {v : Fin 2 → ℝ}
    (hv : ∀ c, ∃ S, (s.params c).cov = some S ∧ S 0 0 = v c) (hs : Live (flatEnv noise) flat s)
    (hsz : s.iter + 1 < s.size) :
    ∃ s', runBlock adOpts (flatEnv noise) false s = .ok s' ∧ Live (flatEnv noise) flat s' ∧ s'.iter = s.iter + 1 ∧
      s'.size = s.size ∧ s'.hFactor = s.hFactor ∧ (∀ c, ∀ t ≤ s.iter, s'.x c t = s.x c t) ∧
      (∀ c, s'.x c (s.iter + 1) = hop flat (root (v c)) (s.x c s.iter) (noise (s.iter + 1) c)) ∧
      (∀ c, s'.scale c = s.scale c *
        Real.exp (s.hFactor * (accepted (v c) (s.x c s.iter, noise (s.iter + 1) c) - 3 / 10))) ∧
      ∀ c, ∃ S, (s'.params c).cov = some S ∧ S 0 0 = adVar (s'.scale c) (s'.x 0 (s.iter + 1)) (s'.x 1 (s.iter + 1)) := by
  have hprop : ∀ c x w, (flatEnv noise).prop (s.params c) x w = .ok (root (v c) *ᵥ w + x) := fun c x w => by
    obtain ⟨S, h1, h2⟩ := hv c
    show rootProp (s.params c) x w = _
    unfold rootProp
    rw [h1]
    show Except.ok (root (S 0 0) *ᵥ w + x) = _
    rw [h2]
  obtain ⟨s1, h1, hl, hx⟩ := stepAll_frozen (o := adOpts) (flat_target noise) rfl (L := fun c => root (v c)) hprop hs hsz
  obtain ⟨st, -, hpar, hsc, hhf⟩ := stepAll_ok h1
  have hacc : ∀ c, blockRate s1 1 c = accepted (v c) (s.x c s.iter, noise (s.iter + 1) c) := fun c => by
    unfold blockRate acceptCount accepted
    rw [st.iter]
    have h := (hx c).2
    have e : s.iter + 1 + 1 - (s.iter + 1 - 1 + 1) = 1 := by omega
    rw [e, show s.iter + 1 - 1 + 1 = s.iter + 1 by omega]
    split_ifs with hc
    · have := h.mpr hc
      simp [List.range', this]
    · have : s1.accept c (s.iter + 1) = false := by
        rw [← Bool.not_eq_true]
        exact fun h' => hc (h.mp h')
      simp [List.range', this]
  have hrun : runSamples adOpts (flatEnv noise) 1 s = .ok s1 := by
    unfold runSamples
    rw [show List.range' (s.iter + 1) 1 = [s.iter + 1] from rfl, List.foldlM_cons, h1]
    rfl
  have hrows : ∀ c : Fin 2, groupRows s1 (s1.iter - 1 + 1) (s1.iter + 1) (c / 2 * 2) 2 =
      [s1.x 0 (s.iter + 1), s1.x 1 (s.iter + 1)] := fun c => by
    unfold groupRows
    have e0 : (c : ℕ) / 2 * 2 = 0 := by omega
    rw [st.iter, e0, show s.iter + 1 + 1 - (s.iter + 1 - 1 + 1) = 1 by omega, show s.iter + 1 - 1 + 1 = s.iter + 1 by omega]
    simp [List.range', List.finRange_succ]
  have hcond : ¬ (2 % 2 ≠ 0) := by norm_num
  refine ⟨{ s1 with
    scale := fun c => s1.scale c * Real.exp (s1.hFactor * (blockRate s1 1 c - 0.3))
    params := fun c => haarioCov (s1.scale c * Real.exp (s1.hFactor * (blockRate s1 1 c - 0.3))) 1e-6
      (covRows (groupRows s1 (s1.iter - 1 + 1) (s1.iter + 1) (c / 2 * 2) 2)) }, ?_, hl, st.iter, st.size, hhf,
    fun c t ht => (st.frame c t (by omega)).1, fun c => (hx c).1, fun c => ?_, fun c => ?_⟩
  · change runHaario adOpts (flatEnv noise) 1 s = _
    unfold runHaario
    rw [hrun]
    rfl
  · dsimp only
    rw [hsc, hhf, hacc]
    norm_num
  · dsimp only
    rw [hrows c]
    obtain ⟨M, hM, hM0⟩ := pair_cov (s1.x 0 (s.iter + 1)) (s1.x 1 (s.iter + 1))
    rw [hM]
    refine ⟨_, rfl, ?_⟩
    unfold adVar
    rw [Matrix.add_apply, Matrix.smul_apply, Matrix.smul_apply, hM0]
    simp


/-- The run without burn-in, from any states where the target is positive. -/
theorem adaptive_run (noise : ℕ → Fin 2 → Pt 1 × ℝ) {x0 : Fin 2 → Pt 1} (hx0 : ∀ c, x0 c ∈ twoParts) :
    ∃ s ret, scheduler adOpts (flatEnv noise) (initial x0) true (fun _ => .diag fun _ => 0.1) (initScale adOpts) 3 0 =
        .ok (s, ret) ∧
      ret 0 = [x0 0, hopOnce 0.1 (x0 0, noise 1 0),
        hopTwice (factor 0.1) 0.1 ((x0 0, noise 1 0), (x0 1, noise 1 1)) (noise 2 0)] := by
  set s0 : St 1 2 := { initSt adOpts (flatEnv noise) x0 (fun _ => .diag fun _ => 0.1) (initScale adOpts) 3 0 with
    hFactor := 0.5 } with hs0
  have hlive : Live (flatEnv noise) flat s0 := fun c =>
    ⟨boxDens_pos.mpr (hx0 c), Or.inr (Or.inl rfl)⟩
  obtain ⟨s1, h1, l1, i1, z1, f1, fr1, x1, sc1, p1⟩ := block_run noise (s := s0) (v := fun _ => 0.1)
    (fun c => ⟨Matrix.diagonal fun _ => 0.1, rfl, by simp⟩) hlive (by show 0 + 1 < 1 + 3; norm_num)
  have i1' : s1.iter = 1 := i1
  have z1' : s1.size = 4 := z1
  obtain ⟨s2, h2, l2, i2, z2, f2, fr2, x2, sc2, p2⟩ := block_run noise
    (v := fun c => adVar (s1.scale c) (s1.x 0 (s0.iter + 1)) (s1.x 1 (s0.iter + 1))) p1 l1 (by rw [i1', z1']; norm_num)
  have i2' : s2.iter = 2 := by rw [i2, i1']
  obtain ⟨s3, h3, l3, i3, z3, f3, fr3, x3, sc3, p3⟩ := block_run noise
    (v := fun c => adVar (s2.scale c) (s2.x 0 (s1.iter + 1)) (s2.x 1 (s1.iter + 1))) p2 l2 (by rw [i2', z2, z1']; norm_num)
  have i3' : s3.iter = 3 := by rw [i3, i2']
  have hrun : schedulerRun adOpts (flatEnv noise) (initial x0) true (fun _ => .diag fun _ => 0.1) (initScale adOpts) 3 0 =
      .ok s3 := by
    unfold schedulerRun
    rw [initial_ok]
    have hburn : runBurnin adOpts (flatEnv noise) 0 true 20
        (initSt adOpts (flatEnv noise) x0 (fun _ => .diag fun _ => 0.1) (initScale adOpts) 3 0) =
        .ok (initSt adOpts (flatEnv noise) x0 (fun _ => .diag fun _ => 0.1) (initScale adOpts) 3 0) := rfl
    change (do
      let s ← runBurnin adOpts (flatEnv noise) 0 true 20
        (initSt adOpts (flatEnv noise) x0 (fun _ => .diag fun _ => 0.1) (initScale adOpts) 3 0)
      runAdaptive adOpts (flatEnv noise) 3 { s with hFactor := 0.5 }) = _
    rw [hburn]
    change runAdaptive adOpts (flatEnv noise) 3 s0 = _
    unfold runAdaptive
    rw [if_neg (show ¬ adOpts.interval = 0 by decide)]
    change (do
      let s ← adaptBlocks adOpts (flatEnv noise) (3 / adOpts.interval) s0
      if 0 < 3 % adOpts.interval then runSamples adOpts (flatEnv noise) (3 % adOpts.interval) s else pure s) = _
    simp only [show adOpts.interval = 1 from rfl, show ¬ 0 < 3 % 1 by decide, if_false, bind_pure]
    change adaptBlocks adOpts (flatEnv noise) 3 s0 = _
    unfold adaptBlocks
    rw [h1]
    change adaptBlocks adOpts (flatEnv noise) 2 s1 = _
    unfold adaptBlocks
    rw [h2]
    change adaptBlocks adOpts (flatEnv noise) 1 s2 = _
    unfold adaptBlocks
    rw [h3]
    rfl
  refine ⟨s3, fun c => (List.range' 0 (s3.iter - 0)).map (s3.x c), ?_, ?_⟩
  · unfold scheduler
    rw [hrun]
    rfl
  · have e0 : s3.x 0 0 = x0 0 := by
      rw [fr3 0 0 (Nat.zero_le _), fr2 0 0 (Nat.zero_le _), fr1 0 0 (Nat.zero_le _)]
      rfl
    have a1 : ∀ c, s1.x c 1 = hopOnce 0.1 (x0 c, noise 1 c) := fun c => x1 c
    have e1 : s3.x 0 1 = hopOnce 0.1 (x0 0, noise 1 0) := by
      rw [fr3 0 1 (by omega), fr2 0 1 (by omega), a1]
    have k1 : s1.scale 0 = factor 0.1 (x0 0, noise 1 0) := by
      rw [sc1 0]
      show 1 * Real.exp (0.5 * (accepted 0.1 (x0 0, noise 1 0) - 3 / 10)) = _
      unfold factor
      norm_num
    have e2 : s3.x 0 2 = hopTwice (factor 0.1) 0.1 ((x0 0, noise 1 0), (x0 1, noise 1 1)) (noise 2 0) := by
      rw [fr3 0 2 (by omega)]
      have := x2 0
      rw [i1', k1] at this
      rw [this]
      show hop flat (root (adVar _ (s1.x 0 1) (s1.x 1 1))) (s1.x 0 1) _ = _
      rw [a1, a1]
      rfl
    rw [i3']
    show [s3.x 0 0, s3.x 0 1, s3.x 0 2] = _
    rw [e0, e1, e2]

theorem accepted_range (v : ℝ) (q : Chain1) : accepted v q = 0 ∨ accepted v q = 1 := by
  unfold accepted
  split_ifs
  · exact Or.inr rfl
  · exact Or.inl rfl

theorem factor_lower (v : ℝ) (q : Chain1) : 4 / 5 ≤ factor v q := by
  unfold factor
  rcases accepted_range v q with h | h <;> rw [h]
  · have := Real.add_one_le_exp (1 / 2 * ((0 : ℝ) - 3 / 10))
    linarith
  · have := Real.add_one_le_exp (1 / 2 * ((1 : ℝ) - 3 / 10))
    linarith

theorem factor_upper (v : ℝ) (q : Chain1) : factor v q ≤ 3 / 2 := by
  unfold factor
  rcases accepted_range v q with h | h <;> rw [h]
  · refine (Real.exp_le_one_iff.mpr (by norm_num)).trans (by norm_num)
  · have h1 := Real.add_one_le_exp (-(175 / 1000 : ℝ))
    have e : Real.exp (-(175 / 1000 : ℝ)) * Real.exp (-(175 / 1000)) * Real.exp (1 / 2 * ((1 : ℝ) - 3 / 10)) = 1 := by
      rw [← Real.exp_add, ← Real.exp_add, ← Real.exp_zero]
      congr 1
      norm_num
    have h0 := Real.exp_pos (1 / 2 * ((1 : ℝ) - 3 / 10))
    generalize Real.exp (1 / 2 * ((1 : ℝ) - 3 / 10)) = E at *
    generalize Real.exp (-(175 / 1000 : ℝ)) = r at *
    nlinarith [mul_le_mul h1 h1 (by norm_num) (le_trans (by norm_num) h1)]

theorem factor_measurable (v : ℝ) : Measurable (factor v) := by
  have hy : Measurable fun q : Chain1 => root v *ᵥ q.2.1 + q.1 := by
    have h1 : Measurable fun q : Chain1 => root v *ᵥ q.2.1 := by
      unfold Matrix.mulVec dotProduct
      fun_prop
    exact h1.add measurable_fst
  have hf := flat_measurable.comp hy
  have hf0 : Measurable fun q : Chain1 => flat q.1 := flat_measurable.comp measurable_fst
  have hu : Measurable fun q : Chain1 => Real.log (max q.2.2 uFloor) :=
    Real.measurable_log.comp ((measurable_snd.comp measurable_snd).max measurable_const)
  have ha : Measurable (accepted v) := by
    unfold accepted
    refine Measurable.ite ?_ measurable_const measurable_const
    exact (measurableSet_lt measurable_const hf).inter
      (measurableSet_lt hu ((Real.measurable_log.comp hf).sub (Real.measurable_log.comp hf0)))
  unfold factor
  fun_prop

/-- "While the proposals are adapted during sampling, a run started in the target law stays in it" is false, for the
options of `sample_from_selection_criterion_mh` (except that the interval between adaptations is 1 instead of 50): the
target is uniform on two intervals, the chains start with it, independently, and there is no burn-in.  The second state
of the first chain has the target law, and the third has not: the next proposal was made from the states of both
chains. -/
theorem adaptive_sampling_false {Ω : Type} [MeasurableSpace Ω] {P : Measure Ω} [IsProbabilityMeasure P]
    {x0 : Fin 2 → Ω → Pt 1} {w : ℕ → Fin 2 → Ω → Pt 1 × ℝ}
    (hm : Measurable fun ω => (((x0 0 ω, w 1 0 ω), (x0 1 ω, w 1 1 ω)), w 2 0 ω))
    (hlaw : P.map (fun ω => (((x0 0 ω, w 1 0 ω), (x0 1 ω, w 1 1 ω)), w 2 0 ω)) = startLaw) :
    ∃ X Y Z : Ω → Pt 1, Measurable X ∧ Measurable Y ∧ Measurable Z ∧
      (∀ᵐ ω ∂P, ∃ s ret, scheduler adOpts (flatEnv fun t c => w t c ω) (initial fun c => x0 c ω) true
        (fun _ => .diag fun _ => 0.1) (initScale adOpts) 3 0 = .ok (s, ret) ∧ ret 0 = [X ω, Y ω, Z ω]) ∧
      P.map X = flatLaw ∧ P.map Y = flatLaw ∧ P.map Z ≠ flatLaw := by
  set T := fun ω => (((x0 0 ω, w 1 0 ω), (x0 1 ω, w 1 1 ω)), w 2 0 ω) with hT
  have hX : Measurable fun z : (Chain1 × Chain1) × (Pt 1 × ℝ) => z.1.1.1 := by fun_prop
  have hX' : Measurable fun z : (Chain1 × Chain1) × (Pt 1 × ℝ) => z.1.2.1 := by fun_prop
  have hY : Measurable fun z : (Chain1 × Chain1) × (Pt 1 × ℝ) => hopOnce 0.1 z.1.1 :=
    (hopOnce_measurable 0.1).comp (measurable_fst.comp measurable_fst)
  have hZ := hopTwice_measurable (factor_measurable 0.1) 0.1
  have lX : startLaw.map (fun z => z.1.1.1) = flatLaw := by
    have : (fun z : (Chain1 × Chain1) × (Pt 1 × ℝ) => z.1.1.1) = Prod.fst ∘ Prod.fst ∘ Prod.fst := rfl
    rw [this, startLaw, ← Measure.map_map measurable_fst (measurable_fst.comp measurable_fst),
      ← Measure.map_map measurable_fst measurable_fst, Measure.map_fst_prod, measure_univ, one_smul,
      Measure.map_fst_prod, measure_univ, one_smul, Measure.map_fst_prod, measure_univ, one_smul]
  have lX' : startLaw.map (fun z => z.1.2.1) = flatLaw := by
    have : (fun z : (Chain1 × Chain1) × (Pt 1 × ℝ) => z.1.2.1) = Prod.fst ∘ Prod.snd ∘ Prod.fst := rfl
    rw [this, startLaw, ← Measure.map_map measurable_fst (measurable_snd.comp measurable_fst),
      ← Measure.map_map measurable_snd measurable_fst, Measure.map_fst_prod, measure_univ, one_smul,
      Measure.map_snd_prod, measure_univ, one_smul, Measure.map_fst_prod, measure_univ, one_smul]
  have lY : startLaw.map (fun z => hopOnce 0.1 z.1.1) = flatLaw := by
    have : (fun z : (Chain1 × Chain1) × (Pt 1 × ℝ) => hopOnce 0.1 z.1.1) = hopOnce 0.1 ∘ Prod.fst ∘ Prod.fst := rfl
    rw [this, startLaw, ← Measure.map_map (hopOnce_measurable _) (measurable_fst.comp measurable_fst),
      ← Measure.map_map measurable_fst measurable_fst, Measure.map_fst_prod, measure_univ, one_smul,
      Measure.map_fst_prod, measure_univ, one_smul, hopOnce_law (by norm_num)]
  have hin : ∀ {g : (Chain1 × Chain1) × (Pt 1 × ℝ) → Pt 1}, Measurable g → startLaw.map g = flatLaw →
      ∀ᵐ ω ∂P, g (T ω) ∈ twoParts := fun {g} hg hl => by
    have h0 : flatLaw twoPartsᶜ = 0 := target_off flat_box.compact.measurableSet _
    rw [← hl, ← hlaw, Measure.map_map hg hm,
      Measure.map_apply (hg.comp hm) flat_box.compact.measurableSet.compl] at h0
    exact h0
  refine ⟨fun ω => (T ω).1.1.1, fun ω => hopOnce 0.1 (T ω).1.1, fun ω => hopTwice (factor 0.1) 0.1 (T ω).1 (T ω).2,
    hX.comp hm, hY.comp hm, hZ.comp hm, ?_, ?_, ?_, fun h => ?_⟩
  · filter_upwards [hin hX lX, hin hX' lX'] with ω h0 h1
    exact adaptive_run (fun t c => w t c ω) (x0 := fun c => x0 c ω) fun c => by
      fin_cases c
      · exact h0
      · exact h1
  · rw [← lX, ← hlaw, Measure.map_map hX hm]
    rfl
  · rw [← lY, ← hlaw, Measure.map_map hY hm]
    rfl
  · have h1 := flow_unbalanced (factor_measurable 0.1) (factor_lower 0.1) (factor_upper 0.1) (v := 0.1) (by norm_num)
    have h2 : P.map (fun ω => hopTwice (factor 0.1) 0.1 (T ω).1 (T ω).2) partA =
        startLaw {z | hopTwice (factor 0.1) 0.1 z.1 z.2 ∈ partA} := by
      have h3 := Measure.map_apply (μ := P) (hZ.comp hm) measurable_partA
      have h4 := Measure.map_apply (μ := P) hm (hZ measurable_partA)
      rw [hlaw] at h4
      exact h3.trans h4.symm
    rw [h] at h2
    exact absurd h2.symm h1.ne'

/-- Such starting states and draws exist. -/
theorem adaptive_start : ∃ (x0 : Fin 2 → (Chain1 × Chain1) × (Pt 1 × ℝ) → Pt 1)
    (w : ℕ → Fin 2 → (Chain1 × Chain1) × (Pt 1 × ℝ) → Pt 1 × ℝ),
    Measurable (fun ω => (((x0 0 ω, w 1 0 ω), (x0 1 ω, w 1 1 ω)), w 2 0 ω)) ∧
      startLaw.map (fun ω => (((x0 0 ω, w 1 0 ω), (x0 1 ω, w 1 1 ω)), w 2 0 ω)) = startLaw := by
  refine ⟨fun c z => if c = 0 then z.1.1.1 else z.1.2.1,
    fun t c z => if t = 2 then z.2 else if c = 0 then z.1.1.2 else z.1.2.2, ?_, ?_⟩
  · simp only [OfNat.one_ne_ofNat, if_false, if_true, one_ne_zero]
    exact measurable_id
  · simp only [OfNat.one_ne_ofNat, if_false, if_true, one_ne_zero]
    exact Measure.map_id


/-- A start with the target law and draws independent of it. -/
noncomputable def frozenLaw : Measure (Pt 1 × (ℕ → Pt 1 × ℝ)) := flatLaw.prod (Measure.infinitePi fun _ : ℕ => drawLaw 1)

instance : IsProbabilityMeasure frozenLaw := by
  unfold frozenLaw
  infer_instance

theorem frozenLaw_fst : frozenLaw.map Prod.fst = flatLaw := by
  rw [frozenLaw, Measure.map_fst_prod, measure_univ, one_smul]

theorem frozenLaw_snd : frozenLaw.map Prod.snd = Measure.infinitePi fun _ : ℕ => drawLaw 1 := by
  rw [frozenLaw, Measure.map_snd_prod, measure_univ, one_smul]

theorem frozenLaw_draws : Draws frozenLaw fun k z => z.2 k := by
  have hm : ∀ k, Measurable fun z : Pt 1 × (ℕ → Pt 1 × ℝ) => z.2 k := fun k => (measurable_pi_apply k).comp measurable_snd
  have hl : ∀ k, frozenLaw.map (fun z => z.2 k) = drawLaw 1 := fun k => by
    have h1 := Measure.infinitePi_map_eval (fun _ : ℕ => drawLaw 1) k
    rw [← frozenLaw_snd, Measure.map_map (measurable_pi_apply k) measurable_snd] at h1
    exact h1
  refine ⟨hm, ?_, hl⟩
  rw [iIndepFun_iff_map_fun_eq_infinitePi_map hm]
  simp only [hl]
  exact frozenLaw_snd

theorem frozenLaw_indep : IndepFun (fun z => z.1) (fun z k => z.2 k) frozenLaw := by
  rw [indepFun_iff_map_prod_eq_prod_map_map measurable_fst.aemeasurable measurable_snd.aemeasurable]
  change frozenLaw.map id = (frozenLaw.map Prod.fst).prod (frozenLaw.map Prod.snd)
  rw [Measure.map_id, frozenLaw_fst, frozenLaw_snd, frozenLaw]

theorem flat_normal : Normal (flatEnv fun _ _ => (0, 0)) := fun par S hS hpd => by
  have h0 : 0 < S 0 0 := hpd.diag_pos
  refine ⟨root (S 0 0), ?_, fun x w => ?_⟩
  · rw [(root_posDef h0).2]
    ext i j
    fin_cases i
    fin_cases j
    simp
  · show rootProp par x w = _
    unfold rootProp
    rw [hS]

/-- The same options with frozen adaptation. -/
def frozenOpts : Opts 1 := { adOpts with freeze := true }

/-- The same run, but with frozen adaptation, satisfies the hypotheses of `frozen_stationary`. -/
theorem frozen_flat (n : ℕ) : ∃ X : Fin 2 → ℕ → Pt 1 × (ℕ → Pt 1 × ℝ) → Pt 1,
    (∀ c t, Measurable (X c t) ∧ frozenLaw.map (X c t) = flatLaw) ∧
      ∀ᵐ z ∂frozenLaw, ∃ s, scheduler frozenOpts (flatEnv fun t _ => z.2 (t - 1)) (initial fun _ : Fin 2 => z.1)
        true (fun _ => .diag fun _ => 0.1) (initScale adOpts) n 0 = .ok (s, fun c => (List.range n).map fun t => X c t z) := by
  have hT : BoxTarget twoParts (fun _ => 0) (flatEnv fun _ _ => (0, 0)).logTarget :=
    ⟨fun x hx => if_pos hx, fun x hx => Or.inl (if_neg hx)⟩
  have hg : ∀ c : Fin 2, ((fun _ => .diag fun _ => 0.1 : Fin 2 → PropPar 1) c).Good := fun c =>
    ⟨_, rfl, Matrix.PosDef.diagonal fun _ => by norm_num⟩
  obtain ⟨X, h1, h2⟩ := frozen_stationary (o := frozenOpts) (scale := initScale adOpts) flat_box hT flat_normal rfl rfl
    (by decide) hg (P := frozenLaw) (x0 := fun _ => Prod.fst) (w := fun k _ z => z.2 k) (fun _ => measurable_fst)
    (fun _ => frozenLaw_draws) (fun _ => frozenLaw_indep) (fun _ => frozenLaw_fst) n
  refine ⟨X, h1, ?_⟩
  filter_upwards [h2] with z hz
  exact hz

end Verif.MH
