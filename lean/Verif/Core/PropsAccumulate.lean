import Verif.Core.PropsInnovations
import Verif.Core.PropsTarget
import Mathlib.Probability.Martingale.Convergence
import Mathlib.Probability.ConditionalExpectation

/-!
# C288: predictions are conditional expectations, and converge as observations accumulate
-/

set_option autoImplicit false

namespace Verif.Core

open Verif Verif.Data Matrix MeasureTheory ProbabilityTheory Filter Topology

variable {Ω : Type} [mΩ : MeasurableSpace Ω] {μ : Measure Ω} [IsProbabilityMeasure μ]
variable {be : Backend} {la : LA}

/-- The arrays for predicting value number `0` of a sequence with covariance `k` from values `1` to `n`; there are no mean
functions. -/
def targetArrays (k : ℕ → ℕ → ℝ) (n : ℕ) : Arrays (n + 0) 1 n where
  Kii := firstCov (fun i j => k (i + 1) (j + 1)) n
  Kit := Matrix.of fun i _ => k (i + 1) 0
  vt := fun _ => k 0 0
  Ktt := Matrix.of fun _ _ => k 0 0
  Pi := 0
  Pt := 0

/-- Values `1` to `n` of a sequence. -/
def obsOf (z : ℕ → ℝ) (n : ℕ) : Fin n → ℝ := firstOf (fun i => z (i + 1)) n

/-- What is known after `n` observations. -/
abbrev past (W : ℕ → Ω → ℝ) (n : ℕ) : MeasurableSpace Ω := MeasurableSpace.comap (fun ω => obsOf (fun i => W i ω) n) inferInstance

/-- What is known as observations accumulate. -/
def pasts {W : ℕ → Ω → ℝ} (hW : ∀ i, Measurable (W i)) : Filtration ℕ mΩ where
  seq := past W
  mono' := fun i j hij => by
    have e : (fun ω => obsOf (fun i => W i ω) i) = (fun z : Fin j → ℝ => z ∘ Fin.castLE hij) ∘ fun ω => obsOf (fun i => W i ω) j := rfl
    rw [past, e, ← MeasurableSpace.comap_comp]
    refine MeasurableSpace.comap_mono ?_
    rw [← measurable_iff_comap_le]
    exact measurable_pi_lambda _ fun i => measurable_pi_apply _
  le' := fun n => by
    rw [past, ← measurable_iff_comap_le]
    exact measurable_pi_lambda _ fun i => hW _

/-- **C288** The prediction of a value of a normal process with the mean and covariance of the model is its conditional
expectation given the observations. As observations accumulate the predictions form a martingale and converge with
probability one, with variances that decrease; to the value itself if there are linear combinations of observations
arbitrarily close to it in mean square. -/
theorem predictions_converge (hla : la.Contract be) {k : ℕ → ℕ → ℝ} (hS : ∀ n, (firstCov k n).PosSemidef)
    (hk : ∀ n, (firstCov (fun i j => k (i + 1) (j + 1)) n).PosDef) (m : ℕ → ℝ) {W : ℕ → Ω → ℝ} (hW : ∀ i, Measurable (W i))
    (hlaw : ∀ n, μ.map (fun ω => firstOf (fun i => W i ω) n) = normalLaw (firstOf m n) (firstCov k n)) :
    ∃ (mean : ℕ → Ω → ℝ) (var : ℕ → ℝ),
      (∀ n ω zn, ∃ lam, predict la (.parameterized (obsOf m n) fun _ => m 0) (targetArrays k n)
        (obsOf (fun i => W i ω) n) zn = .ok (fun _ => mean n ω, fun _ => var n, lam)) ∧
      (m = 0 → ∀ n ω zn, ∃ lam, predict la .zero (targetArrays k n)
        (obsOf (fun i => W i ω) n) zn = .ok (fun _ => mean n ω, fun _ => var n, lam)) ∧
      (∀ n, mean n =ᵐ[μ] μ[W 0 | past W n]) ∧ Martingale mean (pasts hW) μ ∧
      (∀ n, ∫ ω, (W 0 ω - mean n ω) ^ 2 ∂μ = var n) ∧ Antitone var ∧
      (∃ L : Ω → ℝ, (∀ᵐ ω ∂μ, Tendsto (fun n => mean n ω) atTop (𝓝 (L ω))) ∧
        ∀ n, ∫⁻ ω, ENNReal.ofReal ((W 0 ω - L ω) ^ 2) ∂μ ≤ ENNReal.ofReal (var n)) ∧
      ((∀ e > 0, ∃ (F : Finset ℕ) (a : ℕ → ℝ), k 0 0 - 2 * ∑ i ∈ F, a i * k (i + 1) 0 +
          ∑ i ∈ F, ∑ j ∈ F, a i * a j * k (i + 1) (j + 1) < e) →
        Tendsto var atTop (𝓝 0) ∧ ∀ᵐ ω ∂μ, Tendsto (fun n => mean n ω) atTop (𝓝 (W 0 ω))) := by
  have hk' : ∀ n, (gramUpTo (fun i j => k (i + 1) (j + 1)) n).PosDef := hk
  have hp := fun n => predict_law (q := n) (r := 0) (m := 1) hla (hS (n + 1)) (0 : Mat (n + 1) n)
    (xi := Fin.succ) (fun _ => 0) (hk n) (firstOf m (n + 1))
  choose pred lam V h1 h2 _ hV hc h3 using hp
  set c : ℕ → ℝ := fun i => k (i + 1) 0 with hcd
  set var : ℕ → ℝ := fun n => V n 0 0 with hvar
  have hvq : ∀ n, var n = k 0 0 - firstOf c n ⬝ᵥ ((gramUpTo (fun i j => k (i + 1) (j + 1)) n)⁻¹ *ᵥ firstOf c n) := fun n => by
    have ha := h1 n 0
    have hb := predict_param hla (targetArrays k n) (hk n) (obsOf m n) (fun _ => m 0) 0 false
    have := congrFun (Prod.mk.inj (Prod.mk.inj (Except.ok.inj (ha.symm.trans hb))).2).1 0
    refine this.trans ?_
    simp only [Bool.false_eq_true, if_false]
    rw [dotProduct_comm]
    rfl
  have hv0 : ∀ n, 0 ≤ var n := fun n => (hV n).diag_nonneg
  have hn1 : ∀ n zi zn, predict la (.parameterized (obsOf m n) fun _ => m 0) (targetArrays k n) zi zn =
      .ok (fun _ => pred n zi 0, fun _ => var n, lam n) := fun n zi zn => by
    have ha : predict la (.parameterized (obsOf m n) fun _ => m 0) (targetArrays k n) zi false = .ok (pred n zi, fun t => V n t t, lam n) :=
      h1 n zi
    have e1 : pred n zi = fun _ => pred n zi 0 := by
      funext t
      rw [Subsingleton.elim t 0]
    have e2 : (fun t => V n t t) = fun _ => var n := by
      funext t
      rw [Subsingleton.elim t 0]
    rw [e1, e2] at ha
    cases zn
    · exact ha
    · rw [predict_param hla _ (hk n)] at ha ⊢
      obtain ⟨a, b⟩ := Prod.mk.inj (Except.ok.inj ha)
      obtain ⟨b, c⟩ := Prod.mk.inj b
      simp only [Bool.false_eq_true, if_false] at b
      refine congrArg _ (Prod.ext a (Prod.ext ?_ c))
      funext t
      simp only [if_true]
      exact (congrArg (max · 0) (congrFun b t)).trans (max_eq_left (hv0 n))
  have hn2 : m = 0 → ∀ n zi zn, predict la .zero (targetArrays k n) zi zn =
      .ok (fun _ => pred n zi 0, fun _ => var n, lam n) := fun h0 n zi zn => by
    have hz := predict_zero hla (targetArrays k n) (hk n) zi zn
    have ha := hn1 n zi zn
    rw [predict_param hla _ (hk n)] at ha
    rw [← ha, hz, h0]
    congr 2
    funext t
    simp [obsOf, firstOf]
  set mean : ℕ → Ω → ℝ := fun n ω => pred n (obsOf (fun i => W i ω) n) 0 with hmean
  have hobs : ∀ n, Measurable fun ω => obsOf (fun i => W i ω) n := fun n => measurable_pi_lambda _ fun i => hW _
  have hpm : ∀ n, Measurable fun z : Fin n → ℝ => pred n z 0 := fun n =>
    ((continuous_apply 0).comp (hc n)).measurable
  have hmm : ∀ n, Measurable (mean n) := fun n => (hpm n).comp (hobs n)
  have hsm : ∀ n, StronglyMeasurable[past W n] (mean n) := fun n =>
    ((hpm n).comp (comap_measurable (fun ω => obsOf (fun i => W i ω) n))).stronglyMeasurable
  have hfirst : ∀ n, Measurable fun ω => firstOf (fun i => W i ω) n := fun n => measurable_pi_lambda _ fun i => hW _
  -- the error and the observations
  have hjoint : ∀ n, μ.map (fun ω => (obsOf (fun i => W i ω) n, W 0 ω - mean n ω)) =
      (normalLaw (obsOf m n) (firstCov (fun i j => k (i + 1) (j + 1)) n)).prod (gaussianReal 0 (var n).toNNReal) := fun n => by
    have hm2 : Measurable fun z : Fin (n + 1) → ℝ =>
        ((z ∘ Fin.succ : Fin (n + 0) → ℝ), (z ∘ fun _ : Fin 1 => 0) - pred n (z ∘ Fin.succ)) := by
      apply Continuous.measurable
      have : Continuous fun z : Fin (n + 1) → ℝ => (z ∘ Fin.succ : Fin (n + 0) → ℝ) :=
        continuous_pi fun i => continuous_apply _
      have h3 : Continuous fun z : Fin (n + 1) → ℝ => (z ∘ fun _ : Fin 1 => 0 : Fin 1 → ℝ) :=
        continuous_pi fun i => continuous_apply _
      exact this.prodMk (h3.sub ((hc n).comp this))
    have hm3 : Measurable fun y : Fin 1 → ℝ => (fun _ => 1) ⬝ᵥ y + 0 := by
      apply Continuous.measurable
      fun_prop
    have hm1 : Measurable (Prod.map id fun y : Fin 1 → ℝ => (fun _ => 1) ⬝ᵥ y + 0 :
        (Fin n → ℝ) × (Fin 1 → ℝ) → (Fin n → ℝ) × ℝ) := measurable_id.prodMap hm3
    have hf : (fun ω => (obsOf (fun i => W i ω) n, W 0 ω - mean n ω)) =
        Prod.map id (fun y : Fin 1 → ℝ => (fun _ => 1) ⬝ᵥ y + 0) ∘
          (fun z : Fin (n + 1) → ℝ => ((z ∘ Fin.succ : Fin (n + 0) → ℝ), (z ∘ fun _ : Fin 1 => 0) - pred n (z ∘ Fin.succ))) ∘
          fun ω => firstOf (fun i => W i ω) (n + 1) := by
      funext ω
      refine Prod.ext rfl ?_
      simp only [Function.comp_apply, Prod.map, dotProduct, Finset.univ_unique, Finset.sum_singleton, Pi.sub_apply, one_mul,
        add_zero]
      rfl
    have hg := normalLaw_dot (hV n) (0 : Fin 1 → ℝ) (fun _ => 1) 0
    have hone : ((fun _ => 1 : Fin 1 → ℝ) ⬝ᵥ (V n *ᵥ fun _ => 1)) = var n := by
      simp [dotProduct, mulVec, hvar]
    rw [hone] at hg
    simp only [dotProduct_zero, zero_add] at hg
    rw [hf, ← Measure.map_map hm1 (hm2.comp (hfirst (n + 1))), ← Measure.map_map hm2 (hfirst (n + 1)), hlaw, h3,
      ← Measure.map_prod_map _ _ measurable_id hm3, Measure.map_id, hg]
    rfl
  have hem : ∀ n, Measurable fun ω => W 0 ω - mean n ω := fun n => (hW 0).sub (hmm n)
  have herr : ∀ n, μ.map (fun ω => W 0 ω - mean n ω) = gaussianReal 0 (var n).toNNReal := fun n => by
    have := congrArg (Measure.map Prod.snd) (hjoint n)
    rw [Measure.map_map measurable_snd ((hobs n).prodMk (hem n)), Measure.map_snd_prod] at this
    have h1 : normalLaw (obsOf m n) (firstCov (fun i j => k (i + 1) (j + 1)) n) Set.univ = 1 := measure_univ
    rw [h1, one_smul] at this
    exact this
  have hobl : ∀ n, μ.map (fun ω => obsOf (fun i => W i ω) n) = normalLaw (obsOf m n) (firstCov (fun i j => k (i + 1) (j + 1)) n) :=
    fun n => by
      have := congrArg (Measure.map Prod.fst) (hjoint n)
      rw [Measure.map_map measurable_fst ((hobs n).prodMk (hem n)), Measure.map_fst_prod, measure_univ, one_smul] at this
      exact this
  have hind : ∀ n, IndepFun (fun ω => W 0 ω - mean n ω) (fun ω => obsOf (fun i => W i ω) n) μ := fun n => by
    refine IndepFun.symm ?_
    rw [indepFun_iff_map_prod_eq_prod_map_map (hobs n).aemeasurable (hem n).aemeasurable, hjoint n, herr, hobl]
  have hei : ∀ n, Integrable (fun ω => W 0 ω - mean n ω) μ := fun n => by
    have : Integrable id (μ.map fun ω => W 0 ω - mean n ω) := by
      rw [herr]
      exact (memLp_id_gaussianReal 1).integrable le_rfl
    exact this.comp_measurable (hem n)
  have he0 : ∀ n, ∫ ω, (W 0 ω - mean n ω) ∂μ = 0 := fun n => by
    have := integral_map (hem n).aemeasurable (f := id) (μ := μ) (by fun_prop)
    rw [herr] at this
    simp only [id] at this
    rw [← this, integral_id_gaussianReal]
  have hsq : ∀ n, ∫ ω, (W 0 ω - mean n ω) ^ 2 ∂μ = var n := fun n => by
    have := integral_map (hem n).aemeasurable (f := fun x => x ^ 2) (μ := μ) (by fun_prop)
    rw [herr] at this
    rw [← this]
    have := variance_of_integral_eq_zero (μ := gaussianReal 0 (var n).toNNReal) (X := id) aemeasurable_id (by simp)
    rw [variance_id_gaussianReal, Real.coe_toNNReal _ (hv0 n)] at this
    exact this.symm
  have hsqi : ∀ n, Integrable (fun ω => (W 0 ω - mean n ω) ^ 2) μ := fun n => by
    have : Integrable (fun x : ℝ => x ^ 2) (μ.map fun ω => W 0 ω - mean n ω) := by
      rw [herr]
      exact (memLp_id_gaussianReal 2).integrable_sq
    exact this.comp_measurable (hem n)
  have hW0 : Integrable (W 0) μ := by
    have h : ∀ ω, pred 0 (obsOf (fun i => W i ω) 0) 0 = pred 0 ![] 0 := fun ω => by
      congr 2
      exact funext fun i => Fin.elim0 i
    have := (hei 0).add (integrable_const (pred 0 ![] 0))
    refine this.congr (ae_of_all _ fun ω => ?_)
    simp only [Pi.add_apply, hmean, h]
    ring
  have hmi : ∀ n, Integrable (mean n) μ := fun n => by
    have := hW0.sub (hei n)
    refine this.congr (ae_of_all _ fun ω => ?_)
    simp
  have hcond : ∀ n, mean n =ᵐ[μ] μ[W 0 | past W n] := fun n => by
    have hle : past W n ≤ mΩ := (pasts hW).le n
    have hA := condExp_indep_eq (μ := μ) (m₁ := MeasurableSpace.comap (fun ω => W 0 ω - mean n ω) inferInstance)
      (m₂ := past W n) (f := fun ω => W 0 ω - mean n ω) (hem n).comap_le hle
      (comap_measurable _).stronglyMeasurable (hind n)
    have hB := condExp_of_stronglyMeasurable hle (hsm n) (hmi n)
    have hC := condExp_add (hei n) (hmi n) (past W n)
    have e : (fun ω => W 0 ω - mean n ω) + mean n = W 0 := by funext ω; simp
    rw [e, hB] at hC
    filter_upwards [hA, hC] with ω a b
    rw [b, Pi.add_apply, a, he0, zero_add]
  have hmart : Martingale mean (pasts hW) μ := by
    refine ⟨fun n => hsm n, fun i j hij => ?_⟩
    refine (condExp_congr_ae (hcond j)).trans ?_
    exact (condExp_condExp_of_le ((pasts hW).mono hij) ((pasts hW).le j)).trans (hcond i).symm
  have hanti : Antitone var := fun i j hij => by
    rw [hvq, hvq]
    have := quad_grows hk' c hij
    simp only at this
    linarith
  have hlim : ∀ᵐ ω ∂μ, Tendsto (fun n => mean n ω) atTop (𝓝 ((μ[W 0 | ⨆ n, pasts hW n]) ω)) := by
    filter_upwards [tendsto_ae_condExp (ℱ := pasts hW) (μ := μ) (W 0), ae_all_iff.mpr hcond] with ω a b
    exact a.congr fun n => (b n).symm
  have hfat : ∀ n, ∫⁻ ω, ENNReal.ofReal ((W 0 ω - (μ[W 0 | ⨆ n, pasts hW n]) ω) ^ 2) ∂μ ≤ ENNReal.ofReal (var n) := fun n => by
    have hmeas : ∀ n, Measurable fun ω => ENNReal.ofReal ((W 0 ω - mean n ω) ^ 2) := fun n => ((hem n).pow_const 2).ennreal_ofReal
    have hli : ∀ n, ∫⁻ ω, ENNReal.ofReal ((W 0 ω - mean n ω) ^ 2) ∂μ = ENNReal.ofReal (var n) := fun n => by
      rw [← hsq n, ofReal_integral_eq_lintegral_ofReal (hsqi n) (ae_of_all _ fun ω => sq_nonneg _)]
    calc ∫⁻ ω, ENNReal.ofReal ((W 0 ω - (μ[W 0 | ⨆ n, pasts hW n]) ω) ^ 2) ∂μ
        = ∫⁻ ω, liminf (fun n => ENNReal.ofReal ((W 0 ω - mean n ω) ^ 2)) atTop ∂μ := by
          refine lintegral_congr_ae ?_
          filter_upwards [hlim] with ω h
          exact (((ENNReal.continuous_ofReal.tendsto _).comp ((h.const_sub (W 0 ω)).pow 2)).liminf_eq).symm
      _ ≤ liminf (fun n => ∫⁻ ω, ENNReal.ofReal ((W 0 ω - mean n ω) ^ 2) ∂μ) atTop := lintegral_liminf_le hmeas
      _ ≤ ENNReal.ofReal (var n) := by
          refine liminf_le_of_frequently_le' (Eventually.frequently ?_)
          filter_upwards [eventually_ge_atTop n] with j hj
          rw [hli]
          exact ENNReal.ofReal_le_ofReal (hanti hj)
  refine ⟨mean, var, fun n ω zn => ⟨_, hn1 n _ zn⟩, fun h0 n ω zn => ⟨_, hn2 h0 n _ zn⟩, hcond, hmart, hsq, hanti,
    ⟨_, hlim, hfat⟩, fun hclose => ?_⟩
  have hvle : ∀ e > 0, ∃ n, var n < e := fun e he => by
    obtain ⟨F, a, hFa⟩ := hclose e he
    refine ⟨F.sup id + 1, lt_of_le_of_lt ?_ hFa⟩
    have hF : F ⊆ Finset.range (F.sup id + 1) := fun i hi =>
      Finset.mem_range.mpr (Nat.lt_succ_of_le (Finset.le_sup (f := id) hi))
    set b : Fin (F.sup id + 1) → ℝ := fun i => if (i : ℕ) ∈ F then a i else 0 with hb
    have hsum : ∀ f : ℕ → ℝ, ∑ i, b i * f i = ∑ i ∈ F, a i * f i := fun f => by
      simp only [hb]
      rw [Fin.sum_univ_eq_sum_range (fun i => (if i ∈ F then a i else 0) * f i),
        ← Finset.sum_subset hF fun i _ hi => by rw [if_neg hi, zero_mul]]
      exact Finset.sum_congr rfl fun i hi => by rw [if_pos hi]
    have := quad_sup (hk' (F.sup id + 1)) (firstOf c (F.sup id + 1)) b
    rw [hvq]
    have e1 : b ⬝ᵥ firstOf c (F.sup id + 1) = ∑ i ∈ F, a i * k (i + 1) 0 := hsum fun i => k (i + 1) 0
    have e2 : b ⬝ᵥ (gramUpTo (fun i j => k (i + 1) (j + 1)) (F.sup id + 1) *ᵥ b) =
        ∑ i ∈ F, ∑ j ∈ F, a i * a j * k (i + 1) (j + 1) := by
      have h : ∀ i : ℕ, ∑ j : Fin (F.sup id + 1), k (i + 1) (j + 1) * b j = ∑ j ∈ F, a j * k (i + 1) (j + 1) := fun i => by
        rw [← hsum]
        exact Finset.sum_congr rfl fun j _ => mul_comm _ _
      simp only [dotProduct, mulVec, gramUpTo, of_apply, h]
      rw [hsum fun i => ∑ j ∈ F, a j * k (i + 1) (j + 1)]
      simp only [Finset.mul_sum, mul_assoc]
    rw [e1, e2] at this
    linarith
  refine ⟨Metric.tendsto_atTop.mpr fun e he => ?_, ?_⟩
  · obtain ⟨i, hi⟩ := hvle e he
    refine ⟨i, fun n hn => ?_⟩
    rw [Real.dist_0_eq_abs, abs_of_nonneg (hv0 n)]
    exact (hanti hn).trans_lt hi
  have hz : ∫⁻ ω, ENNReal.ofReal ((W 0 ω - (μ[W 0 | ⨆ n, pasts hW n]) ω) ^ 2) ∂μ = 0 := by
    refine le_antisymm (ENNReal.le_of_forall_pos_le_add fun e he _ => ?_) zero_le
    obtain ⟨i, hi⟩ := hvle e he
    refine (hfat i).trans ?_
    rw [zero_add, ← ENNReal.ofReal_coe_nnreal]
    exact ENNReal.ofReal_le_ofReal hi.le
  have hmL : AEMeasurable (fun ω => ENNReal.ofReal ((W 0 ω - (μ[W 0 | ⨆ n, pasts hW n]) ω) ^ 2)) μ := by
    refine AEMeasurable.ennreal_ofReal (((hW 0).aemeasurable.sub ?_).pow_const 2)
    exact integrable_condExp.aestronglyMeasurable.aemeasurable
  rw [lintegral_eq_zero_iff' hmL] at hz
  filter_upwards [hlim, hz] with ω a b
  have : W 0 ω - (μ[W 0 | ⨆ n, pasts hW n]) ω = 0 := by
    simp only [Pi.zero_apply, ENNReal.ofReal_eq_zero] at b
    exact pow_eq_zero_iff (two_ne_zero) |>.mp (le_antisymm b (sq_nonneg _))
  rw [sub_eq_zero.mp this]
  exact a

/-! ## Matérn covariances -/

open Verif.Kernel (maternFormula scaledDistance)

/-- **C288** With a Matérn covariance without nugget, predictions at a point that observation points approach converge
with probability one to the value at this point. -/
theorem matern_predictions_converge {d : ℕ} (hla : la.Contract be) (p : ℕ) (param : Fin (d + 1) → ℝ) {x : ℕ → Fin d → ℝ}
    (hx : Function.Injective fun i => x (i + 1)) (hclose : ∀ e > 0, ∃ i, ∀ j, |x (i + 1) j - x 0 j| < e) {W : ℕ → Ω → ℝ}
    (hW : ∀ i, Measurable (W i)) (hlaw : ∀ n, μ.map (fun ω => firstOf (fun i => W i ω) n) =
      normalLaw 0 (Matrix.of fun i j : Fin n => Real.exp (param 0) * maternFormula p (scaledDistance (fun j => param j.succ) (x i) (x j)))) :
    ∃ (mean : ℕ → Ω → ℝ) (var : ℕ → ℝ), (∀ n ω zn, ∃ lam, predict la .zero
        (maternOther p 0 param (Matrix.of fun (i : Fin (n + 0)) => x (i + 1)) (Matrix.of fun _ : Fin 1 => x 0) (0 : Mat n n) 0)
        (obsOf (fun i => W i ω) n) zn = .ok (fun _ => mean n ω, fun _ => var n, lam)) ∧
      Tendsto var atTop (𝓝 0) ∧ ∀ᵐ ω ∂μ, Tendsto (fun n => mean n ω) atTop (𝓝 (W 0 ω)) := by
  set k : ℕ → ℕ → ℝ := fun i j => Real.exp (param 0) * maternFormula p (scaledDistance (fun j => param j.succ) (x i) (x j)) with hkd
  have hS : ∀ n, (firstCov k n).PosSemidef := fun n => by
    have := (Kernel.matern_posSemidef p (fun j => param j.succ) fun i : Fin n => x i).smul (Real.exp_pos (param 0)).le
    exact this
  have hk : ∀ n, (firstCov (fun i j => k (i + 1) (j + 1)) n).PosDef := fun n => by
    have := (Kernel.matern_posDef p (fun j => param j.succ) (fun i : Fin n => x (i + 1)) fun i j h => Fin.ext (hx h)).smul
      (Real.exp_pos (param 0))
    exact this
  obtain ⟨mean, var, -, h2, -, -, -, -, -, h8⟩ := predictions_converge hla hS hk 0 hW hlaw
  have hz : maternFormula p 0 = 1 := (Kernel.maternFormula_shape_props p).1
  have hself : ∀ i, k i i = Real.exp (param 0) := fun i => by
    simp only [hkd, Kernel.scaledDistance_self, hz, mul_one]
  obtain ⟨h9, h10⟩ := h8 fun e he => by
    have hf : Continuous fun y : Fin d → ℝ => 2 * (Real.exp (param 0) -
        Real.exp (param 0) * maternFormula p (scaledDistance (fun j => param j.succ) y (x 0))) := by
      simp only [Kernel.scaledDistance_comm _ _ (x 0)]
      exact continuous_const.mul (continuous_const.sub (continuous_const.mul
        ((Kernel.maternFormula_continuous p).comp (Kernel.scaledDistance_continuous _ _))))
    have := (hf.tendsto (x 0)).eventually_lt_const (u := e) (by simp [Kernel.scaledDistance_self, hz, he])
    obtain ⟨r, hr, hb⟩ := Metric.eventually_nhds_iff.mp this
    obtain ⟨i, hi⟩ := hclose r hr
    refine ⟨{i}, fun _ => 1, ?_⟩
    simp only [Finset.sum_singleton, one_mul]
    have h := hb (y := x (i + 1)) ((dist_pi_lt_iff hr).mpr fun j => by rw [Real.dist_eq]; exact hi j)
    rw [hself, hself]
    simp only [hkd]
    linarith
  refine ⟨mean, var, fun n ω zn => ?_, h9, h10⟩
  obtain ⟨lam, hl⟩ := h2 rfl n ω zn
  refine ⟨lam, Eq.trans ?_ hl⟩
  have e : maternOther p 0 param (Matrix.of fun (i : Fin (n + 0)) => x (i + 1)) (Matrix.of fun _ : Fin 1 => x 0) (0 : Mat n n) 0 =
      targetArrays k n := by
    unfold maternOther targetArrays
    congr 1
    · ext i j
      simp only [Kernel.cov, Kernel.covII, firstCov, hkd, mul_zero, zero_mul, add_zero, of_apply]
      rfl
    · funext t
      rw [hself]
      simp [Kernel.covPairwise, Kernel.covIIPairwise]
    · ext i j
      rw [of_apply, hself]
      simp only [Kernel.cov, Kernel.covII, mul_zero, zero_mul, add_zero, of_apply]
      exact (hself 0)
  rw [e]

/-- **C288** With a nugget too, when infinitely many observation points (repetitions count) are in every neighbourhood of
the target: the noise is averaged out. -/
theorem matern_noisy_predictions_converge {d : ℕ} (hla : la.Contract be) (p : ℕ) {eps : ℝ} (heps : 0 < eps)
    (param : Fin (d + 1) → ℝ) {x : ℕ → Fin d → ℝ} (hclose : ∀ e > 0, {i | ∀ j, |x (i + 1) j - x 0 j| < e}.Infinite)
    {W : ℕ → Ω → ℝ} (hW : ∀ i, Measurable (W i)) (hlaw : ∀ n, μ.map (fun ω => firstOf (fun i => W i ω) n) =
      normalLaw 0 (Matrix.of fun i j : Fin n => Real.exp (param 0) * maternFormula p (scaledDistance (fun j => param j.succ) (x i) (x j)) +
        if i = j ∧ (i : ℕ) ≠ 0 then 10 * Real.exp (param 0) * eps else 0)) :
    ∃ (mean : ℕ → Ω → ℝ) (var : ℕ → ℝ), (∀ n ω zn, ∃ lam, predict la .zero
        (maternOther p eps param (Matrix.of fun (i : Fin (n + 0)) => x (i + 1)) (Matrix.of fun _ : Fin 1 => x 0) (0 : Mat n n) 0)
        (obsOf (fun i => W i ω) n) zn = .ok (fun _ => mean n ω, fun _ => var n, lam)) ∧
      Tendsto var atTop (𝓝 0) ∧ ∀ᵐ ω ∂μ, Tendsto (fun n => mean n ω) atTop (𝓝 (W 0 ω)) := by
  set rho : ℕ → ℕ → ℝ := fun i j => maternFormula p (scaledDistance (fun j => param j.succ) (x i) (x j)) with hrho
  set s2 := Real.exp (param 0) with hs2
  have hs : 0 < s2 := Real.exp_pos _
  set nu := 10 * s2 * eps with hnu
  have hnu0 : 0 < nu := by positivity
  set k : ℕ → ℕ → ℝ := fun i j => s2 * rho i j + if i = j ∧ i ≠ 0 then nu else 0 with hkd
  have hlaw' : ∀ n, μ.map (fun ω => firstOf (fun i => W i ω) n) = normalLaw (firstOf 0 n) (firstCov k n) := fun n => by
    rw [hlaw n]
    congr 1
    ext i j
    simp only [of_apply, firstCov, hkd, Fin.ext_iff, hrho]
  have hS : ∀ n, (firstCov k n).PosSemidef := fun n => by
    have h1 := (Kernel.matern_posSemidef p (fun j => param j.succ) fun i : Fin n => x i).smul hs.le
    have h2 : (diagonal fun i : Fin n => if (i : ℕ) ≠ 0 then nu else 0).PosSemidef := by
      refine Matrix.PosSemidef.diagonal fun i => ?_
      split_ifs
      · exact hnu0.le
      · exact le_rfl
    have e : firstCov k n = s2 • Kernel.kernelMat p (fun j => param j.succ) (fun i : Fin n => x i) +
        diagonal fun i : Fin n => if (i : ℕ) ≠ 0 then nu else 0 := by
      ext i j
      simp only [firstCov, hkd, of_apply, Matrix.add_apply, Matrix.smul_apply, Kernel.kernelMat, smul_eq_mul, hrho, diagonal_apply,
        Fin.ext_iff]
      congr 1
      by_cases h : (i : ℕ) = j <;> simp [h]
    rw [e]
    exact h1.add h2
  have hk : ∀ n, (firstCov (fun i j => k (i + 1) (j + 1)) n).PosDef := fun n => by
    have := matern_Kii p param (x := Matrix.of fun i : Fin n => x (i + 1)) (Or.inl heps)
    have e : Kernel.cov (maternFormula p) eps param (Matrix.of fun i : Fin n => x (i + 1)) .same =
        firstCov (fun i j => k (i + 1) (j + 1)) n := by
      ext i j
      simp only [Kernel.cov, Kernel.covII, firstCov, hkd, of_apply, Fin.ext_iff, add_left_inj, ne_eq, Nat.add_eq_zero_iff, one_ne_zero,
        and_false, not_false_eq_true, and_true, mul_ite, mul_one, mul_zero]
      rfl
    rw [← e]
    exact this
  obtain ⟨mean, var, -, h2, -, -, -, -, -, h8⟩ := predictions_converge hla hS hk 0 hW hlaw'
  have hz : maternFormula p 0 = 1 := (Kernel.maternFormula_shape_props p).1
  have hself : ∀ i, rho i i = 1 := fun i => by
    simp only [hrho, Kernel.scaledDistance_self, hz]
  have hle1 : ∀ i j, rho i j ≤ 1 := fun i j => by
    rcases (Kernel.scaledDistance_nonneg (fun j => param j.succ) (x i) (x j)).eq_or_lt with h | h
    · simp only [hrho, ← h, hz, le_refl]
    · exact ((Kernel.maternFormula_shape_props p).2.2.2 _ h).le
  obtain ⟨h9, h10⟩ := h8 fun e he => by
    have hf : Continuous fun y : Fin d → ℝ => 2 * (s2 - s2 * maternFormula p (scaledDistance (fun j => param j.succ) y (x 0))) := by
      simp only [Kernel.scaledDistance_comm _ _ (x 0)]
      exact continuous_const.mul (continuous_const.sub (continuous_const.mul
        ((Kernel.maternFormula_continuous p).comp (Kernel.scaledDistance_continuous _ _))))
    have := (hf.tendsto (x 0)).eventually_lt_const (u := e / 2) (by simp [Kernel.scaledDistance_self, hz, he])
    obtain ⟨r, hr, hb⟩ := Metric.eventually_nhds_iff.mp this
    obtain ⟨N, hN⟩ := exists_nat_gt (nu / (e / 2))
    have hN0 : (0 : ℝ) < N := lt_trans (by positivity) hN
    obtain ⟨F, hF, hcard⟩ := (hclose r hr).exists_subset_card_eq N
    refine ⟨F, fun _ => 1 / N, ?_⟩
    have hclose' : ∀ i ∈ F, 2 * (s2 - k (i + 1) 0) < e / 2 := fun i hi => by
      have h := hb (y := x (i + 1)) ((dist_pi_lt_iff hr).mpr fun j => by rw [Real.dist_eq]; exact hF hi j)
      simpa [hkd, hrho] using h
    have h0 : k 0 0 = s2 := by simp [hkd, hself]
    have hdouble : ∑ i ∈ F, ∑ j ∈ F, 1 / (N : ℝ) * (1 / N) * k (i + 1) (j + 1) ≤ s2 + nu / N := by
      have h1 : ∀ i ∈ F, ∑ j ∈ F, 1 / (N : ℝ) * (1 / N) * k (i + 1) (j + 1) ≤ 1 / (N : ℝ) * (1 / N) * (N * s2 + nu) := fun i hi => by
        rw [← Finset.mul_sum]
        refine mul_le_mul_of_nonneg_left ?_ (by positivity)
        calc ∑ j ∈ F, k (i + 1) (j + 1) ≤ ∑ j ∈ F, (s2 + if i = j then nu else 0) := by
              refine Finset.sum_le_sum fun j _ => ?_
              simp only [hkd, add_left_inj, ne_eq, Nat.add_eq_zero_iff, one_ne_zero, and_false, not_false_eq_true, and_true]
              have := mul_le_mul_of_nonneg_left (hle1 (i + 1) (j + 1)) hs.le
              linarith
          _ = N * s2 + nu := by
              rw [Finset.sum_add_distrib, Finset.sum_const, hcard, Finset.sum_ite_eq, if_pos hi, nsmul_eq_mul]
      refine (Finset.sum_le_sum h1).trans (le_of_eq ?_)
      rw [Finset.sum_const, hcard, nsmul_eq_mul]
      field_simp
    have hsingle : s2 - e / 4 ≤ ∑ i ∈ F, 1 / (N : ℝ) * k (i + 1) 0 := by
      rw [← Finset.mul_sum]
      have h1 : ∑ _i ∈ F, (s2 - e / 4) ≤ ∑ i ∈ F, k (i + 1) 0 := Finset.sum_le_sum fun i hi => by
        have := hclose' i hi
        linarith
      rw [Finset.sum_const, hcard, nsmul_eq_mul] at h1
      rw [one_div_mul_eq_div, le_div_iff₀ hN0]
      linarith
    have hlast : nu / N < e / 2 := by
      rw [div_lt_iff₀ hN0]
      rw [div_lt_iff₀ (by positivity)] at hN
      linarith
    rw [h0]
    linarith
  refine ⟨mean, var, fun n ω zn => ?_, h9, h10⟩
  obtain ⟨lam, hl⟩ := h2 rfl n ω zn
  refine ⟨lam, Eq.trans ?_ hl⟩
  set A := maternOther p eps param (Matrix.of fun (i : Fin (n + 0)) => x (i + 1)) (Matrix.of fun _ : Fin 1 => x 0) (0 : Mat n n) 0
    with hA
  have e1 : A.Kii = (targetArrays k n).Kii := by
    ext i j
    simp only [hA, maternOther, targetArrays, Kernel.cov, Kernel.covII, firstCov, hkd, of_apply, Fin.ext_iff, add_left_inj, ne_eq,
      Nat.add_eq_zero_iff, one_ne_zero, and_false, not_false_eq_true, and_true, mul_ite, mul_one, mul_zero]
    rfl
  have e2 : A.Kit = (targetArrays k n).Kit := by
    ext i j
    have h0 : ¬ ((i : ℕ) + 1 = 0 ∧ (i : ℕ) + 1 ≠ 0) := by omega
    simp only [hA, maternOther, targetArrays, Kernel.covIT, hkd, hrho, of_apply, if_neg h0, add_zero]
    rfl
  have e3 : A.vt = (targetArrays k n).vt := by
    funext t
    simp [hA, maternOther, targetArrays, Kernel.covPairwise, Kernel.covIIPairwise, hkd, hself, hs2]
  rw [predict_zero hla A (by rw [e1]; exact hk n), predict_zero hla (targetArrays k n) (hk n), e1, e2, e3]

/-- A process of regularity 3/2 observed at `1, 1/2, 1/3, …`, to be predicted at zero. -/
example (hla : la.Contract be) : ∃ (P : Measure (ℕ → ℝ)) (W mean : ℕ → (ℕ → ℝ) → ℝ) (var : ℕ → ℝ), IsProbabilityMeasure P ∧
    (∀ n, P.map (fun ω => firstOf (fun i => W i ω) n) = normalLaw 0 (Matrix.of fun i j : Fin n =>
      Real.exp 0 * maternFormula 1 (scaledDistance (fun _ : Fin 1 => 0) (fun _ => (i : ℝ)⁻¹) fun _ => (j : ℝ)⁻¹))) ∧
    (∀ n ω zn, ∃ lam, predict la .zero (maternOther 1 0 (0 : Fin 2 → ℝ) (Matrix.of fun (i : Fin (n + 0)) _ => ((i + 1 : ℕ) : ℝ)⁻¹)
      (Matrix.of fun (_ : Fin 1) _ => 0) (0 : Mat n n) 0) (obsOf (fun i => W i ω) n) zn = .ok (fun _ => mean n ω, fun _ => var n, lam)) ∧
    ∀ᵐ ω ∂P, Tendsto (fun n => mean n ω) atTop (𝓝 (W 0 ω)) := by
  set x : ℕ → Fin 1 → ℝ := fun i _ => (i : ℝ)⁻¹ with hx
  have hinj : Function.Injective x := fun i j h => by
    have := congrFun h 0
    simp only [hx, _root_.inv_inj] at this
    exact_mod_cast this
  obtain ⟨P, W, hP, hW, hlaw⟩ := exists_sequence
    (k := fun i j => Real.exp 0 * maternFormula 1 (scaledDistance (fun _ : Fin 1 => 0) (x i) (x j)))
    (fun n => ((Kernel.matern_posDef 1 (fun _ => 0) (fun i : Fin n => x i) fun i j h => Fin.ext (hinj h)).smul
      (Real.exp_pos 0) :)) fun _ => 0
  obtain ⟨mean, var, h1, -, h3⟩ := matern_predictions_converge (x := x) (W := W) (μ := P) hla 1 (0 : Fin 2 → ℝ)
    (fun i j h => by simpa using hinj h) (fun e he => by
      obtain ⟨n, hn⟩ := exists_nat_one_div_lt he
      refine ⟨n, fun j => ?_⟩
      simp only [hx]
      rw [Nat.cast_zero, _root_.inv_zero, sub_zero, abs_of_nonneg (by positivity), ← one_div]
      push_cast
      exact hn) hW hlaw
  refine ⟨P, W, mean, var, hP, hlaw, fun n ω zn => ?_, h3⟩
  have := h1 n ω zn
  simp only [hx, Nat.cast_zero, _root_.inv_zero] at this
  exact this

/-- The same process measured again and again at the same three points in turn, one of them the target. -/
example (hla : la.Contract be) : ∃ (x : ℕ → Fin 1 → ℝ) (P : Measure (ℕ → ℝ)) (W mean : ℕ → (ℕ → ℝ) → ℝ) (var : ℕ → ℝ),
    IsProbabilityMeasure P ∧ x 0 = 0 ∧ x 1 ≠ 0 ∧
    (∀ n, P.map (fun ω => firstOf (fun i => W i ω) n) = normalLaw 0 (Matrix.of fun i j : Fin n =>
      Real.exp ((0 : Fin 2 → ℝ) 0) * maternFormula 1 (scaledDistance (fun j => (0 : Fin 2 → ℝ) j.succ) (x i) (x j)) +
        if i = j ∧ (i : ℕ) ≠ 0 then 10 * Real.exp ((0 : Fin 2 → ℝ) 0) * 1e-10 else 0)) ∧
    (∀ n ω zn, ∃ lam, predict la .zero (maternOther 1 1e-10 (0 : Fin 2 → ℝ) (Matrix.of fun (i : Fin (n + 0)) => x (i + 1))
      (Matrix.of fun _ : Fin 1 => x 0) (0 : Mat n n) 0) (obsOf (fun i => W i ω) n) zn = .ok (fun _ => mean n ω, fun _ => var n, lam)) ∧
    ∀ᵐ ω ∂P, Tendsto (fun n => mean n ω) atTop (𝓝 (W 0 ω)) := by
  set x : ℕ → Fin 1 → ℝ := fun i _ => ((i % 3 : ℕ) : ℝ) with hx
  set k : ℕ → ℕ → ℝ := fun i j =>
    Real.exp ((0 : Fin 2 → ℝ) 0) * maternFormula 1 (scaledDistance (fun j => (0 : Fin 2 → ℝ) j.succ) (x i) (x j)) +
      if i = j ∧ i ≠ 0 then 10 * Real.exp ((0 : Fin 2 → ℝ) 0) * 1e-10 else 0 with hk
  have hz : maternFormula 1 0 = 1 := (Kernel.maternFormula_shape_props 1).1
  have hdec : ∀ n, gramUpTo k n = Kernel.kernelMat 1 (fun j => (0 : Fin 2 → ℝ) j.succ) (fun i : Fin n => x i) +
      diagonal fun i : Fin n => if (i : ℕ) ≠ 0 then (1e-9 : ℝ) else 0 := fun n => by
    ext i j
    simp only [gramUpTo, hk, of_apply, Matrix.add_apply, Kernel.kernelMat, Pi.zero_apply, Real.exp_zero, one_mul, diagonal_apply,
      Fin.ext_iff]
    by_cases h : (i : ℕ) = j <;> by_cases h' : (j : ℕ) = 0 <;> simp [h, h'] <;> norm_num
  have hpd : ∀ n, (gramUpTo k n).PosDef := fun n => by
    have h1 := Kernel.matern_posSemidef 1 (fun j => (0 : Fin 2 → ℝ) j.succ) fun i : Fin n => x i
    rw [hdec]
    refine posDef_of_quad ?_ fun v hv => ?_
    · rw [transpose_add, diagonal_transpose, PosSemidef.symm h1]
    have h2 := PosSemidef.quad_nonneg h1 v
    have h3 : v ⬝ᵥ (diagonal (fun i : Fin n => if (i : ℕ) ≠ 0 then (1e-9 : ℝ) else 0) *ᵥ v) =
        ∑ i : Fin n, (if (i : ℕ) ≠ 0 then (1e-9 : ℝ) else 0) * v i ^ 2 := by
      simp only [dotProduct, mulVec_diagonal]
      exact Finset.sum_congr rfl fun i _ => by ring
    have h4 : ∀ i : Fin n, 0 ≤ (if (i : ℕ) ≠ 0 then (1e-9 : ℝ) else 0) * v i ^ 2 := fun i => by
      split_ifs <;> positivity
    rw [add_mulVec, dotProduct_add, h3]
    rcases (Finset.sum_nonneg fun i (_ : i ∈ Finset.univ) => h4 i).lt_or_eq with h | h
    · linarith
    have h5 : ∀ i : Fin n, (i : ℕ) ≠ 0 → v i = 0 := fun i hi => by
      have := (Finset.sum_eq_zero_iff_of_nonneg fun i _ => h4 i).mp h.symm i (Finset.mem_univ i)
      rw [if_pos hi] at this
      exact pow_eq_zero_iff two_ne_zero |>.mp ((mul_eq_zero.mp this).resolve_left (by norm_num))
    obtain ⟨i, hi⟩ := Function.ne_iff.mp hv
    have hi0 : (i : ℕ) = 0 := by
      by_contra h'
      exact hi (h5 i h')
    rw [← h, add_zero]
    have h6 : v = Pi.single i (v i) := by
      funext j
      rcases eq_or_ne j i with rfl | hj
      · simp
      · rw [Pi.single_eq_of_ne hj]
        exact h5 j fun h' => hj (Fin.ext (h'.trans hi0.symm))
    rw [h6]
    simp only [mulVec_single, single_dotProduct]
    simp only [Pi.smul_apply, Matrix.col_apply, Kernel.kernelMat, of_apply, Kernel.scaledDistance_self, hz]
    have : v i ≠ 0 := hi
    simp
    positivity
  obtain ⟨P, W, hP, hW, hlaw⟩ := exists_sequence hpd fun _ => 0
  have hlaw' : ∀ n, P.map (fun ω => firstOf (fun i => W i ω) n) = normalLaw 0 (Matrix.of fun i j : Fin n =>
      Real.exp ((0 : Fin 2 → ℝ) 0) * maternFormula 1 (scaledDistance (fun j => (0 : Fin 2 → ℝ) j.succ) (x i) (x j)) +
        if i = j ∧ (i : ℕ) ≠ 0 then 10 * Real.exp ((0 : Fin 2 → ℝ) 0) * 1e-10 else 0) := fun n => by
    rw [hlaw n]
    congr 1
    ext i j
    simp only [gramUpTo, hk, of_apply, Fin.ext_iff]
  obtain ⟨mean, var, h1, -, h3⟩ := matern_noisy_predictions_converge (x := x) (W := W) (μ := P) hla 1 (eps := 1e-10) (by norm_num)
    (0 : Fin 2 → ℝ) (fun e he => by
      refine Set.infinite_of_injective_forall_mem (f := fun n : ℕ => 3 * n + 2) (fun a b h => by simpa using h) fun n => ?_
      have : (3 * n + 2 + 1) % 3 = 0 := by omega
      simp [hx, this, he]) hW hlaw'
  exact ⟨x, P, W, mean, var, hP, by funext j; simp [hx], fun h => by simpa [hx] using congrFun h 0, hlaw', h1, h3⟩

end Verif.Core
