import Verif.Core.PropsCalib
import Verif.Core.PropsChain
import Verif.Core.PropsGuessLimit
import Verif.Diag.PropsPerformance
import Verif.Misc.PropsScoreE
import Mathlib.Probability.StrongLaw
import Mathlib.Probability.Independence.InfinitePi

/-!
# C287: predicting the observations one after the other, the standardised errors are independent and standard normal
-/

set_option autoImplicit false

namespace Verif.Core

open Verif Verif.Data Matrix MeasureTheory ProbabilityTheory Filter Topology

variable {Ω : Type} [MeasurableSpace Ω] {μ : Measure Ω} [IsProbabilityMeasure μ]
variable {be : Backend} {la : LA}

/-- A sequence in which every term is independent of the ones before is independent. -/
theorem indep_of_past {X : ℕ → Ω → ℝ} (hX : ∀ n, Measurable (X n))
    (h : ∀ n, IndepFun (fun ω => firstOf (fun i => X i ω) n) (X n) μ) : iIndepFun X μ := by
  have hprod : ∀ (n : ℕ) (s : ℕ → Set ℝ), (∀ i, MeasurableSet (s i)) →
      μ {ω | ∀ i < n, X i ω ∈ s i} = ∏ i ∈ Finset.range n, μ (X i ⁻¹' s i) := by
    intro n s hs
    induction n with
    | zero => simp
    | succ n ih =>
      have e : {ω | ∀ i < n + 1, X i ω ∈ s i} =
          (fun ω => firstOf (fun i => X i ω) n) ⁻¹' {y | ∀ i : Fin n, y i ∈ s i} ∩ X n ⁻¹' s n := by
        ext ω
        simp only [Set.mem_setOf_eq, Set.mem_inter_iff, Set.mem_preimage, firstOf]
        exact ⟨fun h => ⟨fun i => h i (by omega), h n (by omega)⟩, fun h i hi => by
          rcases Nat.lt_succ_iff_lt_or_eq.mp hi with hi | rfl
          · exact h.1 ⟨i, hi⟩
          · exact h.2⟩
      have hset : MeasurableSet {y : Fin n → ℝ | ∀ i : Fin n, y i ∈ s i} := by
        have : {y : Fin n → ℝ | ∀ i : Fin n, y i ∈ s i} = ⋂ i : Fin n, (fun y => y i) ⁻¹' s i := by ext; simp
        rw [this]
        exact MeasurableSet.iInter fun i => measurable_pi_apply i (hs i)
      rw [e, (h n).measure_inter_preimage_eq_mul _ _ hset (hs n), Finset.prod_range_succ, ← ih]
      congr 2
      ext ω
      simp only [Set.mem_setOf_eq, Set.mem_preimage, firstOf]
      exact ⟨fun h i hi => h ⟨i, hi⟩, fun h i => h i i.2⟩
  rw [iIndepFun_iff_measure_inter_preimage_eq_mul]
  intro S sets hsets
  classical
  set s : ℕ → Set ℝ := fun i => if i ∈ S then sets i else Set.univ with hs
  obtain ⟨n, hn⟩ : ∃ n, ∀ i ∈ S, i < n := ⟨S.sup id + 1, fun i hi => Nat.lt_succ_of_le (Finset.le_sup (f := id) hi)⟩
  have := hprod n s fun i => by
    simp only [hs]
    split_ifs with h
    · exact hsets i h
    · exact MeasurableSet.univ
  have e1 : {ω | ∀ i < n, X i ω ∈ s i} = ⋂ i ∈ S, X i ⁻¹' sets i := by
    ext ω
    simp only [Set.mem_setOf_eq, Set.mem_iInter, Set.mem_preimage, hs]
    refine ⟨fun h i hi => by simpa [hi] using h i (hn i hi), fun h i _ => ?_⟩
    split_ifs with hi
    · exact h i hi
    · trivial
  rw [e1] at this
  rw [this]
  refine (Finset.prod_subset (fun i hi => Finset.mem_range.mpr (hn i hi)) fun i _ hi => ?_).symm.trans
    (Finset.prod_congr rfl fun i hi => ?_)
  · simp [hs, hi]
  · simp [hs, hi]

/-- The error of the prediction of observation `n` from the ones before, divided by the standard deviation. -/
theorem innovations (hla : la.Contract be) {k : ℕ → ℕ → ℝ} (hk : ∀ n, (firstCov k n).PosDef) (m : ℕ → ℝ) {Z : ℕ → Ω → ℝ}
    (hZ : ∀ i, Measurable (Z i))
    (hlaw : ∀ n, μ.map (fun ω => firstOf (fun i => Z i ω) n) = normalLaw (firstOf m n) (firstCov k n)) :
    ∃ (mean : ℕ → Ω → ℝ) (var : ℕ → ℝ), (∀ n, Measurable (mean n)) ∧ (∀ n, 0 < var n) ∧
      (∀ n ω zn, ∃ lam, predict la (.parameterized (firstOf m n) fun _ => m n) (nextArrays k n)
        (firstOf (fun i => Z i ω) n) zn = .ok (fun _ => mean n ω, fun _ => var n, lam)) ∧
      (m = 0 → ∀ n ω zn, ∃ lam, predict la .zero (nextArrays k n)
        (firstOf (fun i => Z i ω) n) zn = .ok (fun _ => mean n ω, fun _ => var n, lam)) ∧
      iIndepFun (fun n ω => (Z n ω - mean n ω) / √(var n)) μ ∧
      ∀ n, μ.map (fun ω => (Z n ω - mean n ω) / √(var n)) = gaussianReal 0 1 := by
  have hsym : ∀ i j, k i j = k j i := by
    intro i j
    have := PosDef.symm (hk (max i j + 1))
    have h2 := congrFun (congrFun this ⟨j, by omega⟩) ⟨i, by omega⟩
    simpa [firstCov] using h2
  set lam : ∀ n, Mat (n + 0) 1 := fun n => (nextArrays k n).Kii⁻¹ * (nextArrays k n).Kit with hlam
  set pm : ∀ n, (Fin n → ℝ) → ℝ := fun n z => ∑ i : Fin n, lam n i 0 * (z i - m i) + m n with hpm
  set var : ℕ → ℝ := fun n => k n n - ∑ i : Fin (n + 0), lam n i 0 * k i n with hvar
  have hK : ∀ n, (nextArrays k n).Kii.PosDef := fun n => hk n
  have hpos : ∀ n, 0 < var n := fun n => by
    obtain ⟨a, v, l, x, h1, h2, -⟩ := predict_chain (N := n + 1) hla (nextArrays_joined hsym n) (hk (n + 1)) 0 0 false
    rw [predict_param hla _ (hK n)] at h1
    have := congrFun (Prod.mk.inj (Prod.mk.inj (Except.ok.inj h1)).2).1 0
    rw [← this] at h2
    exact h2
  have hpred : ∀ n z zn, predict la (.parameterized (firstOf m n) fun _ => m n) (nextArrays k n) z zn =
      .ok (fun _ => pm n z, fun _ => var n, lam n) := fun n z zn => by
    rw [predict_param hla _ (hK n)]
    congr 1
    refine Prod.ext ?_ (Prod.ext ?_ rfl)
    · funext t
      rw [Subsingleton.elim t 0]
      rfl
    · funext t
      rw [Subsingleton.elim t 0]
      cases zn
      · rfl
      · exact max_eq_left (hpos n).le
  have hpc : ∀ n, Measurable (pm n) := fun n => by
    apply Continuous.measurable
    fun_prop
  have hpast : ∀ n, Measurable fun ω => firstOf (fun i => Z i ω) n := fun n => measurable_pi_lambda _ fun i => hZ _
  have hstep : ∀ n, μ.map (fun ω => (firstOf (fun i => Z i ω) n, (Z n ω - pm n (firstOf (fun i => Z i ω) n)) / √(var n))) =
      (normalLaw (firstOf m n) (firstCov k n)).prod (gaussianReal 0 1) := fun n => by
    obtain ⟨pred, l, V, h1, -, -, hV, hc, h2⟩ := predict_law (q := n) (r := 0) (m := 1) hla (hk (n + 1)).posSemidef
      (0 : Mat (n + 1) n) (xi := Fin.castSucc) (fun _ => Fin.last n) (hk n) (firstOf m (n + 1))
    have hp : ∀ z, pred z = (fun _ => pm n z) ∧ V 0 0 = var n := fun z => by
      have := (h1 z).symm.trans (hpred n z false)
      obtain ⟨e1, e2⟩ := Prod.mk.inj (Except.ok.inj this)
      exact ⟨e1, congrFun (Prod.mk.inj e2).1 0⟩
    have hf : (fun ω => (firstOf (fun i => Z i ω) n, (Z n ω - pm n (firstOf (fun i => Z i ω) n)) / √(var n))) =
        Prod.map id (fun y : Fin 1 → ℝ => (fun _ => (√(var n))⁻¹) ⬝ᵥ y + 0) ∘
          (fun z : Fin (n + 1) → ℝ => (z ∘ Fin.castSucc, (z ∘ fun _ : Fin 1 => Fin.last n) - pred (z ∘ Fin.castSucc))) ∘
          fun ω => firstOf (fun i => Z i ω) (n + 1) := by
      funext ω
      refine Prod.ext rfl ?_
      simp only [Function.comp_apply, Prod.map, dotProduct, Finset.univ_unique, Finset.sum_singleton, Pi.sub_apply,
        (hp _).1, add_zero]
      rw [div_eq_inv_mul]
      rfl
    have hm1 : Measurable (Prod.map id fun y : Fin 1 → ℝ => (fun _ => (√(var n))⁻¹) ⬝ᵥ y + 0 :
        (Fin n → ℝ) × (Fin 1 → ℝ) → (Fin n → ℝ) × ℝ) := by
      refine measurable_id.prodMap ?_
      apply Continuous.measurable
      fun_prop
    have hm2 : Measurable fun z : Fin (n + 1) → ℝ =>
        (z ∘ Fin.castSucc, (z ∘ fun _ : Fin 1 => Fin.last n) - pred (z ∘ Fin.castSucc)) := by
      apply Continuous.measurable
      have : Continuous fun z : Fin (n + 1) → ℝ => (z ∘ Fin.castSucc : Fin (n + 0) → ℝ) :=
        continuous_pi fun i => continuous_apply _
      have h3 : Continuous fun z : Fin (n + 1) → ℝ => (z ∘ fun _ : Fin 1 => Fin.last n : Fin 1 → ℝ) :=
        continuous_pi fun i => continuous_apply _
      exact this.prodMk (h3.sub (hc.comp this))
    rw [hf, ← Measure.map_map hm1 (hm2.comp (hpast (n + 1))), ← Measure.map_map hm2 (hpast (n + 1)), hlaw, h2]
    have hm3 : Measurable fun y : Fin 1 → ℝ => (fun _ => (√(var n))⁻¹) ⬝ᵥ y + 0 := by
      apply Continuous.measurable
      fun_prop
    have hg := normalLaw_dot hV (0 : Fin 1 → ℝ) (fun _ => (√(var n))⁻¹) 0
    have hone : ((fun _ => (√(var n))⁻¹ : Fin 1 → ℝ) ⬝ᵥ (V *ᵥ fun _ => (√(var n))⁻¹)).toNNReal = 1 := by
      have : ((fun _ => (√(var n))⁻¹ : Fin 1 → ℝ) ⬝ᵥ (V *ᵥ fun _ => (√(var n))⁻¹)) = 1 := by
        simp only [dotProduct, mulVec, Finset.univ_unique, Finset.sum_singleton, Fin.default_eq_zero, (hp 0).2]
        have h0 := Real.sqrt_pos.mpr (hpos n)
        have h4 := Real.mul_self_sqrt (hpos n).le
        field_simp
        nlinarith
      rw [this]
      simp
    rw [hone] at hg
    simp only [dotProduct_zero, zero_add] at hg
    rw [← Measure.map_prod_map _ _ measurable_id hm3, Measure.map_id]
    simp only [dotProduct_zero, zero_add, hg]
    rfl
  have hme : ∀ n, Measurable fun ω => (Z n ω - pm n (firstOf (fun i => Z i ω) n)) / √(var n) := fun n =>
    ((hZ n).sub ((hpc n).comp (hpast n))).div_const _
  have hsnd : ∀ n, μ.map (fun ω => (Z n ω - pm n (firstOf (fun i => Z i ω) n)) / √(var n)) = gaussianReal 0 1 := fun n => by
    have := congrArg (Measure.map Prod.snd) (hstep n)
    rw [Measure.map_map measurable_snd ((hpast n).prodMk (hme n)), Measure.map_snd_prod] at this
    have h1 : normalLaw (firstOf m n) (firstCov k n) Set.univ = 1 := measure_univ
    rw [h1, one_smul] at this
    exact this
  refine ⟨fun n ω => pm n (firstOf (fun i => Z i ω) n), var, fun n => (hpc n).comp (hpast n), hpos,
    fun n ω zn => ⟨_, hpred n _ zn⟩, fun h0 n ω zn => ?_, indep_of_past hme fun n => ?_, hsnd⟩
  · obtain ⟨a, v, l, x, h1, h2, -, -, h5⟩ := predict_chain (N := n + 1) hla (nextArrays_joined hsym n) (hk (n + 1)) 0
      (fun i => Z i ω) zn
    have h6 := h5 rfl
    have h7 := (hpred n (firstOf (fun i => Z i ω) n) zn)
    subst h0
    refine ⟨_, h6.trans (h1.symm.trans h7)⟩
  · have hind : IndepFun (fun ω => firstOf (fun i => Z i ω) n)
        (fun ω => (Z n ω - pm n (firstOf (fun i => Z i ω) n)) / √(var n)) μ := by
      rw [indepFun_iff_map_prod_eq_prod_map_map (hpast n).aemeasurable (hme n).aemeasurable, hstep n, hlaw, hsnd]
    have hφ : Measurable fun z : Fin n → ℝ => fun i : Fin n =>
        (z i - pm i (fun j : Fin i => z ⟨j, j.2.trans i.2⟩)) / √(var i) := by
      refine measurable_pi_lambda _ fun i => ?_
      refine ((measurable_pi_apply i).sub ((hpc i).comp ?_)).div_const _
      exact measurable_pi_lambda _ fun j => measurable_pi_apply _
    exact hind.comp hφ measurable_id

/-! ## What is seen when the observations come one after the other -/

/-- How often, among the first `n` times, something happens. -/
noncomputable def freq (p : ℕ → Prop) (n : ℕ) : ℝ := by
  classical exact ((Finset.range n).filter p).card / n

/-- Averages of functions of independent standard normal variables. -/
theorem normal_average {X : ℕ → Ω → ℝ} (hX : ∀ n, Measurable (X n)) (hi : iIndepFun X μ)
    (hl : ∀ n, μ.map (X n) = gaussianReal 0 1) {f : ℝ → ℝ} (hf : Measurable f) (hint : Integrable f (gaussianReal 0 1)) :
    ∀ᵐ ω ∂μ, Tendsto (fun n : ℕ => (∑ i ∈ Finset.range n, f (X i ω)) / n) atTop (𝓝 (∫ x, f x ∂gaussianReal 0 1)) := by
  have h := strong_law_ae_real (μ := μ) (fun n ω => f (X n ω)) ?_ ?_ ?_
  · refine h.mono fun ω hω => ?_
    have e : ∫ ω, f (X 0 ω) ∂μ = ∫ x, f x ∂gaussianReal 0 1 := by
      rw [← hl 0, integral_map (hX 0).aemeasurable hf.aestronglyMeasurable]
    rwa [e] at hω
  · rw [← hl 0] at hint
    exact hint.comp_measurable (hX 0)
  · exact fun i j hij => (hi.indepFun hij).comp hf hf
  · intro i
    have : IdentDistrib (X i) (X 0) μ μ := ⟨(hX i).aemeasurable, (hX 0).aemeasurable, by rw [hl, hl]⟩
    exact this.comp hf

theorem normal_freq {X : ℕ → Ω → ℝ} (hX : ∀ n, Measurable (X n)) (hi : iIndepFun X μ)
    (hl : ∀ n, μ.map (X n) = gaussianReal 0 1) {s : Set ℝ} (hs : MeasurableSet s) :
    ∀ᵐ ω ∂μ, Tendsto (freq fun i => X i ω ∈ s) atTop (𝓝 ((gaussianReal 0 1).real s)) := by
  classical
  have h := normal_average hX hi hl (f := s.indicator fun _ => 1) (measurable_const.indicator hs)
    ((integrable_const 1).indicator hs)
  rw [integral_indicator_const _ hs, smul_eq_mul, mul_one] at h
  refine h.mono fun ω hω => hω.congr fun n => ?_
  simp only [freq, Set.indicator_apply, Finset.sum_boole]

theorem Phi_surj {x : ℝ} (h0 : 0 < x) (h1 : x < 1) : ∃ a, Score.Phi a = x := by
  obtain ⟨b, hb⟩ := (Score.Phi_bot.eventually (gt_mem_nhds h0)).exists
  obtain ⟨c, hc⟩ := (Score.Phi_top.eventually (lt_mem_nhds h1)).exists
  obtain ⟨a, ha⟩ := mem_range_of_exists_le_of_exists_ge Score.Phi_continuous ⟨b, hb.le⟩ ⟨c, hc.le⟩
  exact ⟨a, ha⟩

theorem Phi_uniform {x : ℝ} (h0 : 0 ≤ x) (h1 : x ≤ 1) : (gaussianReal 0 1).real {y | Score.Phi y ≤ x} = x := by
  rcases h1.eq_or_lt with rfl | h1
  · have : {y | Score.Phi y ≤ 1} = Set.univ := Set.eq_univ_of_forall Score.Phi_le_one
    rw [this, probReal_univ]
  rcases h0.eq_or_lt with rfl | h0
  · have : {y | Score.Phi y ≤ 0} = ∅ := by
      refine Set.eq_empty_of_forall_notMem fun y hy => ?_
      have := Score.Phi_strictMono (show y - 1 < y by linarith)
      have h2 := Score.Phi_nonneg (y - 1)
      have h3 : Score.Phi y ≤ 0 := hy
      linarith
    rw [this, measureReal_empty]
  obtain ⟨a, ha⟩ := Phi_surj h0 h1
  have : {y | Score.Phi y ≤ x} = Set.Iic a := by
    ext y
    rw [← ha]
    exact Score.Phi_strictMono.le_iff_le
  rw [this, ← ha, Score.Phi, cdf_eq_real]

theorem band_normal {c q : ℝ} (h0 : 0 < c) (hq : Score.Phi q = (1 + c) / 2) :
    (gaussianReal 0 1).real {y | |y| ≤ q} = c := by
  have hq0 : -q ≤ q := by
    by_contra h
    have := Score.Phi_mono (show q ≤ -q by linarith)
    rw [Score.Phi_neg, hq] at this
    linarith
  have e : {y : ℝ | |y| ≤ q} = Set.Icc (-q) q := by
    ext y
    exact abs_le (a := y)
  have e2 : Set.Icc (-q) q = Set.Iic q \ Set.Iio (-q) := by
    ext y
    simp [and_comm]
  rw [e, e2, measureReal_sdiff (Set.Iio_subset_Iic hq0) measurableSet_Iio, ← cdf_eq_real]
  have := nullSingletonClass_gaussianReal (μ := 0) (v := 1) one_ne_zero
  have : (gaussianReal 0 1).real (Set.Iio (-q)) = (gaussianReal 0 1).real (Set.Iic (-q)) :=
    measureReal_congr Iio_ae_eq_Iic
  rw [this, ← cdf_eq_real]
  change Score.Phi q - Score.Phi (-q) = c
  rw [Score.Phi_neg, hq]
  ring

/-- What follows when errors divided by standard deviations are independent and standard normal. -/
theorem long_run {Y mean : ℕ → Ω → ℝ} {var : ℕ → ℝ} (hZ : ∀ n, Measurable (Y n)) (hm : ∀ n, Measurable (mean n))
    (hv : ∀ n, 0 < var n) (hind : iIndepFun (fun n ω => (Y n ω - mean n ω) / √(var n)) μ)
    (hl : ∀ n, μ.map (fun ω => (Y n ω - mean n ω) / √(var n)) = gaussianReal 0 1) {ppf : ℝ → ℝ} (hppf : Quantile ppf) :
    ∃ u : ℕ → Ω → ℝ,
      (∀ N ω, Performance.pit (.vec (List.ofFn fun i : Fin N => Y i ω)) (List.ofFn fun i : Fin N => mean i ω)
        (List.ofFn fun i : Fin N => var i) = .ok (.vec (List.ofFn fun i : Fin N => Flt.fin (u i ω)))) ∧
      iIndepFun u μ ∧ (∀ n x, 0 ≤ x → x ≤ 1 → μ.real {ω | u n ω ≤ x} = x) ∧
      (∀ x, 0 ≤ x → x ≤ 1 → ∀ᵐ ω ∂μ, Tendsto (freq fun i => u i ω ≤ x) atTop (𝓝 x)) ∧
      (∀ c, 0 < c → c < 1 → ∀ᵐ ω ∂μ,
        Tendsto (freq fun i => |Y i ω - mean i ω| ≤ ppf ((1 + c) / 2) * √(var i)) atTop (𝓝 c)) ∧
      ∀ᵐ ω ∂μ, Tendsto (fun n : ℕ => (∑ i ∈ Finset.range n, (Y i ω - mean i ω) ^ 2 / var i) / n) atTop (𝓝 1) := by
  have hX : ∀ n, Measurable fun ω => (Y n ω - mean n ω) / √(var n) := fun n => ((hZ n).sub (hm n)).div_const _
  have hPm : Measurable Score.Phi := Score.Phi_continuous.measurable
  refine ⟨fun n ω => Score.Phi ((Y n ω - mean n ω) / √(var n)), fun N ω => ?_,
    hind.comp (fun _ => Score.Phi) fun _ => hPm, fun n x h0 h1 => ?_, fun x h0 h1 => ?_, fun c h0 h1 => ?_, ?_⟩
  · have hv' : ∀ x ∈ List.ofFn (fun i : Fin N => var i), 0 < x := fun x hx => by
      obtain ⟨i, rfl⟩ := (List.mem_ofFn' _ _).mp hx
      exact hv i
    obtain ⟨l, e, hlen, h⟩ := Performance.pit_values (z := List.ofFn fun i : Fin N => Y i ω)
      (m := List.ofFn fun i : Fin N => mean i ω) (v := List.ofFn fun i : Fin N => var i) (by simp) (by simp) hv'
    rw [e]
    congr 2
    refine List.ext_getElem? fun i => ?_
    rcases lt_or_ge i N with hi | hi
    · rw [(h i (Y i ω) (mean i ω) (var i) (by simp [hi]) (by simp [hi]) (by simp [hi])).1]
      simp [hi]
    · rw [List.getElem?_eq_none (by simpa [hlen] using hi), List.getElem?_eq_none (by simpa using hi)]
  · have : μ.real {ω | Score.Phi ((Y n ω - mean n ω) / √(var n)) ≤ x} = (gaussianReal 0 1).real {y | Score.Phi y ≤ x} := by
      rw [← hl n, map_measureReal_apply (hX n) (measurableSet_le hPm measurable_const)]
      rfl
    rw [this, Phi_uniform h0 h1]
  · have := normal_freq hX hind hl (s := {y | Score.Phi y ≤ x}) (measurableSet_le hPm measurable_const)
    rw [Phi_uniform h0 h1] at this
    exact this
  · have := normal_freq hX hind hl (s := {y | |y| ≤ ppf ((1 + c) / 2)})
      (measurableSet_le measurable_id.abs measurable_const)
    rw [band_normal h0 (hppf _ (by linarith) (by linarith))] at this
    refine this.mono fun ω hω => ?_
    convert hω using 4 with i
    rw [Set.mem_ofPred_eq, abs_div, abs_of_nonneg (Real.sqrt_nonneg _), div_le_iff₀ (Real.sqrt_pos.mpr (hv i))]
  · have hint : Integrable (fun y : ℝ => y ^ 2) (gaussianReal 0 1) := (memLp_id_gaussianReal 2).integrable_sq
    have := normal_average hX hind hl (f := fun y => y ^ 2) (by fun_prop) hint
    have e : ∫ x, x ^ 2 ∂gaussianReal 0 1 = 1 := by
      have h := variance_of_integral_eq_zero (μ := gaussianReal 0 1) (X := id) aemeasurable_id (by simp)
      rw [variance_id_gaussianReal] at h
      simpa using h.symm
    rw [e] at this
    refine this.mono fun ω hω => ?_
    convert hω using 4 with n i
    rw [div_pow, Real.sq_sqrt (hv _).le]

/-- The PIT values of the one-step predictions are independent and uniform, and in the long run: their empirical
distribution function is the diagonal, bands contain the next observation as often as their level says, and the
average of the squared errors divided by the variances is one. -/
theorem sequential_calibration (hla : la.Contract be) {k : ℕ → ℕ → ℝ} (hk : ∀ n, (firstCov k n).PosDef) (m : ℕ → ℝ)
    {Z : ℕ → Ω → ℝ} (hZ : ∀ i, Measurable (Z i))
    (hlaw : ∀ n, μ.map (fun ω => firstOf (fun i => Z i ω) n) = normalLaw (firstOf m n) (firstCov k n))
    {ppf : ℝ → ℝ} (hppf : Quantile ppf) :
    ∃ (mean : ℕ → Ω → ℝ) (var : ℕ → ℝ) (u : ℕ → Ω → ℝ),
      (∀ n ω zn, ∃ lam, predict la (.parameterized (firstOf m n) fun _ => m n) (nextArrays k n)
        (firstOf (fun i => Z i ω) n) zn = .ok (fun _ => mean n ω, fun _ => var n, lam)) ∧
      (∀ N ω, Performance.pit (.vec (List.ofFn fun i : Fin N => Z i ω)) (List.ofFn fun i : Fin N => mean i ω)
        (List.ofFn fun i : Fin N => var i) = .ok (.vec (List.ofFn fun i : Fin N => Flt.fin (u i ω)))) ∧
      iIndepFun u μ ∧ (∀ n x, 0 ≤ x → x ≤ 1 → μ.real {ω | u n ω ≤ x} = x) ∧
      (∀ x, 0 ≤ x → x ≤ 1 → ∀ᵐ ω ∂μ, Tendsto (freq fun i => u i ω ≤ x) atTop (𝓝 x)) ∧
      (∀ c, 0 < c → c < 1 → ∀ᵐ ω ∂μ,
        Tendsto (freq fun i => |Z i ω - mean i ω| ≤ ppf ((1 + c) / 2) * √(var i)) atTop (𝓝 c)) ∧
      ∀ᵐ ω ∂μ, Tendsto (fun n : ℕ => (∑ i ∈ Finset.range n, (Z i ω - mean i ω) ^ 2 / var i) / n) atTop (𝓝 1) := by
  obtain ⟨mean, var, hm, hv, hp, -, hind, hl⟩ := innovations hla hk m hZ hlaw
  obtain ⟨u, hu⟩ := long_run hZ hm hv hind hl hppf
  exact ⟨mean, var, u, hp, hu⟩

/-- There are such sequences, with any means, for the covariance `exK`. -/
example (m : ℕ → ℝ) : (∀ n, (firstCov exK n).PosDef) ∧ ∃ (P : Measure (ℕ → ℝ)) (Z : ℕ → (ℕ → ℝ) → ℝ),
    IsProbabilityMeasure P ∧ (∀ i, Measurable (Z i)) ∧
      ∀ n, P.map (fun ω => firstOf (fun i => Z i ω) n) = normalLaw (firstOf m n) (firstCov exK n) :=
  ⟨exK_posDef, exists_sequence exK_posDef m⟩

/-- And quantile functions. -/
example : ∃ ppf, Quantile ppf := by
  classical
  exact ⟨fun p => if h : 0 < p ∧ p < 1 then (Phi_surj h.1 h.2).choose else 0, fun p h0 h1 => by
    beta_reduce
    rw [dif_pos ⟨h0, h1⟩]
    exact (Phi_surj h0 h1).choose_spec⟩

end Verif.Core
