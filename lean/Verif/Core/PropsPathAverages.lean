import Verif.Core.PropsInnovations

/-!
# C289: averages over conditional sample paths
-/

set_option autoImplicit false

namespace Verif.Core

open Verif Verif.Data Matrix MeasureTheory ProbabilityTheory Filter Topology

variable {Ω : Type} [MeasurableSpace Ω] {μ : Measure Ω} [IsProbabilityMeasure μ]
variable {N m q r : ℕ} {be : Backend} {la : LA}

/-- Averages of functions of independent draws from one law. -/
theorem draws_average {E : Type} [MeasurableSpace E] {Y : ℕ → Ω → E} (hY : ∀ n, Measurable (Y n)) (hi : iIndepFun Y μ)
    {L : Measure E} (hl : ∀ n, μ.map (Y n) = L) {f : E → ℝ} (hf : Measurable f) (hint : Integrable f L) :
    ∀ᵐ ω ∂μ, Tendsto (fun n : ℕ => (∑ i ∈ Finset.range n, f (Y i ω)) / n) atTop (𝓝 (∫ x, f x ∂L)) := by
  have h := strong_law_ae_real (μ := μ) (fun n ω => f (Y n ω)) ?_ ?_ ?_
  · refine h.mono fun ω hω => ?_
    have e : ∫ ω, f (Y 0 ω) ∂μ = ∫ x, f x ∂L := by
      rw [← hl 0, integral_map (hY 0).aemeasurable hf.aestronglyMeasurable]
    rwa [e] at hω
  · rw [← hl 0] at hint
    exact hint.comp_measurable (hY 0)
  · exact fun i j hij => (hi.indepFun hij).comp hf hf
  · intro i
    have : IdentDistrib (Y i) (Y 0) μ μ := ⟨(hY i).aemeasurable, (hY 0).aemeasurable, by rw [hl, hl]⟩
    exact this.comp hf

theorem draws_freq {E : Type} [MeasurableSpace E] {Y : ℕ → Ω → E} (hY : ∀ n, Measurable (Y n)) (hi : iIndepFun Y μ)
    {L : Measure E} [IsProbabilityMeasure L] (hl : ∀ n, μ.map (Y n) = L) {s : Set E} (hs : MeasurableSet s) :
    ∀ᵐ ω ∂μ, Tendsto (freq fun i => Y i ω ∈ s) atTop (𝓝 (L.real s)) := by
  classical
  have h := draws_average hY hi hl (f := s.indicator fun _ => 1) (measurable_const.indicator hs)
    ((integrable_const 1).indicator hs)
  rw [integral_indicator_const _ hs, smul_eq_mul, mul_one] at h
  refine h.mono fun ω hω => hω.congr fun n => ?_
  simp only [freq, Set.indicator_apply, Finset.sum_boole]

/-- Moments of linear forms under a normal law. -/
theorem normal_moments {K : Mat m m} (hK : K.PosSemidef) (mu w : Fin m → ℝ) :
    Integrable (fun y => w ⬝ᵥ y) (normalLaw mu K) ∧ ∫ y, w ⬝ᵥ y ∂(normalLaw mu K) = w ⬝ᵥ mu ∧
      Integrable (fun y => (w ⬝ᵥ (y - mu)) ^ 2) (normalLaw mu K) ∧
      ∫ y, (w ⬝ᵥ (y - mu)) ^ 2 ∂(normalLaw mu K) = w ⬝ᵥ (K *ᵥ w) := by
  have hm : ∀ c, Measurable fun y : Fin m → ℝ => w ⬝ᵥ y + c := fun c => by
    apply Continuous.measurable
    fun_prop
  have h1 := normalLaw_dot hK mu w 0
  have h2 := normalLaw_dot hK mu w (-(w ⬝ᵥ mu))
  rw [add_zero] at h1
  rw [add_neg_cancel] at h2
  have e2 : ∀ y : Fin m → ℝ, (w ⬝ᵥ (y - mu)) ^ 2 = (w ⬝ᵥ y + -(w ⬝ᵥ mu)) ^ 2 := fun y => by
    rw [dotProduct_sub, sub_eq_add_neg]
  simp only [e2]
  refine ⟨?_, ?_, ?_, ?_⟩
  · have : Integrable id ((normalLaw mu K).map fun y => w ⬝ᵥ y + 0) := by
      rw [h1]
      exact (memLp_id_gaussianReal 1).integrable le_rfl
    have := this.comp_measurable (hm 0)
    simpa [Function.comp_def] using this
  · have := integral_map (μ := normalLaw mu K) (hm 0).aemeasurable (f := id) (by fun_prop)
    rw [h1] at this
    simp only [id, add_zero] at this
    rw [← this, integral_id_gaussianReal]
  · have : Integrable (fun x : ℝ => x ^ 2) ((normalLaw mu K).map fun y => w ⬝ᵥ y + -(w ⬝ᵥ mu)) := by
      rw [h2]
      exact (memLp_id_gaussianReal 2).integrable_sq
    exact this.comp_measurable (hm _)
  · have := integral_map (μ := normalLaw mu K) (hm (-(w ⬝ᵥ mu))).aemeasurable (f := fun x => x ^ 2) (by fun_prop)
    rw [h2] at this
    rw [← this]
    have := variance_of_integral_eq_zero (μ := gaussianReal 0 (w ⬝ᵥ (K *ᵥ w)).toNNReal) (X := id) aemeasurable_id (by simp)
    rw [variance_id_gaussianReal, Real.coe_toNNReal _ (PosSemidef.quad_nonneg hK w)] at this
    exact this.symm

/-- **C289** Conditional sample paths computed from independent standard normal draws (`sample_paths` then
`conditional_sample_paths`, or the version with a mean): as the number of paths grows, with probability one their averages
tend to the predictions, their empirical covariances to the posterior covariance (the returned variances on the diagonal),
and the proportion of paths with any given property to its probability under the predictive law. -/
theorem path_averages (hla : la.Contract be) {S : Mat N N} (hS : S.PosDef) (P : Mat N q)
    {xi : Fin (q + r) → Fin N} (xt : Fin m → Fin N) (hxi : Function.Injective xi) (mi : Fin (q + r) → ℝ) (mt : Fin m → ℝ)
    (zi : Fin (q + r) → ℝ) {Z : ℕ → Ω → Fin N → ℝ} (hZ : ∀ k, Measurable (Z k)) (hi : iIndepFun Z μ)
    (hl : ∀ k, μ.map (Z k) = stdLaw (Fin N)) :
    ∃ (mean : Fin m → ℝ) (lam : Mat (q + r) m) (V : Mat m m) (zt : (np : ℕ) → Ω → Mat N np) (path : ℕ → Ω → Fin m → ℝ),
      predict la (.parameterized mi mt) (arraysAt S P xi xt) zi false = .ok (mean, fun t => V t t, lam) ∧
      krigingZeroMean la (arraysAt S P xi xt) 1 = .ok (lam, .cov V) ∧
      (∀ np ω, samplePathsChol la S (Matrix.of fun a (k : Fin np) => Z k ω a) = .ok (zt np ω) ∧
        condPathsMean (zt np ω) mi xi zi mt xt lam = Matrix.of fun j (k : Fin np) => path k ω j) ∧
      (∀ j, ∀ᵐ ω ∂μ, Tendsto (fun np : ℕ => (∑ k ∈ Finset.range np, path k ω j) / np) atTop (𝓝 (mean j))) ∧
      (∀ i j, ∀ᵐ ω ∂μ, Tendsto (fun np : ℕ => (∑ k ∈ Finset.range np, (path k ω i - mean i) * (path k ω j - mean j)) / np)
        atTop (𝓝 (V i j))) ∧
      ∀ B : Set (Fin m → ℝ), MeasurableSet B →
        ∀ᵐ ω ∂μ, Tendsto (freq fun k => path k ω ∈ B) atTop (𝓝 ((normalLaw mean V).real B)) := by
  have hK : (S.submatrix xi xi).PosDef := hS.submatrix hxi
  obtain ⟨mean, lam, V, h1, h2, h3⟩ := conditional_law_mean (np := 1) hla hS.posSemidef P xt hK mi mt zi
  have hV : V.PosSemidef := by
    obtain ⟨-, lam', V', -, -, g, hp, -, -⟩ := predict_law hla hS.posSemidef P xt hK 0
    rw [h2] at g
    obtain ⟨-, hV⟩ := Prod.mk.inj (Except.ok.inj g)
    injection hV with hV
    rw [hV]
    exact hp
  obtain ⟨C, hC, hCE⟩ : ∃ C : Mat N N, C * Cᵀ = S ∧ ∀ {np : ℕ} (E : Mat N np), samplePathsChol la S E = .ok (C * E) := by
    obtain ⟨C, hc, hC⟩ := hla.chol_ok S hS
    exact ⟨C, hC.mul, fun E => by simp only [samplePathsChol, hc, Bind.bind, Except.bind, Pure.pure, Except.pure]⟩
  set G : (Fin N → ℝ) → Fin m → ℝ := fun x j => condPathsMean (Matrix.of fun a (_ : Fin 1) => x a) mi xi zi mt xt lam j 0 with hGd
  have hGm : Measurable G := by
    refine measurable_pi_iff.mpr fun j => ?_
    simp only [hGd, condPathsMean, Matrix.of_apply]
    fun_prop
  have hG : (normalLaw 0 S).map G = normalLaw mean V := by
    have h := congrArg (Measure.map fun y : Fin 1 → Fin m → ℝ => y 0) h3
    have hm : Measurable fun (zs : Fin 1 → Fin N → ℝ) (k : Fin 1) (j : Fin m) =>
        condPathsMean (Matrix.of fun a k => zs k a) mi xi zi mt xt lam j k := by
      refine measurable_pi_iff.mpr fun k => measurable_pi_iff.mpr fun j => ?_
      simp only [condPathsMean, Matrix.of_apply]
      fun_prop
    rw [Measure.map_map (measurable_pi_apply 0) hm, Measure.pi_map_eval] at h
    simp only [measure_univ, Finset.prod_const_one, one_smul] at h
    rw [← h]
    have e : ((fun y : Fin 1 → Fin m → ℝ => y 0) ∘ fun (zs : Fin 1 → Fin N → ℝ) (k : Fin 1) (j : Fin m) =>
        condPathsMean (Matrix.of fun a k => zs k a) mi xi zi mt xt lam j k) = G ∘ fun zs : Fin 1 → Fin N → ℝ => zs 0 := by
      funext zs j
      simp only [Function.comp_apply, hGd]
      congr 2
      funext a k
      rw [Subsingleton.elim k 0]
    rw [e, ← Measure.map_map hGm (measurable_pi_apply 0), Measure.pi_map_eval]
    simp
  have hCm : Measurable fun e : Fin N → ℝ => C *ᵥ e := by
    apply Continuous.measurable
    fun_prop
  set path : ℕ → Ω → Fin m → ℝ := fun k ω => G (C *ᵥ Z k ω) with hpath
  have hpm : ∀ k, Measurable (path k) := fun k => hGm.comp (hCm.comp (hZ k))
  have hpi : iIndepFun path μ := hi.comp (fun _ e => G (C *ᵥ e)) fun _ => hGm.comp hCm
  have hpl : ∀ k, μ.map (path k) = normalLaw mean V := fun k => by
    have h4 := normalLaw_map Matrix.PosSemidef.one (0 : Fin N → ℝ) C 0
    rw [normalLaw_std, mulVec_zero, add_zero, Matrix.mul_one, hC] at h4
    simp only [add_zero] at h4
    rw [← hG, ← h4, ← hl k, Measure.map_map hCm (hZ k), Measure.map_map hGm (hCm.comp (hZ k))]
    rfl
  refine ⟨mean, lam, V, fun np ω => C * Matrix.of fun a (k : Fin np) => Z k ω a, path, h1, h2, fun np ω => ⟨hCE _, ?_⟩, fun j => ?_,
    fun i j => ?_, fun B hB => draws_freq hpm hpi hpl hB⟩
  · ext j k
    simp only [condPathsMean, of_apply, hpath, hGd, Matrix.mul_apply, mulVec, dotProduct]
  · obtain ⟨a, b, -, -⟩ := normal_moments hV mean (Pi.single j 1)
    have := draws_average hpm hpi hpl (f := fun y => Pi.single j 1 ⬝ᵥ y) (by apply Continuous.measurable; fun_prop) a
    rw [b] at this
    simpa only [single_one_dotProduct] using this
  · have hm : ∀ w : Fin m → ℝ, Measurable fun y : Fin m → ℝ => (w ⬝ᵥ (y - mean)) ^ 2 := fun w => by
      apply Continuous.measurable
      fun_prop
    obtain ⟨-, -, a1, b1⟩ := normal_moments hV mean (Pi.single i 1 + Pi.single j 1)
    obtain ⟨-, -, a2, b2⟩ := normal_moments hV mean (Pi.single i 1 - Pi.single j 1)
    have c1 := draws_average hpm hpi hpl (hm _) a1
    have c2 := draws_average hpm hpi hpl (hm _) a2
    rw [b1] at c1
    rw [b2] at c2
    filter_upwards [c1, c2] with ω d1 d2
    have := (d1.sub d2).const_mul (1 / 4 : ℝ)
    have hsym : V j i = V i j := congrFun (congrFun (PosSemidef.symm hV) i) j
    have e : 1 / 4 * ((Pi.single i 1 + Pi.single j 1) ⬝ᵥ (V *ᵥ (Pi.single i 1 + Pi.single j 1)) -
        (Pi.single i 1 - Pi.single j 1) ⬝ᵥ (V *ᵥ (Pi.single i 1 - Pi.single j 1))) = V i j := by
      simp only [mulVec_add, mulVec_sub, add_dotProduct, sub_dotProduct, dotProduct_add, dotProduct_sub, single_one_dotProduct,
        mulVec_single_one, Matrix.col_apply, hsym]
      ring
    rw [e] at this
    refine this.congr fun np => ?_
    rw [← sub_div, ← Finset.sum_sub_distrib, ← mul_div_assoc, Finset.mul_sum]
    congr 1
    refine Finset.sum_congr rfl fun k _ => ?_
    simp only [add_dotProduct, sub_dotProduct, single_one_dotProduct, Pi.sub_apply]
    ring

/-- Four points with the covariance `exK`, two of them observed; the draws exist. -/
example (hla : la.Contract be) (zi : Fin 2 → ℝ) : ∃ (P : Measure (ℕ → Fin 4 → ℝ)) (Z : ℕ → (ℕ → Fin 4 → ℝ) → Fin 4 → ℝ)
    (mean : Fin 2 → ℝ) (lam : Mat 2 2) (V : Mat 2 2) (zt : (np : ℕ) → (ℕ → Fin 4 → ℝ) → Mat 4 np),
    IsProbabilityMeasure P ∧ (∀ np ω, samplePathsChol la (firstCov exK 4) (Matrix.of fun a (k : Fin np) => Z k ω a) = .ok (zt np ω)) ∧
    predict la (.parameterized 0 0) (arraysAt (firstCov exK 4) (0 : Mat 4 2) (Fin.castLE (by omega) : Fin (2 + 0) → Fin 4)
      (Fin.natAdd 2 : Fin 2 → Fin 4)) zi false = .ok (mean, fun t => V t t, lam) ∧
    ∀ j, ∀ᵐ ω ∂P, Tendsto (fun np : ℕ => (∑ k : Fin np, condPathsMean (zt np ω) 0 (Fin.castLE (by omega) : Fin (2 + 0) → Fin 4) zi 0
      (Fin.natAdd 2 : Fin 2 → Fin 4) lam j k) / np) atTop (𝓝 (mean j)) := by
  have hZ : ∀ k, Measurable fun ω : ℕ → Fin 4 → ℝ => ω k := fun k => measurable_pi_apply k
  obtain ⟨mean, lam, V, zt, path, h1, -, h3, h4, -⟩ := path_averages (q := 2) (r := 0) (μ := Measure.infinitePi fun _ => stdLaw (Fin 4))
    hla (exK_posDef 4) (0 : Mat 4 2) (xi := (Fin.castLE (by omega) : Fin (2 + 0) → Fin 4)) (Fin.natAdd 2 : Fin 2 → Fin 4)
    (Fin.castLE_injective _) 0 0 zi (Z := fun k ω => ω k) hZ (iIndepFun_infinitePi (P := fun _ => stdLaw (Fin 4)) (X := fun _ x => x) fun _ => measurable_id)
    (fun k => (Measure.infinitePi_map_eval (fun _ => stdLaw (Fin 4)) k))
  refine ⟨Measure.infinitePi fun _ => stdLaw (Fin 4), fun k ω => ω k, mean, lam, V, zt, inferInstance, fun np ω => (h3 np ω).1, h1, fun j => ?_⟩
  filter_upwards [h4 j] with ω h
  refine h.congr fun np => ?_
  rw [(h3 np ω).2]
  simp only [of_apply]
  rw [Fin.sum_univ_eq_sum_range fun k => path k ω j]

end Verif.Core
