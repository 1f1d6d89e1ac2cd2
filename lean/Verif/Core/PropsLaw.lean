import Verif.Core.PropsGls
import Verif.Core.PropsChain
import Verif.Core.PropsPaths
import Verif.Core.PropsFisherScore
import Mathlib.Probability.Distributions.Gaussian.Multivariate
import Mathlib.MeasureTheory.Measure.CharacteristicFunction.Basic

/-!
# C239: the Gaussian laws behind sample paths, predictions and likelihoods
-/

set_option autoImplicit false

namespace Verif.Core

open Verif Verif.Data Matrix MeasureTheory ProbabilityTheory WithLp
open scoped RealInnerProductSpace

variable {ι κ : Type} [Fintype ι] [DecidableEq ι] [Fintype κ] [DecidableEq κ]

/-- The normal law with mean `mu` and covariance matrix `K`, as a measure on vectors. -/
noncomputable def normalLaw (mu : ι → ℝ) (K : Matrix ι ι ℝ) : Measure (ι → ℝ) :=
  (multivariateGaussian (toLp 2 mu) K).map ofLp

/-- Independent standard normal numbers (`randn`). -/
noncomputable def stdLaw (ι : Type) [Fintype ι] : Measure (ι → ℝ) := Measure.pi fun _ => gaussianReal 0 1

instance (mu : ι → ℝ) (K : Matrix ι ι ℝ) : IsProbabilityMeasure (normalLaw mu K) :=
  Measure.isProbabilityMeasure_map (Measurable.aemeasurable (by fun_prop))

theorem charFun_normal {K : Matrix ι ι ℝ} (hK : K.PosSemidef) (mu : ι → ℝ) (t : ι → ℝ) :
    ∫ x, Complex.exp ((x ⬝ᵥ t : ℝ) * Complex.I) ∂(normalLaw mu K) =
      Complex.exp ((t ⬝ᵥ mu : ℝ) * Complex.I - ((t ⬝ᵥ (K *ᵥ t) : ℝ) : ℂ) / 2) := by
  have h := charFun_multivariateGaussian (μ := toLp 2 mu) hK (toLp 2 t)
  rw [charFun_apply] at h
  rw [normalLaw, integral_map (Measurable.aemeasurable (by fun_prop)) (by fun_prop)]
  have e : ∀ x : EuclideanSpace ℝ ι, ⟪x, toLp 2 t⟫ = ofLp x ⬝ᵥ t := fun x => by
    simp [PiLp.inner_apply, dotProduct, mul_comm]
  have e' : ⟪toLp 2 t, toLp 2 mu⟫ = t ⬝ᵥ mu := by
    simp [PiLp.inner_apply, dotProduct, mul_comm]
  simp only [e, e'] at h
  rw [h]

omit [DecidableEq ι] in
theorem ext_of_char {P Q : Measure (ι → ℝ)} [IsFiniteMeasure P] [IsFiniteMeasure Q]
    (h : ∀ t : ι → ℝ, ∫ x, Complex.exp ((x ⬝ᵥ t : ℝ) * Complex.I) ∂P = ∫ x, Complex.exp ((x ⬝ᵥ t : ℝ) * Complex.I) ∂Q) :
    P = Q := by
  have key : P.map (toLp 2) = Q.map (toLp 2) := by
    apply Measure.ext_of_charFun (E := EuclideanSpace ℝ ι)
    ext t
    rw [charFun_apply, charFun_apply, integral_map (Measurable.aemeasurable (by fun_prop)) (by fun_prop),
      integral_map (Measurable.aemeasurable (by fun_prop)) (by fun_prop)]
    have e : ∀ x : ι → ℝ, ⟪toLp 2 x, t⟫ = x ⬝ᵥ ofLp t := fun x => by
      simp [PiLp.inner_apply, dotProduct, mul_comm]
    simp only [e]
    exact h _
  have := congrArg (fun R : Measure (EuclideanSpace ℝ ι) => R.map ofLp) key
  simp only at this
  rw [Measure.map_map (by fun_prop) (by fun_prop), Measure.map_map (by fun_prop) (by fun_prop)] at this
  simpa [Function.comp_def] using this

/-- Affine images of normal laws. -/
theorem normalLaw_map {K : Matrix ι ι ℝ} (hK : K.PosSemidef) (mu : ι → ℝ) (A : Matrix κ ι ℝ) (c : κ → ℝ) :
    (normalLaw mu K).map (fun x => A *ᵥ x + c) = normalLaw (A *ᵥ mu + c) (A * K * Aᵀ) := by
  have hm : Measurable fun x : ι → ℝ => A *ᵥ x + c := by
    apply Continuous.measurable
    fun_prop
  have hA : (A * K * Aᵀ).PosSemidef := by
    have := hK.mul_mul_conjTranspose_same A
    rwa [conjTranspose_eq_transpose_of_trivial] at this
  have : IsProbabilityMeasure ((normalLaw mu K).map fun x => A *ᵥ x + c) := Measure.isProbabilityMeasure_map hm.aemeasurable
  refine ext_of_char fun t => ?_
  rw [charFun_normal hA, integral_map hm.aemeasurable (by fun_prop)]
  have e : ∀ x : ι → ℝ, ((A *ᵥ x + c) ⬝ᵥ t : ℝ) = x ⬝ᵥ (Aᵀ *ᵥ t) + c ⬝ᵥ t := fun x => by
    rw [add_dotProduct, dotProduct_comm, dot_mulVec_transpose, dotProduct_comm]
  simp only [e, Complex.ofReal_add, add_mul, Complex.exp_add]
  rw [integral_mul_const, charFun_normal hK, ← Complex.exp_add]
  congr 1
  have e1 : (Aᵀ *ᵥ t) ⬝ᵥ mu = t ⬝ᵥ (A *ᵥ mu) := by rw [← dot_mulVec_transpose]
  have e2 : (Aᵀ *ᵥ t) ⬝ᵥ (K *ᵥ (Aᵀ *ᵥ t)) = t ⬝ᵥ ((A * K * Aᵀ) *ᵥ t) := by
    rw [← mulVec_mulVec, ← mulVec_mulVec]
    exact (dot_mulVec_transpose A t _).symm
  rw [e1, e2, dotProduct_add, dotProduct_comm c t]
  push_cast
  ring

theorem normalLaw_std : normalLaw (0 : ι → ℝ) 1 = stdLaw ι := by
  have h : multivariateGaussian (toLp 2 (0 : ι → ℝ)) (1 : Matrix ι ι ℝ) = stdGaussian (EuclideanSpace ℝ ι) := by
    rw [toLp_zero]
    exact multivariateGaussian_zero_one
  rw [normalLaw, h, ← map_pi_eq_stdGaussian, Measure.map_map (by fun_prop) (by fun_prop)]
  simp [Function.comp_def, stdLaw]

/-- A linear combination of normal coordinates is normal. -/
theorem normalLaw_dot {K : Matrix ι ι ℝ} (hK : K.PosSemidef) (mu w : ι → ℝ) (c : ℝ) :
    (normalLaw mu K).map (fun x => w ⬝ᵥ x + c) = gaussianReal (w ⬝ᵥ mu + c) (w ⬝ᵥ (K *ᵥ w)).toNNReal := by
  have hm : Measurable fun x : ι → ℝ => w ⬝ᵥ x + c := by
    apply Continuous.measurable
    fun_prop
  have : IsProbabilityMeasure ((normalLaw mu K).map fun x => w ⬝ᵥ x + c) := Measure.isProbabilityMeasure_map hm.aemeasurable
  apply Measure.ext_of_charFun
  ext t
  rw [charFun_gaussianReal, charFun_apply_real, integral_map hm.aemeasurable (by fun_prop)]
  have e : ∀ x : ι → ℝ, (t : ℂ) * ((w ⬝ᵥ x + c : ℝ) : ℂ) * Complex.I = ((x ⬝ᵥ (t • w) : ℝ) : ℂ) * Complex.I + t * c * Complex.I := fun x => by
    rw [dotProduct_smul, dotProduct_comm x w, smul_eq_mul]
    push_cast
    ring
  simp only [e, Complex.exp_add]
  rw [integral_mul_const, charFun_normal hK, ← Complex.exp_add]
  congr 1
  have h0 := PosSemidef.quad_nonneg hK w
  rw [Real.coe_toNNReal _ h0]
  simp only [mulVec_smul, dotProduct_smul, smul_dotProduct, smul_eq_mul, dotProduct_comm mu w]
  push_cast
  ring

variable {n m q r N : ℕ} {be : Backend} {la : LA}

theorem stdLaw_density : stdLaw (Fin n) =
    volume.withDensity fun y => ENNReal.ofReal ((mom 0 ^ n)⁻¹ * bells y) := by
  have hb : ∀ y : Fin n → ℝ, (mom 0 ^ n)⁻¹ * bells y = ∏ i, gaussianPDFReal 0 1 (y i) := by
    intro y
    have : ∀ x : ℝ, gaussianPDFReal 0 1 x = (mom 0)⁻¹ * bell x := by
      intro x
      rw [gaussianPDFReal, mom_zero, bell]
      simp only [NNReal.coe_one, mul_one, sub_zero]
      congr 2
      ring
    simp only [this, Finset.prod_mul_distrib, Finset.prod_const, Finset.card_univ, Fintype.card_fin, bells, inv_pow]
  symm
  rw [stdLaw]
  symm
  refine Measure.pi_eq fun s hs => ?_
  have hbox : MeasurableSet (Set.univ.pi s) := MeasurableSet.univ_pi hs
  rw [withDensity_apply _ hbox]
  simp only [hb]
  have hint : Integrable fun y : Fin n → ℝ => ∏ i, gaussianPDFReal 0 1 (y i) := by
    rw [volume_pi]
    exact Integrable.fintype_prod (f := fun _ => gaussianPDFReal 0 1) fun i => integrable_gaussianPDFReal 0 1
  rw [← ofReal_integral_eq_lintegral_ofReal hint.restrict
    (Filter.Eventually.of_forall fun y => Finset.prod_nonneg fun i _ => gaussianPDFReal_nonneg _ _ _)]
  have hind : ∫ y in Set.univ.pi s, ∏ i, gaussianPDFReal 0 1 (y i) = ∏ i, ∫ x in s i, gaussianPDFReal 0 1 x := by
    rw [volume_pi, Measure.restrict_pi_pi]
    exact integral_fintype_prod_eq_prod fun _ => gaussianPDFReal 0 1
  rw [hind, ENNReal.ofReal_prod_of_nonneg
    (fun i _ => integral_nonneg fun x => gaussianPDFReal_nonneg _ _ _)]
  exact Finset.prod_congr rfl fun i _ => (gaussianReal_apply_eq_integral 0 one_ne_zero (s i)).symm

/-- The normal law as an image of standard normal numbers. -/
theorem normalLaw_factor {K A : Mat n n} (hA : A * Aᵀ = K) (mu : Fin n → ℝ) :
    (stdLaw (Fin n)).map (fun y => A *ᵥ y + mu) = normalLaw mu K := by
  rw [← normalLaw_std, normalLaw_map PosSemidef.one, mulVec_zero, zero_add, Matrix.mul_one, hA]

instance : IsProbabilityMeasure (stdLaw ι) := by
  unfold stdLaw
  infer_instance

/-- Independent columns of draws, each passed through the same affine map. -/
theorem columns_law {A : Mat n n} {K : Mat n n} (hA : A * Aᵀ = K) :
    (Measure.pi fun _ : Fin m => stdLaw (Fin n)).map (fun xi k => A *ᵥ xi k) =
      Measure.pi fun _ : Fin m => normalLaw 0 K := by
  have hm : Measurable fun y : Fin n → ℝ => A *ᵥ y := by
    apply Continuous.measurable
    fun_prop
  have h := normalLaw_factor hA 0
  simp only [add_zero] at h
  rw [← h]
  exact (Measure.pi_map_pi (μ := fun _ : Fin m => stdLaw (Fin n)) (f := fun _ y => A *ᵥ y)
    (fun _ => hm.aemeasurable))

/-- Integration against a law with a density, for indicator functions. -/
theorem density_whiten {K : Mat n n} (hK : K.PosDef) (mu : Fin n → ℝ) :
    normalLaw mu K = volume.withDensity fun z => ENNReal.ofReal (gaussDensity K mu z) := by
  obtain ⟨C, hC⟩ := exists_chol _ hK
  rw [← normalLaw_factor hC.mul mu, stdLaw_density]
  have hm : Measurable fun y : Fin n → ℝ => C *ᵥ y + mu := by
    apply Continuous.measurable
    fun_prop
  have hint : Integrable fun z => gaussDensity K mu z := by
    by_contra h
    have h1 := gaussDensity_integral hK mu
    rw [integral_undef h] at h1
    exact zero_ne_one h1
  have hintb : Integrable fun y : Fin n → ℝ => (mom 0 ^ n)⁻¹ * bells y := by
    have := mono_integrable (n := n) (fun _ => 0)
    simp only [pow_zero, Finset.prod_const_one, one_mul] at this
    exact this.const_mul _
  have hbp : ∀ y : Fin n → ℝ, 0 ≤ (mom 0 ^ n)⁻¹ * bells y := by
    intro y
    have : 0 ≤ mom 0 := by rw [mom_zero]; positivity
    have : 0 ≤ bells y := Finset.prod_nonneg fun i _ => by unfold bell; positivity
    positivity
  ext s hs
  rw [Measure.map_apply hm hs, withDensity_apply _ (hm hs), withDensity_apply _ hs,
    ← ofReal_integral_eq_lintegral_ofReal hint.restrict
      (Filter.Eventually.of_forall fun z => (gaussDensity_pos hK mu z).le),
    ← ofReal_integral_eq_lintegral_ofReal hintb.restrict (Filter.Eventually.of_forall hbp)]
  congr 1
  rw [← integral_indicator (hm hs), ← integral_indicator hs]
  have hsh : ∀ z, s.indicator (fun z => gaussDensity K mu z) (z + mu) =
      s.indicator (fun _ => (1 : ℝ)) (z + mu) * gaussDensity K 0 z := by
    intro z
    have : gaussDensity K mu (z + mu) = gaussDensity K 0 z := by
      simp [gaussDensity]
    by_cases hz : z + mu ∈ s <;> simp [hz, this]
  rw [← integral_add_right_eq_self (s.indicator fun z => gaussDensity K mu z) mu]
  simp only [hsh]
  rw [gauss_whiten hK hC (fun z => s.indicator (fun _ => (1 : ℝ)) (z + mu)), ← integral_const_mul]
  congr 1
  funext y
  by_cases hy : C *ᵥ y + mu ∈ s
  · rw [Set.indicator_of_mem (by exact hy), Set.indicator_of_mem hy]
    ring
  · rw [Set.indicator_of_notMem (by exact hy), Set.indicator_of_notMem hy]
    ring

theorem gaussDensity_continuous (K : Mat n n) (mu : Fin n → ℝ) : Continuous (gaussDensity K mu) := by
  unfold gaussDensity
  fun_prop

/-- A continuous function that is the density of a law. -/
structure IsDensity (L : Measure (Fin n → ℝ)) (p : (Fin n → ℝ) → ℝ) : Prop where
  cont : Continuous p
  pos : ∀ z, 0 < p z
  dens : L = volume.withDensity fun z => ENNReal.ofReal (p z)

/-- A law has at most one continuous density. -/
theorem IsDensity.unique {L : Measure (Fin n → ℝ)} {p p' : (Fin n → ℝ) → ℝ} (h : IsDensity L p) (h' : IsDensity L p')
    [SigmaFinite L] : p = p' := by
  have e := h.dens.symm.trans h'.dens
  have ae := (withDensity_eq_iff_of_sigmaFinite (by have := h.cont; fun_prop) (by have := h'.cont; fun_prop)).mp e
  have ae' : p =ᵐ[volume] p' := by
    filter_upwards [ae] with z hz
    exact (ENNReal.ofReal_eq_ofReal_iff (h.pos z).le (h'.pos z).le).mp hz
  exact Continuous.ae_eq_iff_eq volume h.cont h'.cont |>.mp ae'

/-- **C239** `sample_paths`, Cholesky method, under independent standard normal draws: the paths are
independent, each with the normal law of mean zero and covariance `K`. -/
theorem sample_law (hla : la.Sound be) {K : Mat n n} (hK : K.PosDef) :
    ∃ paths : (Fin m → Fin n → ℝ) → Mat n m,
      (∀ xi, samplePathsChol la K (Matrix.of fun i k => xi k i) = .ok (paths xi)) ∧
      (Measure.pi fun _ : Fin m => stdLaw (Fin n)).map (fun xi k i => paths xi i k) =
        Measure.pi fun _ : Fin m => normalLaw 0 K := by
  obtain ⟨C, hC, hs⟩ := samplePathsChol_spec (m := m) hla hK
  refine ⟨_, fun xi => hs _, ?_⟩
  rw [← columns_law hC]
  rfl

/-- **C239** The same of the singular value method, with any decomposition the library returns and
also for singular `K`. -/
theorem sample_law_svd {K U Vt : Mat n n} {s : Fin n → ℝ} (hK : K.PosSemidef) (h : IsSVD K U Vt s) :
    (Measure.pi fun _ : Fin m => stdLaw (Fin n)).map
        (fun xi k i => samplePathsSvd U Vt s (Matrix.of fun i k => xi k i) i k) =
      Measure.pi fun _ : Fin m => normalLaw 0 K := by
  obtain ⟨A, hA, hs⟩ := samplePathsSvd_spec hK h
  simp only [hs]
  rw [← columns_law hA]
  rfl

/-- **C239** The likelihood criteria are minus the logarithm of the continuous density of the law that
`sample_paths` samples from, shifted by the mean. -/
theorem nll_law (hla : la.Sound be) {K : Mat n n} (hK : K.PosDef) (mi : Fin n → ℝ) :
    ∃ p, IsDensity (normalLaw mi K) p ∧
      (∀ z, nll be la K mi z = .ok (.finite (-Real.log (p z)))) ∧
      (mi = 0 → ∀ z, nllZeroMean be la K z = .ok (.finite (-Real.log (p z)))) :=
  ⟨_, ⟨gaussDensity_continuous K mi, gaussDensity_pos hK mi, density_whiten hK mi⟩,
    fun z => (nll_eq hla hK mi z).1, fun h z => by rw [h]; exact (nll_eq hla hK mi z).2⟩

/-- **C239** The restricted likelihood is minus the logarithm of the continuous density of the law of
the contrasts of the data, whatever the mean of the linear space. -/
theorem reml_law (hla : la.Sound be) {K : Mat (q + r) (q + r)} {P : Mat (q + r) q} (hK : CPD K P)
    (hKp : K.PosSemidef) (hP : FullRank P) {W : Mat (q + r) r} (hW : IsContrast P W) (beta : Fin q → ℝ) :
    ∃ p, IsDensity ((normalLaw (P *ᵥ beta) K).map fun z => Wᵀ *ᵥ z) p ∧
      ∀ z, reml be la K P z = .ok (.finite (-Real.log (p (Wᵀ *ᵥ z)))) := by
  have hG : (Wᵀ * (K * W)).PosDef := contrast_posDef hW.orth hW.null hK
  refine ⟨gaussDensity (Wᵀ * (K * W)) 0, ⟨gaussDensity_continuous _ _, gaussDensity_pos hG _, ?_⟩,
    fun z => reml_eq hla hK hP z hW⟩
  rw [← density_whiten hG]
  have h := normalLaw_map hKp (P *ᵥ beta) Wᵀ 0
  simp only [add_zero, transpose_transpose, mulVec_mulVec] at h
  rw [h, Matrix.mul_assoc]
  congr 1
  have := congrArg Matrix.transpose hW.null
  rw [transpose_mul, transpose_transpose, transpose_zero] at this
  rw [this, zero_mulVec]

/-- Four correlated points: the hypotheses are met. -/
example : ∃ p, IsDensity (normalLaw (fun _ => 1) (firstCov exK 4)) p ∧
    ∀ z, nll .torch (exactLA .torch) (firstCov exK 4) (fun _ => 1) z = .ok (.finite (-Real.log (p z))) := by
  obtain ⟨p, h1, h2, -⟩ := nll_law (exactLA_contract .torch).toSound (exK_posDef 4) (fun _ => 1)
  exact ⟨p, h1, h2⟩

end Verif.Core
