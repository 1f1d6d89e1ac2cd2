import Verif.Mcmc.PropsSMCConsistent
import Verif.Mcmc.PropsKnnCov
import Verif.Core.PropsInexact
import Verif.Core.PropsVague
import Mathlib.MeasureTheory.Measure.Lebesgue.EqHaar

/-!
# C264: a run whose proposals are adapted to the particles is still consistent
-/

set_option autoImplicit false

open MeasureTheory ProbabilityTheory Filter Topology Matrix
open scoped ENNReal

namespace Verif.SMC

open Verif

variable {d : ℕ}

/-! ## Normal laws with nearby covariances -/

theorem gauss_nonneg (K : Matrix (Fin d) (Fin d) ℝ) (m z : Fin d → ℝ) : 0 ≤ Core.gaussDensity K m z := by
  unfold Core.gaussDensity
  positivity

theorem gauss_integrable {K : Matrix (Fin d) (Fin d) ℝ} (hK : K.PosDef) (m : Fin d → ℝ) :
    Integrable (Core.gaussDensity K m) volume := by
  by_contra h
  have := integral_undef h
  rw [Core.gaussDensity_integral hK] at this
  exact one_ne_zero this

theorem gauss_tendsto {K : Matrix (Fin d) (Fin d) ℝ} (hK : K.PosDef) (y : Fin d → ℝ) :
    Tendsto (fun A : Matrix (Fin d) (Fin d) ℝ => Core.gaussDensity A 0 y) (𝓝 K) (𝓝 (Core.gaussDensity K 0 y)) := by
  have hdet : K.det ≠ 0 := hK.det_pos.ne'
  unfold Core.gaussDensity
  have hinv : ∀ i j, Tendsto (fun A : Matrix (Fin d) (Fin d) ℝ => A⁻¹ i j) (𝓝 K) (𝓝 (K⁻¹ i j)) := by
    refine fun i j => Core.inv_lim (fun i j => ?_) hdet i j
    have : Continuous fun A : Matrix (Fin d) (Fin d) ℝ => A i j := by fun_prop
    exact this.tendsto K
  have hd : Tendsto (fun A : Matrix (Fin d) (Fin d) ℝ => A.det) (𝓝 K) (𝓝 K.det) :=
    (continuous_id.matrix_det).tendsto K
  refine Tendsto.mul (Tendsto.inv₀ ?_ ?_) ?_
  · exact (Real.continuous_sqrt.tendsto _).comp (hd.const_mul _)
  · have : 0 < K.det := hK.det_pos
    positivity
  · refine (Real.continuous_exp.tendsto _).comp (Tendsto.const_mul _ ?_)
    simp only [dotProduct, mulVec]
    exact tendsto_finsetSum _ fun i _ => Tendsto.const_mul _ (tendsto_finsetSum _ fun j _ =>
      (hinv i j).mul_const _)

/-- Expectations of functions with values in [-1, 1] under normal laws with nearby covariances
are uniformly close. -/
theorem normal_near {K : Matrix (Fin d) (Fin d) ℝ} (hK : K.PosDef) {ε : ℝ} (hε : 0 < ε) :
    ∃ δ, 0 < δ ∧ ∀ A : Matrix (Fin d) (Fin d) ℝ, Aᵀ = A → (∀ a b, |A a b - K a b| < δ) →
      ∀ f : Pt d → ℝ, Measurable f → (∀ y, |f y| ≤ 1) →
        |∫ y, f y ∂(Core.normalLaw 0 A) - ∫ y, f y ∂(Core.normalLaw 0 K)| ≤ ε := by
  have hp := gauss_integrable hK 0
  have hfc : FirstCountableTopology (Matrix (Fin d) (Fin d) ℝ) :=
    inferInstanceAs (FirstCountableTopology (Fin d → Fin d → ℝ))
  have hcont : ContinuousAt (fun A : Matrix (Fin d) (Fin d) ℝ =>
      ∫ y, max (Core.gaussDensity K 0 y - Core.gaussDensity A 0 y) 0) K := by
    refine continuousAt_of_dominated (bound := fun y => Core.gaussDensity K 0 y) ?_ ?_ hp ?_
    · refine Eventually.of_forall fun A => ?_
      have h1 := Core.gaussDensity_continuous K 0
      have h2 := Core.gaussDensity_continuous A 0
      exact Continuous.aestronglyMeasurable (by fun_prop)
    · refine Eventually.of_forall fun A => ae_of_all _ fun y => ?_
      rw [Real.norm_eq_abs, abs_of_nonneg (le_max_right _ _)]
      have h1 := gauss_nonneg A 0 y
      have h2 := gauss_nonneg K 0 y
      exact max_le (by linarith) h2
    · refine ae_of_all _ fun y => ?_
      exact ((gauss_tendsto hK y).const_sub _).max tendsto_const_nhds
  have h0 : (∫ y, max (Core.gaussDensity K 0 y - Core.gaussDensity K 0 y) 0) = 0 := by simp
  have hev : ∀ᶠ A in 𝓝 K, (∫ y, max (Core.gaussDensity K 0 y - Core.gaussDensity A 0 y) 0) < ε / 2 := by
    have h1 := hcont.tendsto
    beta_reduce at h1
    rw [h0] at h1
    exact (tendsto_order.1 h1).2 _ (by linarith)
  obtain ⟨δ, hδ, hb⟩ := Core.mat_ball (hev.and (Core.posDef_open hK))
  refine ⟨δ, hδ, fun A hA hAK f hf hf1 => ?_⟩
  obtain ⟨hD, hpd⟩ := hb A hAK
  have hApd := hpd hA
  have hpA := gauss_integrable hApd 0
  have hint : ∀ {B : Matrix (Fin d) (Fin d) ℝ}, B.PosDef → ∫ y, f y ∂(Core.normalLaw 0 B) =
      ∫ y, Core.gaussDensity B 0 y * f y := by
    intro B hB
    have hc := (Core.gaussDensity_continuous B 0).measurable
    rw [Core.density_whiten hB, integral_withDensity_eq_integral_toReal_smul (by fun_prop) (by simp)]
    refine integral_congr_ae (ae_of_all _ fun y => ?_)
    simp only [smul_eq_mul]
    rw [ENNReal.toReal_ofReal (gauss_nonneg B 0 y)]
  have hfi : ∀ {B : Matrix (Fin d) (Fin d) ℝ}, B.PosDef → Integrable (fun y => Core.gaussDensity B 0 y * f y) volume := by
    intro B hB
    refine (gauss_integrable hB 0).mono' ?_ (ae_of_all _ fun y => ?_)
    · exact ((Core.gaussDensity_continuous B 0).measurable.mul hf).aestronglyMeasurable
    · rw [Real.norm_eq_abs, abs_mul, abs_of_nonneg (gauss_nonneg B 0 y)]
      exact mul_le_of_le_one_right (gauss_nonneg B 0 y) (hf1 y)
  rw [hint hApd, hint hK, ← integral_sub (hfi hApd) (hfi hK)]
  have hmaxi : Integrable (fun y => max (Core.gaussDensity K 0 y - Core.gaussDensity A 0 y) 0) volume :=
    (hp.sub hpA).sup (integrable_zero _ _ _)
  calc |∫ y, (Core.gaussDensity A 0 y * f y - Core.gaussDensity K 0 y * f y)|
      ≤ ∫ y, (2 * max (Core.gaussDensity K 0 y - Core.gaussDensity A 0 y) 0 +
          (Core.gaussDensity A 0 y - Core.gaussDensity K 0 y)) := by
        rw [← Real.norm_eq_abs]
        refine (norm_integral_le_integral_norm _).trans (integral_mono ((hfi hApd).sub (hfi hK)).norm
          ((hmaxi.const_mul 2).add (hpA.sub hp)) fun y => ?_)
        dsimp only [Pi.add_apply, Pi.sub_apply]
        rw [← sub_mul, Real.norm_eq_abs, abs_mul]
        refine (mul_le_of_le_one_right (abs_nonneg _) (hf1 y)).trans ?_
        rcases le_total (Core.gaussDensity K 0 y - Core.gaussDensity A 0 y) 0 with h | h
        · rw [max_eq_right h, abs_of_nonneg (by linarith)]; linarith
        · rw [max_eq_left h, abs_of_nonpos (by linarith)]; linarith
    _ = 2 * ∫ y, max (Core.gaussDensity K 0 y - Core.gaussDensity A 0 y) 0 := by
        refine (integral_add (hmaxi.const_mul 2) (hpA.sub hp)).trans ?_
        rw [integral_sub' hpA hp, Core.gaussDensity_integral hApd, Core.gaussDensity_integral hK,
          integral_const_mul]
        ring
    _ ≤ ε := by linarith

/-! ## The covariance of the particles -/

open Classical in
/-- A coordinate, scaled and cut off outside the set. -/
noncomputable def coord (S : Set (Pt d)) (R : ℝ) (a : Fin d) (y : Pt d) : ℝ := if y ∈ S then y a / R else 0

theorem coord_unit1 {S : Set (Pt d)} (hS : MeasurableSet S) {R : ℝ} (hR : 0 < R)
    (hb : ∀ y ∈ S, ∀ a, |y a| ≤ R) (a : Fin d) : Unit1 (coord S R a) := by
  classical
  refine ⟨Measurable.ite hS (by fun_prop) measurable_const, fun y => ?_⟩
  unfold coord
  split_ifs with h
  · rw [abs_div, abs_of_pos hR, div_le_one hR]
    exact hb y h a
  · simp

theorem Unit1.mul {f g : Pt d → ℝ} (hf : Unit1 f) (hg : Unit1 g) : Unit1 fun y => f y * g y :=
  ⟨hf.meas.mul hg.meas, fun y => by
    rw [abs_mul]; exact mul_le_one₀ (hf.bound y) (abs_nonneg _) (hg.bound y)⟩

theorem Unit1.integrable {f : Pt d → ℝ} (hf : Unit1 f) (P : Measure (Pt d)) [IsFiniteMeasure P] :
    Integrable f P :=
  Integrable.of_bound hf.meas.aestronglyMeasurable 1 (ae_of_all _ fun y => by
    rw [Real.norm_eq_abs]; exact hf.bound y)

/-- The covariance matrix of the law with density proportional to `g`. -/
noncomputable def lawCov (S : Set (Pt d)) (R : ℝ) (g : Pt d → ℝ) : Matrix (Fin d) (Fin d) ℝ :=
  Matrix.of fun a b => R ^ 2 * (∫ y, coord S R a y * coord S R b y ∂MH.targetLaw volume g -
    (∫ y, coord S R a y ∂MH.targetLaw volume g) * ∫ y, coord S R b y ∂MH.targetLaw volume g)

theorem hyperplane_null {v : Pt d} (hv : v ≠ 0) (c : ℝ) : volume {y : Pt d | v ⬝ᵥ y = c} = 0 := by
  by_cases h : ∃ y0 : Pt d, v ⬝ᵥ y0 = c
  · obtain ⟨y0, hy0⟩ := h
    let ℓ : Pt d →ₗ[ℝ] ℝ :=
      { toFun := fun y => v ⬝ᵥ y
        map_add' := fun a b => dotProduct_add _ _ _
        map_smul' := fun r a => by simp [dotProduct_smul] }
    have hk : LinearMap.ker ℓ ≠ ⊤ := by
      intro h
      rw [LinearMap.ker_eq_top] at h
      have : v ⬝ᵥ v = 0 := by
        have := LinearMap.congr_fun h v
        exact this
      exact hv (dotProduct_self_eq_zero.1 this)
    have e : {y : Pt d | v ⬝ᵥ y = c} = (fun y => y + -y0) ⁻¹' (LinearMap.ker ℓ : Set (Pt d)) := by
      ext y
      simp only [Set.mem_ofPred_eq, Set.mem_preimage, SetLike.mem_coe, LinearMap.mem_ker]
      change v ⬝ᵥ y = c ↔ v ⬝ᵥ (y + -y0) = 0
      rw [dotProduct_add, dotProduct_neg, hy0, add_neg_eq_zero]
    rw [e, measure_preimage_add_right]
    exact Measure.addHaar_submodule _ _ hk
  · have : {y : Pt d | v ⬝ᵥ y = c} = ∅ := by
      ext y
      simp only [Set.mem_ofPred_eq, Set.mem_empty_iff_false, iff_false]
      exact fun h' => h ⟨y, h'⟩
    rw [this, measure_empty]

theorem target_mem {S : Set (Pt d)} {g : Pt d → ℝ} (hg : Dens S g) :
    ∀ᵐ y ∂MH.targetLaw volume g, y ∈ S := by
  filter_upwards [target_pos hg.meas] with y hy
  exact (hg.pos y).1 hy

theorem lawCov_posDef {S : Set (Pt d)} (hS : MeasurableSet S) {R : ℝ} (hR : 0 < R)
    (hb : ∀ y ∈ S, ∀ a, |y a| ≤ R) {g : Pt d → ℝ} (hg : Dens S g) : (lawCov S R g).PosDef := by
  have := hg.prob
  set P := MH.targetLaw volume g with hP
  have hc := fun a => coord_unit1 hS hR hb a
  refine Core.posDef_of_quad ?_ fun v hv => ?_
  · ext a b
    simp only [lawCov, transpose_apply, Matrix.of_apply]
    have : ∀ y, coord S R b y * coord S R a y = coord S R a y * coord S R b y := fun y => mul_comm _ _
    simp only [this]
    ring
  set mu : Fin d → ℝ := fun a => ∫ y, coord S R a y ∂P with hmu
  have hci := fun a => (hc a).integrable P
  have hcci := fun a b => ((hc a).mul (hc b)).integrable P
  have hab : ∀ a b, Integrable (fun y => (coord S R a y - mu a) * (coord S R b y - mu b)) P := by
    intro a b
    have e : (fun y => (coord S R a y - mu a) * (coord S R b y - mu b)) = fun y =>
        coord S R a y * coord S R b y - mu b * coord S R a y - mu a * coord S R b y + mu a * mu b := by
      funext y; ring
    rw [e]
    exact (((hcci a b).sub ((hci a).const_mul _)).sub ((hci b).const_mul _)).add (integrable_const _)
  have hcov : ∀ a b, ∫ y, (coord S R a y - mu a) * (coord S R b y - mu b) ∂P =
      ∫ y, coord S R a y * coord S R b y ∂P - mu a * mu b := by
    intro a b
    have e : (fun y => (coord S R a y - mu a) * (coord S R b y - mu b)) = fun y =>
        ((coord S R a y * coord S R b y - mu b * coord S R a y) - mu a * coord S R b y) + mu a * mu b := by
      funext y; ring
    rw [e]
    refine (integral_add (((hcci a b).sub ((hci a).const_mul _)).sub ((hci b).const_mul _))
      (integrable_const _)).trans ?_
    rw [integral_sub' ((hcci a b).sub ((hci a).const_mul _)) ((hci b).const_mul _),
      integral_sub' (hcci a b) ((hci a).const_mul _), integral_const_mul, integral_const_mul,
      integral_const, probReal_univ, one_smul]
    simp only [hmu]
    ring
  have hquad : v ⬝ᵥ (lawCov S R g *ᵥ v) =
      R ^ 2 * ∫ y, (∑ a, v a * (coord S R a y - mu a)) ^ 2 ∂P := by
    have e : (fun y => (∑ a, v a * (coord S R a y - mu a)) ^ 2) = fun y =>
        ∑ a, ∑ b, v a * v b * ((coord S R a y - mu a) * (coord S R b y - mu b)) := by
      funext y
      rw [sq, Finset.sum_mul_sum]
      refine Finset.sum_congr rfl fun a _ => Finset.sum_congr rfl fun b _ => ?_
      ring
    rw [e, integral_finsetSum _ fun a _ => integrable_finsetSum _ fun b _ => (hab a b).const_mul _]
    simp only [dotProduct, mulVec, lawCov, Matrix.of_apply, ← hP]
    rw [Finset.mul_sum]
    refine Finset.sum_congr rfl fun a _ => ?_
    rw [integral_finsetSum _ fun b _ => (hab a b).const_mul _, Finset.mul_sum, Finset.mul_sum]
    refine Finset.sum_congr rfl fun b _ => ?_
    rw [integral_const_mul, hcov]
    ring
  rw [hquad]
  refine mul_pos (by positivity) (lt_of_le_of_ne (integral_nonneg fun y => sq_nonneg _) fun h => ?_)
  have hsqi : Integrable (fun y => (∑ a, v a * (coord S R a y - mu a)) ^ 2) P := by
    have e : (fun y => (∑ a, v a * (coord S R a y - mu a)) ^ 2) = fun y =>
        ∑ a, ∑ b, v a * v b * ((coord S R a y - mu a) * (coord S R b y - mu b)) := by
      funext y
      rw [sq, Finset.sum_mul_sum]
      refine Finset.sum_congr rfl fun a _ => Finset.sum_congr rfl fun b _ => ?_
      ring
    rw [e]
    exact integrable_finsetSum _ fun a _ => integrable_finsetSum _ fun b _ => (hab a b).const_mul _
  have h0 := (integral_eq_zero_iff_of_nonneg (fun y => sq_nonneg _) hsqi).1 h.symm
  have hac : P ≪ volume := by
    rw [hP]
    unfold MH.targetLaw
    exact (withDensity_absolutelyContinuous _ _).smul_left _
  have hne : ∀ᵐ y ∂P, v ⬝ᵥ y ≠ R * ∑ a, v a * mu a := by
    refine hac.ae_le (ae_iff.2 ?_ : ∀ᵐ y, v ⬝ᵥ y ≠ R * ∑ a, v a * mu a)
    have := hyperplane_null hv (R * ∑ a, v a * mu a)
    simpa using this
  obtain ⟨y, h1, h2, h3⟩ := (h0.and (hne.and (target_mem hg))).exists
  refine h2 ?_
  have h4 : ∑ a, v a * (coord S R a y - mu a) = 0 := by
    have : (∑ a, v a * (coord S R a y - mu a)) ^ 2 = 0 := h1
    exact pow_eq_zero_iff (two_ne_zero) |>.1 this
  simp only [mul_sub, Finset.sum_sub_distrib, coord, h3, if_true] at h4
  rw [← sub_eq_zero.1 h4, Finset.mul_sum, dotProduct]
  refine Finset.sum_congr rfl fun a _ => ?_
  field_simp

/-- The covariance matrix of the particles. -/
noncomputable def empCov {N : ℕ} (x : Fin N → Pt d) : Matrix (Fin d) (Fin d) ℝ :=
  Matrix.of fun a b => (∑ i, (x i a - (∑ k, x k a) / N) * (x i b - (∑ k, x k b) / N)) / ((N : ℝ) - 1)

theorem covRows_emp {N : ℕ} (hN : 2 ≤ N) (x : Fin N → Pt d) :
    MH.covRows (List.ofFn x) = some (empCov x) := by
  unfold MH.covRows
  rw [List.length_ofFn, if_neg (by omega)]
  simp only [Option.some.injEq]
  ext a b
  have hmean : ∀ c, MH.meanRows (List.ofFn x) c = (∑ k, x k c) / N := by
    intro c
    unfold MH.meanRows
    rw [List.length_ofFn, List.sum_ofFn, Pi.smul_apply, Finset.sum_apply, smul_eq_mul, div_eq_inv_mul]
  rw [Matrix.smul_apply, List.map_ofFn, List.sum_ofFn, Matrix.sum_apply]
  simp only [Function.comp, Matrix.of_apply, hmean, empCov, smul_eq_mul]
  exact (div_eq_inv_mul _ _).symm

theorem empCov_eq {N : ℕ} (hN : 2 ≤ N) {S : Set (Pt d)} {R : ℝ} (hR : 0 < R) (x : Fin N → Pt d)
    (hx : ∀ i, x i ∈ S) (a b : Fin d) :
    empCov x a b = (N / ((N : ℝ) - 1)) * (R ^ 2 * (avg (fun y => coord S R a y * coord S R b y) x -
      avg (coord S R a) x * avg (coord S R b) x)) := by
  have hN' : (2 : ℝ) ≤ N := by exact_mod_cast hN
  have hN0 : (N : ℝ) ≠ 0 := by positivity
  have hN1 : (N : ℝ) - 1 ≠ 0 := by linarith
  have hc : ∀ i c, coord S R c (x i) = x i c / R := fun i c => by simp [coord, hx i]
  simp only [empCov, Matrix.of_apply, avg, hc]
  have e : ∑ i, (x i a - (∑ k, x k a) / N) * (x i b - (∑ k, x k b) / N) =
      (∑ i, x i a * x i b) - (∑ k, x k a) * (∑ k, x k b) / N := by
    have : ∀ i, (x i a - (∑ k, x k a) / N) * (x i b - (∑ k, x k b) / N) =
        x i a * x i b - (∑ k, x k b) / N * x i a - (∑ k, x k a) / N * x i b +
          (∑ k, x k a) / N * ((∑ k, x k b) / N) := fun i => by ring
    simp only [this, Finset.sum_add_distrib, Finset.sum_sub_distrib, ← Finset.mul_sum,
      Finset.sum_const, Finset.card_univ, Fintype.card_fin, nsmul_eq_mul]
    field_simp
    ring
  have e2 : ∑ i, x i a / R * (x i b / R) = (∑ i, x i a * x i b) / R ^ 2 := by
    rw [Finset.sum_div]
    exact Finset.sum_congr rfl fun i _ => by field_simp
  rw [e, e2, ← Finset.sum_div, ← Finset.sum_div]
  field_simp

theorem avg_bound {N : ℕ} {f : Pt d → ℝ} (hf : Unit1 f) (x : Fin N → Pt d) : |avg f x| ≤ 1 := by
  unfold avg
  rcases Nat.eq_zero_or_pos N with h | h
  · subst h; simp
  have hN' : (0 : ℝ) < N := by exact_mod_cast h
  rw [abs_div, abs_of_pos hN', div_le_one hN']
  refine (Finset.abs_sum_le_sum_abs _ _).trans ?_
  calc ∑ i, |f (x i)| ≤ ∑ _i : Fin N, (1 : ℝ) := Finset.sum_le_sum fun i _ => hf.bound _
    _ = N := by simp

/-- The covariance of the particles is close to that of the law if three averages are. -/
theorem empCov_near {N : ℕ} (hN : 2 ≤ N) {S : Set (Pt d)} (hS : MeasurableSet S) {R : ℝ} (hR : 0 < R)
    (hb : ∀ y ∈ S, ∀ a, |y a| ≤ R) {g : Pt d → ℝ} (hg : Dens S g) (x : Fin N → Pt d)
    (hx : ∀ i, x i ∈ S) (a b : Fin d) :
    (empCov x a b - lawCov S R g a b) ^ 2 ≤ R ^ 4 * 4 * (err g (fun y => coord S R a y * coord S R b y) x +
      err g (coord S R a) x + err g (coord S R b) x + 16 / N) := by
  have := hg.prob
  have hN' : (2 : ℝ) ≤ N := by exact_mod_cast hN
  have hca := coord_unit1 hS hR hb a
  have hcb := coord_unit1 hS hR hb b
  have hint : ∀ {f : Pt d → ℝ}, Unit1 f → |∫ y, f y ∂MH.targetLaw volume g| ≤ 1 := by
    intro f hf
    have := norm_integral_le_of_norm_le_const (μ := MH.targetLaw volume g) (f := f) (C := 1)
      (ae_of_all _ fun v => by rw [Real.norm_eq_abs]; exact hf.bound _)
    rwa [probReal_univ, mul_one, Real.norm_eq_abs] at this
  rw [empCov_eq hN hR x hx]
  simp only [lawCov, Matrix.of_apply, err]
  have b1 := avg_bound (hca.mul hcb) x
  have b2 := avg_bound hca x
  have b3 := avg_bound hcb x
  have b4 := hint hca
  have b5 := hint hcb
  set P := avg (fun y => coord S R a y * coord S R b y) x
  set Q := avg (coord S R a) x
  set T := avg (coord S R b) x
  set p := ∫ y, coord S R a y * coord S R b y ∂MH.targetLaw volume g
  set q := ∫ y, coord S R a y ∂MH.targetLaw volume g
  set t := ∫ y, coord S R b y ∂MH.targetLaw volume g
  have hk : (N : ℝ) / (N - 1) = 1 + 1 / (N - 1) := by
    have : (N : ℝ) - 1 ≠ 0 := by linarith
    field_simp
    ring
  have hk2 : 1 / ((N : ℝ) - 1) ≤ 2 / N := by
    rw [div_le_div_iff₀ (by linarith) (by linarith)]
    linarith
  have hk0 : 0 ≤ 1 / ((N : ℝ) - 1) := by
    have : 0 < (N : ℝ) - 1 := by linarith
    positivity
  have e : (N : ℝ) / (N - 1) * (R ^ 2 * (P - Q * T)) - R ^ 2 * (p - q * t) =
      R ^ 2 * ((P - p) - Q * (T - t) - t * (Q - q) + 1 / (N - 1) * (P - Q * T)) := by
    rw [hk]; ring
  rw [e, mul_pow]
  have hR4 : (R ^ 2) ^ 2 = R ^ 4 := by ring
  rw [hR4, mul_assoc (R ^ 4)]
  refine mul_le_mul_of_nonneg_left ?_ (by positivity)
  have h1 : (Q * (T - t)) ^ 2 ≤ (T - t) ^ 2 := by
    rw [mul_pow]
    have : Q ^ 2 ≤ 1 := by rw [← sq_abs]; nlinarith [abs_nonneg Q]
    nlinarith [sq_nonneg (T - t)]
  have h2 : (t * (Q - q)) ^ 2 ≤ (Q - q) ^ 2 := by
    rw [mul_pow]
    have : t ^ 2 ≤ 1 := by rw [← sq_abs]; nlinarith [abs_nonneg t]
    nlinarith [sq_nonneg (Q - q)]
  have h3 : (1 / ((N : ℝ) - 1) * (P - Q * T)) ^ 2 ≤ 16 / N := by
    have hPQ : |P - Q * T| ≤ 2 := by
      have := abs_sub P (Q * T)
      have h4 : |Q * T| ≤ 1 := by rw [abs_mul]; exact mul_le_one₀ b2 (abs_nonneg _) b3
      linarith
    have h5 : |1 / ((N : ℝ) - 1) * (P - Q * T)| ≤ 4 / N := by
      rw [abs_mul, abs_of_nonneg hk0]
      calc 1 / ((N : ℝ) - 1) * |P - Q * T| ≤ 2 / N * 2 :=
            mul_le_mul hk2 hPQ (abs_nonneg _) (by positivity)
        _ = 4 / N := by ring
    rw [← sq_abs]
    calc |1 / ((N : ℝ) - 1) * (P - Q * T)| ^ 2 ≤ (4 / N) ^ 2 := pow_le_pow_left₀ (abs_nonneg _) h5 2
      _ = 16 / N * (1 / N) := by ring
      _ ≤ 16 / N * 1 := mul_le_mul_of_nonneg_left (by rw [div_le_one (by linarith)]; linarith) (by positivity)
      _ = 16 / N := mul_one _
  set A1 := P - p
  set A2 := Q * (T - t)
  set A3 := t * (Q - q)
  set A4 := 1 / ((N : ℝ) - 1) * (P - Q * T)
  have h6 : (A1 - A2 - A3 + A4) ^ 2 ≤ 4 * (A1 ^ 2 + A2 ^ 2 + A3 ^ 2 + A4 ^ 2) := by
    nlinarith [sq_nonneg (A1 + A2), sq_nonneg (A1 + A3), sq_nonneg (A1 - A4), sq_nonneg (A2 - A3),
      sq_nonneg (A2 + A4), sq_nonneg (A3 + A4)]
  linarith

/-! ## Functions of the particles that are small when averages are accurate -/

/-- Nonnegative functions of any number of particles. -/
abbrev Fun (d : ℕ) := (N : ℕ) → (Fin N → Pt d) → ℝ≥0∞

/-- `V` is small when there are many particles and finitely many averages over them are
accurate for the density `g`. -/
def Ctl (S : Set (Pt d)) (g : Pt d → ℝ) (V : Fun d) : Prop :=
  ∀ ε : ℝ, 0 < ε → ∃ (Phi : List (Pt d → ℝ)) (B : ℝ), 0 ≤ B ∧ (∀ φ ∈ Phi, Unit1 φ) ∧
    ∀ N, 2 ≤ N → ∀ x : Fin N → Pt d, (∀ i, x i ∈ S) →
      V N x ≤ ENNReal.ofReal (ε + B / N + B * (Phi.map fun φ => err g φ x).sum)

section ctl

variable {S : Set (Pt d)} {g : Pt d → ℝ} {V W : Fun d}

theorem errs_nonneg {N : ℕ} (Phi : List (Pt d → ℝ)) (x : Fin N → Pt d) :
    0 ≤ (Phi.map fun φ => err g φ x).sum :=
  List.sum_nonneg (by simp only [List.mem_map]; rintro _ ⟨φ, -, rfl⟩; exact err_nonneg _)

theorem ctl_mono (hW : Ctl S g W)
    (h : ∀ N, 2 ≤ N → ∀ x : Fin N → Pt d, (∀ i, x i ∈ S) → V N x ≤ W N x) : Ctl S g V := by
  intro ε hε
  obtain ⟨Phi, B, hB, hu, hb⟩ := hW ε hε
  exact ⟨Phi, B, hB, hu, fun N hN x hx => (h N hN x hx).trans (hb N hN x hx)⟩

theorem ctl_err {f : Pt d → ℝ} (hf : Unit1 f) : Ctl S g fun _ x => ENNReal.ofReal (err g f x) := by
  intro ε hε
  refine ⟨[f], 1, zero_le_one, by simpa using hf, fun N hN x _ => ENNReal.ofReal_le_ofReal ?_⟩
  have : (0 : ℝ) ≤ 1 / N := by positivity
  simp only [List.map_cons, List.map_nil, List.sum_cons, List.sum_nil, add_zero, one_mul]
  linarith

theorem ctl_inv {c : ℝ} (hc : 0 ≤ c) : Ctl S g fun N _ => ENNReal.ofReal (c / N) := by
  intro ε hε
  refine ⟨[], c, hc, by simp, fun N hN x _ => ENNReal.ofReal_le_ofReal ?_⟩
  simp only [List.map_nil, List.sum_nil, mul_zero, add_zero]
  linarith

theorem ctl_add (hV : Ctl S g V) (hW : Ctl S g W) : Ctl S g fun N x => V N x + W N x := by
  intro ε hε
  obtain ⟨P, B, hB, hu, hb⟩ := hV (ε / 2) (by linarith)
  obtain ⟨Q, C, hC, hu', hb'⟩ := hW (ε / 2) (by linarith)
  refine ⟨P ++ Q, B + C, by linarith, ?_, fun N hN x hx => ?_⟩
  · intro φ h
    rcases List.mem_append.1 h with h | h
    · exact hu φ h
    · exact hu' φ h
  · have h1 := errs_nonneg (g := g) P x
    have h2 := errs_nonneg (g := g) Q x
    refine (add_le_add (hb N hN x hx) (hb' N hN x hx)).trans ?_
    rw [← ENNReal.ofReal_add (by positivity) (by positivity), List.map_append, List.sum_append]
    refine ENNReal.ofReal_le_ofReal ?_
    have h3 : (B + C) / (N : ℝ) = B / N + C / N := add_div _ _ _
    rw [h3]
    nlinarith [mul_nonneg hB h2, mul_nonneg hC h1]

theorem ctl_mul (hV : Ctl S g V) {c : ℝ} (hc : 0 ≤ c) :
    Ctl S g fun N x => ENNReal.ofReal c * V N x := by
  intro ε hε
  obtain ⟨P, B, hB, hu, hb⟩ := hV (ε / (c + 1)) (by positivity)
  refine ⟨P, c * B, by positivity, hu, fun N hN x hx => ?_⟩
  refine (mul_le_mul_right (hb N hN x hx) _).trans ?_
  rw [← ENNReal.ofReal_mul hc]
  refine ENNReal.ofReal_le_ofReal ?_
  have h1 : c * (ε / (c + 1)) ≤ ε := by
    rw [mul_div_assoc', div_le_iff₀ (by positivity)]
    nlinarith
  have h2 : c * (B / (N : ℝ)) = c * B / N := by ring
  nlinarith

theorem ctl_lim (h : ∀ ε : ℝ, 0 < ε → ∃ W : Fun d, Ctl S g W ∧
    ∀ N, 2 ≤ N → ∀ x : Fin N → Pt d, (∀ i, x i ∈ S) → V N x ≤ ENNReal.ofReal ε + W N x) :
    Ctl S g V := by
  intro ε hε
  obtain ⟨W, hW, hVW⟩ := h (ε / 2) (by linarith)
  obtain ⟨P, B, hB, hu, hb⟩ := hW (ε / 2) (by linarith)
  refine ⟨P, B, hB, hu, fun N hN x hx => ?_⟩
  refine (hVW N hN x hx).trans ((add_le_add le_rfl (hb N hN x hx)).trans ?_)
  have h1 := errs_nonneg (g := g) P x
  rw [← ENNReal.ofReal_add (by positivity) (by positivity)]
  exact ENNReal.ofReal_le_ofReal (by linarith)

theorem ctl_zero : Ctl S g fun _ _ => 0 :=
  fun ε hε => ⟨[], 0, le_rfl, by simp, fun N hN x _ => zero_le⟩

theorem ctl_list {α : Type} (F : α → Fun d) (L : List α) (h : ∀ a ∈ L, Ctl S g (F a)) :
    Ctl S g fun N x => (L.map fun a => F a N x).sum := by
  induction L with
  | nil => exact ctl_zero
  | cons a L ih =>
    simp only [List.map_cons, List.sum_cons]
    exact ctl_add (h a (by simp)) (ih fun b hb => h b (by simp [hb]))

theorem ctl_sum {α : Type} (s : Finset α) (F : α → Fun d) (h : ∀ a ∈ s, Ctl S g (F a)) :
    Ctl S g fun N x => ∑ a ∈ s, F a N x := by
  classical
  induction s using Finset.induction_on with
  | empty => simpa using ctl_zero
  | insert a s ha ih =>
    simp only [Finset.sum_insert ha]
    exact ctl_add (h a (by simp)) (ih fun b hb => h b (by simp [hb]))

end ctl

/-! ## A move with the covariance of the particles -/

/-- Standard normal and uniform numbers. -/
noncomputable def rawLaw (d : ℕ) : Measure (Pt d × ℝ) := (Core.stdLaw (Fin d)).prod unitLaw

instance : IsProbabilityMeasure (rawLaw d) := by
  unfold rawLaw; infer_instance

theorem raw_map {A R : Matrix (Fin d) (Fin d) ℝ} (h : R * Rᵀ = A) :
    (rawLaw d).map (fun v => (R *ᵥ v.1, v.2)) = noiseLaw A := by
  have h1 : Measurable fun y : Pt d => R *ᵥ y := by
    apply Continuous.measurable; fun_prop
  have h2 : (Core.stdLaw (Fin d)).map (fun y => R *ᵥ y) = Core.normalLaw 0 A := by
    have := Core.normalLaw_factor h 0
    simpa using this
  unfold rawLaw noiseLaw
  rw [← h2]
  have := Measure.map_prod_map (Core.stdLaw (Fin d)) unitLaw h1 measurable_id
  rw [Measure.map_id] at this
  rw [this]
  rfl

/-- Expectation of `V` after all particles have moved with the covariance `s` times their own;
`root` is the factorisation used by the normal generator, which may fail. -/
noncomputable def Mv (root : Matrix (Fin d) (Fin d) ℝ → Option (Matrix (Fin d) (Fin d) ℝ))
    (g : Pt d → ℝ) (s : ℝ) (V : Fun d) : Fun d := fun N x =>
  open Classical in
  if 0 < s then
    match root (s • empCov x) with
    | some R => ∫⁻ v : Fin N → Pt d × ℝ, V N (fun i => moved g (x i, (R *ᵥ (v i).1, (v i).2)))
        ∂(Measure.pi fun _ => rawLaw d)
    | none => 0
  else 0

theorem empCov_symm {N : ℕ} (x : Fin N → Pt d) : (empCov x)ᵀ = empCov x := by
  ext a b
  simp only [transpose_apply, empCov, Matrix.of_apply]
  congr 1
  exact Finset.sum_congr rfl fun i _ => mul_comm _ _

theorem kern_diff {g f : Pt d → ℝ} (hg : Measurable g) (hf : Unit1 f)
    {A K : Matrix (Fin d) (Fin d) ℝ} {η : ℝ}
    (h : ∀ F : Pt d → ℝ, Measurable F → (∀ y, |F y| ≤ 1) →
        |∫ y, F y ∂(Core.normalLaw 0 A) - ∫ y, F y ∂(Core.normalLaw 0 K)| ≤ η) (x : Pt d) :
    |kern g A f x - kern g K f x| ≤ η := by
  have hm : Measurable fun v : Pt d × ℝ => f (moved g (x, v)) :=
    hf.meas.comp ((moved_measurable hg).comp measurable_prodMk_left)
  have e : ∀ C : Matrix (Fin d) (Fin d) ℝ, kern g C f x =
      ∫ y, (∫ u, f (moved g (x, (y, u))) ∂unitLaw) ∂(Core.normalLaw 0 C) := by
    intro C
    unfold kern noiseLaw
    refine integral_prod _ (Integrable.of_bound hm.aestronglyMeasurable 1 (ae_of_all _ fun v => ?_))
    rw [Real.norm_eq_abs]; exact hf.bound _
  rw [e, e]
  refine h _ ?_ fun y => ?_
  · exact (hm.stronglyMeasurable.integral_prod_right' (ν := unitLaw)).measurable
  · have := norm_integral_le_of_norm_le_const (μ := unitLaw) (f := fun u => f (moved g (x, (y, u))))
      (C := 1) (ae_of_all _ fun v => by rw [Real.norm_eq_abs]; exact hf.bound _)
    rw [probReal_univ, mul_one, Real.norm_eq_abs] at this
    exact this

theorem avg_diff {N : ℕ} {f h : Pt d → ℝ} {η : ℝ} (hη : 0 ≤ η) (x : Fin N → Pt d)
    (hd : ∀ i, |f (x i) - h (x i)| ≤ η) : |avg f x - avg h x| ≤ η := by
  unfold avg
  rw [← sub_div, ← Finset.sum_sub_distrib]
  rcases Nat.eq_zero_or_pos N with h0 | h0
  · subst h0; simpa using hη
  have hN' : (0 : ℝ) < N := by exact_mod_cast h0
  rw [abs_div, abs_of_pos hN', div_le_iff₀ hN']
  refine (Finset.abs_sum_le_sum_abs _ _).trans ?_
  calc ∑ i, |f (x i) - h (x i)| ≤ ∑ _i : Fin N, η := Finset.sum_le_sum fun i _ => hd i
    _ = η * N := by simp [mul_comm]

section move

variable {S : Set (Pt d)} (hS : MeasurableSet S) {R : ℝ} (hR : 0 < R) (hb : ∀ y ∈ S, ∀ a, |y a| ≤ R)
  {g : Pt d → ℝ} (hg : Dens S g) {root : Matrix (Fin d) (Fin d) ℝ → Option (Matrix (Fin d) (Fin d) ℝ)}
  (hroot : ∀ A L, root A = some L → L * Lᵀ = A)

include hroot hg in
theorem mv_pi {f : Pt d → ℝ} (hf : Unit1 f) {s : ℝ} {N : ℕ} (hN : 0 < N) (x : Fin N → Pt d) :
    Mv root g s (fun _ x => ENNReal.ofReal (err g f x)) N x ≤
      ENNReal.ofReal (1 / N + (avg (kern g (s • empCov x) f) x - ∫ y, f y ∂MH.targetLaw volume g) ^ 2) := by
  unfold Mv
  split_ifs with h0
  · cases hL : root (s • empCov x) with
    | none => exact zero_le
    | some L =>
      dsimp only
      have hLL := hroot _ _ hL
      have hLm : Measurable fun v : Pt d × ℝ => (L *ᵥ v.1, v.2) := by
        apply Continuous.measurable; fun_prop
      have hm : ∀ i, Measurable fun v : Pt d × ℝ => f (moved g (x i, v)) := fun i =>
        hf.meas.comp ((moved_measurable hg.meas).comp measurable_prodMk_left)
      have := pi_mse hN (rawLaw d) (fun i v => f (moved g (x i, (L *ᵥ v.1, v.2))))
        (fun i => (hm i).comp hLm) (fun i y => hf.bound _) (∫ y, f y ∂MH.targetLaw volume g)
      refine this.trans (le_of_eq ?_)
      have e : ∀ i, ∫ v, f (moved g (x i, (L *ᵥ v.1, v.2))) ∂(rawLaw d) = kern g (s • empCov x) f (x i) := by
        intro i
        unfold kern
        rw [← raw_map hLL, integral_map hLm.aemeasurable (hm i).aestronglyMeasurable]
      simp only [e, avg]
  · exact zero_le

/-- The bound of the distance between the two covariances. -/
noncomputable def covErr (S : Set (Pt d)) (R : ℝ) (g : Pt d → ℝ) : Fun d := fun N x =>
  ∑ ab : Fin d × Fin d, (ENNReal.ofReal (err g (fun y => coord S R ab.1 y * coord S R ab.2 y) x) +
    ENNReal.ofReal (err g (coord S R ab.1) x) + ENNReal.ofReal (err g (coord S R ab.2) x) +
    ENNReal.ofReal (16 / N))

include hS hR hb in
theorem covErr_ctl : Ctl S g (covErr S R g) := by
  have hc := fun a => coord_unit1 hS hR hb a
  refine ctl_sum _ _ fun ab _ => ?_
  exact ctl_add (ctl_add (ctl_add (ctl_err ((hc _).mul (hc _))) (ctl_err (hc _))) (ctl_err (hc _)))
    (ctl_inv (by norm_num))

include hS hR hb hg in
theorem covErr_le {N : ℕ} (hN : 2 ≤ N) (x : Fin N → Pt d) (hx : ∀ i, x i ∈ S) :
    ENNReal.ofReal (∑ ab : Fin d × Fin d, (empCov x ab.1 ab.2 - lawCov S R g ab.1 ab.2) ^ 2) ≤
      ENNReal.ofReal (R ^ 4 * 4) * covErr S R g N x := by
  unfold covErr
  rw [ENNReal.ofReal_sum_of_nonneg fun _ _ => sq_nonneg _, Finset.mul_sum]
  refine Finset.sum_le_sum fun ab _ => ?_
  refine (ENNReal.ofReal_le_ofReal (empCov_near hN hS hR hb hg x hx ab.1 ab.2)).trans (le_of_eq ?_)
  rw [ENNReal.ofReal_mul (by positivity), ENNReal.ofReal_add (add_nonneg (add_nonneg (err_nonneg _) (err_nonneg _)) (err_nonneg _))
    (by positivity), ENNReal.ofReal_add (add_nonneg (err_nonneg _) (err_nonneg _)) (err_nonneg _),
    ENNReal.ofReal_add (err_nonneg _) (err_nonneg _)]

theorem entry_le (M : Fin d → Fin d → ℝ) (a b : Fin d) :
    M a b ^ 2 ≤ ∑ ab : Fin d × Fin d, M ab.1 ab.2 ^ 2 :=
  Finset.single_le_sum (f := fun ab : Fin d × Fin d => M ab.1 ab.2 ^ 2)
    (fun _ _ => sq_nonneg _) (Finset.mem_univ (a, b))

include hg in
theorem dev_bound {f : Pt d → ℝ} (hf : Unit1 f) {C0 : Matrix (Fin d) (Fin d) ℝ} {s η δ : ℝ} (hη : 0 ≤ η) (hδ : 0 < δ)
    (hnear : ∀ A : Matrix (Fin d) (Fin d) ℝ, Aᵀ = A → (∀ a b, |A a b - (s • C0) a b| < δ) →
      ∀ f : Pt d → ℝ, Measurable f → (∀ y, |f y| ≤ 1) →
        |∫ y, f y ∂(Core.normalLaw 0 A) - ∫ y, f y ∂(Core.normalLaw 0 (s • C0))| ≤ η)
    {N : ℕ} (x : Fin N → Pt d) :
    2 * (avg (kern g (s • empCov x) f) x - avg (kern g (s • C0) f) x) ^ 2 ≤ 2 * η ^ 2 +
      8 * s ^ 2 / δ ^ 2 * ∑ ab : Fin d × Fin d, (empCov x ab.1 ab.2 - C0 ab.1 ab.2) ^ 2 := by
  have hQ0 : 0 ≤ ∑ ab : Fin d × Fin d, (empCov x ab.1 ab.2 - C0 ab.1 ab.2) ^ 2 :=
    Finset.sum_nonneg fun _ _ => sq_nonneg _
  by_cases hclose : ∀ a b, |(s • empCov x) a b - (s • C0) a b| < δ
  · have hD1 : |avg (kern g (s • empCov x) f) x - avg (kern g (s • C0) f) x| ≤ η :=
      avg_diff hη x fun i => kern_diff hg.meas hf
        (fun F hF hF1 => hnear (s • empCov x) (by rw [transpose_smul, empCov_symm]) hclose F hF hF1) _
    have h1 := pow_le_pow_left₀ (abs_nonneg _) hD1 2
    rw [sq_abs] at h1
    have h2 : 0 ≤ 8 * s ^ 2 / δ ^ 2 * ∑ ab : Fin d × Fin d, (empCov x ab.1 ab.2 - C0 ab.1 ab.2) ^ 2 :=
      mul_nonneg (by positivity) hQ0
    linarith
  · push Not at hclose
    obtain ⟨a, b, hab⟩ := hclose
    have h1 : |avg (kern g (s • empCov x) f) x - avg (kern g (s • C0) f) x| ≤ 2 := by
      have h2 := avg_bound (kern_unit1 (A := s • empCov x) hg.meas hf) x
      have h3 := avg_bound (kern_unit1 (A := s • C0) hg.meas hf) x
      have := abs_sub (avg (kern g (s • empCov x) f) x) (avg (kern g (s • C0) f) x)
      linarith
    have h2 := pow_le_pow_left₀ (abs_nonneg _) h1 2
    rw [sq_abs] at h2
    have h3 : (empCov x a b - C0 a b) ^ 2 ≤
        ∑ ab : Fin d × Fin d, (empCov x ab.1 ab.2 - C0 ab.1 ab.2) ^ 2 :=
      entry_le (fun a b => empCov x a b - C0 a b) a b
    have e : (s • empCov x) a b - (s • C0) a b = s * (empCov x a b - C0 a b) := by
      simp only [Matrix.smul_apply, smul_eq_mul]
      ring
    rw [e] at hab
    generalize (∑ ab : Fin d × Fin d, (empCov x ab.1 ab.2 - C0 ab.1 ab.2) ^ 2) = Q at *
    generalize empCov x a b - C0 a b = m at *
    generalize avg (kern g (s • empCov x) f) x - avg (kern g (s • C0) f) x = D at *
    have h4 : δ ^ 2 ≤ s ^ 2 * Q := by
      calc δ ^ 2 ≤ |s * m| ^ 2 := pow_le_pow_left₀ hδ.le hab 2
        _ = s ^ 2 * m ^ 2 := by rw [sq_abs, mul_pow]
        _ ≤ s ^ 2 * Q := mul_le_mul_of_nonneg_left h3 (sq_nonneg _)
    have h5 : 8 ≤ 8 * s ^ 2 / δ ^ 2 * Q := by
      rw [div_mul_eq_mul_div, le_div_iff₀ (by positivity)]
      linarith
    nlinarith [sq_nonneg η]

include hS hR hb hg hroot in
theorem mv_err {f : Pt d → ℝ} (hf : Unit1 f) (s : ℝ) :
    Ctl S g (Mv root g s fun _ x => ENNReal.ofReal (err g f x)) := by
  by_cases hs : 0 < s
  swap
  · refine ctl_mono ctl_zero fun N hN x hx => ?_
    unfold Mv
    rw [if_neg hs]
  set K := s • lawCov S R g with hK
  have hKpd : K.PosDef := (lawCov_posDef hS hR hb hg).smul hs
  refine ctl_lim fun ε hε => ?_
  obtain ⟨η, hη, hηε⟩ : ∃ η : ℝ, 0 < η ∧ 2 * η ^ 2 ≤ ε := by
    refine ⟨min 1 (ε / 2), lt_min one_pos (by linarith), ?_⟩
    have h1 : min 1 (ε / 2) ≤ 1 := min_le_left _ _
    have h2 : min 1 (ε / 2) ≤ ε / 2 := min_le_right _ _
    have h3 : 0 < min 1 (ε / 2) := lt_min one_pos (by linarith)
    nlinarith
  obtain ⟨δ, hδ, hnear⟩ := normal_near hKpd hη
  set c : ℝ := 8 * s ^ 2 / δ ^ 2 with hc
  have hc0 : 0 ≤ c := by positivity
  refine ⟨fun N x => ENNReal.ofReal (1 / N) + (ENNReal.ofReal (c * (R ^ 4 * 4)) * covErr S R g N x +
    ENNReal.ofReal 2 * ENNReal.ofReal (err g (kern g K f) x)), ?_, fun N hN x hx => ?_⟩
  · exact ctl_add (ctl_inv zero_le_one) (ctl_add (ctl_mul (covErr_ctl hS hR hb) (by positivity))
      (ctl_mul (ctl_err (kern_unit1 hg.meas hf)) (by norm_num)))
  have hN0 : 0 < N := by omega
  refine (mv_pi hg hroot hf hN0 x).trans ?_
  have := hg.prob
  have hcen : ∫ y, kern g K f y ∂MH.targetLaw volume g = ∫ y, f y ∂MH.targetLaw volume g :=
    kern_target hg.meas hg.nonneg this hKpd.posSemidef hf
  set D := avg (kern g (s • empCov x) f) x - avg (kern g K f) x with hD
  set Q := ∑ ab : Fin d × Fin d, (empCov x ab.1 ab.2 - lawCov S R g ab.1 ab.2) ^ 2 with hQ
  have hQ0 : 0 ≤ Q := Finset.sum_nonneg fun _ _ => sq_nonneg _
  have hDb : 2 * D ^ 2 ≤ 2 * η ^ 2 + c * Q := dev_bound hg hf hη.le hδ hnear x
  have hsplit : (avg (kern g (s • empCov x) f) x - ∫ y, f y ∂MH.targetLaw volume g) ^ 2 ≤
      2 * η ^ 2 + c * Q + 2 * err g (kern g K f) x := by
    have e : avg (kern g (s • empCov x) f) x - ∫ y, f y ∂MH.targetLaw volume g =
        D + (avg (kern g K f) x - ∫ y, f y ∂MH.targetLaw volume g) := by rw [hD]; ring
    rw [e, err, hcen]
    nlinarith [sq_nonneg (D - (avg (kern g K f) x - ∫ y, f y ∂MH.targetLaw volume g))]
  have hE := err_nonneg (g := g) (f := kern g K f) x
  calc ENNReal.ofReal (1 / N + (avg (kern g (s • empCov x) f) x - ∫ y, f y ∂MH.targetLaw volume g) ^ 2)
      ≤ ENNReal.ofReal (1 / N + (ε + c * Q + 2 * err g (kern g K f) x)) :=
        ENNReal.ofReal_le_ofReal (by linarith)
    _ = ENNReal.ofReal ε + (ENNReal.ofReal (1 / N) + (ENNReal.ofReal c * ENNReal.ofReal Q +
          ENNReal.ofReal 2 * ENNReal.ofReal (err g (kern g K f) x))) := by
        rw [← ENNReal.ofReal_mul hc0, ← ENNReal.ofReal_mul (by norm_num),
          ← ENNReal.ofReal_add (mul_nonneg hc0 hQ0) (by positivity),
          ← ENNReal.ofReal_add (by positivity) (by positivity),
          ← ENNReal.ofReal_add hε.le (by positivity)]
        congr 1
        ring
    _ ≤ _ := by
        refine add_le_add le_rfl (add_le_add le_rfl (add_le_add ?_ le_rfl))
        rw [ENNReal.ofReal_mul hc0, mul_assoc]
        exact mul_le_mul_right (covErr_le hS hR hb hg hN x hx) _

theorem mv_mono {V W : Fun d} {s : ℝ} {N : ℕ} (x : Fin N → Pt d)
    (h : ∀ᵐ v : Fin N → Pt d × ℝ ∂(Measure.pi fun _ => rawLaw d), ∀ L : Matrix (Fin d) (Fin d) ℝ,
      V N (fun i => moved g (x i, (L *ᵥ (v i).1, (v i).2))) ≤
        W N fun i => moved g (x i, (L *ᵥ (v i).1, (v i).2))) :
    Mv root g s V N x ≤ Mv root g s W N x := by
  unfold Mv
  split_ifs
  · cases root (s • empCov x) with
    | none => exact le_rfl
    | some L => exact lintegral_mono_ae (h.mono fun v hv => hv L)
  · exact le_rfl

theorem raw_nonneg {N : ℕ} : ∀ᵐ v : Fin N → Pt d × ℝ ∂(Measure.pi fun _ => rawLaw d),
    ∀ i, 0 ≤ (v i).2 := by
  have h1 : ∀ᵐ v : ℝ ∂unitLaw, 0 ≤ v := by
    have : ∀ᵐ v : ℝ ∂unitLaw, v ∈ Set.Ico (0 : ℝ) 1 := ae_restrict_mem measurableSet_Ico
    exact this.mono fun v hv => hv.1
  have h2 : ∀ᵐ v ∂rawLaw d, 0 ≤ v.2 :=
    (Measure.quasiMeasurePreserving_snd (μ := Core.stdLaw (Fin d)) (ν := unitLaw)).ae h1
  exact ae_all_iff.2 fun i => (Measure.quasiMeasurePreserving_eval (fun _ : Fin N => rawLaw d) i).ae h2

include hg in
theorem mv_le {V : Fun d} {s ε B : ℝ} {Phi : List (Pt d → ℝ)} (hε : 0 ≤ ε) (hB : 0 ≤ B)
    (hu : ∀ φ ∈ Phi, Unit1 φ) {N : ℕ} (hbd : ∀ x : Fin N → Pt d, (∀ i, x i ∈ S) →
      V N x ≤ ENNReal.ofReal (ε + B / N + B * (Phi.map fun φ => err g φ x).sum))
    (x : Fin N → Pt d) (hx : ∀ i, x i ∈ S) :
    Mv root g s V N x ≤ ENNReal.ofReal ε + (ENNReal.ofReal (B / N) + ENNReal.ofReal B *
      (Phi.map fun φ => Mv root g s (fun _ x => ENNReal.ofReal (err g φ x)) N x).sum) := by
  refine (mv_mono (W := fun N x => ENNReal.ofReal ε + (ENNReal.ofReal (B / N) + ENNReal.ofReal B *
    (Phi.map fun φ => ENNReal.ofReal (err g φ x)).sum)) x ?_).trans ?_
  · filter_upwards [raw_nonneg] with v hv L
    refine (hbd _ fun i => moved_mem (v := (L *ᵥ (v i).1, (v i).2)) hg (hx i) (hv i)).trans (le_of_eq ?_)
    have hsum : ∀ {N : ℕ} (x : Fin N → Pt d), ENNReal.ofReal (Phi.map fun φ => err g φ x).sum =
        (Phi.map fun φ => ENNReal.ofReal (err g φ x)).sum := by
      intro N x
      clear hu hbd
      induction Phi with
      | nil => simp
      | cons φ L ih =>
        simp only [List.map_cons, List.sum_cons]
        rw [ENNReal.ofReal_add (err_nonneg _) (errs_nonneg _ _), ih]
    rw [add_assoc, ENNReal.ofReal_add hε (add_nonneg (by positivity) (mul_nonneg hB (errs_nonneg _ _))),
      ENNReal.ofReal_add (by positivity) (mul_nonneg hB (errs_nonneg _ _)), ENNReal.ofReal_mul hB, hsum]
  · unfold Mv
    split_ifs with h0
    · cases hL : root (s • empCov x) with
      | none => exact zero_le
      | some L =>
        dsimp only
        have hLm : Measurable fun v : Pt d × ℝ => (L *ᵥ v.1, v.2) := by
          apply Continuous.measurable; fun_prop
        have hwm : Measurable fun v : Fin N → Pt d × ℝ =>
            fun i => moved g (x i, (L *ᵥ (v i).1, (v i).2)) :=
          measurable_pi_lambda _ fun i => (moved_measurable hg.meas).comp
            (measurable_prodMk_left.comp (hLm.comp (measurable_pi_apply i)))
        have hme : ∀ φ ∈ Phi, Measurable fun v : Fin N → Pt d × ℝ =>
            ENNReal.ofReal (err g φ fun i => moved g (x i, (L *ᵥ (v i).1, (v i).2))) := fun φ hφ =>
          ENNReal.measurable_ofReal.comp ((err_measurable (hu φ hφ).meas).comp hwm)
        have hlist : ∀ Phi : List (Pt d → ℝ), (∀ φ ∈ Phi, Measurable fun v : Fin N → Pt d × ℝ =>
            ENNReal.ofReal (err g φ fun i => moved g (x i, (L *ᵥ (v i).1, (v i).2)))) →
            (Measurable fun v : Fin N → Pt d × ℝ => (Phi.map fun φ =>
              ENNReal.ofReal (err g φ fun i => moved g (x i, (L *ᵥ (v i).1, (v i).2)))).sum) ∧
            ∫⁻ v : Fin N → Pt d × ℝ, (Phi.map fun φ =>
              ENNReal.ofReal (err g φ fun i => moved g (x i, (L *ᵥ (v i).1, (v i).2)))).sum
              ∂(Measure.pi fun _ => rawLaw d) = (Phi.map fun φ => ∫⁻ v : Fin N → Pt d × ℝ,
              ENNReal.ofReal (err g φ fun i => moved g (x i, (L *ᵥ (v i).1, (v i).2)))
              ∂(Measure.pi fun _ => rawLaw d)).sum := by
          intro Phi hm
          induction Phi with
          | nil => simp
          | cons φ L ih =>
            obtain ⟨i1, i2⟩ := ih fun ψ hψ => hm ψ (by simp [hψ])
            have h1 := hm φ (by simp)
            simp only [List.map_cons, List.sum_cons]
            refine ⟨h1.add i1, ?_⟩
            rw [lintegral_add_left h1, i2]
        obtain ⟨l1, l2⟩ := hlist Phi hme
        rw [lintegral_add_left measurable_const, lintegral_const, measure_univ, mul_one,
          lintegral_add_left measurable_const, lintegral_const, measure_univ, mul_one,
          lintegral_const_mul _ l1, l2]
    · exact zero_le

include hS hR hb hg hroot in
/-- Moves keep what is small small. -/
theorem mv_ctl {V : Fun d} (hV : Ctl S g V) (s : ℝ) : Ctl S g (Mv root g s V) := by
  refine ctl_lim fun ε hε => ?_
  obtain ⟨Phi, B, hB, hu, hbd⟩ := hV ε hε
  refine ⟨fun N x => ENNReal.ofReal (B / N) + ENNReal.ofReal B *
    (Phi.map fun φ => Mv root g s (fun _ x => ENNReal.ofReal (err g φ x)) N x).sum, ?_, fun N hN x hx => ?_⟩
  · exact ctl_add (ctl_inv hB) (ctl_mul (ctl_list _ Phi fun φ h => mv_err hS hR hb hg hroot (hu φ h) s) hB)
  · exact mv_le hg hε.le hB hu (hbd N hN) x hx

end move

end Verif.SMC
