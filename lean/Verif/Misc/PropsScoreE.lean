import Verif.Misc.PropsScoreT
import Mathlib.MeasureTheory.Measure.OpenPos
import Mathlib.Analysis.Calculus.MeanValue

/-!
# Expected improvements are expectations; the CRPS is strictly proper
-/

set_option autoImplicit false

namespace Verif.Score

open Verif ProbabilityTheory MeasureTheory Set Filter Topology

theorem A1_deriv (mu : ℝ) {sigma : ℝ} (hs : 0 < sigma) (u : ℝ) :
    HasDerivAt (A1 mu sigma) (cdf (law mu sigma) u) u := by
  rw [law_cdf mu hs]
  have h := ((H_deriv ((u - mu) / sigma)).comp u (affine_deriv mu (sigma := sigma) u)).const_mul sigma
  refine h.congr_deriv ?_
  field_simp

theorem A1_top (mu : ℝ) {sigma : ℝ} (hs : 0 < sigma) : Tendsto (fun u => u - A1 mu sigma u) atTop (𝓝 mu) := by
  have h := (((H_bot.comp (affine_top mu hs)).const_mul sigma).neg).const_add mu
  rw [mul_zero, neg_zero, add_zero] at h
  refine h.congr fun u => ?_
  have h1 := H_reflect ((mu - u) / sigma)
  rw [show -((mu - u) / sigma) = (u - mu) / sigma by ring] at h1
  simp only [Function.comp, A1]
  rw [show H ((mu - u) / sigma) = (mu - u) / sigma + H ((u - mu) / sigma) by linarith]
  field_simp
  ring

theorem A2_top (mu : ℝ) {sigma : ℝ} (hs : 0 < sigma) :
    Tendsto (fun u => u - A2 mu sigma u) atTop (𝓝 (mu + sigma * (√Real.pi)⁻¹)) := by
  have h1 := ((A1_top mu hs).const_mul 2).add ((B2_top mu hs).neg)
  have h2 := h1.const_add (-mu + sigma * (√Real.pi)⁻¹)
  rw [show -mu + sigma * (√Real.pi)⁻¹ + (2 * mu + -0) = mu + sigma * (√Real.pi)⁻¹ by ring] at h2
  refine h2.congr fun u => ?_
  rw [B2_value mu hs.ne']
  ring

theorem law_integrable (mu sigma : ℝ) : Integrable (fun x => x) (law mu sigma) := by
  unfold law
  have := memLp_id_gaussianReal (μ := mu) (v := NNReal.mk (sigma ^ 2) (sq_nonneg sigma)) 1
  rw [ENNReal.coe_one] at this
  exact memLp_one_iff_integrable.mp this

theorem real_Ioi (mu sigma u : ℝ) : (law mu sigma).real (Ioi u) = 1 - cdf (law mu sigma) u := by
  rw [cdf_eq_real, ← compl_Iic, probReal_compl_eq_one_sub measurableSet_Iic]

/-- **C134** `ei1_up` is the expected excess of a normal variable over `z`. -/
theorem ei1_expectation (mu : ℝ) {sigma : ℝ} (hs : 0 < sigma) (z : ℝ) :
    Integrable (fun x => max (x - z) 0) (law mu sigma) ∧
    ei1 mu sigma z = Flt.fin (∫ x, max (x - z) 0 ∂law mu sigma) := by
  have hi : Integrable (fun x => max (x - z) 0) (law mu sigma) :=
    ((law_integrable mu sigma).sub (integrable_const z)).sup (integrable_const 0)
  refine ⟨hi, ?_⟩
  rw [ei1_value mu hs.ne', hi.integral_eq_integral_meas_lt (ae_of_all _ fun x => le_max_right _ _)]
  congr 1
  have he : EqOn (fun t => (law mu sigma).real {x | t < max (x - z) 0}) (fun t => 1 - cdf (law mu sigma) (z + t)) (Ioi 0) := by
    intro t ht
    have ht' : 0 < t := ht
    dsimp only
    rw [← real_Ioi]
    congr 1
    ext x
    simp only [mem_setOf_eq, mem_Ioi, lt_max_iff]
    constructor
    · rintro (h | h) <;> linarith
    · intro h; left; linarith
  rw [setIntegral_congr_fun measurableSet_Ioi he]
  have hd : ∀ t ∈ Ici (0 : ℝ), HasDerivAt (fun t => z + t - A1 mu sigma (z + t)) (1 - cdf (law mu sigma) (z + t)) t := by
    intro t _
    have h1 : HasDerivAt (fun t : ℝ => z + t) 1 t := by simpa using (hasDerivAt_id t).const_add z
    have h2 := (A1_deriv mu hs (z + t)).comp t h1
    exact (h1.sub h2).congr_deriv (by simp)
  have hp : ∀ t ∈ Ioi (0 : ℝ), 0 ≤ 1 - cdf (law mu sigma) (z + t) := fun t _ => sub_nonneg.mpr (cdf_le_one _ _)
  have ht : Tendsto (fun t => z + t - A1 mu sigma (z + t)) atTop (𝓝 mu) :=
    (A1_top mu hs).comp (tendsto_atTop_add_const_left _ z tendsto_id)
  rw [integral_Ioi_of_hasDerivAt_of_nonneg' hd hp ht]
  simp only [add_zero]
  ring

/-- **C134** `ei2_up` is the expected excess over `z` of the larger of two independent normal
variables. -/
theorem ei2_expectation {bvn : Bvn} (hb : IsBvn bvn) (mu : ℝ) {sigma : ℝ} (hs : 0 < sigma) (z : ℝ) :
    Integrable (fun x : ℝ × ℝ => max (max x.1 x.2 - z) 0) ((law mu sigma).prod (law mu sigma)) ∧
    ei2 bvn mu sigma z = Flt.fin (∫ x, max (max x.1 x.2 - z) 0 ∂((law mu sigma).prod (law mu sigma))) := by
  have hi : Integrable (fun x : ℝ × ℝ => max (max x.1 x.2 - z) 0) ((law mu sigma).prod (law mu sigma)) :=
    ((((law_integrable mu sigma).comp_fst _).sup ((law_integrable mu sigma).comp_snd _)).sub (integrable_const z)).sup
      (integrable_const 0)
  refine ⟨hi, ?_⟩
  rw [ei2_value hb mu hs.ne', hi.integral_eq_integral_meas_lt (ae_of_all _ fun x => le_max_right _ _)]
  congr 1
  have he : EqOn (fun t => ((law mu sigma).prod (law mu sigma)).real {x : ℝ × ℝ | t < max (max x.1 x.2 - z) 0})
      (fun t => 1 - cdf (law mu sigma) (z + t) ^ 2) (Ioi 0) := by
    intro t ht
    have ht' : 0 < t := ht
    have hset : {x : ℝ × ℝ | t < max (max x.1 x.2 - z) 0} = (Iic (z + t) ×ˢ Iic (z + t))ᶜ := by
      ext x
      rw [mem_setOf_eq, mem_compl_iff, mem_prod, mem_Iic, mem_Iic, ← max_le_iff, not_le, lt_max_iff]
      constructor
      · rintro (h | h) <;> linarith
      · intro h; left; linarith
    dsimp only
    rw [hset, probReal_compl_eq_one_sub (measurableSet_Iic.prod measurableSet_Iic), measureReal_prod_prod, cdf_eq_real, sq]
  rw [setIntegral_congr_fun measurableSet_Ioi he]
  have hd : ∀ t ∈ Ici (0 : ℝ), HasDerivAt (fun t => z + t - A2 mu sigma (z + t)) (1 - cdf (law mu sigma) (z + t) ^ 2) t := by
    intro t _
    have h1 : HasDerivAt (fun t : ℝ => z + t) 1 t := by simpa using (hasDerivAt_id t).const_add z
    have h2 := (A2_deriv mu hs (z + t)).comp t h1
    exact (h1.sub h2).congr_deriv (by simp)
  have hp : ∀ t ∈ Ioi (0 : ℝ), 0 ≤ 1 - cdf (law mu sigma) (z + t) ^ 2 := fun t _ => by
    have h1 := cdf_nonneg (law mu sigma) (z + t)
    have h2 := cdf_le_one (law mu sigma) (z + t)
    nlinarith
  have ht : Tendsto (fun t => z + t - A2 mu sigma (z + t)) atTop (𝓝 (mu + sigma * (√Real.pi)⁻¹)) :=
    (A2_top mu hs).comp (tendsto_atTop_add_const_left _ z tendsto_id)
  rw [integral_Ioi_of_hasDerivAt_of_nonneg' hd hp ht]
  simp only [add_zero]
  ring

/-! ## Propriety -/

/-- The score as a real number. -/
noncomputable def S (mu sigma z : ℝ) : ℝ := ∫ u, gap mu sigma z u

theorem S_formula (mu : ℝ) {sigma : ℝ} (hs : 0 < sigma) (z : ℝ) : S mu sigma z =
    sigma * ((z - mu) / sigma * (2 * Phi ((z - mu) / sigma) - 1) + 2 * phi ((z - mu) / sigma) - (√Real.pi)⁻¹) := by
  unfold S
  rw [gap_univ mu hs, A2_sub_B2]

theorem S_continuous (mu : ℝ) {sigma : ℝ} (hs : 0 < sigma) : Continuous (S mu sigma) := by
  rw [show S mu sigma = _ from funext (S_formula mu hs)]
  have h1 : Continuous fun z : ℝ => (z - mu) / sigma := by fun_prop
  exact continuous_const.mul (((h1.mul ((continuous_const.mul (Phi_continuous.comp h1)).sub continuous_const)).add
    (continuous_const.mul (phi_continuous.comp h1))).sub continuous_const)

theorem S_nonneg (mu sigma z : ℝ) : 0 ≤ S mu sigma z := integral_nonneg fun u => gap_nonneg mu sigma z u

theorem phi_le (t : ℝ) : phi t ≤ phi 0 := by
  unfold phi
  have hpi := Real.pi_pos
  refine mul_le_mul_of_nonneg_left (Real.exp_le_exp.mpr ?_) (by positivity)
  have := sq_nonneg t
  simp
  linarith

theorem S_le (mu : ℝ) {sigma : ℝ} (hs : 0 < sigma) (z : ℝ) : S mu sigma z ≤ |z - mu| + sigma * (2 * phi 0) := by
  rw [S_formula mu hs]
  set t := (z - mu) / sigma with ht
  have h1 : t * (2 * Phi t - 1) ≤ |t| := by
    refine (le_abs_self _).trans ?_
    rw [abs_mul]
    refine mul_le_of_le_one_right (abs_nonneg t) (abs_le.mpr ⟨?_, ?_⟩)
    · linarith [Phi_nonneg t]
    · linarith [Phi_le_one t]
  have h2 : |z - mu| = sigma * |t| := by
    rw [ht, abs_div, abs_of_pos hs]; field_simp
  have h3 : 0 ≤ (√Real.pi)⁻¹ := by positivity
  have h4 := phi_le t
  rw [h2, ← mul_add]
  exact mul_le_mul_of_nonneg_left (by linarith) hs.le

theorem S_integrable (mu : ℝ) {sigma : ℝ} (hs : 0 < sigma) (m s : ℝ) : Integrable (S mu sigma) (law m s) := by
  have hb : Integrable (fun z => |z - mu| + sigma * (2 * phi 0)) (law m s) :=
    ((law_integrable m s).sub (integrable_const mu)).abs.add (integrable_const _)
  refine hb.mono' (S_continuous mu hs).aestronglyMeasurable (ae_of_all _ fun z => ?_)
  rw [Real.norm_of_nonneg (S_nonneg mu sigma z)]
  exact S_le mu hs z

theorem gap_measurable (mu sigma : ℝ) : Measurable (fun p : ℝ × ℝ => gap mu sigma p.1 p.2) := by
  unfold gap
  refine Measurable.pow_const (Measurable.sub ?_ ?_) 2
  · exact ((monotone_cdf (law mu sigma)).measurable).comp measurable_snd
  · exact Measurable.ite (measurableSet_le measurable_fst measurable_snd) measurable_const measurable_const

theorem gap_prod_integrable (mu : ℝ) {sigma : ℝ} (hs : 0 < sigma) (m s : ℝ) :
    Integrable (fun p : ℝ × ℝ => gap mu sigma p.1 p.2) ((law m s).prod volume) := by
  rw [integrable_prod_iff (gap_measurable mu sigma).aestronglyMeasurable]
  refine ⟨ae_of_all _ fun z => gap_integrable mu hs z, ?_⟩
  refine (S_integrable mu hs m s).congr (ae_of_all _ fun z => ?_)
  unfold S
  exact integral_congr_ae (ae_of_all _ fun u => (Real.norm_of_nonneg (gap_nonneg mu sigma z u)).symm)

theorem gap_inner (mu sigma m s u : ℝ) : ∫ z, gap mu sigma z u ∂law m s =
    (cdf (law mu sigma) u - cdf (law m s) u) ^ 2 + cdf (law m s) u * (1 - cdf (law m s) u) := by
  have he : ∀ z, gap mu sigma z u = cdf (law mu sigma) u ^ 2 +
      (Iic u).indicator (fun _ => 1 - 2 * cdf (law mu sigma) u) z := by
    intro z
    unfold gap
    by_cases h : z ≤ u
    · rw [if_pos h, indicator_of_mem (show z ∈ Iic u from h)]; ring
    · rw [if_neg h, indicator_of_notMem (show z ∉ Iic u from h)]; ring
  simp only [he]
  rw [integral_add (integrable_const _) ((integrable_const _).indicator measurableSet_Iic), integral_const,
    integral_indicator measurableSet_Iic, setIntegral_const, probReal_univ, ← cdf_eq_real]
  simp
  ring

/-- **C135** The excess of the expected score of a prediction over that of the true law is the
squared distance of their distribution functions. -/
theorem crps_divergence (mu m : ℝ) {sigma s : ℝ} (hs : 0 < sigma) (hs' : 0 < s) :
    Integrable (fun u => (cdf (law mu sigma) u - cdf (law m s) u) ^ 2) ∧
    ∫ z, S mu sigma z ∂law m s = (∫ z, S m s z ∂law m s) +
      ∫ u, (cdf (law mu sigma) u - cdf (law m s) u) ^ 2 := by
  have hsw : ∀ (mu : ℝ) {sigma : ℝ}, 0 < sigma →
      Integrable (fun u => (cdf (law mu sigma) u - cdf (law m s) u) ^ 2 + cdf (law m s) u * (1 - cdf (law m s) u)) ∧
      ∫ z, S mu sigma z ∂law m s =
        ∫ u, ((cdf (law mu sigma) u - cdf (law m s) u) ^ 2 + cdf (law m s) u * (1 - cdf (law m s) u)) := by
    intro mu sigma hs
    have hi := gap_prod_integrable mu hs m s
    constructor
    · have := hi.integral_prod_right
      exact this.congr (ae_of_all _ fun u => gap_inner mu sigma m s u)
    · unfold S
      rw [integral_integral_swap hi]
      exact integral_congr_ae (ae_of_all _ fun u => gap_inner mu sigma m s u)
  obtain ⟨h1, h2⟩ := hsw mu hs
  obtain ⟨h3, h4⟩ := hsw m hs'
  simp only [sub_self, ne_eq, OfNat.ofNat_ne_zero, not_false_eq_true, zero_pow, zero_add] at h3 h4
  have h5 : Integrable (fun u => (cdf (law mu sigma) u - cdf (law m s) u) ^ 2) := by
    refine (h1.sub h3).congr (ae_of_all _ fun u => ?_)
    simp
  refine ⟨h5, ?_⟩
  rw [h2, h4, integral_add h5 h3, add_comm]

theorem Phi_strictMono : StrictMono Phi := strictMono_of_deriv_pos fun x => by
  rw [(Phi_deriv x).deriv]; exact phi_pos x

/-- **C135** The CRPS is strictly proper among normal predictions: no prediction has a smaller
expected score than the true law, and no other has the same. -/
theorem crps_proper (mu m : ℝ) {sigma s : ℝ} (hs : 0 < sigma) (hs' : 0 < s) :
    (∀ z, crps mu sigma z = Flt.fin (S mu sigma z)) ∧ Integrable (S mu sigma) (law m s) ∧
    ∫ z, S m s z ∂law m s ≤ ∫ z, S mu sigma z ∂law m s ∧
    (∫ z, S mu sigma z ∂law m s = ∫ z, S m s z ∂law m s → mu = m ∧ sigma = s) := by
  obtain ⟨h1, h2⟩ := crps_divergence mu m hs hs'
  refine ⟨fun z => (crps_integral mu hs z).2, S_integrable mu hs m s, ?_, fun he => ?_⟩
  · rw [h2]
    have : 0 ≤ ∫ u, (cdf (law mu sigma) u - cdf (law m s) u) ^ 2 := integral_nonneg fun u => sq_nonneg _
    linarith
  · rw [he] at h2
    have h0 : ∫ u, (cdf (law mu sigma) u - cdf (law m s) u) ^ 2 = 0 := by linarith
    rw [integral_eq_zero_iff_of_nonneg (fun u => sq_nonneg _) h1] at h0
    have hc : Continuous fun u => (cdf (law mu sigma) u - cdf (law m s) u) ^ 2 := by
      have e : (fun u => (cdf (law mu sigma) u - cdf (law m s) u) ^ 2) =
          fun u => (Phi ((u - mu) / sigma) - Phi ((u - m) / s)) ^ 2 := by
        funext u; rw [law_cdf mu hs, law_cdf m hs']
      rw [e]
      exact ((Phi_continuous.comp (by fun_prop)).sub (Phi_continuous.comp (by fun_prop))).pow 2
    have hall := (hc.ae_eq_iff_eq volume continuous_const).mp h0
    have heq : ∀ u, (u - mu) / sigma = (u - m) / s := by
      intro u
      have := pow_eq_zero_iff two_ne_zero |>.mp (congrFun hall u)
      rw [law_cdf mu hs, law_cdf m hs', sub_eq_zero] at this
      exact Phi_strictMono.injective this
    have hm : mu = m := by
      have := heq mu
      rw [sub_self, zero_div, eq_comm, div_eq_zero_iff] at this
      rcases this with h | h
      · linarith
      · exact absurd h hs'.ne'
    refine ⟨hm, ?_⟩
    have := heq (mu + 1)
    rw [hm, show m + 1 - m = 1 by ring] at this
    field_simp at this
    exact this.symm

/-- A biased prediction. -/
example : ∫ z, S 0 1 z ∂law 0 1 < ∫ z, S 1 1 z ∂law 0 1 := by
  obtain ⟨_, _, h1, h2⟩ := crps_proper 1 0 one_pos one_pos
  exact lt_of_le_of_ne h1 fun h => by simpa using (h2 h.symm).1

end Verif.Score
