import Verif.Core.PropsGuessMean
import Mathlib.Analysis.SpecificLimits.FloorPow
import Mathlib.Analysis.PSeries
import Mathlib.Algebra.QuadraticDiscriminant
import Mathlib.Probability.ProductMeasure
import Mathlib.Probability.Independence.InfinitePi
import Mathlib.Topology.Algebra.InfiniteSum.ENNReal

/-!
# C286: the guessed variance converges as observations accumulate
-/

set_option autoImplicit false

namespace Verif.Core

open Verif Verif.Data Matrix MeasureTheory ProbabilityTheory Filter
open scoped Topology ENNReal

variable {q : ℕ} {be : Backend} {la : LA} {Ω : Type} [MeasurableSpace Ω] {μ : Measure Ω}

/-! ## Increasing sequences with a mean square error of order one over their length -/

theorem strong_limit {S : ℕ → Ω → ℝ} {s : ℕ → ℝ} {s2 c : ℝ} (hs : Tendsto s atTop (𝓝 s2)) (hS : ∀ n, Measurable (S n))
    (hm : ∀ ω, Monotone fun n => S n ω)
    (hv : ∀ n : ℕ, 0 < n → ∫⁻ ω, ENNReal.ofReal ((S n ω / n - s n) ^ 2) ∂μ ≤ ENNReal.ofReal (c / n)) :
    ∀ᵐ ω ∂μ, Tendsto (fun n : ℕ => S n ω / n) atTop (𝓝 s2) := by
  set u : ℕ → ℕ := fun k => (k + 1) ^ 2 with hu
  have hsum : ∑' k, ∫⁻ ω, ENNReal.ofReal ((S (u k) ω / (u k : ℕ) - s (u k)) ^ 2) ∂μ ≠ ∞ := by
    have h1 : Summable fun k : ℕ => |c| * (1 / ((k : ℝ) + 1) ^ 2) := by
      have := (summable_nat_add_iff 1).mpr (Real.summable_one_div_nat_pow.mpr (one_lt_two))
      push_cast at this
      exact this.mul_left _
    have h2 : ∑' k : ℕ, ENNReal.ofReal (|c| * (1 / ((k : ℝ) + 1) ^ 2)) ≠ ∞ := by
      rw [← ENNReal.ofReal_tsum_of_nonneg (fun k => by positivity) h1]
      exact ENNReal.ofReal_ne_top
    refine ne_top_of_le_ne_top h2 (ENNReal.tsum_le_tsum fun k => (hv (u k) (by positivity)).trans ?_)
    refine ENNReal.ofReal_le_ofReal ?_
    simp only [hu]
    push_cast
    rw [mul_one_div]
    exact div_le_div_of_nonneg_right (le_abs_self c) (by positivity)
  have hme : ∀ k, AEMeasurable (fun ω => ENNReal.ofReal ((S (u k) ω / (u k : ℕ) - s (u k)) ^ 2)) μ := fun k =>
    (((hS (u k)).div_const _).sub_const _ |>.pow_const 2).ennreal_ofReal.aemeasurable
  rw [← lintegral_tsum hme] at hsum
  have hae := ae_lt_top' (AEMeasurable.tsum hme) hsum
  filter_upwards [hae] with ω hω
  have hut : Tendsto u atTop atTop := by
    refine tendsto_atTop_mono (fun k => ?_) tendsto_id
    simp only [hu, id]
    nlinarith
  refine tendsto_div_of_monotone_of_exists_subseq_tendsto_div _ _ (hm ω) fun a ha => ⟨u, ?_, hut, ?_⟩
  · have ht : Tendsto (fun k : ℕ => (1 + 1 / ((k : ℝ) + 1)) ^ 2) atTop (𝓝 ((1 + 0) ^ 2)) :=
      (tendsto_const_nhds.add tendsto_one_div_add_atTop_nhds_zero_nat).pow 2
    rw [add_zero, one_pow] at ht
    filter_upwards [ht.eventually_lt_const ha] with k hk
    simp only [hu]
    push_cast
    have hk0 : (0 : ℝ) < (k : ℝ) + 1 := by positivity
    have e : ((k : ℝ) + 1 + 1) ^ 2 = (1 + 1 / ((k : ℝ) + 1)) ^ 2 * ((k : ℝ) + 1) ^ 2 := by
      field_simp
    rw [e]
    gcongr
  · have h0 := ENNReal.tendsto_atTop_zero_of_tsum_ne_top hω.ne
    have h1 := (ENNReal.tendsto_toReal ENNReal.zero_ne_top).comp h0
    have h2 : Tendsto (fun k => (S (u k) ω / (u k : ℕ) - s (u k)) ^ 2) atTop (𝓝 0) := by
      refine h1.congr fun k => ?_
      simp only [Function.comp_apply]
      rw [ENNReal.toReal_ofReal (sq_nonneg _)]
    have h3 : Tendsto (fun k => |S (u k) ω / (u k : ℕ) - s (u k)|) atTop (𝓝 0) := by
      have := (Real.continuous_sqrt.tendsto 0).comp h2
      rw [Real.sqrt_zero] at this
      refine this.congr fun k => ?_
      simp [Real.sqrt_sq_eq_abs]
    have h4 := ((tendsto_zero_iff_abs_tendsto_zero _).mpr h3).add (hs.comp hut)
    simpa using h4

/-! ## Quadratic forms of growing matrices -/

/-- The covariance matrix of the first `n` points. -/
def gramUpTo (k : ℕ → ℕ → ℝ) (n : ℕ) : Mat n n := Matrix.of fun i j => k i j

/-- The first `n` values. -/
def firstOf (z : ℕ → ℝ) (n : ℕ) : Fin n → ℝ := fun i => z i

theorem quad_sup {n : ℕ} {K : Mat n n} (hK : K.PosDef) (z a : Fin n → ℝ) :
    2 * (a ⬝ᵥ z) - a ⬝ᵥ (K *ᵥ a) ≤ z ⬝ᵥ (K⁻¹ *ᵥ z) := by
  have hu : IsUnit K := hK.isUnit
  have hdet := (Matrix.isUnit_iff_isUnit_det K).mp hu
  have hKs : Kᵀ = K := by simpa using hK.isHermitian.eq
  set b := K⁻¹ *ᵥ z with hb
  have hz : K *ᵥ b = z := by rw [hb, mulVec_mulVec, Matrix.mul_nonsing_inv _ hdet, one_mulVec]
  have h0 := hK.posSemidef.dotProduct_mulVec_nonneg (a - b)
  rw [star_trivial, mulVec_sub, hz, sub_dotProduct, dotProduct_sub, dotProduct_sub] at h0
  have h1 : b ⬝ᵥ (K *ᵥ a) = a ⬝ᵥ z := by
    rw [dotProduct_mulVec, ← mulVec_transpose, hKs, hz, dotProduct_comm]
  rw [h1] at h0
  rw [dotProduct_comm z b]
  linarith

theorem quad_attained {n : ℕ} {K : Mat n n} (hK : K.PosDef) (z : Fin n → ℝ) :
    z ⬝ᵥ (K⁻¹ *ᵥ z) = 2 * ((K⁻¹ *ᵥ z) ⬝ᵥ z) - (K⁻¹ *ᵥ z) ⬝ᵥ (K *ᵥ (K⁻¹ *ᵥ z)) := by
  have hdet := (Matrix.isUnit_iff_isUnit_det K).mp hK.isUnit
  rw [mulVec_mulVec, Matrix.mul_nonsing_inv _ hdet, one_mulVec, dotProduct_comm z]
  ring

/-- One more observation does not decrease the quadratic form. -/
theorem quad_grows {k : ℕ → ℕ → ℝ} (hk : ∀ n, (gramUpTo k n).PosDef) (z : ℕ → ℝ) :
    Monotone fun n => firstOf z n ⬝ᵥ ((gramUpTo k n)⁻¹ *ᵥ firstOf z n) := by
  refine monotone_nat_of_le_succ fun n => ?_
  rw [quad_attained (hk n)]
  set a := (gramUpTo k n)⁻¹ *ᵥ firstOf z n with ha
  have h := quad_sup (hk (n + 1)) (firstOf z (n + 1)) (Fin.snoc (α := fun _ => ℝ) a 0)
  refine le_trans (le_of_eq ?_) h
  simp [dotProduct, mulVec, Fin.sum_univ_castSucc, firstOf, gramUpTo]

/-! ## The guesses -/

theorem lint_of_integral {E : Type} [MeasurableSpace E] {L : Measure E} {f : E → ℝ} (h0 : ∀ z, 0 ≤ f z) {c : ℝ} (hc : 0 < c)
    (h : ∫ z, f z ∂L = c) : ∫⁻ z, ENNReal.ofReal (f z) ∂L = ENNReal.ofReal c := by
  have hi : Integrable f L := by
    by_contra hn
    rw [integral_undef hn] at h
    exact hc.ne h
  rw [← h, ofReal_integral_eq_lintegral_ofReal hi (ae_of_all _ h0)]

theorem quad_measurable {n : ℕ} (M : Mat n n) : Measurable fun z : Fin n → ℝ => z ⬝ᵥ (M *ᵥ z) := by
  apply Continuous.measurable
  fun_prop

theorem firstOf_measurable {Z : ℕ → Ω → ℝ} (hZ : ∀ i, Measurable (Z i)) (n : ℕ) :
    Measurable fun ω => firstOf (fun i => Z i ω) n := measurable_pi_lambda _ fun i => hZ i

/-- **C286** (zero mean) If the data are the first values of a normal sequence with covariance `s2` times that used by the
guess, the guessed variance converges to `s2` with probability one. -/
theorem guess_zero_limit (hla : la.Sound be) {k : ℕ → ℕ → ℝ} (hk : ∀ n, (gramUpTo k n).PosDef) {Z : ℕ → Ω → ℝ}
    (hZ : ∀ i, Measurable (Z i)) {s2 : ℝ} (hs : 0 < s2)
    (hlaw : ∀ n, μ.map (fun ω => firstOf (fun i => Z i ω) n) = normalLaw 0 (s2 • gramUpTo k n)) :
    ∃ v : ℕ → Ω → ℝ, (∀ n ω, initSigma2Zero la (gramUpTo k n) (firstOf (fun i => Z i ω) n) = .ok (v n ω)) ∧
      ∀ᵐ ω ∂μ, Tendsto (fun n => v n ω) atTop (𝓝 s2) := by
  set S : ℕ → Ω → ℝ := fun n ω => firstOf (fun i => Z i ω) n ⬝ᵥ ((gramUpTo k n)⁻¹ *ᵥ firstOf (fun i => Z i ω) n) with hS
  have hlim := strong_limit (μ := μ) (S := S) (s2 := s2) (c := 2 * s2 ^ 2)
    tendsto_const_nhds (fun n => (quad_measurable _).comp (firstOf_measurable hZ n)) (fun ω => quad_grows hk _) (fun n hn => by
      have hn' : (0 : ℝ) < n := by exact_mod_cast hn
      have h1 := quad_mse (hk n) hs.le (1 / n) s2
      have h2 : ∫⁻ z, ENNReal.ofReal ((1 / n * (z ⬝ᵥ ((gramUpTo k n)⁻¹ *ᵥ z)) - s2) ^ 2) ∂(normalLaw 0 (s2 • gramUpTo k n)) =
          ENNReal.ofReal (2 * s2 ^ 2 / n) := by
        refine lint_of_integral (fun z => sq_nonneg _) (by positivity) (h1.trans ?_)
        field_simp
        ring
      rw [← hlaw n, lintegral_map _ (firstOf_measurable hZ n)] at h2
      · refine le_of_eq (Eq.trans ?_ h2)
        refine lintegral_congr fun ω => ?_
        rw [one_div_mul_eq_div]
      · exact ((((quad_measurable _).const_mul _).sub_const _).pow_const 2).ennreal_ofReal)
  refine ⟨fun n ω => 1 / n * S n ω, fun n ω => ?_, ?_⟩
  · simp only [initSigma2Zero, (norms_zero hla (hk n) _).1, Bind.bind, Except.bind, Pure.pure, Except.pure, hS]
  · filter_upwards [hlim] with ω hω
    exact hω.congr fun n => (one_div_mul_eq_div _ _).symm

/-- Values of the mean functions at the first `n` points. -/
def basisUpTo (p : ℕ → Fin q → ℝ) (n : ℕ) : Mat n q := Matrix.of fun i j => p i j

/-- **C286** (linear mean) Likewise, whatever the coefficients of the mean. -/
theorem guess_linear_limit (hla : la.Sound be) {k : ℕ → ℕ → ℝ} (hk : ∀ n, (gramUpTo k n).PosDef) {p : ℕ → Fin q → ℝ}
    (hp : ∀ r, FullRank (basisUpTo p (q + r))) {Z : ℕ → Ω → ℝ} (hZ : ∀ i, Measurable (Z i)) (beta : Fin q → ℝ) {s2 : ℝ}
    (hs : 0 < s2) (hlaw : ∀ n, μ.map (fun ω => firstOf (fun i => Z i ω) n) =
      normalLaw (basisUpTo p n *ᵥ beta) (s2 • gramUpTo k n)) :
    ∃ v : ℕ → Ω → ℝ, (∀ r ω, initSigma2 la (gramUpTo k (q + r)) (basisUpTo p (q + r)) (firstOf (fun i => Z i ω) (q + r)) =
        .ok (v r ω)) ∧
      ∀ᵐ ω ∂μ, Tendsto (fun r => v r ω) atTop (𝓝 s2) := by
  choose W G hG hf hL using fun r => norm_contrast hla (hk (q + r)) (hp r)
  set f : (r : ℕ) → (Fin (q + r) → ℝ) → ℝ := fun r z => ((W r)ᵀ *ᵥ z) ⬝ᵥ ((G r)⁻¹ *ᵥ ((W r)ᵀ *ᵥ z)) with hfd
  have hfm : ∀ r, Measurable (f r) := fun r => by
    apply Continuous.measurable
    simp only [hfd]
    fun_prop
  set S : ℕ → Ω → ℝ := fun r ω => f r (firstOf (fun i => Z i ω) (q + r)) with hS
  have hmono : ∀ ω, Monotone fun r => S r ω := fun ω => by
    refine monotone_nat_of_le_succ fun r => ?_
    obtain ⟨a, ha, ha1, -⟩ := normKSqrd_gls hla (hk (q + r)) (hp r) (firstOf (fun i => Z i ω) (q + r))
    obtain ⟨b, hb, -, c, hc⟩ := normKSqrd_gls hla (hk (q + (r + 1))) (hp (r + 1)) (firstOf (fun i => Z i ω) (q + (r + 1)))
    rw [hf] at ha hb
    injection ha with ha
    injection hb with hb
    have e1 : S r ω = a := ha
    have e2 : S (r + 1) ω = b := hb
    rw [e1, e2, hc]
    refine (ha1 c).trans ?_
    have e : ∀ n, firstOf (fun i => Z i ω) n - basisUpTo p n *ᵥ c = firstOf (fun i => Z i ω - p i ⬝ᵥ c) n := fun n => rfl
    rw [e, e]
    exact quad_grows hk (fun i => Z i ω - p i ⬝ᵥ c) (Nat.le_succ (q + r))
  have hlim := strong_limit (μ := μ) (S := S) (s2 := s2) (c := 2 * s2 ^ 2)
    tendsto_const_nhds (fun r => (hfm r).comp (firstOf_measurable hZ _)) hmono (fun r hr => by
      have hr' : (0 : ℝ) < r := by exact_mod_cast hr
      have h1 := (contrast_mean (hG r) hs.le (hL r beta s2 hs.le) (1 / r) s2).2.2
      have h2 : ∫⁻ z, ENNReal.ofReal ((1 / r * f r z - s2) ^ 2)
          ∂(normalLaw (basisUpTo p (q + r) *ᵥ beta) (s2 • gramUpTo k (q + r))) = ENNReal.ofReal (2 * s2 ^ 2 / r) := by
        refine lint_of_integral (fun z => sq_nonneg _) (by positivity) (h1.trans ?_)
        field_simp
        ring
      rw [← hlaw, lintegral_map _ (firstOf_measurable hZ _)] at h2
      · refine le_of_eq (Eq.trans ?_ h2)
        refine lintegral_congr fun ω => ?_
        rw [one_div_mul_eq_div]
      · exact ((((hfm r).const_mul _).sub_const _).pow_const 2).ennreal_ofReal)
  refine ⟨fun r ω => 1 / ((q + r : ℕ) : ℝ) * S r ω, fun r ω => ?_, ?_⟩
  · simp only [initSigma2, hf, Bind.bind, Except.bind, Pure.pure, Except.pure, hS, hfd]
  · filter_upwards [hlim] with ω hω
    have hq : Tendsto (fun r : ℕ => (r : ℝ) / ((q + r : ℕ) : ℝ)) atTop (𝓝 1) := by
      have := tendsto_natCast_div_add_atTop (𝕜 := ℝ) (q : ℝ)
      refine this.congr fun r => ?_
      push_cast
      rw [add_comm]
    have := hω.mul hq
    rw [mul_one] at this
    refine this.congr' ?_
    filter_upwards [eventually_gt_atTop 0] with r hr
    have hr' : (r : ℝ) ≠ 0 := by exact_mod_cast hr.ne'
    rw [div_mul_div_comm, mul_comm (S r ω), mul_div_mul_left _ _ hr', one_div_mul_eq_div]

theorem normal_square {n : ℕ} {K : Mat n n} (hK : K.PosSemidef) (w : Fin n → ℝ) :
    ∫ z, (w ⬝ᵥ z) ^ 2 ∂(normalLaw 0 K) = w ⬝ᵥ (K *ᵥ w) := by
  have hm : Measurable fun x : Fin n → ℝ => w ⬝ᵥ x + 0 := by
    apply Continuous.measurable
    fun_prop
  have h := normalLaw_dot hK 0 w 0
  rw [dotProduct_zero, add_zero] at h
  have h2 : ∫ x, x ^ 2 ∂(gaussianReal 0 (w ⬝ᵥ (K *ᵥ w)).toNNReal) = w ⬝ᵥ (K *ᵥ w) := by
    have := variance_of_integral_eq_zero (μ := gaussianReal 0 (w ⬝ᵥ (K *ᵥ w)).toNNReal) (X := id) aemeasurable_id (by simp)
    rw [variance_id_gaussianReal, Real.coe_toNNReal _ (PosSemidef.quad_nonneg hK w)] at this
    exact this.symm
  rw [← h2, ← h, integral_map hm.aemeasurable (by fun_prop)]
  simp

/-- The form of the constant vector per observation, for covariance `k`. -/
noncomputable def onesForm (k : ℕ → ℕ → ℝ) (n : ℕ) : ℝ := ((fun _ => 1 : Fin n → ℝ) ⬝ᵥ ((gramUpTo k n)⁻¹ *ᵥ fun _ => 1)) / n

/-- Averages of the data, weighted by the covariance. -/
theorem cross_limit {k : ℕ → ℕ → ℝ} (hk : ∀ n, (gramUpTo k n).PosDef) {c : ℝ} (h1 : Tendsto (onesForm k) atTop (𝓝 c))
    {Z : ℕ → Ω → ℝ} (hZ : ∀ i, Measurable (Z i)) {s2 : ℝ} (hs : 0 < s2)
    (hlaw : ∀ n, μ.map (fun ω => firstOf (fun i => Z i ω) n) = normalLaw 0 (s2 • gramUpTo k n))
    (hlim : ∀ᵐ ω ∂μ, Tendsto (fun n : ℕ => 1 / n * (firstOf (fun i => Z i ω) n ⬝ᵥ
      ((gramUpTo k n)⁻¹ *ᵥ firstOf (fun i => Z i ω) n))) atTop (𝓝 s2)) :
    ∀ᵐ ω ∂μ, Tendsto (fun n : ℕ => ((fun _ => 1 : Fin n → ℝ) ⬝ᵥ ((gramUpTo k n)⁻¹ *ᵥ firstOf (fun i => Z i ω) n)) / n)
      atTop (𝓝 0) := by
  set Q : ℕ → Ω → ℝ := fun n ω => firstOf (fun i => Z i ω) n ⬝ᵥ ((gramUpTo k n)⁻¹ *ᵥ firstOf (fun i => Z i ω) n) with hQ
  set C : ℕ → Ω → ℝ := fun n ω => ((fun _ => 1 : Fin n → ℝ) ⬝ᵥ ((gramUpTo k n)⁻¹ *ᵥ firstOf (fun i => Z i ω) n)) / n with hC
  set S : ℕ → Ω → ℝ := fun n ω =>
    firstOf (fun i => Z i ω + 1) n ⬝ᵥ ((gramUpTo k n)⁻¹ *ᵥ firstOf (fun i => Z i ω + 1) n) with hS
  have hsym : ∀ n, ((gramUpTo k n)⁻¹)ᵀ = (gramUpTo k n)⁻¹ := fun n => by simpa using (hk n).inv.isHermitian.eq
  have hform : ∀ (n : ℕ) ω, S n ω / n = Q n ω / n + 2 * C n ω + onesForm k n := fun n ω => by
    have e : firstOf (fun i => Z i ω + 1) n = firstOf (fun i => Z i ω) n + (fun _ => 1 : Fin n → ℝ) := rfl
    have hab : firstOf (fun i => Z i ω) n ⬝ᵥ ((gramUpTo k n)⁻¹ *ᵥ (fun _ => 1 : Fin n → ℝ)) =
        (fun _ => 1 : Fin n → ℝ) ⬝ᵥ ((gramUpTo k n)⁻¹ *ᵥ firstOf (fun i => Z i ω) n) := by
      rw [dotProduct_mulVec, ← mulVec_transpose, hsym, dotProduct_comm]
    simp only [hS, hQ, hC, onesForm]
    rw [e, mulVec_add, add_dotProduct, dotProduct_add, dotProduct_add, hab]
    ring
  obtain ⟨bd, hbd⟩ := h1.bddAbove_range
  have hB : ∀ n, onesForm k n ≤ bd := fun n => hbd ⟨n, rfl⟩
  have hfm : ∀ n, Measurable fun z : Fin n → ℝ => (1 / n * (z ⬝ᵥ ((gramUpTo k n)⁻¹ *ᵥ z)) - s2) ^ 2 := fun n =>
    (((quad_measurable _).const_mul _).sub_const _).pow_const 2
  have hlm : ∀ n, Measurable fun z : Fin n → ℝ => (((1 / n : ℝ) • ((gramUpTo k n)⁻¹ *ᵥ fun _ => 1)) ⬝ᵥ z) ^ 2 := fun n => by
    apply Continuous.measurable
    fun_prop
  have hL := strong_limit (μ := μ) (S := S) (s := fun n => s2 + onesForm k n) (s2 := s2 + c) (c := 4 * s2 ^ 2 + 8 * (s2 * bd))
    (h1.const_add s2) (fun n => (quad_measurable _).comp (firstOf_measurable (fun i => (hZ i).add_const 1) n))
    (fun ω => quad_grows hk _) (fun n hn => by
      have hn' : (0 : ℝ) < n := by exact_mod_cast hn
      have : NeZero n := ⟨hn.ne'⟩
      have hpos : 0 < onesForm k n := div_pos (PosDef.quad_pos (hk n).inv
        (x := fun _ => 1) (fun h => one_ne_zero (congrFun h 0))) hn'
      have e1 : ∫⁻ z, ENNReal.ofReal ((1 / n * (z ⬝ᵥ ((gramUpTo k n)⁻¹ *ᵥ z)) - s2) ^ 2) ∂(normalLaw 0 (s2 • gramUpTo k n)) =
          ENNReal.ofReal (2 * s2 ^ 2 / n) := by
        refine lint_of_integral (fun z => sq_nonneg _) (by positivity) ((quad_mse (hk n) hs.le (1 / n) s2).trans ?_)
        field_simp
        ring
      have e2 : ∫⁻ z, ENNReal.ofReal ((((1 / n : ℝ) • ((gramUpTo k n)⁻¹ *ᵥ fun _ => 1)) ⬝ᵥ z) ^ 2)
          ∂(normalLaw 0 (s2 • gramUpTo k n)) = ENNReal.ofReal (s2 * onesForm k n / n) := by
        refine lint_of_integral (fun z => sq_nonneg _) (by positivity)
          ((normal_square ((hk n).posSemidef.smul hs.le) _).trans ?_)
        have hdet := (Matrix.isUnit_iff_isUnit_det (gramUpTo k n)).mp (hk n).isUnit
        rw [mulVec_smul, smul_mulVec, mulVec_mulVec, Matrix.mul_nonsing_inv _ hdet, one_mulVec, dotProduct_smul, dotProduct_smul,
          smul_dotProduct, dotProduct_comm]
        simp only [smul_eq_mul, onesForm]
        field_simp
      rw [← hlaw n, lintegral_map (hfm n).ennreal_ofReal (firstOf_measurable hZ n)] at e1
      rw [← hlaw n, lintegral_map (hlm n).ennreal_ofReal (firstOf_measurable hZ n)] at e2
      calc ∫⁻ ω, ENNReal.ofReal ((S n ω / n - (s2 + onesForm k n)) ^ 2) ∂μ
          ≤ ∫⁻ ω, (2 * ENNReal.ofReal ((1 / n * Q n ω - s2) ^ 2) + 8 * ENNReal.ofReal
            ((((1 / n : ℝ) • ((gramUpTo k n)⁻¹ *ᵥ fun _ => 1)) ⬝ᵥ firstOf (fun i => Z i ω) n) ^ 2)) ∂μ := by
            refine lintegral_mono fun ω => ?_
            have hc : (((1 / n : ℝ) • ((gramUpTo k n)⁻¹ *ᵥ fun _ => 1)) ⬝ᵥ firstOf (fun i => Z i ω) n) = C n ω := by
              simp only [hC]
              rw [smul_dotProduct, dotProduct_comm, dotProduct_mulVec, ← mulVec_transpose, hsym, dotProduct_comm, smul_eq_mul,
                one_div_mul_eq_div]
            rw [hc, hform]
            have : (2 : ℝ≥0∞) = ENNReal.ofReal 2 := by simp
            have h8 : (8 : ℝ≥0∞) = ENNReal.ofReal 8 := by simp
            rw [this, h8, ← ENNReal.ofReal_mul (by norm_num), ← ENNReal.ofReal_mul (by norm_num),
              ← ENNReal.ofReal_add (by positivity) (by positivity)]
            refine ENNReal.ofReal_le_ofReal ?_
            rw [one_div_mul_eq_div]
            nlinarith [sq_nonneg (Q n ω / n - s2 - 2 * C n ω)]
        _ = 2 * ENNReal.ofReal (2 * s2 ^ 2 / n) + 8 * ENNReal.ofReal (s2 * onesForm k n / n) := by
            have m1 : Measurable fun ω => ENNReal.ofReal ((1 / n * Q n ω - s2) ^ 2) :=
              (hfm n).ennreal_ofReal.comp (firstOf_measurable hZ n)
            have m2 : Measurable fun ω => ENNReal.ofReal
                ((((1 / n : ℝ) • ((gramUpTo k n)⁻¹ *ᵥ fun _ => 1)) ⬝ᵥ firstOf (fun i => Z i ω) n) ^ 2) :=
              (hlm n).ennreal_ofReal.comp (firstOf_measurable hZ n)
            rw [lintegral_add_left (m1.const_mul 2), lintegral_const_mul _ m1, lintegral_const_mul _ m2, ← e1, ← e2]
        _ ≤ ENNReal.ofReal ((4 * s2 ^ 2 + 8 * (s2 * bd)) / n) := by
            have : (2 : ℝ≥0∞) = ENNReal.ofReal 2 := by simp
            have h8 : (8 : ℝ≥0∞) = ENNReal.ofReal 8 := by simp
            rw [this, h8, ← ENNReal.ofReal_mul (by norm_num), ← ENNReal.ofReal_mul (by norm_num),
              ← ENNReal.ofReal_add (by positivity) (by positivity)]
            refine ENNReal.ofReal_le_ofReal ?_
            have hb := hB n
            have : 2 * (2 * s2 ^ 2 / n) + 8 * (s2 * onesForm k n / n) = (4 * s2 ^ 2 + 8 * (s2 * onesForm k n)) / n := by ring
            rw [this]
            gcongr)
  filter_upwards [hL, hlim] with ω a b
  have := ((a.sub b).sub h1).const_mul (1 / 2 : ℝ)
  rw [show 1 / 2 * (s2 + c - s2 - c) = 0 by ring] at this
  refine this.congr fun n => ?_
  rw [hform]
  simp only [hQ, hC]
  ring

/-- **C286** (constant mean) The guess that does not centre the data converges to the variance plus the square of the mean
times the limit, per observation, of the quadratic form of the constant vector; when that limit is not zero the guessed mean
converges to the mean. -/
theorem guess_constant_limit (hla : la.Sound be) {k : ℕ → ℕ → ℝ} (hk : ∀ n, (gramUpTo k n).PosDef) {c : ℝ}
    (h1 : Tendsto (fun n : ℕ => ((fun _ => 1 : Fin n → ℝ) ⬝ᵥ ((gramUpTo k n)⁻¹ *ᵥ fun _ => 1)) / n) atTop (𝓝 c)) {Z : ℕ → Ω → ℝ}
    (hZ : ∀ i, Measurable (Z i)) (mu : ℝ) {s2 : ℝ} (hs : 0 < s2)
    (hlaw : ∀ n, μ.map (fun ω => firstOf (fun i => Z i ω) n) = normalLaw (fun _ => mu) (s2 • gramUpTo k n)) :
    ∃ m v : ℕ → Ω → ℝ, (∀ n ω, initConstantMean la (gramUpTo k n) (firstOf (fun i => Z i ω) n) = .ok (m n ω, v n ω)) ∧
      (∀ᵐ ω ∂μ, Tendsto (fun n => v n ω) atTop (𝓝 (s2 + mu ^ 2 * c))) ∧
      (c ≠ 0 → ∀ᵐ ω ∂μ, Tendsto (fun n => m n ω) atTop (𝓝 mu)) := by
  have hlaw0 : ∀ n, μ.map (fun ω => firstOf (fun i => Z i ω - mu) n) = normalLaw 0 (s2 • gramUpTo k n) := fun n => by
    have hps : (s2 • gramUpTo k n).PosSemidef := (hk n).posSemidef.smul hs.le
    have := normalLaw_map hps (fun _ => mu) (1 : Mat n n) (fun _ => -mu)
    rw [← hlaw n, Measure.map_map (by apply Continuous.measurable; fun_prop) (firstOf_measurable hZ n)] at this
    simp only [one_mulVec, Matrix.one_mul, transpose_one, Matrix.mul_one] at this
    have e : ((fun _ => mu) + fun _ => -mu : Fin n → ℝ) = 0 := by funext; simp
    rw [e] at this
    rw [← this]
    congr 1
  obtain ⟨v0, hv0, hlim⟩ := guess_zero_limit hla hk (Z := fun i ω => Z i ω - mu) (fun i => (hZ i).sub_const mu) hs hlaw0
  have hv0' : ∀ n ω, v0 n ω = 1 / n * (firstOf (fun i => Z i ω - mu) n ⬝ᵥ ((gramUpTo k n)⁻¹ *ᵥ firstOf (fun i => Z i ω - mu) n)) := by
    intro n ω
    have := hv0 n ω
    simp only [initSigma2Zero, (norms_zero hla (hk n) _).1, Bind.bind, Except.bind, Pure.pure, Except.pure] at this
    injection this with this
    exact this.symm
  refine ⟨fun n ω => (∑ i, ((gramUpTo k n)⁻¹ *ᵥ firstOf (fun i => Z i ω) n) i) / ∑ i, ((gramUpTo k n)⁻¹ *ᵥ fun _ => 1) i,
    fun n ω => 1 / n * (firstOf (fun i => Z i ω) n ⬝ᵥ ((gramUpTo k n)⁻¹ *ᵥ firstOf (fun i => Z i ω) n)), fun n ω => by
    simp only [initConstantMean, (norms_zero hla (hk n) _).2, Bind.bind, Except.bind, Pure.pure, Except.pure], ?_⟩
  have hlim' := hlim
  simp only [hv0'] at hlim'
  have hcross := cross_limit hk h1 (fun i => (hZ i).sub_const mu) hs hlaw0 hlim'
  suffices h : ∀ᵐ ω ∂μ, Tendsto (fun n : ℕ => 1 / n * (firstOf (fun i => Z i ω) n ⬝ᵥ
      ((gramUpTo k n)⁻¹ *ᵥ firstOf (fun i => Z i ω) n))) atTop (𝓝 (s2 + mu ^ 2 * c)) ∧ (c ≠ 0 → Tendsto (fun n =>
      (∑ i, ((gramUpTo k n)⁻¹ *ᵥ firstOf (fun i => Z i ω) n) i) / ∑ i, ((gramUpTo k n)⁻¹ *ᵥ fun _ => 1) i) atTop (𝓝 mu)) by
    exact ⟨h.mono fun ω h => h.1, fun hc => h.mono fun ω h => h.2 hc⟩
  filter_upwards [hlim, hcross] with ω hω hC0
  set B : ℕ → ℝ := fun n => ((fun _ => 1 : Fin n → ℝ) ⬝ᵥ ((gramUpTo k n)⁻¹ *ᵥ fun _ => 1)) / n with hB
  set C : ℕ → ℝ := fun n => ((fun _ => 1 : Fin n → ℝ) ⬝ᵥ ((gramUpTo k n)⁻¹ *ᵥ firstOf (fun i => Z i ω - mu) n)) / n with hC
  have hform : ∀ n : ℕ, 1 / n * (firstOf (fun i => Z i ω) n ⬝ᵥ ((gramUpTo k n)⁻¹ *ᵥ firstOf (fun i => Z i ω) n)) =
      v0 n ω + (2 * mu * C n + mu ^ 2 * B n) := fun n => by
    have hs : ((gramUpTo k n)⁻¹)ᵀ = (gramUpTo k n)⁻¹ := by simpa using (hk n).inv.isHermitian.eq
    have e : firstOf (fun i => Z i ω) n = firstOf (fun i => Z i ω - mu) n + mu • (fun _ => 1 : Fin n → ℝ) := by
      funext i
      simp [firstOf]
    have hab : firstOf (fun i => Z i ω - mu) n ⬝ᵥ ((gramUpTo k n)⁻¹ *ᵥ (fun _ => 1 : Fin n → ℝ)) =
        (fun _ => 1 : Fin n → ℝ) ⬝ᵥ ((gramUpTo k n)⁻¹ *ᵥ firstOf (fun i => Z i ω - mu) n) := by
      rw [dotProduct_mulVec, ← mulVec_transpose, hs, dotProduct_comm]
    rw [hv0', e, mulVec_add, mulVec_smul, add_dotProduct, dotProduct_add, dotProduct_add, smul_dotProduct, smul_dotProduct,
      dotProduct_smul, dotProduct_smul, hab]
    simp only [smul_eq_mul, hB, hC]
    ring
  refine ⟨?_, fun hc => ?_⟩
  · have := hω.add ((hC0.const_mul (2 * mu)).add (h1.const_mul (mu ^ 2)))
    simp only [mul_zero, zero_add] at this
    exact this.congr fun n => (hform n).symm
  · have := (hC0.div h1 hc).const_add mu
    rw [zero_div, add_zero] at this
    refine this.congr' ?_
    filter_upwards [h1.eventually_ne hc, eventually_gt_atTop 0] with n hn h0
    have hn' : (n : ℝ) ≠ 0 := by exact_mod_cast h0.ne'
    have e : firstOf (fun i => Z i ω) n = firstOf (fun i => Z i ω - mu) n + mu • (fun _ => 1 : Fin n → ℝ) := by
      funext i
      simp [firstOf]
    have es : ∀ a : Fin n → ℝ, ∑ i, a i = (fun _ => 1 : Fin n → ℝ) ⬝ᵥ a := fun a => by simp [dotProduct]
    have hb : (fun _ => 1 : Fin n → ℝ) ⬝ᵥ ((gramUpTo k n)⁻¹ *ᵥ fun _ => 1) ≠ 0 := fun h => hn (by
      simp only [hB]
      rw [h, zero_div])
    simp only [Pi.div_apply, hC, hB]
    rw [es, es, e, mulVec_add, mulVec_smul, dotProduct_add, dotProduct_smul, smul_eq_mul]
    field_simp
    ring

/-! ## The whole guess -/

open Verif.Kernel (cov covII maternFormula scaledDistance)

variable {d : ℕ}

/-- The first `n` points. -/
def rowsUpTo (x : ℕ → Fin d → ℝ) (n : ℕ) : Matrix (Fin n) (Fin d) ℝ := fun i => x i

/-- **C286** The parameters guessed by `anisotropic_parameters_initial_guess_zero_mean` for a Matérn covariance converge,
when the points added from some time on do not enlarge the box of the points. -/
theorem guess_limit (hla : la.Sound be) (p : ℕ) {eps : ℝ} {x : ℕ → Fin d → ℝ} (hx : ∀ n, Admissible eps (rowsUpTo x n))
    {l : Fin d → ℝ} (hl : ∀ᶠ n in atTop, guessLoginvrho (rowsUpTo x n) = l) {Z : ℕ → Ω → ℝ} (hZ : ∀ i, Measurable (Z i))
    {s2 : ℝ} (hs : 0 < s2) (hlaw : ∀ n, μ.map (fun ω => firstOf (fun i => Z i ω) n) =
      normalLaw 0 (cov (maternFormula p) eps (Fin.cons (Real.log s2) l) (rowsUpTo x n) .same)) :
    ∃ t : ℕ → Ω → Fin (d + 1) → ℝ,
      (∀ᶠ n in atTop, ∀ ω, guessZeroMean la (maternFormula p) eps (rowsUpTo x n) (firstOf (fun i => Z i ω) n) = .ok (t n ω)) ∧
      ∀ᵐ ω ∂μ, Tendsto (fun n => t n ω) atTop (𝓝 (Fin.cons (Real.log s2) l)) := by
  set k : ℕ → ℕ → ℝ := fun i j => maternFormula p (scaledDistance l (x i) (x j)) + 10 * eps * (if i = j then 1 else 0) with hk
  have hg : ∀ (a : ℝ) (n : ℕ), 0 < a → cov (maternFormula p) eps (Fin.cons (Real.log a) l) (rowsUpTo x n) .same = a • gramUpTo k n := by
    intro a n ha
    ext i j
    simp only [cov, covII, Fin.cons_zero, Fin.cons_succ, Real.exp_log ha, Matrix.of_apply, Matrix.smul_apply, gramUpTo, hk,
      rowsUpTo, smul_eq_mul, Fin.ext_iff]
    ring
  have hpd : ∀ n, (gramUpTo k n).PosDef := fun n => by
    have := matern_Kii p (Fin.cons (Real.log 1) l) (hx n)
    rwa [hg 1 n one_pos, one_smul] at this
  obtain ⟨v, hv, hlim⟩ := guess_zero_limit hla hpd hZ hs fun n => by rw [hlaw n, hg s2 n hs]
  refine ⟨fun n ω => Fin.cons (Real.log (v n ω)) l, ?_, ?_⟩
  · filter_upwards [hl] with n hn ω
    have hc : cov (maternFormula p) eps (Fin.cons (Real.log 1) (guessLoginvrho (rowsUpTo x n))) (rowsUpTo x n) .same =
        gramUpTo k n := by rw [hn, hg 1 n one_pos, one_smul]
    rw [guessZeroMean, hc, hv, hn]
    rfl
  · filter_upwards [hlim] with ω hω
    have h1 := (Real.continuousAt_log hs.ne').tendsto.comp hω
    rw [tendsto_pi_nhds]
    intro j
    refine Fin.cases ?_ (fun j => ?_) j
    · simpa [Function.comp_def] using h1
    · simp

/-! ## Such sequences exist -/

theorem tri_unique {n : ℕ} {a b : ℕ → ℕ → ℝ} (ha : ∀ j < n, 0 < a j j) (hb : ∀ j < n, 0 < b j j)
    (h : ∀ j i, j ≤ i → i < n → ∑ l ∈ Finset.range (j + 1), a i l * a j l = ∑ l ∈ Finset.range (j + 1), b i l * b j l) :
    ∀ j i, j ≤ i → i < n → a i j = b i j := by
  intro j
  induction j using Nat.strong_induction_on with
  | _ j ih =>
    have hprev : ∀ i, j ≤ i → i < n → a i j * a j j = b i j * b j j := fun i hji hi => by
      have := h j i hji hi
      rw [Finset.sum_range_succ, Finset.sum_range_succ] at this
      have e : ∑ l ∈ Finset.range j, a i l * a j l = ∑ l ∈ Finset.range j, b i l * b j l :=
        Finset.sum_congr rfl fun l hl => by
          have hl := Finset.mem_range.mp hl
          rw [ih l hl i (by omega) hi, ih l hl j hl.le (by omega)]
      linarith
    intro i hji hi
    have hj : j < n := by omega
    have hd : a j j = b j j := by
      have := hprev j le_rfl hj
      nlinarith [ha j hj, hb j hj]
    have := hprev i hji hi
    rw [hd] at this
    exact mul_right_cancel₀ (hb j hj).ne' this

/-- A matrix as a function of two numbers. -/
def wide {n : ℕ} (C : Mat n n) (i j : ℕ) : ℝ := if h : i < n ∧ j < n then C ⟨i, h.1⟩ ⟨j, h.2⟩ else 0

theorem wide_fin {n : ℕ} (C : Mat n n) (i j : Fin n) : wide C i j = C i j := by
  simp [wide]

theorem sum_front {n j : ℕ} (hj : j < n) {f : ℕ → ℝ} (h : ∀ l, j < l → l < n → f l = 0) :
    ∑ l ∈ Finset.range (j + 1), f l = ∑ l : Fin n, f l := by
  rw [Fin.sum_univ_eq_sum_range]
  refine Finset.sum_subset (Finset.range_subset_range.mpr hj) fun l hl hn => h l ?_ ?_
  · simp only [Finset.mem_range] at hn
    omega
  · exact Finset.mem_range.mp hl

theorem wide_lower {n : ℕ} {K C : Mat n n} (hC : IsChol K C) {i j : ℕ} (h : i < j) : wide C i j = 0 := by
  unfold wide
  split_ifs with h1
  · exact hC.lower _ _ h
  · rfl

theorem wide_sum {n : ℕ} {K C : Mat n n} (hC : IsChol K C) {i j : ℕ} (hji : j ≤ i) (hi : i < n) :
    ∑ l ∈ Finset.range (j + 1), wide C i l * wide C j l = wide K i j := by
  have hj : j < n := by omega
  rw [sum_front hj fun l hl _ => by rw [wide_lower hC hl, mul_zero]]
  have e := congrFun (congrFun hC.mul ⟨i, hi⟩) ⟨j, hj⟩
  rw [Matrix.mul_apply] at e
  rw [wide_fin K ⟨i, hi⟩ ⟨j, hj⟩, ← e]
  exact Finset.sum_congr rfl fun l _ => by
    rw [wide_fin C ⟨i, hi⟩ l, wide_fin C ⟨j, hj⟩ l, Matrix.transpose_apply]

/-- For all positive definite covariances and all means there is a normal sequence. -/
theorem exists_sequence {k : ℕ → ℕ → ℝ} (hk : ∀ n, (gramUpTo k n).PosDef) (m : ℕ → ℝ) :
    ∃ (P : Measure (ℕ → ℝ)) (Z : ℕ → (ℕ → ℝ) → ℝ), IsProbabilityMeasure P ∧ (∀ i, Measurable (Z i)) ∧
      ∀ n, P.map (fun ω => firstOf (fun i => Z i ω) n) = normalLaw (firstOf m n) (gramUpTo k n) := by
  choose C hC using fun n => exists_chol (gramUpTo k n) (hk n)
  set c : ℕ → ℕ → ℝ := fun i j => wide (C (i + 1)) i j with hc
  have hcC : ∀ (n i j : ℕ) (hi : i < n) (hj : j < n), C n ⟨i, hi⟩ ⟨j, hj⟩ = c i j := fun n i j hi hj => by
    rcases lt_or_ge i j with hij | hij
    · rw [(hC n).lower _ _ hij]
      simp only [hc, wide]
      rw [dif_neg (by omega)]
    · have := tri_unique (n := i + 1) (a := wide (C n)) (b := wide (C (i + 1)))
        (fun j hj => by
          have : j < n := by omega
          simp only [wide, this, and_self, dif_pos]
          exact (hC n).diag_pos _)
        (fun j hj => by
          simp only [wide, hj, and_self, dif_pos]
          exact (hC (i + 1)).diag_pos _)
        (fun a b hab hb => by
          rw [wide_sum (hC n) hab (by omega), wide_sum (hC (i + 1)) hab hb]
          have : a < n ∧ b < n := by omega
          have : a < i + 1 := by omega
          simp only [wide, gramUpTo, Matrix.of_apply, *, and_self, dif_pos]) j i hij (by omega)
      exact (wide_fin (C n) ⟨i, hi⟩ ⟨j, hj⟩).symm.trans this
  refine ⟨Measure.infinitePi fun _ => gaussianReal 0 1, fun i ω => ∑ l ∈ Finset.range (i + 1), c i l * ω l + m i, inferInstance,
    fun i => by fun_prop, fun n => ?_⟩
  have hstd : (Measure.infinitePi fun _ : ℕ => gaussianReal 0 1).map (fun ω => firstOf ω n) = normalLaw 0 (1 : Mat n n) := by
    rw [normalLaw_std, stdLaw]
    have hind := (iIndepFun_infinitePi (P := fun _ : ℕ => gaussianReal 0 1) (X := fun _ z => z) fun _ => measurable_id).precomp
      (g := fun i : Fin n => (i : ℕ)) Fin.val_injective
    have := (iIndepFun_iff_map_fun_eq_pi_map (fun i => (measurable_pi_apply _).aemeasurable)).mp hind
    refine Eq.trans ?_ (this.trans ?_)
    · rfl
    · congr 1
      funext i
      exact Measure.infinitePi_map_eval _ (i : ℕ)
  have hf : (fun ω : ℕ → ℝ => firstOf (fun i => ∑ l ∈ Finset.range (i + 1), c i l * ω l + m i) n) =
      (fun y => C n *ᵥ y + firstOf m n) ∘ fun ω => firstOf ω n := by
    funext ω i
    simp only [Function.comp_apply, firstOf, Pi.add_apply, mulVec, dotProduct]
    congr 1
    rw [sum_front i.2 fun l hl _ => by
      simp only [hc, wide]
      rw [dif_neg (by omega), zero_mul]]
    exact Finset.sum_congr rfl fun l _ => by rw [← hcC n i l i.2 l.2]
  have hm2 : Measurable fun ω : ℕ → ℝ => firstOf ω n := measurable_pi_lambda _ fun i => measurable_pi_apply _
  rw [hf, ← Measure.map_map (by apply Continuous.measurable; fun_prop) hm2, hstd,
    normalLaw_map Matrix.PosSemidef.one, mulVec_zero, zero_add, Matrix.mul_one, (hC n).mul]

/-! ## A concrete case -/

/-- When both ends of the box have been visited, the guessed ranges do not change any more. -/
theorem ranges_const {x : ℕ → Fin d → ℝ} {lo hi : Fin d → ℝ} (hb : ∀ i j, lo j ≤ x i j ∧ x i j ≤ hi j) {N : ℕ}
    (h1 : ∀ j, ∃ i < N, x i j = lo j) (h2 : ∀ j, ∃ i < N, x i j = hi j) {n : ℕ} (hn : N ≤ n) (hN : 0 < N) :
    guessLoginvrho (rowsUpTo x n) = fun j => -Real.log (Kernel.rhoFactor d * (hi j - lo j)) := by
  funext j
  unfold guessLoginvrho
  have hne : List.ofFn (fun i => rowsUpTo x n i j) ≠ [] := by
    intro h
    have := congrArg List.length h
    simp at this
    omega
  obtain ⟨a, ha, b, hbm, e, hall⟩ := Kernel.colRange_spec hne
  have hmem : ∀ i < n, x i j ∈ List.ofFn fun i => rowsUpTo x n i j := fun i hi =>
    (List.mem_ofFn' _ _).mpr ⟨⟨i, hi⟩, rfl⟩
  have hin : ∀ t ∈ List.ofFn (fun i => rowsUpTo x n i j), lo j ≤ t ∧ t ≤ hi j := fun t ht => by
    obtain ⟨i, rfl⟩ := (List.mem_ofFn' _ _).mp ht
    exact hb i j
  obtain ⟨i1, hi1, e1⟩ := h1 j
  obtain ⟨i2, hi2, e2⟩ := h2 j
  have ea : a = lo j := le_antisymm (e1 ▸ (hall _ (hmem i1 (by omega))).1) (hin a ha).1
  have eb : b = hi j := le_antisymm (hin b hbm).2 (e2 ▸ (hall _ (hmem i2 (by omega))).2)
  rw [e, ea, eb]

/-- A model of regularity 3/2 in the unit interval, observed at `0, 1, 1/2, 1/3, …`, with variance `2`. -/
example (hla : la.Sound be) : ∃ (x : ℕ → Fin 1 → ℝ) (P : Measure (ℕ → ℝ)) (Z : ℕ → (ℕ → ℝ) → ℝ) (l : Fin 1 → ℝ)
    (t : ℕ → (ℕ → ℝ) → Fin 2 → ℝ), IsProbabilityMeasure P ∧ (∀ i, 0 ≤ x i 0 ∧ x i 0 ≤ 1) ∧ Function.Injective x ∧
      (∀ n, P.map (fun ω => firstOf (fun i => Z i ω) n) =
        normalLaw 0 (cov (maternFormula 1) 1e-10 (Fin.cons (Real.log 2) l) (rowsUpTo x n) .same)) ∧
      (∀ᶠ n in atTop, ∀ ω, guessZeroMean la (maternFormula 1) 1e-10 (rowsUpTo x n) (firstOf (fun i => Z i ω) n) = .ok (t n ω)) ∧
      ∀ᵐ ω ∂P, Tendsto (fun n => t n ω) atTop (𝓝 (Fin.cons (Real.log 2) l)) := by
  set x : ℕ → Fin 1 → ℝ := fun i _ => (i : ℝ)⁻¹ with hx
  have hbox : ∀ i, 0 ≤ x i 0 ∧ x i 0 ≤ 1 := fun i => ⟨by simp [hx], by
    rcases Nat.eq_zero_or_pos i with rfl | hi
    · simp [hx]
    · exact inv_le_one_of_one_le₀ (by exact_mod_cast hi)⟩
  set l : Fin 1 → ℝ := fun j => -Real.log (Kernel.rhoFactor 1 * (1 - 0)) with hl
  have hA : ∀ n, Admissible 1e-10 (rowsUpTo x n) := fun n => Or.inl (by norm_num)
  have hpd : ∀ n, (gramUpTo (fun i j => 2 * (maternFormula 1 (scaledDistance l (x i) (x j)) +
      10 * 1e-10 * (if i = j then 1 else 0))) n) = cov (maternFormula 1) 1e-10 (Fin.cons (Real.log 2) l) (rowsUpTo x n) .same := by
    intro n
    ext i j
    simp only [cov, covII, Fin.cons_zero, Fin.cons_succ, Real.exp_log (two_pos : (0 : ℝ) < 2), Matrix.of_apply, gramUpTo,
      rowsUpTo, Fin.ext_iff]
    ring
  obtain ⟨P, Z, hP, hZ, hlaw⟩ := exists_sequence (k := fun i j => 2 * (maternFormula 1 (scaledDistance l (x i) (x j)) +
      10 * 1e-10 * (if i = j then 1 else 0))) (fun n => by rw [hpd]; exact matern_Kii 1 _ (hA n)) fun _ => 0
  have hlaw' : ∀ n, P.map (fun ω => firstOf (fun i => Z i ω) n) =
      normalLaw 0 (cov (maternFormula 1) 1e-10 (Fin.cons (Real.log 2) l) (rowsUpTo x n) .same) := fun n => by
    rw [hlaw n, hpd]
    rfl
  obtain ⟨t, ht, hlim⟩ := guess_limit hla 1 hA (l := l) (by
    filter_upwards [eventually_ge_atTop 2] with n hn
    exact ranges_const (lo := fun _ => 0) (hi := fun _ => 1) (fun i j => by
      have : j = 0 := Subsingleton.elim _ _
      subst this
      exact hbox i) (fun j => ⟨0, by norm_num, by simp [hx]⟩) (fun j => ⟨1, by norm_num, by simp [hx]⟩) hn two_pos) hZ two_pos hlaw'
  refine ⟨x, P, Z, l, t, hP, hbox, fun i j h => ?_, hlaw', ht, hlim⟩
  have := congrFun h 0
  simp only [hx, _root_.inv_inj] at this
  exact_mod_cast this

theorem exists_constant_guess (hla : la.Sound be) {k : ℕ → ℕ → ℝ} (hk : ∀ n, (gramUpTo k n).PosDef) {c : ℝ}
    (h1 : Tendsto (fun n : ℕ => ((fun _ => 1 : Fin n → ℝ) ⬝ᵥ ((gramUpTo k n)⁻¹ *ᵥ fun _ => 1)) / n) atTop (𝓝 c)) (mu : ℝ)
    {s2 : ℝ} (hs : 0 < s2) : ∃ (P : Measure (ℕ → ℝ)) (Z : ℕ → (ℕ → ℝ) → ℝ) (m v : ℕ → (ℕ → ℝ) → ℝ), IsProbabilityMeasure P ∧
      (∀ n, P.map (fun ω => firstOf (fun i => Z i ω) n) = normalLaw (fun _ => mu) (s2 • gramUpTo k n)) ∧
      (∀ n ω, initConstantMean la (gramUpTo k n) (firstOf (fun i => Z i ω) n) = .ok (m n ω, v n ω)) ∧
      (∀ᵐ ω ∂P, Tendsto (fun n => v n ω) atTop (𝓝 (s2 + mu ^ 2 * c))) ∧
      (c ≠ 0 → ∀ᵐ ω ∂P, Tendsto (fun n => m n ω) atTop (𝓝 mu)) := by
  have e : ∀ n, gramUpTo (fun i j => s2 * k i j) n = s2 • gramUpTo k n := fun n => rfl
  obtain ⟨P, Z, hP, hZ, hlaw⟩ := exists_sequence (k := fun i j => s2 * k i j) (fun n => by rw [e]; exact (hk n).smul hs) fun _ => mu
  have hlaw' : ∀ n, P.map (fun ω => firstOf (fun i => Z i ω) n) = normalLaw (fun _ => mu) (s2 • gramUpTo k n) := fun n => hlaw n
  obtain ⟨m, v, a, b, c⟩ := guess_constant_limit hla hk h1 hZ mu hs hlaw'
  exact ⟨P, Z, m, v, hP, hlaw', a, b, c⟩

/-- **C286, a case where the guess is wrong for ever.** Independent observations of variance `2` and mean `3`: the guessed
mean tends to `3`, but the guessed variance tends to `11`. -/
theorem guess_constant_white (hla : la.Sound be) : ∃ (P : Measure (ℕ → ℝ)) (Z : ℕ → (ℕ → ℝ) → ℝ)
    (m v : ℕ → (ℕ → ℝ) → ℝ), IsProbabilityMeasure P ∧
      (∀ n, P.map (fun ω => firstOf (fun i => Z i ω) n) = normalLaw (fun _ => 3) ((2 : ℝ) • (1 : Mat n n))) ∧
      (∀ n ω, initConstantMean la (1 : Mat n n) (firstOf (fun i => Z i ω) n) = .ok (m n ω, v n ω)) ∧
      (∀ᵐ ω ∂P, Tendsto (fun n => m n ω) atTop (𝓝 3)) ∧ ∀ᵐ ω ∂P, Tendsto (fun n => v n ω) atTop (𝓝 11) := by
  have e : ∀ n, gramUpTo (fun i j => if i = j then 1 else 0) n = (1 : Mat n n) := fun n => by
    ext i j
    simp [gramUpTo, Matrix.one_apply, Fin.ext_iff]
  obtain ⟨P, Z, m, v, hP, a, b, c, d⟩ := exists_constant_guess hla (k := fun i j => if i = j then 1 else 0) (c := 1)
    (fun n => by rw [e]; exact Matrix.PosDef.one) (by
      refine tendsto_const_nhds.congr' ?_
      filter_upwards [eventually_gt_atTop 0] with n hn
      have hn' : (n : ℝ) ≠ 0 := by exact_mod_cast hn.ne'
      simp [e, dotProduct, hn']) 3 (two_pos)
  refine ⟨P, Z, m, v, hP, fun n => by rw [a, e], fun n ω => by rw [← b, e], d one_ne_zero, ?_⟩
  norm_num at c
  exact c

/-- Observations that share a common random level: the limit of the form is zero and the guessed variance is right. -/
example (hla : la.Sound be) : ∃ (P : Measure (ℕ → ℝ)) (Z : ℕ → (ℕ → ℝ) → ℝ) (m v : ℕ → (ℕ → ℝ) → ℝ), IsProbabilityMeasure P ∧
      (∀ n, P.map (fun ω => firstOf (fun i => Z i ω) n) = normalLaw (fun _ => 3) ((2 : ℝ) • (1 + vecMulVec 1 1 : Mat n n))) ∧
      (∀ n ω, initConstantMean la (1 + vecMulVec 1 1 : Mat n n) (firstOf (fun i => Z i ω) n) = .ok (m n ω, v n ω)) ∧
      ∀ᵐ ω ∂P, Tendsto (fun n => v n ω) atTop (𝓝 2) := by
  have e : ∀ n, gramUpTo (fun i j => (if i = j then 1 else 0) + 1) n = (1 + vecMulVec 1 1 : Mat n n) := fun n => by
    ext i j
    simp [gramUpTo, Matrix.one_apply, Fin.ext_iff]
  have hpd : ∀ n, (1 + vecMulVec 1 1 : Mat n n).PosDef := fun n =>
    Matrix.PosDef.one.add_posSemidef (by simpa using posSemidef_vecMulVec_self_star (1 : Fin n → ℝ))
  obtain ⟨P, Z, m, v, hP, a, b, c, d⟩ := exists_constant_guess hla (k := fun i j => (if i = j then 1 else 0) + 1) (c := 0)
    (fun n => by rw [e]; exact hpd n) (by
      refine tendsto_one_div_add_atTop_nhds_zero_nat.congr' ?_
      filter_upwards [eventually_gt_atTop 0] with n hn
      have hn' : (n : ℝ) ≠ 0 := by exact_mod_cast hn.ne'
      have hdet := (Matrix.isUnit_iff_isUnit_det _).mp (hpd n).isUnit
      have h : (1 + vecMulVec 1 1 : Mat n n) *ᵥ (fun _ => 1 / ((n : ℝ) + 1)) = fun _ => 1 := by
        funext i
        have : (n : ℝ) + 1 ≠ 0 := by positivity
        rw [add_mulVec, one_mulVec, Pi.add_apply]
        simp only [mulVec, dotProduct, vecMulVec_apply, Pi.one_apply, one_mul,
          Finset.sum_const, Finset.card_univ, Fintype.card_fin, nsmul_eq_mul]
        field_simp
        ring
      have h2 : (1 + vecMulVec 1 1 : Mat n n)⁻¹ *ᵥ (fun _ => 1) = fun _ => 1 / ((n : ℝ) + 1) := by
        rw [← h, mulVec_mulVec, Matrix.nonsing_inv_mul _ hdet, one_mulVec]
      rw [e, h2]
      simp only [dotProduct, one_mul, Finset.sum_const, Finset.card_univ, Fintype.card_fin, nsmul_eq_mul]
      field_simp) 3 (two_pos)
  refine ⟨P, Z, m, v, hP, fun n => by rw [a, e], fun n ω => by rw [← b, e], ?_⟩
  norm_num at c
  exact c

end Verif.Core
