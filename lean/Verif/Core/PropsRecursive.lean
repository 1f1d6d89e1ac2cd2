import Verif.Core.PropsInnovations

/-!
# C287 with unknown coefficients of the mean: recursive residuals
-/

set_option autoImplicit false

namespace Verif.Core

open Verif Verif.Data Matrix MeasureTheory ProbabilityTheory Filter Topology

variable {Ω : Type} [MeasurableSpace Ω] {μ : Measure Ω} [IsProbabilityMeasure μ]
variable {q : ℕ} {be : Backend} {la : LA}

/-- The arrays for predicting observation `n` from the ones before, with mean functions. -/
def growArrays (k : ℕ → ℕ → ℝ) (p : ℕ → Fin q → ℝ) (n : ℕ) : Arrays n 1 q where
  Kii := firstCov k n
  Kit := Matrix.of fun i _ => k i n
  vt := fun _ => k n n
  Ktt := Matrix.of fun _ _ => k n n
  Pi := Matrix.of fun i b => p i b
  Pt := Matrix.of fun _ b => p n b

/-- The coefficients of the error of a prediction of value `n` with weights `l`. -/
def errRow (n : ℕ) (l : Fin n → ℝ) (i : ℕ) : ℝ := if h : i < n then -l ⟨i, h⟩ else if i = n then 1 else 0

theorem errRow_sum {n M : ℕ} (hM : n < M) (l : Fin n → ℝ) (f : ℕ → ℝ) :
    ∑ i : Fin M, errRow n l i * f i = f n - ∑ i, l i * f i := by
  rw [Fin.sum_univ_eq_sum_range (fun i => errRow n l i * f i) M,
    ← Finset.sum_subset (Finset.range_subset_range.mpr (Nat.succ_le_of_lt hM)) fun i _ hi => ?_, Finset.sum_range_succ,
    ← Fin.sum_univ_eq_sum_range (fun i => errRow n l i * f i) n]
  · have h1 : errRow n l n = 1 := by simp [errRow]
    have h2 : ∀ i : Fin n, errRow n l i = -l i := fun i => by simp [errRow]
    simp only [h1, h2, neg_mul, Finset.sum_neg_distrib]
    ring
  · have : ¬ i < n ∧ i ≠ n := by
      rw [Finset.mem_range] at hi
      omega
    simp [errRow, this.1, this.2]

/-- Independence of the first `n` for every `n`. -/
theorem indep_of_first {X : ℕ → Ω → ℝ} (h : ∀ n, iIndepFun (fun (i : Fin n) ω => X i ω) μ) : iIndepFun X μ := by
  rw [iIndepFun_iff_finset]
  intro s
  have hlt : ∀ i : s, (i : ℕ) < s.sup id + 1 := fun i => Nat.lt_succ_of_le (Finset.le_sup (f := id) i.2)
  exact (h (s.sup id + 1)).precomp (g := fun i : s => ⟨i, hlt i⟩) fun i j hij => Subtype.ext (by simpa using hij)

/-- With the linear predictor: from the first `q` observations on, the errors divided by the standard deviations are
independent and standard normal, whatever the coefficients of the mean. -/
theorem recursive_residuals (hla : la.Contract be) {k : ℕ → ℕ → ℝ} (hk : ∀ n, (firstCov k n).PosDef) {p : ℕ → Fin q → ℝ}
    (hp : FullRank (Matrix.of fun (i : Fin q) b => p i b)) (beta : Fin q → ℝ) {Z : ℕ → Ω → ℝ} (hZ : ∀ i, Measurable (Z i))
    (hlaw : ∀ n, μ.map (fun ω => firstOf (fun i => Z i ω) n) = normalLaw (firstOf (fun i => p i ⬝ᵥ beta) n) (firstCov k n)) :
    ∃ (mean : ℕ → Ω → ℝ) (var : ℕ → ℝ), (∀ r, Measurable (mean r)) ∧ (∀ r, 0 < var r) ∧
      (∀ r ω zn, ∃ lam, predict la .linearPredictor (growArrays k p (q + r)) (firstOf (fun i => Z i ω) (q + r)) zn =
        .ok (fun _ => mean r ω, fun _ => var r, lam)) ∧
      iIndepFun (fun r ω => (Z (q + r) ω - mean r ω) / √(var r)) μ ∧
      ∀ r, μ.map (fun ω => (Z (q + r) ω - mean r ω) / √(var r)) = gaussianReal 0 1 := by
  have hsym : ∀ i j, k i j = k j i := by
    intro i j
    have := PosDef.symm (hk (max i j + 1))
    have h2 := congrFun (congrFun this ⟨j, by omega⟩) ⟨i, by omega⟩
    simpa [firstCov] using h2
  have hP : ∀ r, FullRank (growArrays k p (q + r)).Pi := fun r b hb => hp b (by
    funext i
    exact congrFun hb (Fin.castAdd r i))
  have hK : ∀ r, CPD (growArrays k p (q + r)).Kii (growArrays k p (q + r)).Pi := fun r => CPD.of_posDef (hk _) _
  have hX := fun r => predict_linear hla (growArrays k p (q + r)) (hK r) (hP r) 0 false
  choose X hX1 _ using hX
  set l : ∀ r, Fin (q + r) → ℝ := fun r i => X r (.inl i) 0 with hl
  set c : ℕ → Fin q → ℝ := fun r b => X r (.inr b) 0 with hc
  set var : ℕ → ℝ := fun r => k (q + r) (q + r) - ∑ i, l r i * k i (q + r) - ∑ b, c r b * p (q + r) b with hvar
  have e1 : ∀ r (j : ℕ), j < q + r → k (q + r) j - ∑ i, l r i * k i j = ∑ b, p j b * c r b := fun r j hj => by
    have := congrFun (congrFun (hX1 r) (.inl ⟨j, hj⟩)) 0
    simp only [ukLHS, ukRHS, Matrix.mul_apply, Fintype.sum_sum_type, fromBlocks_apply₁₁, fromBlocks_apply₁₂, fromRows_apply_inl,
      growArrays, firstCov, of_apply] at this
    rw [hsym (q + r) j, ← this]
    have h2 : ∑ i, l r i * k i j = ∑ i : Fin (q + r), k j i * X r (.inl i) 0 :=
      Finset.sum_congr rfl fun i _ => by rw [hsym i j, mul_comm]
    rw [h2]
    ring
  have e2 : ∀ r b, p (q + r) b - ∑ i, l r i * p i b = 0 := fun r b => by
    have := congrFun (congrFun (hX1 r) (.inr b)) 0
    simp only [ukLHS, ukRHS, Matrix.mul_apply, Fintype.sum_sum_type, fromBlocks_apply₂₁, fromBlocks_apply₂₂,
      fromRows_apply_inr, growArrays, of_apply, transpose_apply, Matrix.zero_apply, zero_mul, Finset.sum_const_zero,
      add_zero] at this
    rw [← this, sub_eq_zero]
    exact Finset.sum_congr rfl fun i _ => mul_comm _ _
  -- the covariances of the errors
  have hcov : ∀ {M r s : ℕ}, s ≤ r → q + r < M →
      ∑ j : Fin M, (∑ i : Fin M, errRow (q + r) (l r) i * k i j) * errRow (q + s) (l s) j = if r = s then var r else 0 := by
    intro M r s hsr hM
    have h1 : ∀ j : Fin M, (∑ i : Fin M, errRow (q + r) (l r) i * k i j) = k (q + r) j - ∑ i, l r i * k i j := fun j =>
      errRow_sum hM (l r) fun i => k i j
    simp only [h1]
    have h2 := errRow_sum (lt_of_le_of_lt (by omega) hM) (l s) (fun j => k (q + r) j - ∑ i, l r i * k i j) (n := q + s)
    rw [Finset.sum_congr rfl fun j _ => mul_comm _ _, h2]
    have h3 : ∑ j : Fin (q + s), l s j * (k (q + r) j - ∑ i, l r i * k i j) = ∑ b, c r b * p (q + s) b := by
      rw [Finset.sum_congr rfl fun (j : Fin (q + s)) _ => by rw [e1 r j (by omega)]]
      simp only [Finset.mul_sum]
      rw [Finset.sum_comm]
      refine Finset.sum_congr rfl fun b _ => ?_
      rw [sub_eq_zero.mp (e2 s b), Finset.mul_sum]
      exact Finset.sum_congr rfl fun j _ => by ring
    rw [h3]
    split_ifs with h
    · rw [← h]
    · rw [e1 r (q + s) (by omega), sub_eq_zero]
      exact Finset.sum_congr rfl fun b _ => mul_comm _ _
  have hpos : ∀ r, 0 < var r := fun r => by
    have := PosDef.quad_pos (hk (q + r + 1)) (x := fun i => errRow (q + r) (l r) i) fun h => by
      have := congrFun h (Fin.last (q + r))
      simp [errRow] at this
    have h2 := hcov (M := q + r + 1) (le_refl r) (Nat.lt_succ_self _)
    rw [if_pos rfl] at h2
    rw [← h2]
    refine this.trans_eq ?_
    simp only [dotProduct, mulVec, firstCov, of_apply]
    refine Finset.sum_congr rfl fun j _ => ?_
    rw [mul_comm]
    congr 1
    exact Finset.sum_congr rfl fun i _ => by rw [hsym, mul_comm]
  have hpred : ∀ r z zn, predict la .linearPredictor (growArrays k p (q + r)) z zn =
      .ok (fun _ => ∑ i, l r i * z i, fun _ => var r, (X r).toRows₁) := fun r z zn => by
    obtain ⟨X', hX', h'⟩ := predict_linear hla (growArrays k p (q + r)) (hK r) (hP r) z zn
    have hu := ukLHS_unit (growArrays k p (q + r)) (hK r) (hP r)
    have : X' = X r := by
      have e := hX'.trans (hX1 r).symm
      have hd := (Matrix.isUnit_iff_isUnit_det _).mp hu
      have := congrArg (fun Y => (ukLHS (growArrays k p (q + r)))⁻¹ * Y) e
      simpa only [← Matrix.mul_assoc, Matrix.nonsing_inv_mul _ hd, Matrix.one_mul] using this
    rw [h', this]
    have hv : (fun t => (growArrays k p (q + r)).vt t - ∑ i, X r i t * ukRHS (growArrays k p (q + r)) i t) = fun _ => var r := by
      funext t
      rw [Subsingleton.elim t 0, Fintype.sum_sum_type]
      simp only [ukRHS, fromRows_apply_inl, fromRows_apply_inr, growArrays, of_apply, transpose_apply, hvar, hl, hc]
      ring
    have hm : (fun t => ∑ i, (X r).toRows₁ i t * z i + 0) = fun _ => ∑ i, l r i * z i := by
      funext t
      rw [Subsingleton.elim t 0, add_zero]
      rfl
    rw [hm]
    have hv2 : (let v := fun t => (growArrays k p (q + r)).vt t - ∑ i, X r i t * ukRHS (growArrays k p (q + r)) i t
        if zn then fun t => max (v t) 0 else v) = fun _ => var r := by
      rw [hv]
      cases zn
      · rfl
      · funext t
        exact max_eq_left (hpos r).le
    rw [hv2]
  have hme : ∀ r, Measurable fun ω => ∑ i : Fin (q + r), l r i * Z i ω := fun r =>
    Finset.measurable_sum _ fun i _ => (hZ i).const_mul _
  have hem : ∀ r, Measurable fun ω => (Z (q + r) ω - ∑ i : Fin (q + r), l r i * Z i ω) / √(var r) := fun r =>
    ((hZ _).sub (hme r)).div_const _
  -- the joint law of the first errors
  have hjoint : ∀ R, μ.map (fun ω (r : Fin R) => (Z (q + r) ω - ∑ i : Fin (q + r), l r i * Z i ω) / √(var r)) = stdLaw (Fin R) := by
    intro R
    set A : Matrix (Fin R) (Fin (q + R)) ℝ := Matrix.of fun r i => (√(var r))⁻¹ * errRow (q + r) (l r) i with hA
    have hf : (fun ω (r : Fin R) => (Z (q + r) ω - ∑ i : Fin (q + r), l r i * Z i ω) / √(var r)) =
        (fun z => A *ᵥ z + 0) ∘ fun ω => firstOf (fun i => Z i ω) (q + R) := by
      funext ω r
      simp only [Function.comp_apply, add_zero, mulVec, dotProduct, hA, of_apply, firstOf, mul_assoc]
      rw [← Finset.mul_sum, errRow_sum (by omega) (l r) fun i => Z i ω, div_eq_inv_mul]
    have hm : Measurable fun ω => firstOf (fun i => Z i ω) (q + R) := measurable_pi_lambda _ fun i => hZ _
    rw [hf, ← Measure.map_map (by apply Continuous.measurable; fun_prop) hm, hlaw,
      normalLaw_map (hk (q + R)).posSemidef, add_zero, ← normalLaw_std]
    congr 1
    · funext r
      simp only [mulVec, dotProduct, hA, of_apply, firstOf, mul_assoc, Pi.zero_apply]
      rw [← Finset.mul_sum, errRow_sum (by omega) (l r) fun i => ∑ b, p i b * beta b]
      have : ∑ b, p (q + r) b * beta b - ∑ i : Fin (q + r), l r i * ∑ b, p i b * beta b =
          ∑ b, (p (q + r) b - ∑ i, l r i * p i b) * beta b := by
        simp only [sub_mul, Finset.sum_sub_distrib, Finset.mul_sum, Finset.sum_mul]
        congr 1
        rw [Finset.sum_comm]
        exact Finset.sum_congr rfl fun b _ => Finset.sum_congr rfl fun i _ => by ring
      rw [this]
      simp [e2]
    · have hAK : ∀ r s : Fin R, s ≤ r → (A * firstCov k (q + R) * Aᵀ) r s = (1 : Matrix (Fin R) (Fin R) ℝ) r s := by
        intro r s hsr
        have h1 := hcov (M := q + R) (r := r) (s := s) hsr (by omega)
        have h2 : (A * firstCov k (q + R) * Aᵀ) r s = (√(var r))⁻¹ * (√(var s))⁻¹ *
            ∑ j : Fin (q + R), (∑ i : Fin (q + R), errRow (q + r) (l r) i * k i j) * errRow (q + s) (l s) j := by
          simp only [Matrix.mul_apply, transpose_apply, hA, of_apply, firstCov]
          rw [Finset.mul_sum]
          refine Finset.sum_congr rfl fun j _ => ?_
          simp only [mul_assoc, ← Finset.mul_sum]
          ring
        rw [h2, h1]
        rcases eq_or_ne r s with rfl | hne
        · rw [if_pos rfl, Matrix.one_apply_eq]
          have h0 := Real.sqrt_pos.mpr (hpos r)
          have h4 := Real.mul_self_sqrt (hpos r).le
          field_simp
          nlinarith
        · rw [if_neg fun h => hne (Fin.ext h), Matrix.one_apply_ne hne, mul_zero]
      ext r s
      rcases le_total s r with h | h
      · exact hAK r s h
      · have h1 : (A * firstCov k (q + R) * Aᵀ)ᵀ = A * firstCov k (q + R) * Aᵀ := by
          rw [transpose_mul, transpose_mul, transpose_transpose, PosDef.symm (hk _), Matrix.mul_assoc]
        rw [← h1, transpose_apply, hAK s r h, Matrix.one_apply, Matrix.one_apply]
        simp only [eq_comm]
  have hone : ∀ r, μ.map (fun ω => (Z (q + r) ω - ∑ i : Fin (q + r), l r i * Z i ω) / √(var r)) = gaussianReal 0 1 := fun r => by
    have := congrArg (Measure.map fun y : Fin (r + 1) → ℝ => y (Fin.last r)) (hjoint (r + 1))
    rw [Measure.map_map (measurable_pi_apply _) (measurable_pi_lambda _ fun i : Fin (r + 1) => hem i), stdLaw,
      Measure.pi_map_eval] at this
    refine Eq.trans rfl (this.trans ?_)
    simp
  refine ⟨fun r ω => ∑ i : Fin (q + r), l r i * Z i ω, var, hme, hpos, fun r ω zn => ⟨_, hpred r _ zn⟩,
    indep_of_first fun R => ?_, hone⟩
  rw [iIndepFun_iff_map_fun_eq_pi_map fun i : Fin R => (hem i).aemeasurable, hjoint R, stdLaw]
  congr 1
  funext i
  exact (hone i).symm

/-- The PIT values of these predictions are independent and uniform; frequencies and averages are right in the long
run. -/
theorem recursive_calibration (hla : la.Contract be) {k : ℕ → ℕ → ℝ} (hk : ∀ n, (firstCov k n).PosDef) {p : ℕ → Fin q → ℝ}
    (hp : FullRank (Matrix.of fun (i : Fin q) b => p i b)) (beta : Fin q → ℝ) {Z : ℕ → Ω → ℝ} (hZ : ∀ i, Measurable (Z i))
    (hlaw : ∀ n, μ.map (fun ω => firstOf (fun i => Z i ω) n) = normalLaw (firstOf (fun i => p i ⬝ᵥ beta) n) (firstCov k n))
    {ppf : ℝ → ℝ} (hppf : Quantile ppf) :
    ∃ (mean : ℕ → Ω → ℝ) (var : ℕ → ℝ) (u : ℕ → Ω → ℝ),
      (∀ r ω zn, ∃ lam, predict la .linearPredictor (growArrays k p (q + r)) (firstOf (fun i => Z i ω) (q + r)) zn =
        .ok (fun _ => mean r ω, fun _ => var r, lam)) ∧
      (∀ N ω, Performance.pit (.vec (List.ofFn fun i : Fin N => Z (q + i) ω)) (List.ofFn fun i : Fin N => mean i ω)
        (List.ofFn fun i : Fin N => var i) = .ok (.vec (List.ofFn fun i : Fin N => Flt.fin (u i ω)))) ∧
      iIndepFun u μ ∧ (∀ n x, 0 ≤ x → x ≤ 1 → μ.real {ω | u n ω ≤ x} = x) ∧
      (∀ x, 0 ≤ x → x ≤ 1 → ∀ᵐ ω ∂μ, Tendsto (freq fun i => u i ω ≤ x) atTop (𝓝 x)) ∧
      (∀ c, 0 < c → c < 1 → ∀ᵐ ω ∂μ,
        Tendsto (freq fun i => |Z (q + i) ω - mean i ω| ≤ ppf ((1 + c) / 2) * √(var i)) atTop (𝓝 c)) ∧
      ∀ᵐ ω ∂μ, Tendsto (fun n : ℕ => (∑ i ∈ Finset.range n, (Z (q + i) ω - mean i ω) ^ 2 / var i) / n) atTop (𝓝 1) := by
  obtain ⟨mean, var, hm, hv, h, hind, hl⟩ := recursive_residuals hla hk hp beta hZ hlaw
  obtain ⟨u, hu⟩ := long_run (Y := fun i => Z (q + i)) (fun i => hZ _) hm hv hind hl hppf
  exact ⟨mean, var, u, h, hu⟩

/-- A line with unknown intercept and slope and the covariance `exK`. -/
example (beta : Fin 2 → ℝ) : FullRank (Matrix.of fun (i : Fin 2) b => (![1, (i : ℝ)] : Fin 2 → ℝ) b) ∧
    (∀ n, (firstCov exK n).PosDef) ∧ ∃ (P : Measure (ℕ → ℝ)) (Z : ℕ → (ℕ → ℝ) → ℝ),
    IsProbabilityMeasure P ∧ (∀ i, Measurable (Z i)) ∧
      ∀ n, P.map (fun ω => firstOf (fun i => Z i ω) n) =
        normalLaw (firstOf (fun i => (![1, (i : ℝ)] : Fin 2 → ℝ) ⬝ᵥ beta) n) (firstCov exK n) := by
  refine ⟨fun b hb => ?_, exK_posDef, exists_sequence exK_posDef _⟩
  have h0 := congrFun hb 0
  have h1 := congrFun hb 1
  simp [mulVec, dotProduct, Fin.sum_univ_two] at h0 h1
  funext i
  fin_cases i
  · exact h0
  · simpa [h0] using h1

end Verif.Core
