import Verif.Core.PropsAccumulate
import Mathlib.LinearAlgebra.Finsupp.LinearCombination

/-!
# C288 for the linear predictor: predictions converge whatever the coefficients of the mean
-/

set_option autoImplicit false

namespace Verif.Core

open Verif Verif.Data Matrix MeasureTheory ProbabilityTheory Filter Topology

variable {Ω : Type} [mΩ : MeasurableSpace Ω] {μ : Measure Ω} [IsProbabilityMeasure μ]
variable {be : Backend} {la : LA} {q : ℕ}

/-- The arrays for predicting value number `0` of a sequence with covariance `k` and mean functions `p` from values `1` to
`n`. -/
def targetArraysMean (k : ℕ → ℕ → ℝ) (p : ℕ → Fin q → ℝ) (n : ℕ) : Arrays n 1 q where
  Kii := firstCov (fun i j => k (i + 1) (j + 1)) n
  Kit := Matrix.of fun i _ => k (i + 1) 0
  vt := fun _ => k 0 0
  Ktt := Matrix.of fun _ _ => k 0 0
  Pi := Matrix.of fun i b => p (i + 1) b
  Pt := Matrix.of fun _ b => p 0 b

/-! ## Linear combinations of a sequence -/

/-- The value of a linear combination. -/
noncomputable def ev (f : ℕ → ℝ) : (ℕ →₀ ℝ) →ₗ[ℝ] ℝ := Finsupp.linearCombination ℝ f

/-- The covariance of two linear combinations. -/
noncomputable def form (k : ℕ → ℕ → ℝ) : (ℕ →₀ ℝ) →ₗ[ℝ] (ℕ →₀ ℝ) →ₗ[ℝ] ℝ :=
  Finsupp.linearCombination ℝ fun j => Finsupp.linearCombination ℝ fun i => k i j

theorem ev_single (f : ℕ → ℝ) (i : ℕ) (x : ℝ) : ev f (Finsupp.single i x) = x * f i := by
  simp [ev]

theorem form_single (k : ℕ → ℕ → ℝ) (i j : ℕ) (x y : ℝ) : form k (Finsupp.single j x) (Finsupp.single i y) = x * (y * k i j) := by
  simp [form]

theorem ev_fin {c : ℕ →₀ ℝ} {N : ℕ} (h : ∀ i, N ≤ i → c i = 0) (f : ℕ → ℝ) : ev f c = ∑ i : Fin N, c i * f i := by
  have hs : c.support ⊆ Finset.range N := fun i hi => by
    by_contra hn
    exact (Finsupp.mem_support_iff.mp hi) (h i (by simpa using hn))
  have := Finsupp.sum_of_support_subset c hs (fun i a => a • f i) fun i _ => zero_smul _ _
  rw [ev, Finsupp.linearCombination_apply, this, Fin.sum_univ_eq_sum_range fun i => c i * f i]
  rfl

theorem form_eq_ev (k : ℕ → ℕ → ℝ) (c c' : ℕ →₀ ℝ) : form k c c' = ev (fun j => ev (fun i => k i j) c') c := by
  simp [form, ev, Finsupp.linearCombination_apply, Finsupp.sum, LinearMap.sum_apply]

theorem form_fin (k : ℕ → ℕ → ℝ) {c c' : ℕ →₀ ℝ} {N : ℕ} (h : ∀ i, N ≤ i → c i = 0) (h' : ∀ i, N ≤ i → c' i = 0) :
    form k c c' = ∑ j : Fin N, ∑ i : Fin N, c j * (c' i * k i j) := by
  rw [form_eq_ev, ev_fin h]
  refine Finset.sum_congr rfl fun j _ => ?_
  rw [ev_fin h', Finset.mul_sum]

theorem exists_bound (c : ℕ →₀ ℝ) : ∃ N, ∀ i, N ≤ i → c i = 0 :=
  ⟨c.support.sup id + 1, fun i hi => by
    by_contra h
    have := Finset.le_sup (f := id) (Finsupp.mem_support_iff.mpr h)
    simp only [id] at this
    omega⟩

theorem form_nonneg {k : ℕ → ℕ → ℝ} (hS : ∀ n, (firstCov k n).PosSemidef) (c : ℕ →₀ ℝ) : 0 ≤ form k c c := by
  obtain ⟨N, hN⟩ := exists_bound c
  rw [form_fin k hN hN]
  refine (PosSemidef.quad_nonneg (hS N) fun i => c i).trans_eq ?_
  simp only [dotProduct, mulVec, firstCov, of_apply, Finset.mul_sum]
  rw [Finset.sum_comm]
  exact Finset.sum_congr rfl fun j _ => Finset.sum_congr rfl fun i _ => by ring

theorem form_pos {k : ℕ → ℕ → ℝ} (hk : ∀ n, (firstCov (fun i j => k (i + 1) (j + 1)) n).PosDef) {c : ℕ →₀ ℝ} (h0 : c 0 = 0)
    (hc : c ≠ 0) : 0 < form k c c := by
  obtain ⟨N, hN⟩ := exists_bound c
  have hN' : ∀ i, N + 1 ≤ i → c i = 0 := fun i hi => hN i (by omega)
  have hx : (fun i : Fin N => c (i + 1)) ≠ 0 := fun h => hc (by
    ext i
    rcases i with _ | i
    · simpa using h0
    · rcases lt_or_ge i N with hi | hi
      · simpa using congrFun h ⟨i, hi⟩
      · simpa using hN (i + 1) (by omega))
  rw [form_fin k hN' hN']
  refine (PosDef.quad_pos (hk N) hx).trans_eq ?_
  simp only [Fin.sum_univ_succ, Fin.val_zero, Fin.val_succ, h0, zero_mul, mul_zero, zero_add, Finset.sum_const_zero,
    dotProduct, mulVec, firstCov, of_apply, Finset.mul_sum]
  rw [Finset.sum_comm]
  exact Finset.sum_congr rfl fun j _ => Finset.sum_congr rfl fun i _ => by ring

theorem firstCov_symm {k : ℕ → ℕ → ℝ} (hS : ∀ n, (firstCov k n).PosSemidef) (i j : ℕ) : k i j = k j i := by
  have := PosSemidef.symm (hS (max i j + 1))
  have h2 := congrFun (congrFun this ⟨j, by omega⟩) ⟨i, by omega⟩
  simpa [firstCov] using h2

theorem form_symm {k : ℕ → ℕ → ℝ} (hS : ∀ n, (firstCov k n).PosSemidef) (c c' : ℕ →₀ ℝ) : form k c c' = form k c' c := by
  obtain ⟨N, hN⟩ := exists_bound c
  obtain ⟨N', hN'⟩ := exists_bound c'
  rw [form_fin k (N := max N N') (fun i hi => hN i (by omega)) fun i hi => hN' i (by omega),
    form_fin k (N := max N N') (fun i hi => hN' i (by omega)) fun i hi => hN i (by omega), Finset.sum_comm]
  refine Finset.sum_congr rfl fun j _ => Finset.sum_congr rfl fun i _ => ?_
  rw [firstCov_symm hS]
  ring

theorem form_sub_le {k : ℕ → ℕ → ℝ} (hS : ∀ n, (firstCov k n).PosSemidef) (c c' : ℕ →₀ ℝ) :
    form k (c - c') (c - c') ≤ 2 * form k c c + 2 * form k c' c' := by
  have := form_nonneg hS (c + c')
  simp only [map_add, map_sub, LinearMap.add_apply, LinearMap.sub_apply] at this ⊢
  linarith

/-! ## Errors of the interpolation of the mean functions -/

/-- The weights of the first `q` observations in the mean at index `j`. -/
noncomputable def meanWeight (p : ℕ → Fin q → ℝ) (j : ℕ) : Fin q → ℝ :=
  p j ᵥ* (Matrix.of fun (i : Fin q) b => p (i + 1) b)⁻¹

/-- Value number `j` minus the combination of the first `q` observations that has the same mean. -/
noncomputable def contrast (p : ℕ → Fin q → ℝ) (j : ℕ) : ℕ →₀ ℝ :=
  Finsupp.single j 1 - ∑ a : Fin q, meanWeight p j a • Finsupp.single ((a : ℕ) + 1) (1 : ℝ)

theorem ev_contrast (p : ℕ → Fin q → ℝ) (f : ℕ → ℝ) (j : ℕ) :
    ev f (contrast p j) = f j - ∑ a, meanWeight p j a * f (a + 1) := by
  simp [contrast, map_sub, map_sum, ev_single]

theorem contrast_zero (p : ℕ → Fin q → ℝ) {j i : ℕ} (h : j ≠ i) (hi : i = 0 ∨ q + 1 ≤ i) : contrast p j i = 0 := by
  simp only [contrast, Finsupp.sub_apply, Finsupp.single_apply, if_neg h, Finsupp.finsetSum_apply, Finsupp.smul_apply]
  rw [Finset.sum_eq_zero, sub_zero]
  intro a _
  have : (a : ℕ) + 1 ≠ i := by omega
  simp [this]

theorem contrast_self (p : ℕ → Fin q → ℝ) {j : ℕ} (hj : j = 0 ∨ q + 1 ≤ j) : contrast p j j = 1 := by
  simp only [contrast, Finsupp.sub_apply, Finsupp.single_apply, if_true, Finsupp.finsetSum_apply, Finsupp.smul_apply]
  rw [Finset.sum_eq_zero, sub_zero]
  intro a _
  have : (a : ℕ) + 1 ≠ j := by omega
  simp [this]

/-- The indices of the target and of the observations after the first `q`. -/
def afterFirst (q r : ℕ) : ℕ := if r = 0 then 0 else q + r

theorem form_quad (k : ℕ → ℕ → ℝ) {n : ℕ} (g : Fin n → ℕ →₀ ℝ) (v : Fin n → ℝ) :
    v ⬝ᵥ ((Matrix.of fun i j => form k (g i) (g j)) *ᵥ v) = form k (∑ i, v i • g i) (∑ i, v i • g i) := by
  simp only [map_sum, LinearMap.sum_apply, map_smul, LinearMap.smul_apply, dotProduct, mulVec, of_apply, Finset.mul_sum, smul_eq_mul]
  rw [Finset.sum_comm]
  exact Finset.sum_congr rfl fun i _ => Finset.sum_congr rfl fun j _ => by ring

section
variable {k : ℕ → ℕ → ℝ} {p : ℕ → Fin q → ℝ}

theorem meanWeight_mul (hp : FullRank (Matrix.of fun (i : Fin q) b => p (i + 1) b)) (j : ℕ) (b : Fin q) :
    ∑ a, meanWeight p j a * p (a + 1) b = p j b := by
  have hu := (Matrix.isUnit_iff_isUnit_det _).mp (isUnit_of_inj hp)
  have : meanWeight p j ᵥ* (Matrix.of fun (i : Fin q) b => p (i + 1) b) = p j := by
    rw [meanWeight, vecMul_vecMul, Matrix.nonsing_inv_mul _ hu, vecMul_one]
  exact congrFun this b

theorem contrast_first (hp : FullRank (Matrix.of fun (i : Fin q) b => p (i + 1) b)) (a : Fin q) : contrast p (a + 1) = 0 := by
  have hu := (Matrix.isUnit_iff_isUnit_det _).mp (isUnit_of_inj hp)
  have : meanWeight p (a + 1) = Pi.single a 1 := by
    have h := congrFun (Matrix.mul_nonsing_inv _ hu) a
    refine h.trans (funext fun b => ?_)
    rw [Matrix.one_eq_pi_single]
  rw [contrast, this]
  simp [Pi.single_apply]

theorem contrast_unbiased (hp : FullRank (Matrix.of fun (i : Fin q) b => p (i + 1) b)) (j : ℕ) (b : Fin q) :
    ev (fun i => p i b) (contrast p j) = 0 := by
  rw [ev_contrast, meanWeight_mul hp, sub_self]

end

/-- **C288** With a linear predictor too, whatever the coefficients of the mean: from the number of observations on that
determines the coefficients, the mean squared error of predictions is the returned variance, which decreases; predictions
converge with probability one; to the value itself if there are linear combinations of observations arbitrarily close to it
in mean square and almost unbiased. -/
theorem linear_predictions_converge (hla : la.Contract be) {k : ℕ → ℕ → ℝ} (hS : ∀ n, (firstCov k n).PosSemidef)
    (hk : ∀ n, (firstCov (fun i j => k (i + 1) (j + 1)) n).PosDef) {p : ℕ → Fin q → ℝ}
    (hp : FullRank (Matrix.of fun (i : Fin q) b => p (i + 1) b)) (beta : Fin q → ℝ) {W : ℕ → Ω → ℝ} (hW : ∀ i, Measurable (W i))
    (hlaw : ∀ n, μ.map (fun ω => firstOf (fun i => W i ω) n) = normalLaw (firstOf (fun i => p i ⬝ᵥ beta) n) (firstCov k n)) :
    ∃ (mean : ℕ → Ω → ℝ) (var : ℕ → ℝ),
      (∀ n ω zn, ∃ lam, predict la .linearPredictor (targetArraysMean k p (q + n)) (obsOf (fun i => W i ω) (q + n)) zn =
        .ok (fun _ => mean n ω, fun _ => var n, lam)) ∧
      (∀ n, ∫ ω, (W 0 ω - mean n ω) ^ 2 ∂μ = var n) ∧ Antitone var ∧
      (∃ L : Ω → ℝ, (∀ᵐ ω ∂μ, Tendsto (fun n => mean n ω) atTop (𝓝 (L ω))) ∧
        ∀ n, ∫⁻ ω, ENNReal.ofReal ((W 0 ω - L ω) ^ 2) ∂μ ≤ ENNReal.ofReal (var n)) ∧
      ((∀ e > 0, ∃ (F : Finset ℕ) (a : ℕ → ℝ), k 0 0 - 2 * ∑ i ∈ F, a i * k (i + 1) 0 +
          ∑ i ∈ F, ∑ j ∈ F, a i * a j * k (i + 1) (j + 1) < e ∧ ∀ b, |p 0 b - ∑ i ∈ F, a i * p (i + 1) b| < e) →
        Tendsto var atTop (𝓝 0) ∧ ∀ᵐ ω ∂μ, Tendsto (fun n => mean n ω) atTop (𝓝 (W 0 ω))) := by
  set g : ℕ → ℕ →₀ ℝ := fun r => contrast p (afterFirst q r) with hg
  have hg0 : g 0 = contrast p 0 := by simp [hg, afterFirst]
  have hgs : ∀ r, g (r + 1) = contrast p (q + (r + 1)) := fun r => by simp [hg, afterFirst]
  set k' : ℕ → ℕ → ℝ := fun r s => form k (g r) (g s) with hk'd
  set U : ℕ → Ω → ℝ := fun r ω => ev (fun i => W i ω) (g r) with hU
  have hUe : ∀ r ω, U r ω = W (afterFirst q r) ω - ∑ a, meanWeight p (afterFirst q r) a * W (a + 1) ω := fun r ω => ev_contrast _ _ _
  have hUm : ∀ r, Measurable (U r) := fun r => by
    have : U r = fun ω => W (afterFirst q r) ω - ∑ a, meanWeight p (afterFirst q r) a * W (a + 1) ω := funext (hUe r)
    rw [this]
    exact (hW _).sub (Finset.measurable_sum _ fun a _ => (hW _).const_mul _)
  have hS' : ∀ n, (firstCov k' n).PosSemidef := fun n => by
    refine Matrix.PosSemidef.of_dotProduct_mulVec_nonneg ?_ fun x => ?_
    · ext i j
      simp only [conjTranspose_apply, star_trivial, firstCov, of_apply, hk'd]
      exact form_symm hS _ _
    · rw [star_trivial]
      exact (form_nonneg hS _).trans_eq (form_quad k (fun i : Fin n => g i) x).symm
  have hk' : ∀ n, (firstCov (fun i j => k' (i + 1) (j + 1)) n).PosDef := fun n => by
    refine Matrix.PosDef.of_dotProduct_mulVec_pos ?_ fun x hx => ?_
    · ext i j
      simp only [conjTranspose_apply, star_trivial, firstCov, of_apply, hk'd]
      exact form_symm hS _ _
    · rw [star_trivial]
      refine (form_pos hk ?_ fun h => hx ?_).trans_eq (form_quad k (fun i : Fin n => g (i + 1)) x).symm
      · simp only [Finsupp.finsetSum_apply, Finsupp.smul_apply]
        refine Finset.sum_eq_zero fun i _ => ?_
        rw [hgs, contrast_zero p (by omega) (Or.inl rfl), smul_zero]
      · funext i
        have := DFunLike.congr_fun h (q + (i + 1))
        simp only [Finsupp.finsetSum_apply, Finsupp.smul_apply, Finsupp.zero_apply] at this
        rw [Finset.sum_eq_single i] at this
        · rw [hgs, contrast_self p (by omega), smul_eq_mul, mul_one] at this
          exact this
        · intro j _ hj
          rw [hgs, contrast_zero p (by have := fun h => hj (Fin.ext h); omega) (by omega), smul_zero]
        · simp
  have hbound : ∀ {n r : ℕ}, r ≤ n → ∀ i, q + n + 1 ≤ i → g r i = 0 := fun {n r} hr i hi => by
    refine contrast_zero p ?_ (by omega)
    unfold afterFirst
    split_ifs <;> omega
  have hlaw' : ∀ n, μ.map (fun ω => firstOf (fun i => U i ω) n) = normalLaw (firstOf 0 n) (firstCov k' n) := fun n => by
    set A : Matrix (Fin n) (Fin (q + n + 1)) ℝ := Matrix.of fun r i => g r i with hA
    have hb : ∀ r : Fin n, ∀ i, q + n + 1 ≤ i → g r i = 0 := fun r => hbound r.2.le
    have hf : (fun ω => firstOf (fun i => U i ω) n) = (fun z => A *ᵥ z + 0) ∘ fun ω => firstOf (fun i => W i ω) (q + n + 1) := by
      funext ω r
      simp only [Function.comp_apply, add_zero, mulVec, dotProduct, hA, of_apply, firstOf, hU]
      exact ev_fin (hb r) _
    have hm : Measurable fun ω => firstOf (fun i => W i ω) (q + n + 1) := measurable_pi_lambda _ fun i => hW _
    rw [hf, ← Measure.map_map (by apply Continuous.measurable; fun_prop) hm, hlaw, normalLaw_map (hS _), add_zero]
    congr 1
    · funext r
      simp only [mulVec, hA, firstOf, Pi.zero_apply]
      refine (ev_fin (hb r) fun i => p i ⬝ᵥ beta).symm.trans ?_
      rw [ev_contrast]
      simp only [dotProduct, Finset.mul_sum]
      rw [Finset.sum_comm, ← Finset.sum_sub_distrib]
      refine Finset.sum_eq_zero fun b _ => ?_
      rw [← meanWeight_mul hp _ b, Finset.sum_mul, sub_eq_zero]
      exact Finset.sum_congr rfl fun a _ => by ring
    · ext r s
      have h1 : firstCov k' n r s = form k (g s) (g r) := form_symm hS _ _
      rw [h1, form_fin k (hb s) (hb r)]
      simp only [Matrix.mul_apply, transpose_apply, hA, of_apply, firstCov]
      refine Finset.sum_congr rfl fun j _ => ?_
      rw [Finset.sum_mul]
      exact Finset.sum_congr rfl fun i _ => by ring
  obtain ⟨mU, vU, -, h2, -, -, h5, h6, ⟨L, h7, h8⟩, h9⟩ := predictions_converge hla hS' hk' 0 hUm hlaw'
  have hv0 : ∀ n, 0 ≤ vU n := fun n => by
    rw [← h5]
    exact integral_nonneg fun ω => sq_nonneg _
  -- the weights
  set w : (n : ℕ) → Fin n → ℝ := fun n i => ((targetArrays k' n).Kii⁻¹ * (targetArrays k' n).Kit) i 0 with hw
  have hmU : ∀ n ω, mU n ω = ∑ i, w n i * U (i + 1) ω := fun n ω => by
    obtain ⟨lam, h⟩ := h2 rfl n ω false
    rw [predict_zero hla (targetArrays k' n) (hk' n)] at h
    have := congrFun (Prod.mk.inj (Except.ok.inj h)).1 0
    rw [← this, add_zero]
    rfl
  have hvU : ∀ n, vU n = k' 0 0 - ∑ i, w n i * k' (i + 1) 0 := fun n => by
    obtain ⟨ω⟩ := μ.nonempty_of_neZero
    obtain ⟨lam, h⟩ := h2 rfl n ω false
    rw [predict_zero hla (targetArrays k' n) (hk' n)] at h
    exact (congrFun (Prod.mk.inj (Prod.mk.inj (Except.ok.inj h)).2).1 0).symm
  have hwn : ∀ n (s : Fin n), ∑ i : Fin n, k' (s + 1) (i + 1) * w n i = k' (s + 1) 0 := fun n s => by
    have hu : IsUnit (targetArrays k' n).Kii.det := (Matrix.isUnit_iff_isUnit_det _).mp (hk' n).isUnit
    have : (targetArrays k' n).Kii * ((targetArrays k' n).Kii⁻¹ * (targetArrays k' n).Kit) = (targetArrays k' n).Kit := by
      rw [← Matrix.mul_assoc, Matrix.mul_nonsing_inv _ hu, Matrix.one_mul]
    exact congrFun (congrFun this s) 0
  set c : ℕ → ℕ →₀ ℝ := fun n => g 0 - ∑ i : Fin n, w n i • g (i + 1) with hc
  have hcg : ∀ n f, ev f (c n) = ev f (g 0) - ∑ i : Fin n, w n i * ev f (g (i + 1)) := fun n f => by
    simp only [hc, map_sub, map_sum, map_smul, smul_eq_mul]
  have hc0 : ∀ n, c n 0 = 1 := fun n => by
    simp only [hc, Finsupp.sub_apply, Finsupp.finsetSum_apply, Finsupp.smul_apply]
    rw [Finset.sum_eq_zero, sub_zero, hg0, contrast_self p (Or.inl rfl)]
    intro i _
    rw [hgs, contrast_zero p (by omega) (Or.inl rfl), smul_zero]
  have hcb : ∀ n i, q + n + 1 ≤ i → c n i = 0 := fun n i hi => by
    simp only [hc, Finsupp.sub_apply, Finsupp.finsetSum_apply, Finsupp.smul_apply]
    rw [Finset.sum_eq_zero, sub_zero, hbound (Nat.zero_le n) i hi]
    intro j _
    rw [hbound (n := n) j.2 i hi, smul_zero]
  set l : (n : ℕ) → Fin (q + n) → ℝ := fun n i => -c n (i + 1) with hl
  have hcl : ∀ n f, ev f (c n) = f 0 - ∑ i, l n i * f (i + 1) := fun n f => by
    rw [ev_fin (hcb n), Fin.sum_univ_succ]
    simp only [Fin.val_zero, Fin.val_succ, hc0, hl, neg_mul, Finset.sum_neg_distrib]
    ring
  have hsym := firstCov_symm hS
  set h : ℕ → ℕ → ℝ := fun n j => form k (c n) (Finsupp.single j 1) with hh
  have hhl : ∀ n j, h n j = k j 0 - ∑ i, l n i * k j (i + 1) := fun n j => by
    rw [hh]
    simp only [form_eq_ev, ev_single, one_mul]
    exact hcl n _
  have hfc : ∀ n j, form k (c n) (contrast p j) = h n j - ∑ a, meanWeight p j a * h n (a + 1) := fun n j => by
    simp only [contrast, map_sub, map_sum, map_smul, smul_eq_mul, hh]
  have horth : ∀ n j, j < q + n → h n (j + 1) = ∑ a, meanWeight p (j + 1) a * h n (a + 1) := fun n j hj => by
    rw [← sub_eq_zero, ← hfc]
    rcases lt_or_ge j q with hjq | hjq
    · rw [contrast_first hp ⟨j, hjq⟩, map_zero]
    · obtain ⟨s, rfl⟩ := Nat.exists_eq_add_of_le hjq
      have e : contrast p (q + s + 1) = g (s + 1) := (hgs s).symm
      have := hwn n ⟨s, by omega⟩
      rw [e]
      simp only [hc, map_sub, map_sum, map_smul, LinearMap.sub_apply, LinearMap.sum_apply, LinearMap.smul_apply, smul_eq_mul]
      rw [form_symm hS (g 0), sub_eq_zero]
      refine this.symm.trans (Finset.sum_congr rfl fun i _ => ?_)
      rw [mul_comm, hk'd]
      exact congrArg _ (form_symm hS _ _)
  set G := (Matrix.of fun (i : Fin q) b => p (i + 1) b)⁻¹ with hG
  set cc : (n : ℕ) → Fin q → ℝ := fun n b => ∑ a, G b a * h n (a + 1) with hcc
  have hccp : ∀ n j, ∑ b, p j b * cc n b = ∑ a, meanWeight p j a * h n (a + 1) := fun n j => by
    simp only [hcc, meanWeight, vecMul, dotProduct, Finset.mul_sum, Finset.sum_mul]
    rw [Finset.sum_comm]
    exact Finset.sum_congr rfl fun a _ => Finset.sum_congr rfl fun b _ => by rw [mul_assoc]
  have hvar : ∀ n, k 0 0 - ∑ i, l n i * k (i + 1) 0 - ∑ b, cc n b * p 0 b = vU n := fun n => by
    have e1 : ∑ b, cc n b * p 0 b = ∑ a, meanWeight p 0 a * h n (a + 1) := by
      rw [← hccp]
      exact Finset.sum_congr rfl fun b _ => mul_comm _ _
    have e2 : k 0 0 - ∑ i, l n i * k (i + 1) 0 = h n 0 := by
      rw [hhl]
      congr 1
      exact Finset.sum_congr rfl fun i _ => by rw [hsym]
    rw [e1, e2, ← hfc, ← hg0, hvU]
    simp only [hc, map_sub, map_sum, map_smul, LinearMap.sub_apply, LinearMap.sum_apply, LinearMap.smul_apply, smul_eq_mul, hk'd]
  -- the predictions
  have hPn : ∀ n, FullRank (targetArraysMean k p (q + n)).Pi := fun n b hb => hp b (by
    funext i
    exact congrFun hb (Fin.castAdd n i))
  have hKn : ∀ n, CPD (targetArraysMean k p (q + n)).Kii (targetArraysMean k p (q + n)).Pi := fun n => CPD.of_posDef (hk _) _
  set mean : ℕ → Ω → ℝ := fun n ω => ∑ i, l n i * W (i + 1) ω with hmean
  have hpred : ∀ n z zn, ∃ lam, predict la .linearPredictor (targetArraysMean k p (q + n)) z zn =
      .ok (fun _ => ∑ i, l n i * z i, fun _ => vU n, lam) := fun n z zn => by
    obtain ⟨X', hX', h'⟩ := predict_linear hla (targetArraysMean k p (q + n)) (hKn n) (hPn n) z zn
    have hu := (Matrix.isUnit_iff_isUnit_det _).mp (ukLHS_unit (targetArraysMean k p (q + n)) (hKn n) (hPn n))
    have hX : ukLHS (targetArraysMean k p (q + n)) * (Matrix.of fun i _ => Sum.elim (l n) (cc n) i) =
        ukRHS (targetArraysMean k p (q + n)) := by
      ext i t
      rcases i with j | b
      · simp only [ukLHS, ukRHS, Matrix.mul_apply, Fintype.sum_sum_type, fromBlocks_apply₁₁, fromBlocks_apply₁₂, fromRows_apply_inl,
          targetArraysMean, firstCov, of_apply, Sum.elim_inl, Sum.elim_inr]
        rw [hccp, ← horth n j j.2, hhl]
        have : ∑ i : Fin (q + n), k (j + 1) (i + 1) * l n i = ∑ i, l n i * k (j + 1) (i + 1) :=
          Finset.sum_congr rfl fun i _ => mul_comm _ _
        rw [this]
        ring
      · simp only [ukLHS, ukRHS, Matrix.mul_apply, Fintype.sum_sum_type, fromBlocks_apply₂₁, fromBlocks_apply₂₂, fromRows_apply_inr,
          targetArraysMean, of_apply, transpose_apply, Matrix.zero_apply, zero_mul, Finset.sum_const_zero, add_zero, Sum.elim_inl]
        have := hcl n fun i => p i b
        rw [hcg] at this
        simp only [hg, contrast_unbiased hp, mul_zero, Finset.sum_const_zero, sub_zero] at this
        rw [eq_comm, sub_eq_zero] at this
        rw [this]
        exact Finset.sum_congr rfl fun i _ => mul_comm _ _
    have hXX : X' = Matrix.of fun i _ => Sum.elim (l n) (cc n) i := by
      have e := hX'.trans hX.symm
      have := congrArg (fun Y => (ukLHS (targetArraysMean k p (q + n)))⁻¹ * Y) e
      simpa only [← Matrix.mul_assoc, Matrix.nonsing_inv_mul _ hu, Matrix.one_mul] using this
    refine ⟨X'.toRows₁, h'.trans ?_⟩
    rw [hXX]
    have hv : (fun t => (targetArraysMean k p (q + n)).vt t - ∑ i, (Matrix.of fun i (_ : Fin 1) => Sum.elim (l n) (cc n) i) i t *
        ukRHS (targetArraysMean k p (q + n)) i t) = fun _ => vU n := by
      funext t
      rw [Fintype.sum_sum_type]
      simp only [ukRHS, fromRows_apply_inl, fromRows_apply_inr, targetArraysMean, of_apply, transpose_apply, Sum.elim_inl, Sum.elim_inr]
      rw [← hvar]
      ring
    rw [hv]
    have hv2 : (let v := fun _ : Fin 1 => vU n
        if zn then fun t => max (v t) 0 else v) = fun _ => vU n := by
      cases zn
      · rfl
      · funext t
        exact max_eq_left (hv0 n)
    rw [hv2]
    have hm : (fun t : Fin 1 => ∑ i, (Matrix.of fun i (_ : Fin 1) => Sum.elim (l n) (cc n) i).toRows₁ i t * z i + 0) =
        fun _ => ∑ i, l n i * z i := by
      funext t
      rw [add_zero]
      rfl
    rw [hm]
  have herr : ∀ n ω, W 0 ω - mean n ω = U 0 ω - mU n ω := fun n ω => by
    rw [hmU]
    exact (hcl n fun i => W i ω).symm.trans (hcg n _)
  have hmU' : ∀ n ω, mean n ω = mU n ω + (W 0 ω - U 0 ω) := fun n ω => by
    have := herr n ω
    linarith
  refine ⟨mean, vU, fun n ω zn => hpred n _ zn, fun n => ?_, h6, ⟨fun ω => L ω + (W 0 ω - U 0 ω), ?_, fun n => ?_⟩, fun hclose => ?_⟩
  · rw [← h5 n]
    simp only [herr]
  · filter_upwards [h7] with ω h
    simp only [hmU']
    exact h.add_const _
  · refine Eq.trans_le (lintegral_congr fun ω => ?_) (h8 n)
    congr 2
    ring
  · have := h9 ?_
    · refine ⟨this.1, ?_⟩
      filter_upwards [this.2] with ω h
      simp only [hmU']
      have := h.add_const (W 0 ω - U 0 ω)
      simpa using this
    intro e he
    -- the bias that a combination may have
    set bias : (Fin q → ℝ) → ℕ →₀ ℝ := fun eta => ∑ a : Fin q, (eta ᵥ* G) a • Finsupp.single ((a : ℕ) + 1) (1 : ℝ) with hbias
    have hbf : Continuous fun eta => form k (bias eta) (bias eta) := by
      simp only [hbias, map_sum, LinearMap.sum_apply, map_smul, LinearMap.smul_apply, smul_eq_mul]
      fun_prop
    have hb0 : form k (bias 0) (bias 0) < e / 4 := by
      have : bias 0 = 0 := by simp [hbias]
      rw [this, map_zero]
      simpa using by positivity
    obtain ⟨r, hr, hball⟩ := Metric.eventually_nhds_iff.mp ((hbf.tendsto 0).eventually_lt_const hb0)
    obtain ⟨F, a, hFa, hFb⟩ := hclose (min (e / 4) r) (lt_min (by positivity) hr)
    set c0 : ℕ →₀ ℝ := Finsupp.single 0 1 - ∑ i ∈ F, a i • Finsupp.single (i + 1) (1 : ℝ) with hc0d
    have hform : form k c0 c0 = k 0 0 - 2 * ∑ i ∈ F, a i * k (i + 1) 0 + ∑ i ∈ F, ∑ j ∈ F, a i * a j * k (i + 1) (j + 1) := by
      simp only [hc0d, map_sub, map_sum, map_smul, LinearMap.sub_apply, LinearMap.sum_apply, LinearMap.smul_apply, smul_eq_mul,
        form_single, one_mul, mul_sub, Finset.mul_sum, Finset.sum_sub_distrib]
      have e1 : ∑ i ∈ F, a i * k 0 (i + 1) = ∑ i ∈ F, a i * k (i + 1) 0 := Finset.sum_congr rfl fun i _ => by rw [hsym]
      have e2 : ∑ i ∈ F, 2 * (a i * k (i + 1) 0) = 2 * ∑ i ∈ F, a i * k (i + 1) 0 := by rw [Finset.mul_sum]
      rw [e1, e2]
      have e3 : ∑ i ∈ F, ∑ j ∈ F, a i * (a j * k (i + 1) (j + 1)) = ∑ i ∈ F, ∑ j ∈ F, a i * a j * k (i + 1) (j + 1) :=
        Finset.sum_congr rfl fun i _ => Finset.sum_congr rfl fun j _ => by rw [mul_assoc]
      rw [e3]
      ring
    set eta : Fin q → ℝ := fun b => p 0 b - ∑ i ∈ F, a i * p (i + 1) b with heta
    have hT : contrast p 0 - ∑ i ∈ F, a i • contrast p (i + 1) = c0 - bias eta := by
      have h1 : ∀ x, (eta ᵥ* G) x = meanWeight p 0 x - ∑ i ∈ F, a i * meanWeight p (i + 1) x := fun x => by
        simp only [heta, meanWeight, vecMul, dotProduct, sub_mul, Finset.sum_sub_distrib, Finset.sum_mul, Finset.mul_sum, ← hG]
        congr 1
        rw [Finset.sum_comm]
        exact Finset.sum_congr rfl fun i _ => Finset.sum_congr rfl fun b _ => by ring
      simp only [hbias, h1, contrast, hc0d, smul_sub, sub_smul, Finset.sum_sub_distrib, Finset.smul_sum, Finset.sum_smul, smul_smul]
      rw [Finset.sum_comm]
      abel
    have hlt : form k (c0 - bias eta) (c0 - bias eta) < e := by
      have h1 := form_sub_le hS c0 (bias eta)
      have h2 : form k (bias eta) (bias eta) < e / 4 := hball ((dist_pi_lt_iff hr).mpr fun b => by
        rw [Pi.zero_apply, Real.dist_0_eq_abs]
        exact (hFb b).trans_le (min_le_right _ _))
      have h3 : form k c0 c0 < e / 4 := by
        rw [hform]
        exact hFa.trans_le (min_le_left _ _)
      linarith
    -- without the first `q`
    set M := F.sup id + 1 with hM
    have hF : F ⊆ Finset.range (q + M) := fun i hi =>
      Finset.mem_range.mpr (by have := Finset.le_sup (f := id) hi; simp only [id] at this; omega)
    set b : ℕ → ℝ := fun i => if i ∈ F then a i else 0 with hb
    have hsum : ∑ i ∈ F, a i • contrast p (i + 1) = ∑ s ∈ Finset.range M, b (q + s) • g (s + 1) := by
      have h1 : ∑ i ∈ F, a i • contrast p (i + 1) = ∑ i ∈ Finset.range (q + M), b i • contrast p (i + 1) := by
        rw [← Finset.sum_subset hF fun i _ hi => by simp only [hb, if_neg hi, zero_smul]]
        exact Finset.sum_congr rfl fun i hi => by simp only [hb, if_pos hi]
      rw [h1, Finset.sum_range_add, Finset.sum_eq_zero, zero_add]
      · exact Finset.sum_congr rfl fun s _ => by rw [hgs, add_assoc]
      · intro i hi
        rw [contrast_first hp ⟨i, Finset.mem_range.mp hi⟩, smul_zero]
    rw [← hT, hsum, ← hg0] at hlt
    refine ⟨Finset.range M, fun s => b (q + s), lt_of_eq_of_lt ?_ hlt⟩
    simp only [map_sub, map_sum, map_smul, LinearMap.sub_apply, LinearMap.sum_apply, LinearMap.smul_apply, smul_eq_mul, hk'd,
      mul_sub, Finset.mul_sum, Finset.sum_sub_distrib]
    have e1 : ∑ i ∈ Finset.range M, b (q + i) * form k (g 0) (g (i + 1)) = ∑ i ∈ Finset.range M, b (q + i) * form k (g (i + 1)) (g 0) :=
      Finset.sum_congr rfl fun i _ => by rw [form_symm hS]
    have e3 : ∑ i ∈ Finset.range M, ∑ j ∈ Finset.range M, b (q + i) * (b (q + j) * form k (g (j + 1)) (g (i + 1))) =
        ∑ i ∈ Finset.range M, ∑ j ∈ Finset.range M, b (q + i) * b (q + j) * form k (g (i + 1)) (g (j + 1)) :=
      Finset.sum_congr rfl fun i _ => Finset.sum_congr rfl fun j _ => by rw [form_symm hS, mul_assoc]
    rw [e1, e3, ← Finset.mul_sum]
    ring

/-! ## Matérn covariances -/

open Verif.Kernel (maternFormula scaledDistance)

/-- **C288** With a Matérn covariance without nugget and a linear predictor with continuous mean functions, predictions at a
point that observation points approach converge with probability one to the value at this point. -/
theorem matern_linear_predictions_converge {d : ℕ} (hla : la.Contract be) (p : ℕ) (param : Fin (d + 1) → ℝ) {x : ℕ → Fin d → ℝ}
    (hx : Function.Injective fun i => x (i + 1)) (hclose : ∀ e > 0, ∃ i, ∀ j, |x (i + 1) j - x 0 j| < e)
    {phi : Fin q → (Fin d → ℝ) → ℝ} (hphi : ∀ b, ContinuousAt (phi b) (x 0))
    (hrank : FullRank (Matrix.of fun (i : Fin q) b => phi b (x (i + 1)))) (beta : Fin q → ℝ) {W : ℕ → Ω → ℝ}
    (hW : ∀ i, Measurable (W i)) (hlaw : ∀ n, μ.map (fun ω => firstOf (fun i => W i ω) n) =
      normalLaw (fun i : Fin n => ∑ b, phi b (x i) * beta b)
        (Matrix.of fun i j : Fin n => Real.exp (param 0) * maternFormula p (scaledDistance (fun j => param j.succ) (x i) (x j)))) :
    ∃ (mean : ℕ → Ω → ℝ) (var : ℕ → ℝ), (∀ n ω zn, ∃ lam, predict la .linearPredictor
        (maternOther p 0 param (Matrix.of fun (i : Fin (q + n)) => x (i + 1)) (Matrix.of fun _ : Fin 1 => x 0)
          (Matrix.of fun i b => phi b (x (i + 1))) (Matrix.of fun _ b => phi b (x 0)))
        (obsOf (fun i => W i ω) (q + n)) zn = .ok (fun _ => mean n ω, fun _ => var n, lam)) ∧
      Tendsto var atTop (𝓝 0) ∧ ∀ᵐ ω ∂μ, Tendsto (fun n => mean n ω) atTop (𝓝 (W 0 ω)) := by
  set k : ℕ → ℕ → ℝ := fun i j => Real.exp (param 0) * maternFormula p (scaledDistance (fun j => param j.succ) (x i) (x j)) with hkd
  have hS : ∀ n, (firstCov k n).PosSemidef := fun n => by
    have := (Kernel.matern_posSemidef p (fun j => param j.succ) fun i : Fin n => x i).smul (Real.exp_pos (param 0)).le
    exact this
  have hk : ∀ n, (firstCov (fun i j => k (i + 1) (j + 1)) n).PosDef := fun n => by
    have := (Kernel.matern_posDef p (fun j => param j.succ) (fun i : Fin n => x (i + 1)) fun i j h => Fin.ext (hx h)).smul
      (Real.exp_pos (param 0))
    exact this
  obtain ⟨mean, var, h2, -, -, -, h8⟩ := linear_predictions_converge hla hS hk (p := fun i b => phi b (x i)) hrank beta hW hlaw
  have hz : maternFormula p 0 = 1 := (Kernel.maternFormula_shape_props p).1
  have hself : ∀ i, k i i = Real.exp (param 0) := fun i => by
    simp only [hkd, Kernel.scaledDistance_self, hz, mul_one]
  obtain ⟨h9, h10⟩ := h8 fun e he => by
    have hf : Continuous fun y : Fin d → ℝ => 2 * (Real.exp (param 0) -
        Real.exp (param 0) * maternFormula p (scaledDistance (fun j => param j.succ) y (x 0))) := by
      simp only [Kernel.scaledDistance_comm _ _ (x 0)]
      exact continuous_const.mul (continuous_const.sub (continuous_const.mul
        ((Kernel.maternFormula_continuous p).comp (Kernel.scaledDistance_continuous _ _))))
    have h1 := (hf.tendsto (x 0)).eventually_lt_const (u := e) (by simp [Kernel.scaledDistance_self, hz, he])
    have h2 : ∀ᶠ y in 𝓝 (x 0), ∀ b, |phi b (x 0) - phi b y| < e := eventually_all.mpr fun b => by
      have := Metric.eventually_nhds_iff.mp ((Metric.tendsto_nhds.mp (hphi b)) e he)
      obtain ⟨r, hr, h⟩ := this
      refine Metric.eventually_nhds_iff.mpr ⟨r, hr, fun y hy => ?_⟩
      rw [abs_sub_comm, ← Real.dist_eq]
      exact h hy
    obtain ⟨r, hr, hb⟩ := Metric.eventually_nhds_iff.mp (h1.and h2)
    obtain ⟨i, hi⟩ := hclose r hr
    have h := hb (y := x (i + 1)) ((dist_pi_lt_iff hr).mpr fun j => by rw [Real.dist_eq]; exact hi j)
    refine ⟨{i}, fun _ => 1, ?_, fun b => ?_⟩
    · simp only [Finset.sum_singleton, one_mul]
      have := h.1
      rw [hself, hself]
      simp only [hkd]
      linarith
    · simp only [Finset.sum_singleton, one_mul]
      exact h.2 b
  refine ⟨mean, var, fun n ω zn => ?_, h9, h10⟩
  obtain ⟨lam, hl⟩ := h2 n ω zn
  refine ⟨lam, Eq.trans ?_ hl⟩
  have e : maternOther p 0 param (Matrix.of fun (i : Fin (q + n)) => x (i + 1)) (Matrix.of fun _ : Fin 1 => x 0)
      (Matrix.of fun i b => phi b (x (i + 1))) (Matrix.of fun _ b => phi b (x 0)) = targetArraysMean k (fun i b => phi b (x i)) (q + n) := by
    unfold maternOther targetArraysMean
    congr 1
    · ext i j
      simp only [Kernel.cov, Kernel.covII, firstCov, hkd, mul_zero, zero_mul, add_zero, of_apply]
      rfl
    · funext t
      rw [hself]
      simp [Kernel.covPairwise, Kernel.covIIPairwise]
    · ext i j
      rw [of_apply, hself]
      simp only [Kernel.cov, Kernel.covII, mul_zero, zero_mul, add_zero, of_apply]
      exact (hself 0)
  rw [e]

/-- **C288** With a nugget and a linear predictor too, when infinitely many observation points (repetitions count) are in every neighbourhood of
the target: the noise is averaged out. -/
theorem matern_noisy_linear_predictions_converge {d : ℕ} (hla : la.Contract be) (p : ℕ) {eps : ℝ} (heps : 0 < eps)
    (param : Fin (d + 1) → ℝ) {x : ℕ → Fin d → ℝ} (hclose : ∀ e > 0, {i | ∀ j, |x (i + 1) j - x 0 j| < e}.Infinite)
    {phi : Fin q → (Fin d → ℝ) → ℝ} (hphi : ∀ b, ContinuousAt (phi b) (x 0))
    (hrank : FullRank (Matrix.of fun (i : Fin q) b => phi b (x (i + 1)))) (beta : Fin q → ℝ)
    {W : ℕ → Ω → ℝ} (hW : ∀ i, Measurable (W i)) (hlaw : ∀ n, μ.map (fun ω => firstOf (fun i => W i ω) n) =
      normalLaw (fun i : Fin n => ∑ b, phi b (x i) * beta b) (Matrix.of fun i j : Fin n => Real.exp (param 0) * maternFormula p (scaledDistance (fun j => param j.succ) (x i) (x j)) +
        if i = j ∧ (i : ℕ) ≠ 0 then 10 * Real.exp (param 0) * eps else 0)) :
    ∃ (mean : ℕ → Ω → ℝ) (var : ℕ → ℝ), (∀ n ω zn, ∃ lam, predict la .linearPredictor
        (maternOther p eps param (Matrix.of fun (i : Fin (q + n)) => x (i + 1)) (Matrix.of fun _ : Fin 1 => x 0)
          (Matrix.of fun i b => phi b (x (i + 1))) (Matrix.of fun _ b => phi b (x 0)))
        (obsOf (fun i => W i ω) (q + n)) zn = .ok (fun _ => mean n ω, fun _ => var n, lam)) ∧
      Tendsto var atTop (𝓝 0) ∧ ∀ᵐ ω ∂μ, Tendsto (fun n => mean n ω) atTop (𝓝 (W 0 ω)) := by
  set rho : ℕ → ℕ → ℝ := fun i j => maternFormula p (scaledDistance (fun j => param j.succ) (x i) (x j)) with hrho
  set s2 := Real.exp (param 0) with hs2
  have hs : 0 < s2 := Real.exp_pos _
  set nu := 10 * s2 * eps with hnu
  have hnu0 : 0 < nu := by positivity
  set k : ℕ → ℕ → ℝ := fun i j => s2 * rho i j + if i = j ∧ i ≠ 0 then nu else 0 with hkd
  have hlaw' : ∀ n, μ.map (fun ω => firstOf (fun i => W i ω) n) = normalLaw (firstOf (fun i => (fun b => phi b (x i)) ⬝ᵥ beta) n) (firstCov k n) := fun n => by
    rw [hlaw n]
    congr 1
    ext i j
    simp only [of_apply, firstCov, hkd, Fin.ext_iff, hrho]
  have hS : ∀ n, (firstCov k n).PosSemidef := fun n => by
    have h1 := (Kernel.matern_posSemidef p (fun j => param j.succ) fun i : Fin n => x i).smul hs.le
    have h2 : (diagonal fun i : Fin n => if (i : ℕ) ≠ 0 then nu else 0).PosSemidef := by
      refine Matrix.PosSemidef.diagonal fun i => ?_
      split_ifs
      · exact hnu0.le
      · exact le_rfl
    have e : firstCov k n = s2 • Kernel.kernelMat p (fun j => param j.succ) (fun i : Fin n => x i) +
        diagonal fun i : Fin n => if (i : ℕ) ≠ 0 then nu else 0 := by
      ext i j
      simp only [firstCov, hkd, of_apply, Matrix.add_apply, Matrix.smul_apply, Kernel.kernelMat, smul_eq_mul, hrho, diagonal_apply,
        Fin.ext_iff]
      congr 1
      by_cases h : (i : ℕ) = j <;> simp [h]
    rw [e]
    exact h1.add h2
  have hk : ∀ n, (firstCov (fun i j => k (i + 1) (j + 1)) n).PosDef := fun n => by
    have := matern_Kii p param (x := Matrix.of fun i : Fin n => x (i + 1)) (Or.inl heps)
    have e : Kernel.cov (maternFormula p) eps param (Matrix.of fun i : Fin n => x (i + 1)) .same =
        firstCov (fun i j => k (i + 1) (j + 1)) n := by
      ext i j
      simp only [Kernel.cov, Kernel.covII, firstCov, hkd, of_apply, Fin.ext_iff, add_left_inj, ne_eq, Nat.add_eq_zero_iff, one_ne_zero,
        and_false, not_false_eq_true, and_true, mul_ite, mul_one, mul_zero]
      rfl
    rw [← e]
    exact this
  obtain ⟨mean, var, h2, -, -, -, h8⟩ :=
    linear_predictions_converge hla hS hk (p := fun i b => phi b (x i)) hrank beta hW hlaw'
  have hz : maternFormula p 0 = 1 := (Kernel.maternFormula_shape_props p).1
  have hself : ∀ i, rho i i = 1 := fun i => by
    simp only [hrho, Kernel.scaledDistance_self, hz]
  have hle1 : ∀ i j, rho i j ≤ 1 := fun i j => by
    rcases (Kernel.scaledDistance_nonneg (fun j => param j.succ) (x i) (x j)).eq_or_lt with h | h
    · simp only [hrho, ← h, hz, le_refl]
    · exact ((Kernel.maternFormula_shape_props p).2.2.2 _ h).le
  obtain ⟨h9, h10⟩ := h8 fun e he => by
    have hf : Continuous fun y : Fin d → ℝ => 2 * (s2 - s2 * maternFormula p (scaledDistance (fun j => param j.succ) y (x 0))) := by
      simp only [Kernel.scaledDistance_comm _ _ (x 0)]
      exact continuous_const.mul (continuous_const.sub (continuous_const.mul
        ((Kernel.maternFormula_continuous p).comp (Kernel.scaledDistance_continuous _ _))))
    have hf1 := (hf.tendsto (x 0)).eventually_lt_const (u := e / 2) (by simp [Kernel.scaledDistance_self, hz, he])
    have hf2 : ∀ᶠ y in 𝓝 (x 0), ∀ b, |phi b (x 0) - phi b y| < e / 2 := eventually_all.mpr fun b => by
      obtain ⟨r, hr, h⟩ := Metric.eventually_nhds_iff.mp ((Metric.tendsto_nhds.mp (hphi b)) (e / 2) (by positivity))
      refine Metric.eventually_nhds_iff.mpr ⟨r, hr, fun y hy => ?_⟩
      rw [abs_sub_comm, ← Real.dist_eq]
      exact h hy
    obtain ⟨r, hr, hb⟩ := Metric.eventually_nhds_iff.mp (hf1.and hf2)
    obtain ⟨N, hN⟩ := exists_nat_gt (nu / (e / 2))
    have hN0 : (0 : ℝ) < N := lt_trans (by positivity) hN
    obtain ⟨F, hF, hcard⟩ := (hclose r hr).exists_subset_card_eq N
    refine ⟨F, fun _ => 1 / N, ?_, fun b => ?_⟩
    swap
    · have h1 : phi b (x 0) - ∑ i ∈ F, 1 / (N : ℝ) * phi b (x (i + 1)) = (∑ i ∈ F, (phi b (x 0) - phi b (x (i + 1)))) / N := by
        rw [Finset.sum_sub_distrib, Finset.sum_const, hcard, nsmul_eq_mul, ← Finset.mul_sum]
        field_simp
      rw [h1, abs_div, abs_of_pos hN0, div_lt_iff₀ hN0]
      refine (Finset.abs_sum_le_sum_abs _ _).trans_lt ?_
      have h2 : ∑ i ∈ F, |phi b (x 0) - phi b (x (i + 1))| ≤ ∑ _i ∈ F, e / 2 := Finset.sum_le_sum fun i hi =>
        ((hb (y := x (i + 1)) ((dist_pi_lt_iff hr).mpr fun j => by rw [Real.dist_eq]; exact hF hi j)).2 b).le
      rw [Finset.sum_const, hcard, nsmul_eq_mul] at h2
      nlinarith
    have hclose' : ∀ i ∈ F, 2 * (s2 - k (i + 1) 0) < e / 2 := fun i hi => by
      have h := (hb (y := x (i + 1)) ((dist_pi_lt_iff hr).mpr fun j => by rw [Real.dist_eq]; exact hF hi j)).1
      simpa [hkd, hrho] using h
    have h0 : k 0 0 = s2 := by simp [hkd, hself]
    have hdouble : ∑ i ∈ F, ∑ j ∈ F, 1 / (N : ℝ) * (1 / N) * k (i + 1) (j + 1) ≤ s2 + nu / N := by
      have h1 : ∀ i ∈ F, ∑ j ∈ F, 1 / (N : ℝ) * (1 / N) * k (i + 1) (j + 1) ≤ 1 / (N : ℝ) * (1 / N) * (N * s2 + nu) := fun i hi => by
        rw [← Finset.mul_sum]
        refine mul_le_mul_of_nonneg_left ?_ (by positivity)
        calc ∑ j ∈ F, k (i + 1) (j + 1) ≤ ∑ j ∈ F, (s2 + if i = j then nu else 0) := by
              refine Finset.sum_le_sum fun j _ => ?_
              simp only [hkd, add_left_inj, ne_eq, Nat.add_eq_zero_iff, one_ne_zero, and_false, not_false_eq_true, and_true]
              have := mul_le_mul_of_nonneg_left (hle1 (i + 1) (j + 1)) hs.le
              linarith
          _ = N * s2 + nu := by
              rw [Finset.sum_add_distrib, Finset.sum_const, hcard, Finset.sum_ite_eq, if_pos hi, nsmul_eq_mul]
      refine (Finset.sum_le_sum h1).trans (le_of_eq ?_)
      rw [Finset.sum_const, hcard, nsmul_eq_mul]
      field_simp
    have hsingle : s2 - e / 4 ≤ ∑ i ∈ F, 1 / (N : ℝ) * k (i + 1) 0 := by
      rw [← Finset.mul_sum]
      have h1 : ∑ _i ∈ F, (s2 - e / 4) ≤ ∑ i ∈ F, k (i + 1) 0 := Finset.sum_le_sum fun i hi => by
        have := hclose' i hi
        linarith
      rw [Finset.sum_const, hcard, nsmul_eq_mul] at h1
      rw [one_div_mul_eq_div, le_div_iff₀ hN0]
      linarith
    have hlast : nu / N < e / 2 := by
      rw [div_lt_iff₀ hN0]
      rw [div_lt_iff₀ (by positivity)] at hN
      linarith
    rw [h0]
    linarith
  refine ⟨mean, var, fun n ω zn => ?_, h9, h10⟩
  obtain ⟨lam, hl⟩ := h2 n ω zn
  set A := maternOther p eps param (Matrix.of fun (i : Fin (q + n)) => x (i + 1)) (Matrix.of fun _ : Fin 1 => x 0)
    (Matrix.of fun i b => phi b (x (i + 1))) (Matrix.of fun _ b => phi b (x 0)) with hA
  set T := targetArraysMean k (fun i b => phi b (x i)) (q + n) with hT
  have e1 : A.Kii = T.Kii := by
    ext i j
    simp only [hA, hT, maternOther, targetArraysMean, Kernel.cov, Kernel.covII, firstCov, hkd, of_apply, Fin.ext_iff, add_left_inj,
      ne_eq, Nat.add_eq_zero_iff, one_ne_zero, and_false, not_false_eq_true, and_true, mul_ite, mul_one, mul_zero]
    rfl
  have e2 : A.Kit = T.Kit := by
    ext i j
    have h0 : ¬ ((i : ℕ) + 1 = 0 ∧ (i : ℕ) + 1 ≠ 0) := by omega
    simp only [hA, hT, maternOther, targetArraysMean, Kernel.covIT, hkd, hrho, of_apply, if_neg h0, add_zero]
    rfl
  have e3 : A.vt = T.vt := by
    funext t
    simp [hA, hT, maternOther, targetArraysMean, Kernel.covPairwise, Kernel.covIIPairwise, hkd, hself, hs2]
  have hP : FullRank T.Pi := fun b hb => hrank b (by
    funext i
    exact congrFun hb (Fin.castAdd n i))
  have hK : CPD T.Kii T.Pi := CPD.of_posDef (hk _) _
  have hPA : A.Pi = T.Pi := rfl
  have hu := (Matrix.isUnit_iff_isUnit_det _).mp (ukLHS_unit T hK hP)
  obtain ⟨X, hX, h1⟩ := predict_linear hla A (by rw [e1, hPA]; exact hK) (by rw [hPA]; exact hP) (obsOf (fun i => W i ω) (q + n)) zn
  obtain ⟨X', hX', h1'⟩ := predict_linear hla T hK hP (obsOf (fun i => W i ω) (q + n)) zn
  have eL : ukLHS A = ukLHS T := by
    simp only [ukLHS, e1]
    rfl
  have eR : ukRHS A = ukRHS T := by
    simp only [ukRHS, e2]
    rfl
  have hXX : X = X' := by
    rw [eL, eR] at hX
    have := congrArg (fun Y => (ukLHS T)⁻¹ * Y) (hX.trans hX'.symm)
    simpa only [← Matrix.mul_assoc, Matrix.nonsing_inv_mul _ hu, Matrix.one_mul] using this
  refine ⟨lam, Eq.trans ?_ hl⟩
  rw [h1, h1', hXX, e3, eR]

/-- A process of regularity 3/2 with trend `5 - 3 x` observed at `1, 1/2, 1/3, …`, to be predicted at zero by affine
prediction. -/
example (hla : la.Contract be) : ∃ (P : Measure (ℕ → ℝ)) (W mean : ℕ → (ℕ → ℝ) → ℝ) (var : ℕ → ℝ), IsProbabilityMeasure P ∧
    (∀ n, P.map (fun ω => firstOf (fun i => W i ω) n) = normalLaw (fun i : Fin n => 5 - 3 * (i : ℝ)⁻¹) (Matrix.of fun i j : Fin n =>
      Real.exp 0 * maternFormula 1 (scaledDistance (fun _ : Fin 1 => 0) (fun _ => (i : ℝ)⁻¹) fun _ => (j : ℝ)⁻¹))) ∧
    (∀ n ω zn, ∃ lam, predict la .linearPredictor (maternOther 1 0 (0 : Fin 2 → ℝ)
      (Matrix.of fun (i : Fin (2 + n)) _ => ((i + 1 : ℕ) : ℝ)⁻¹) (Matrix.of fun (_ : Fin 1) _ => 0)
      (Matrix.of fun i b => ![1, ((i + 1 : ℕ) : ℝ)⁻¹] b) (Matrix.of fun _ b => ![1, 0] b)) (obsOf (fun i => W i ω) (2 + n)) zn =
        .ok (fun _ => mean n ω, fun _ => var n, lam)) ∧
    ∀ᵐ ω ∂P, Tendsto (fun n => mean n ω) atTop (𝓝 (W 0 ω)) := by
  set x : ℕ → Fin 1 → ℝ := fun i _ => (i : ℝ)⁻¹ with hx
  have hinj : Function.Injective x := fun i j h => by
    have := congrFun h 0
    simp only [hx, _root_.inv_inj] at this
    exact_mod_cast this
  obtain ⟨P, W, hP, hW, hlaw⟩ := exists_sequence
    (k := fun i j => Real.exp 0 * maternFormula 1 (scaledDistance (fun _ : Fin 1 => 0) (x i) (x j)))
    (fun n => ((Kernel.matern_posDef 1 (fun _ => 0) (fun i : Fin n => x i) fun i j h => Fin.ext (hinj h)).smul
      (Real.exp_pos 0) :)) fun i => 5 - 3 * (i : ℝ)⁻¹
  set phi : Fin 2 → (Fin 1 → ℝ) → ℝ := fun b y => ![1, y 0] b with hphi
  obtain ⟨mean, var, h1, -, h3⟩ := matern_linear_predictions_converge (x := x) (W := W) (μ := P) (phi := phi) hla 1 (0 : Fin 2 → ℝ)
    (fun i j h => by simpa using hinj h) (fun e he => by
      obtain ⟨n, hn⟩ := exists_nat_one_div_lt he
      refine ⟨n, fun j => ?_⟩
      simp only [hx]
      rw [Nat.cast_zero, _root_.inv_zero, sub_zero, abs_of_nonneg (by positivity), ← one_div]
      push_cast
      exact hn) (fun b => by
        fin_cases b
        · exact continuousAt_const
        · exact (continuous_apply 0).continuousAt) (fun b hb => by
        have h0 := congrFun hb 0
        have h1 := congrFun hb 1
        simp [mulVec, dotProduct, Fin.sum_univ_two, hphi, hx] at h0 h1
        funext i
        fin_cases i <;> simp <;> linarith) ![5, -3] hW (fun n => by
        rw [hlaw n]
        congr 1
        funext i
        simp only [Fin.sum_univ_two, hphi, hx, firstOf]
        simp
        ring)
  refine ⟨P, W, mean, var, hP, hlaw, fun n ω zn => ?_, h3⟩
  have := h1 n ω zn
  simp only [hx, hphi, Nat.cast_zero, _root_.inv_zero] at this
  exact this

end Verif.Core
