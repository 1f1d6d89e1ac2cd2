import Verif.Core.PropsLikelihood
import Mathlib.LinearAlgebra.Matrix.SchurComplement

/-!
# C227, C228: predictions, likelihoods and updates are those of one Gaussian law

The likelihood of all observations is the likelihood of some times that of the others given their
predictions; predicting from all observations is predicting in two stages.
-/

set_option autoImplicit false

namespace Verif.Core

open Verif Verif.Data Matrix

variable {n m q r N : ℕ} {be : Backend} {la : LA}

section Schur

variable {ι κ ω : Type} [Fintype ι] [DecidableEq ι] [Fintype κ] [DecidableEq κ]

/-- The quadratic form of the inverse of a symmetric block matrix. -/
theorem schur_quad {A : Matrix ι ι ℝ} {B : Matrix ι κ ℝ} {D : Matrix κ κ ℝ} (hA : IsUnit A) (hs : Aᵀ = A)
    {X : Matrix ι κ ℝ} (hX : A * X = B) (hS : IsUnit (D - Xᵀ * B)) (u : ι → ℝ) (v : κ → ℝ) :
    IsUnit (fromBlocks A B Bᵀ D) ∧
    (fromBlocks A B Bᵀ D).det = A.det * (D - Xᵀ * B).det ∧
    Sum.elim u v ⬝ᵥ ((fromBlocks A B Bᵀ D)⁻¹ *ᵥ Sum.elim u v) =
      u ⬝ᵥ (A⁻¹ *ᵥ u) + (v - Xᵀ *ᵥ u) ⬝ᵥ ((D - Xᵀ * B)⁻¹ *ᵥ (v - Xᵀ *ᵥ u)) := by
  have hAd := (Matrix.isUnit_iff_isUnit_det A).mp hA
  have hSd := (Matrix.isUnit_iff_isUnit_det _).mp hS
  have hXe : X = A⁻¹ * B := by rw [← hX, ← Matrix.mul_assoc, Matrix.nonsing_inv_mul _ hAd, Matrix.one_mul]
  have hXt : Xᵀ = Bᵀ * A⁻¹ := by rw [hXe, transpose_mul, transpose_nonsing_inv, hs]
  have hXB : Xᵀ * B = Bᵀ * X := by rw [hXt, hXe, Matrix.mul_assoc]
  have hdet : (fromBlocks A B Bᵀ D).det = A.det * (D - Xᵀ * B).det := by
    haveI := Matrix.invertibleOfIsUnitDet A hAd
    rw [Matrix.det_fromBlocks₁₁, invOf_eq_nonsing_inv, hXt]
  have hM : IsUnit (fromBlocks A B Bᵀ D) := by
    rw [Matrix.isUnit_iff_isUnit_det, hdet]; exact hAd.mul hSd
  refine ⟨hM, hdet, ?_⟩
  set S := D - Xᵀ * B with hSdef
  set w := S⁻¹ *ᵥ (v - Xᵀ *ᵥ u) with hw
  have hSw : S *ᵥ w = v - Xᵀ *ᵥ u := by
    rw [hw, mulVec_mulVec, Matrix.mul_nonsing_inv _ hSd, one_mulVec]
  have hx : fromBlocks A B Bᵀ D *ᵥ Sum.elim (A⁻¹ *ᵥ u - X *ᵥ w) w = Sum.elim u v := by
    rw [fromBlocks_mulVec]
    simp only [Sum.elim_comp_inl, Sum.elim_comp_inr]
    congr 1
    · rw [mulVec_sub, mulVec_mulVec, Matrix.mul_nonsing_inv _ hAd, one_mulVec, mulVec_mulVec, hX, sub_add_cancel]
    · rw [mulVec_sub, mulVec_mulVec, mulVec_mulVec, ← hXt, ← hXB]
      have : D *ᵥ w = S *ᵥ w + (Xᵀ * B) *ᵥ w := by rw [hSdef, sub_mulVec, sub_add_cancel]
      rw [this, hSw]
      abel
  have hinv : (fromBlocks A B Bᵀ D)⁻¹ *ᵥ Sum.elim u v = Sum.elim (A⁻¹ *ᵥ u - X *ᵥ w) w := by
    rw [← hx, mulVec_mulVec, Matrix.nonsing_inv_mul _ ((Matrix.isUnit_iff_isUnit_det _).mp hM), one_mulVec]
  rw [hinv]
  have : Sum.elim u v ⬝ᵥ Sum.elim (A⁻¹ *ᵥ u - X *ᵥ w) w = u ⬝ᵥ (A⁻¹ *ᵥ u - X *ᵥ w) + v ⬝ᵥ w := by
    simp [dotProduct, Fintype.sum_sum_type]
  rw [this, dotProduct_sub, dot_mulVec_transpose X, sub_dotProduct]
  ring

/-- The inverse of a reindexed matrix. -/
theorem reindex_quad (e : ι ≃ κ) (M : Matrix κ κ ℝ) (z : κ → ℝ) :
    (M.submatrix e e).det = M.det ∧ z ⬝ᵥ (M⁻¹ *ᵥ z) = (z ∘ e) ⬝ᵥ ((M.submatrix e e)⁻¹ *ᵥ (z ∘ e)) := by
  refine ⟨det_submatrix_equiv_self e M, ?_⟩
  rw [Matrix.inv_submatrix_equiv]
  rw [submatrix_mulVec_equiv]
  simp only [dotProduct, Function.comp_apply]
  rw [← e.sum_comp]
  simp [Function.comp_def]

end Schur

/-- All points, observations and targets, in the order of `e`: their covariance and mean functions. -/
structure Joined (e : Fin n ⊕ Fin m ≃ Fin N) (a : Arrays n m q) (K : Mat N N) (P : Mat N q) : Prop where
  cov : K.submatrix e e = fromBlocks a.Kii a.Kit a.Kitᵀ a.Ktt
  mean : P.submatrix e id = fromRows a.Pi a.Pt
  var : ∀ t, a.vt t = a.Ktt t t

variable {e : Fin n ⊕ Fin m ≃ Fin N} {a : Arrays n m q} {K : Mat N N} {P : Mat N q}

theorem Joined.blocks (h : Joined e a K P) (hK : K.PosDef) :
    (fromBlocks a.Kii a.Kit a.Kitᵀ a.Ktt).PosDef := by
  rw [← h.cov]
  exact hK.submatrix e.injective

theorem posDef_toBlocks {ι κ : Type} [Fintype ι] [Fintype κ] {A : Matrix ι ι ℝ} {B : Matrix ι κ ℝ} {C : Matrix κ ι ℝ}
    {D : Matrix κ κ ℝ} (h : (fromBlocks A B C D).PosDef) : A.PosDef := by
  exact h.submatrix (Sum.inl_injective (α := ι) (β := κ))

theorem Joined.posDef (h : Joined e a K P) (hK : K.PosDef) : a.Kii.PosDef := posDef_toBlocks (h.blocks hK)

/-- The posterior covariance matrix of `kriging_predictor_with_zero_mean` is positive definite. -/
theorem Joined.posDef_post (h : Joined e a K P) (hK : K.PosDef) :
    (a.Ktt - (a.Kii⁻¹ * a.Kit)ᵀ * a.Kit).PosDef := by
  have hM := h.blocks hK
  have hA := h.posDef hK
  have hsym := PosDef.symm hA
  have hAd := PosDef.det_unit hA
  have hM' := PosDef.symm hM
  rw [fromBlocks_transpose, transpose_transpose] at hM'
  have hD : a.Kttᵀ = a.Ktt := (fromBlocks_inj.mp hM').2.2.2
  apply posDef_of_quad
  · rw [transpose_sub, hD, transpose_mul, transpose_transpose, transpose_mul, transpose_nonsing_inv, hsym,
      Matrix.mul_assoc]
  · intro x hx
    have h1 := PosDef.quad_pos hM (x := Sum.elim (-((a.Kii⁻¹ * a.Kit) *ᵥ x)) x) (by
      intro h0
      apply hx
      ext i
      exact congrFun h0 (Sum.inr i))
    rw [fromBlocks_mulVec] at h1
    simp only [Sum.elim_comp_inl, Sum.elim_comp_inr] at h1
    have h2 : a.Kii *ᵥ (-((a.Kii⁻¹ * a.Kit) *ᵥ x)) + a.Kit *ᵥ x = 0 := by
      rw [mulVec_neg, mulVec_mulVec, ← Matrix.mul_assoc, Matrix.mul_nonsing_inv _ hAd, Matrix.one_mul, neg_add_cancel]
    rw [h2] at h1
    have h3 : a.Kitᵀ *ᵥ (-((a.Kii⁻¹ * a.Kit) *ᵥ x)) + a.Ktt *ᵥ x = (a.Ktt - (a.Kii⁻¹ * a.Kit)ᵀ * a.Kit) *ᵥ x := by
      rw [sub_mulVec, mulVec_neg, mulVec_mulVec, transpose_mul, transpose_nonsing_inv, hsym, Matrix.mul_assoc]
      abel
    rw [h3] at h1
    simpa [dotProduct, Fintype.sum_sum_type] using h1

/-- **C227** The density of all observations is the density of some times that of the others given
their predictions. -/
theorem gaussDensity_chain (h : Joined e a K P) (hK : K.PosDef) (mu z : Fin N → ℝ) :
    gaussDensity K mu z = gaussDensity a.Kii (fun i => mu (e (.inl i))) (fun i => z (e (.inl i))) *
      gaussDensity (a.Ktt - (a.Kii⁻¹ * a.Kit)ᵀ * a.Kit)
        (fun t => ∑ i, (a.Kii⁻¹ * a.Kit) i t * (z (e (.inl i)) - mu (e (.inl i))) + mu (e (.inr t)))
        (fun t => z (e (.inr t))) := by
  have hA := h.posDef hK
  have hV := h.posDef_post hK
  have hAu := (Matrix.isUnit_iff_isUnit_det _).mpr (PosDef.det_unit hA)
  have hVu := (Matrix.isUnit_iff_isUnit_det _).mpr (PosDef.det_unit hV)
  have hX : a.Kii * (a.Kii⁻¹ * a.Kit) = a.Kit := by
    rw [← Matrix.mul_assoc, Matrix.mul_nonsing_inv _ (PosDef.det_unit hA), Matrix.one_mul]
  obtain ⟨-, hd, hq⟩ := schur_quad hAu (PosDef.symm hA) hX hVu
    (fun i => z (e (.inl i)) - mu (e (.inl i))) (fun t => z (e (.inr t)) - mu (e (.inr t)))
  obtain ⟨r1, r2⟩ := reindex_quad e K (z - mu)
  rw [h.cov] at r1 r2
  have hsplit : (z - mu) ∘ e = Sum.elim (fun i => z (e (.inl i)) - mu (e (.inl i)))
      (fun t => z (e (.inr t)) - mu (e (.inr t))) := by
    funext x; cases x <;> rfl
  have hN : N = n + m := by
    have := Fintype.card_congr e
    simpa using this.symm
  rw [hsplit, hq] at r2
  have hv : (fun t => z (e (.inr t)) - mu (e (.inr t))) - (a.Kii⁻¹ * a.Kit)ᵀ *ᵥ (fun i => z (e (.inl i)) - mu (e (.inl i))) =
      (fun t => z (e (.inr t))) - (fun t => ∑ i, (a.Kii⁻¹ * a.Kit) i t * (z (e (.inl i)) - mu (e (.inl i))) + mu (e (.inr t))) := by
    funext t
    simp only [Pi.sub_apply, mulVec, dotProduct, transpose_apply]
    ring
  rw [hv] at r2
  have h1 := hA.det_pos
  have h2 := hV.det_pos
  have h3 := Real.pi_pos
  unfold gaussDensity
  have hpow : (2 * Real.pi) ^ N = (2 * Real.pi) ^ n * (2 * Real.pi) ^ m := by rw [← pow_add, ← hN]
  rw [r2, ← r1, hd, hpow]
  have hs : Real.sqrt ((2 * Real.pi) ^ n * (2 * Real.pi) ^ m * (a.Kii.det * (a.Ktt - (a.Kii⁻¹ * a.Kit)ᵀ * a.Kit).det)) =
      Real.sqrt ((2 * Real.pi) ^ n * a.Kii.det) * Real.sqrt ((2 * Real.pi) ^ m * (a.Ktt - (a.Kii⁻¹ * a.Kit)ᵀ * a.Kit).det) := by
    rw [← Real.sqrt_mul (by positivity)]
    congr 1; ring
  rw [hs, mul_inv, mul_add, Real.exp_add]
  have hf : (fun i => z (e (.inl i)) - mu (e (.inl i))) = (fun i => z (e (.inl i))) - (fun i => mu (e (.inl i))) := rfl
  rw [hf]
  ring

/-- **C227** The negative log-likelihood of all observations is that of some plus that of the others
under their predictions: mean and covariance matrix (`return_type=1`) of
`kriging_predictor_with_zero_mean`. -/
theorem nll_chain (hla : la.Contract be) (h : Joined e a K P) (hK : K.PosDef) (mu z : Fin N → ℝ) :
    ∃ lam V x y, krigingZeroMean la a 1 = .ok (lam, .cov V) ∧
      nll be la a.Kii (fun i => mu (e (.inl i))) (fun i => z (e (.inl i))) = .ok (.finite x) ∧
      nll be la V (fun t => ∑ i, lam i t * (z (e (.inl i)) - mu (e (.inl i))) + mu (e (.inr t)))
        (fun t => z (e (.inr t))) = .ok (.finite y) ∧
      nll be la K mu z = .ok (.finite (x + y)) := by
  have hA := h.posDef hK
  have hV := h.posDef_post hK
  refine ⟨_, _, _, _, (krigingZeroMean_ok hla a hA).2.1, (nll_eq hla.toSound hA _ _).1,
    (nll_eq hla.toSound hV _ _).1, ?_⟩
  rw [(nll_eq hla.toSound hK mu z).1, gaussDensity_chain h hK mu z,
    Real.log_mul (gaussDensity_pos hA _ _).ne' (gaussDensity_pos hV _ _).ne']
  congr 2
  ring

/-! ## One new observation and `predict` -/

theorem neg_log_gaussDensity_one {V : Mat 1 1} (hv : 0 < V 0 0) (mu z : Fin 1 → ℝ) :
    -Real.log (gaussDensity V mu z) = 1 / 2 * (Real.log (2 * Real.pi * V 0 0) + (z 0 - mu 0) ^ 2 / V 0 0) := by
  have hd : V.det = V 0 0 := det_fin_one V
  have hi : V⁻¹ 0 0 = (V 0 0)⁻¹ := by
    rw [Matrix.inv_def, hd, Ring.inverse_eq_inv', Matrix.smul_apply, adjugate_fin_one, smul_eq_mul, one_apply_eq, mul_one]
  have hp : (0 : ℝ) < 2 * Real.pi * V 0 0 := by have := Real.pi_pos; positivity
  unfold gaussDensity
  rw [Real.log_mul (by rw [hd, pow_one]; positivity) (Real.exp_pos _).ne', Real.log_exp, Real.log_inv, hd, pow_one,
    Real.log_sqrt hp.le]
  simp only [dotProduct, mulVec, Fin.sum_univ_one, Pi.sub_apply, hi]
  field_simp
  ring

/-- **C227** With one more observation the negative log-likelihood grows by minus the logarithm of the
normal density given by `Model.predict` (zero mean, and given mean). -/
theorem predict_chain {r : ℕ} (hla : la.Contract be) {e : Fin (q + r) ⊕ Fin 1 ≃ Fin N} {a : Arrays (q + r) 1 q}
    {P : Mat N q} (h : Joined e a K P) (hK : K.PosDef) (mu z : Fin N → ℝ) (zn : Bool) :
    ∃ mean var lam x, predict la (.parameterized (fun i => mu (e (.inl i))) (fun t => mu (e (.inr t)))) a
        (fun i => z (e (.inl i))) zn = .ok (mean, var, lam) ∧ 0 < var 0 ∧
      nll be la a.Kii (fun i => mu (e (.inl i))) (fun i => z (e (.inl i))) = .ok (.finite x) ∧
      nll be la K mu z = .ok (.finite (x +
        1 / 2 * (Real.log (2 * Real.pi * var 0) + (z (e (.inr 0)) - mean 0) ^ 2 / var 0))) ∧
      (mu = 0 → predict la .zero a (fun i => z (e (.inl i))) zn = .ok (mean, var, lam)) := by
  have hA := h.posDef hK
  have hV := h.posDef_post hK
  have hv : 0 < (a.Ktt - (a.Kii⁻¹ * a.Kit)ᵀ * a.Kit) 0 0 := hV.diag_pos
  have hvt : a.vt 0 - ∑ i, (a.Kii⁻¹ * a.Kit) i 0 * a.Kit i 0 = (a.Ktt - (a.Kii⁻¹ * a.Kit)ᵀ * a.Kit) 0 0 := by
    rw [h.var, Matrix.sub_apply, Matrix.mul_apply]; rfl
  refine ⟨_, _, _, _, predict_param hla a hA _ _ _ zn, ?_, (nll_eq hla.toSound hA _ _).1, ?_, ?_⟩
  · cases zn
    · simpa [hvt] using hv
    · simpa [hvt] using hv
  · rw [(nll_eq hla.toSound hK mu z).1, gaussDensity_chain h hK mu z,
      Real.log_mul (gaussDensity_pos hA _ _).ne' (gaussDensity_pos hV _ _).ne', neg_add,
      neg_log_gaussDensity_one hv]
    have hmax : (if zn then fun t => max (a.vt t - ∑ i, (a.Kii⁻¹ * a.Kit) i t * a.Kit i t) 0
        else fun t => a.vt t - ∑ i, (a.Kii⁻¹ * a.Kit) i t * a.Kit i t) 0 = (a.Ktt - (a.Kii⁻¹ * a.Kit)ᵀ * a.Kit) 0 0 := by
      cases zn
      · simpa using hvt
      · simp only [if_true, hvt]
        exact max_eq_left hv.le
    simp only [hmax]
    rfl
  · intro h0
    rw [predict_zero hla a hA]
    subst h0
    simp

/-! ## The sequence of predictions -/

/-- The covariance matrix of the first points of a sequence. -/
def firstCov (k : ℕ → ℕ → ℝ) (n : ℕ) : Mat n n := Matrix.of fun i j => k i j

/-- The arrays for predicting the next observation from the first `n`; there are no mean functions, the
numbers of rows are written `n + 0`. -/
def nextArrays (k : ℕ → ℕ → ℝ) (n : ℕ) : Arrays (n + 0) 1 n where
  Kii := firstCov k n
  Kit := Matrix.of fun i _ => k i n
  vt := fun _ => k n n
  Ktt := Matrix.of fun _ _ => k n n
  Pi := 0
  Pt := 0

theorem nextArrays_joined {k : ℕ → ℕ → ℝ} (hk : ∀ i j, k i j = k j i) (n : ℕ) :
    Joined finSumFinEquiv (nextArrays k n) (firstCov k (n + 1)) 0 where
  cov := by
    ext x y
    rcases x with x | x <;> rcases y with y | y <;>
      simp [firstCov, nextArrays, fromBlocks, hk n]
  mean := by
    ext x y
    rcases x with x | x <;> rfl
  var := fun _ => rfl

/-- **C227** The negative log-likelihood is the sum of minus the log-densities of each observation
under the prediction from those before. -/
theorem nll_prequential (hla : la.Contract be) {k : ℕ → ℕ → ℝ} (hk : ∀ n, (firstCov k n).PosDef) (z : ℕ → ℝ) :
    ∃ mean var : ℕ → ℝ,
      (∀ n, ∃ lam, predict la .zero (nextArrays k n) (fun i => z i) true = .ok (fun _ => mean n, fun _ => var n, lam)) ∧
      (∀ n, 0 < var n) ∧
      ∀ n, nllZeroMean be la (firstCov k n) (fun i => z i) = .ok (.finite
        (∑ i ∈ Finset.range n, 1 / 2 * (Real.log (2 * Real.pi * var i) + (z i - mean i) ^ 2 / var i))) := by
  have hsym : ∀ i j, k i j = k j i := by
    intro i j
    have := PosDef.symm (hk (max i j + 1))
    have h2 := congrFun (congrFun this ⟨j, by omega⟩) ⟨i, by omega⟩
    simpa [firstCov] using h2
  have hstep := fun n => predict_chain (N := n + 1) hla (nextArrays_joined hsym n) (hk (n + 1)) 0 (fun i => z i) true
  choose mean var lam x h1 h2 h3 h4 h5 using hstep
  refine ⟨fun n => mean n 0, fun n => var n 0, fun n => ⟨lam n, ?_⟩, h2, ?_⟩
  · have hm : (fun _ : Fin 1 => mean n 0) = mean n := by funext t; rw [Subsingleton.elim t 0]
    have hv : (fun _ : Fin 1 => var n 0) = var n := by funext t; rw [Subsingleton.elim t 0]
    rw [hm, hv]
    exact h5 n rfl
  · intro n
    induction n with
    | zero =>
      rw [(nll_eq hla.toSound (hk 0) 0 _).2]
      simp [gaussDensity]
    | succ n ih =>
      rw [Finset.sum_range_succ]
      have e1 : nll be la (firstCov k (n + 1)) 0 (fun i => z i) = nllZeroMean be la (firstCov k (n + 1)) (fun i => z i) := by
        simp [nll]
      rw [← e1, h4 n]
      have e2 := h3 n
      have e3 : nll be la (nextArrays k n).Kii (fun i => (0 : Fin (n + 1) → ℝ) (finSumFinEquiv (.inl i)))
          (fun i => z ((finSumFinEquiv (.inl i) : Fin (n + 1)) : ℕ)) = nllZeroMean be la (firstCov k n) (fun i => z i) := by
        have : (fun i : Fin n => (0 : Fin (n + 1) → ℝ) (finSumFinEquiv (.inl i))) = 0 := rfl
        simp only [nll]
        erw [this, sub_zero]
        rfl
      erw [e3, ih] at e2
      have e4 := Crit.finite.inj (Except.ok.inj e2)
      rw [e4]
      simp

/-! ## A case -/

/-- Unit noise and a common random level. -/
def exK (i j : ℕ) : ℝ := if i = j then 2 else 1

theorem exK_posDef (n : ℕ) : (firstCov exK n).PosDef := by
  have hm : ∀ x : Fin n → ℝ, firstCov exK n *ᵥ x = fun i => x i + ∑ j, x j := by
    intro x
    funext i
    have : ∀ j : Fin n, exK i j * x j = (if i = j then x j else 0) + x j := by
      intro j
      by_cases h : i = j
      · subst h; simp [exK]; ring
      · have : (i : ℕ) ≠ j := fun h' => h (Fin.ext h')
        simp [exK, h, this]
    simp only [mulVec, dotProduct, firstCov, of_apply, this, Finset.sum_add_distrib]
    simp
  apply posDef_of_quad
  · ext i j
    simp [firstCov, exK, eq_comm]
  · intro x hx
    rw [hm]
    have e1 : x ⬝ᵥ (fun i => x i + ∑ j, x j) = ∑ i, x i ^ 2 + (∑ j, x j) ^ 2 := by
      simp only [dotProduct, mul_add, Finset.sum_add_distrib, ← Finset.sum_mul]
      congr 1
      · exact Finset.sum_congr rfl fun i _ => by ring
      · ring
    rw [e1]
    obtain ⟨i, hi⟩ := Function.ne_iff.mp hx
    have h2 : 0 < ∑ i, x i ^ 2 := Finset.sum_pos' (fun i _ => sq_nonneg _) ⟨i, Finset.mem_univ _, by
      have : x i ≠ 0 := hi
      positivity⟩
    positivity

/-- Three observations in turn. -/
example : ∃ mean var : ℕ → ℝ, (∀ n, 0 < var n) ∧
    nllZeroMean .numpy (exactLA .numpy) (firstCov exK 3) (fun i => (i : ℕ)) = .ok (.finite
      (∑ i ∈ Finset.range 3, 1 / 2 * (Real.log (2 * Real.pi * var i) + ((i : ℝ) - mean i) ^ 2 / var i))) := by
  obtain ⟨mean, var, -, h1, h2⟩ := nll_prequential (be := .numpy) (exactLA_contract .numpy) exK_posDef (fun i => (i : ℝ))
  exact ⟨mean, var, h1, h2 3⟩

/-- The arrays of a covariance and a mean function on numbered points. -/
def pointArrays (k : ℕ → ℕ → ℝ) (g : ℕ → ℝ) (xi : Fin n → ℕ) (xt : Fin m → ℕ) : Arrays n m 1 where
  Kii := Matrix.of fun i j => k (xi i) (xi j)
  Kit := Matrix.of fun i j => k (xi i) (xt j)
  vt := fun t => k (xt t) (xt t)
  Ktt := Matrix.of fun i j => k (xt i) (xt j)
  Pi := Matrix.of fun i _ => g (xi i)
  Pt := Matrix.of fun i _ => g (xt i)

/-- The hypotheses of the chain rules hold for four points, two of them observed. -/
theorem ex_joined : Joined (finSumFinEquiv : Fin 2 ⊕ Fin 2 ≃ Fin 4)
    (pointArrays exK (fun _ => 1) (fun i => i) (fun t => 2 + t)) (firstCov exK 4) (Matrix.of fun _ _ => 1) where
  cov := by
    ext x y
    rcases x with x | x <;> rcases y with y | y <;> fin_cases x <;> fin_cases y <;>
      simp [firstCov, pointArrays, exK, finSumFinEquiv]
  mean := by
    ext x y
    rcases x with x | x <;> rfl
  var := fun _ => rfl

example : ∃ x, nll .torch (exactLA .torch) (firstCov exK 4) 0 (fun i => (i : ℕ)) = .ok (.finite x) := by
  obtain ⟨_, _, x, y, -, -, -, h⟩ := nll_chain (be := .torch) (exactLA_contract .torch) ex_joined (exK_posDef 4) 0
    (fun i => (i : ℕ))
  exact ⟨x + y, h⟩

end Verif.Core
