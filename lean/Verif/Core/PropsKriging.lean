import Verif.Core.Contract
import Verif.Core.Spec

/-!
# C26, C27, C35: optimality of the kriging predictors
-/

set_option autoImplicit false

namespace Verif.Core

open Verif Verif.Data Matrix

variable {ι κ : Type} [Fintype ι] [Fintype κ] [DecidableEq ι] [DecidableEq κ]

/-! ## Quadratic-form algebra -/

theorem mse_diff {K : Matrix ι ι ℝ} (hs : Kᵀ = K) (k : ι → ℝ) (v : ℝ) (l w : ι → ℝ) :
    mse K k v w = mse K k v l + (w - l) ⬝ᵥ (K *ᵥ (w - l)) + 2 * ((w - l) ⬝ᵥ (K *ᵥ l - k)) := by
  unfold mse
  simp only [mulVec_sub, dotProduct_sub, sub_dotProduct]
  have h1 := dot_mulVec_comm hs l w
  rw [h1]
  ring

/-- Zero-mean kriging weights minimise the mean-square error, uniquely. -/
theorem mse_zero_mean {K : Matrix ι ι ℝ} (hK : K.PosDef) {k : ι → ℝ} {v : ℝ} {l : ι → ℝ}
    (hl : K *ᵥ l = k) (w : ι → ℝ) :
    mse K k v l ≤ mse K k v w ∧ (mse K k v w = mse K k v l ↔ w = l) := by
  have h := mse_diff (PosDef.symm hK) k v l w
  rw [hl, sub_self, dotProduct_zero, mul_zero, add_zero] at h
  refine ⟨?_, ?_, ?_⟩
  · have := PosSemidef.quad_nonneg hK.posSemidef (w - l)
    linarith
  · intro he
    by_contra hne
    have := PosDef.quad_pos hK (sub_ne_zero.mpr hne)
    linarith
  · rintro rfl; rfl

/-- Universal kriging weights minimise the mean-square error among the unbiased. -/
theorem mse_universal {n q : ℕ} {K : Mat n n} {P : Mat n q} (hK : CPD K P) {k : Fin n → ℝ} {v : ℝ}
    {l : Fin n → ℝ} {mu p : Fin q → ℝ} (h1 : K *ᵥ l + P *ᵥ mu = k) (h2 : Pᵀ *ᵥ l = p)
    (w : Fin n → ℝ) (hw : Pᵀ *ᵥ w = p) :
    mse K k v l ≤ mse K k v w ∧ (mse K k v w = mse K k v l ↔ w = l) := by
  have hd : Pᵀ *ᵥ (w - l) = 0 := by rw [mulVec_sub, hw, h2, sub_self]
  have h := mse_diff hK.symm k v l w
  have h3 : K *ᵥ l - k = -(P *ᵥ mu) := by rw [← h1]; abel
  rw [h3, dotProduct_neg, dot_mulVec_transpose P, hd, zero_dotProduct, neg_zero, mul_zero,
    add_zero] at h
  refine ⟨?_, ?_, ?_⟩
  · rcases eq_or_ne (w - l) 0 with h0 | h0
    · rw [h0, zero_dotProduct, add_zero] at h; exact h.ge
    · have := hK.pos _ h0 hd; linarith
  · intro he
    by_contra hne
    have := hK.pos _ (sub_ne_zero.mpr hne) hd
    linarith
  · rintro rfl; rfl

theorem mse_at_universal {n q : ℕ} {K : Mat n n} {P : Mat n q} {k : Fin n → ℝ} {v : ℝ}
    {l : Fin n → ℝ} {mu p : Fin q → ℝ} (h1 : K *ᵥ l + P *ᵥ mu = k) (h2 : Pᵀ *ᵥ l = p) :
    mse K k v l = v - (l ⬝ᵥ k + mu ⬝ᵥ p) := by
  unfold mse
  have h3 : K *ᵥ l = k - P *ᵥ mu := by rw [← h1]; abel
  rw [h3, dotProduct_sub, dot_mulVec_transpose, h2, dotProduct_comm p mu]
  ring

/-- The error variance is nonnegative when the joint covariance is. -/
theorem mse_nonneg {K : Matrix ι ι ℝ} {k : ι → ℝ} {v : ℝ} (hJ : (joint K k v).PosSemidef)
    (w : ι → ℝ) : 0 ≤ mse K k v w := by
  have h := PosSemidef.quad_nonneg hJ (Sum.elim (-w) (fun _ => 1))
  have : Sum.elim (-w) (fun _ => 1) ⬝ᵥ (joint K k v *ᵥ Sum.elim (-w) (fun _ => 1)) = mse K k v w := by
    unfold joint mse
    rw [fromBlocks_mulVec]
    simp only [dotProduct, Fintype.sum_sum_type, Sum.elim_inl, Sum.elim_inr, Pi.neg_apply,
      Finset.univ_unique, Finset.sum_singleton, one_mul, Pi.add_apply]
    have e1 : ((Sum.elim (-w) fun _ : Unit => (1 : ℝ)) ∘ Sum.inl) = -w := by ext; simp
    have e2 : ((Sum.elim (-w) fun _ : Unit => (1 : ℝ)) ∘ Sum.inr) = fun _ => 1 := by ext; simp
    rw [e1, e2]
    simp only [mulVec_neg, Pi.neg_apply]
    simp only [mulVec, dotProduct, of_apply, Finset.univ_unique, Finset.sum_singleton, mul_one]
    have e3 : ∑ x, -w x * (-(∑ j, K x j * w j) + k x) =
        (∑ x, w x * ∑ j, K x j * w j) - ∑ x, w x * k x := by
      rw [← Finset.sum_sub_distrib]
      exact Finset.sum_congr rfl fun x _ => by ring
    rw [e3]
    have e4 : ∑ x, k x * w x = ∑ x, w x * k x := Finset.sum_congr rfl fun x _ => mul_comm _ _
    rw [e4]
    ring
  rw [this] at h
  exact h

/-! ## C26: zero-mean kriging -/

section ZeroMean

variable {n m q : ℕ} {be : Backend} {la : LA}

theorem krigingZeroMean_ok (hla : la.Contract be) (a : Arrays n m q) (hK : a.Kii.PosDef) :
    krigingZeroMean la a 0 =
      .ok (a.Kii⁻¹ * a.Kit, .var fun t => a.vt t - ∑ i, (a.Kii⁻¹ * a.Kit) i t * a.Kit i t) ∧
    krigingZeroMean la a 1 =
      .ok (a.Kii⁻¹ * a.Kit, .cov (a.Ktt - (a.Kii⁻¹ * a.Kit)ᵀ * a.Kit)) ∧
    krigingZeroMean la a (-1) = .ok (a.Kii⁻¹ * a.Kit, .none) := by
  obtain ⟨C, _, hc⟩ := choleskySolve_ok hla.toSound hK a.Kit
  refine ⟨?_, ?_, ?_⟩ <;>
    simp [krigingZeroMean, hc, posteriorVariance, bind, Except.bind, pure, Except.pure]

theorem col_solves {A : Mat n n} (hA : A.PosDef) (B : Mat n m) (t : Fin m) :
    A *ᵥ (fun i => (A⁻¹ * B) i t) = fun i => B i t := by
  have h : A * (A⁻¹ * B) = B := by
    rw [← Matrix.mul_assoc, Matrix.mul_nonsing_inv _ (PosDef.det_unit hA), Matrix.one_mul]
  ext i
  have := congrFun (congrFun h i) t
  rw [Matrix.mul_apply] at this
  exact this

/-- **C26** Zero-mean kriging returns, for each target, the weights of least
mean-square error (unique), and its variance output is that least error. -/
theorem zeroMean_blup (hla : la.Contract be) (a : Arrays n m q) (hK : a.Kii.PosDef) :
    ∃ lam v, krigingZeroMean la a 0 = .ok (lam, .var v) ∧
      ∀ t, (v t = mse a.Kii (fun i => a.Kit i t) (a.vt t) (fun i => lam i t)) ∧
        ∀ w, v t ≤ mse a.Kii (fun i => a.Kit i t) (a.vt t) w ∧
          (mse a.Kii (fun i => a.Kit i t) (a.vt t) w = v t → w = fun i => lam i t) := by
  refine ⟨_, _, (krigingZeroMean_ok hla a hK).1, fun t => ?_⟩
  have hs := col_solves hK a.Kit t
  have hv : a.vt t - ∑ i, (a.Kii⁻¹ * a.Kit) i t * a.Kit i t =
      mse a.Kii (fun i => a.Kit i t) (a.vt t) (fun i => (a.Kii⁻¹ * a.Kit) i t) := by
    unfold mse
    rw [hs]
    simp only [dotProduct]
    ring
  refine ⟨hv, fun w => ?_⟩
  rw [hv]
  have := mse_zero_mean hK hs (v := a.vt t) w
  exact ⟨this.1, this.2.mp⟩

/-- **C26** The variance lies between 0 and the prior variance as soon as the
covariances are those of some random variables. -/
theorem zeroMean_var_bounds (hla : la.Contract be) (a : Arrays n m q) (hK : a.Kii.PosDef)
    (hJ : ∀ t, (joint a.Kii (fun i => a.Kit i t) (a.vt t)).PosSemidef) :
    ∃ lam v, krigingZeroMean la a 0 = .ok (lam, .var v) ∧ ∀ t, 0 ≤ v t ∧ v t ≤ a.vt t := by
  obtain ⟨lam, v, h, hv⟩ := zeroMean_blup hla a hK
  refine ⟨lam, v, h, fun t => ⟨?_, ?_⟩⟩
  · rw [(hv t).1]; exact mse_nonneg (hJ t) _
  · have := ((hv t).2 0).1
    simpa [mse] using this

/-- Arrays of the same problem with only the observations `e` kept. -/
def Arrays.keep {n' : ℕ} (a : Arrays n m q) (e : Fin n' → Fin n) : Arrays n' m q where
  Kii := a.Kii.submatrix e e
  Kit := a.Kit.submatrix e id
  vt := a.vt
  Ktt := a.Ktt
  Pi := a.Pi.submatrix e id
  Pt := a.Pt

theorem extend_dot {n' : ℕ} (e : Fin n' → Fin n) (he : Function.Injective e) (w : Fin n' → ℝ)
    (f : Fin n → ℝ) :
    (Function.extend e w 0) ⬝ᵥ f = ∑ i, w i * f (e i) := by
  classical
  unfold dotProduct
  have : ∀ j, Function.extend e w 0 j * f j = ∑ i, if e i = j then w i * f j else 0 := by
    intro j
    by_cases hj : ∃ i, e i = j
    · obtain ⟨i, rfl⟩ := hj
      rw [he.extend_apply, Finset.sum_eq_single i]
      · simp
      · intro b _ hb
        rw [if_neg (fun h => hb (he h))]
      · simp
    · rw [Function.extend_apply' _ _ _ hj]
      simp only [Pi.zero_apply, zero_mul]
      symm
      exact Finset.sum_eq_zero fun i _ => if_neg fun h => hj ⟨i, h⟩
  simp only [this]
  rw [Finset.sum_comm]
  refine Finset.sum_congr rfl fun i _ => ?_
  simp

theorem mse_extend {n' : ℕ} (K : Mat n n) (k : Fin n → ℝ) (v : ℝ) (e : Fin n' → Fin n)
    (he : Function.Injective e) (w : Fin n' → ℝ) :
    mse K k v (Function.extend e w 0) = mse (K.submatrix e e) (fun i => k (e i)) v w := by
  unfold mse
  rw [extend_dot e he, extend_dot e he]
  congr 1
  refine Finset.sum_congr rfl fun i _ => ?_
  congr 1
  unfold mulVec
  rw [dotProduct_comm, extend_dot e he]
  simp only [dotProduct, submatrix_apply]
  exact Finset.sum_congr rfl fun j _ => mul_comm _ _

/-- **C26** Adding observations never increases the variance. -/
theorem zeroMean_var_monotone (hla : la.Contract be) (a : Arrays n m q) (hK : a.Kii.PosDef)
    {n' : ℕ} (e : Fin n' → Fin n) (he : Function.Injective e) :
    ∃ lam v lam' v', krigingZeroMean la a 0 = .ok (lam, .var v) ∧
      krigingZeroMean la (a.keep e) 0 = .ok (lam', .var v') ∧ ∀ t, v t ≤ v' t := by
  have hK' : (a.keep e).Kii.PosDef := hK.submatrix he
  obtain ⟨lam, v, h, hv⟩ := zeroMean_blup hla a hK
  obtain ⟨lam', v', h', hv'⟩ := zeroMean_blup hla (a.keep e) hK'
  refine ⟨lam, v, lam', v', h, h', fun t => ?_⟩
  rw [(hv' t).1]
  have := ((hv t).2 (Function.extend e (fun i => lam' i t) 0)).1
  rw [mse_extend _ _ _ e he] at this
  exact this

/-- **C26** The full posterior covariance (`return_type = 1`) is symmetric positive
semidefinite when the joint covariance is, and any other `return_type` than
-1, 0, 1 is refused. -/
theorem zeroMean_cov (hla : la.Contract be) (a : Arrays n m q) (hK : a.Kii.PosDef)
    (hJ : (Matrix.fromBlocks a.Kii a.Kit a.Kitᵀ a.Ktt).PosSemidef) :
    (∃ lam V, krigingZeroMean la a 1 = .ok (lam, .cov V) ∧ V.PosSemidef) ∧
    ∀ rt : ℤ, rt ≠ -1 → rt ≠ 0 → rt ≠ 1 → krigingZeroMean la a rt = .error .valueError := by
  constructor
  · refine ⟨_, _, (krigingZeroMean_ok hla a hK).2.1, ?_⟩
    have hinv := PosDef.symm hK
    rw [transpose_mul, transpose_nonsing_inv, hinv]
    have : Invertible a.Kii := Matrix.invertibleOfIsUnitDet _ (PosDef.det_unit hK)
    have h := (Matrix.PosDef.fromBlocks₁₁ a.Kit a.Ktt hK).mp
      (by rw [conjTranspose_eq_transpose_of_trivial]; exact hJ)
    rwa [conjTranspose_eq_transpose_of_trivial] at h
  · intro rt h1 h2 h3
    obtain ⟨C, _, hc⟩ := choleskySolve_ok hla.toSound hK a.Kit
    simp [krigingZeroMean, hc, posteriorVariance, h1, h2, h3, bind, Except.bind]

/-- Concrete arrays meeting the hypotheses: two observations with covariance
`[[2,1],[1,2]]`. -/
def exArrays : Arrays 2 1 1 where
  Kii := !![2, 1; 1, 2]
  Kit := !![1; 0]
  vt := fun _ => 1
  Ktt := !![1]
  Pi := !![1; 0]
  Pt := !![1]

theorem exArrays_posDef : exArrays.Kii.PosDef := by
  apply posDef_of_quad
  · ext i j; fin_cases i <;> fin_cases j <;> rfl
  · intro x hx
    have h : x ⬝ᵥ (exArrays.Kii *ᵥ x) = x 0 ^ 2 + x 1 ^ 2 + (x 0 + x 1) ^ 2 := by
      simp [exArrays, mulVec, dotProduct, Fin.sum_univ_two]
      ring
    rw [h]
    by_contra hc
    have h0 : x 0 = 0 := by nlinarith [sq_nonneg (x 0), sq_nonneg (x 1), sq_nonneg (x 0 + x 1)]
    have h1 : x 1 = 0 := by nlinarith [sq_nonneg (x 0), sq_nonneg (x 1), sq_nonneg (x 0 + x 1)]
    apply hx
    ext i
    fin_cases i <;> simp [h0, h1]

example : ∃ lam v, krigingZeroMean (exactLA .numpy) exArrays 0 = .ok (lam, .var v) := by
  obtain ⟨lam, v, h, _⟩ := zeroMean_blup (exactLA_contract .numpy) exArrays exArrays_posDef
  exact ⟨lam, v, h⟩

end ZeroMean

/-! ## C27: universal kriging -/

section Universal

variable {n m q : ℕ} {be : Backend} {la : LA}

/-- The block system is invertible under conditional positive definiteness. -/
theorem ukLHS_unit (a : Arrays n m q) (hK : CPD a.Kii a.Pi) (hP : FullRank a.Pi) :
    IsUnit (ukLHS a) := by
  apply isUnit_of_inj
  intro x hx
  have h0 : x = Sum.elim (x ∘ Sum.inl) (x ∘ Sum.inr) := by ext i; cases i <;> rfl
  set l := x ∘ Sum.inl
  set mu := x ∘ Sum.inr
  rw [h0, ukLHS, fromBlocks_mulVec] at hx
  have e1 : a.Kii *ᵥ l + a.Pi *ᵥ mu = 0 := by
    ext i; exact congrFun hx (Sum.inl i)
  have e2 : a.Piᵀ *ᵥ l = 0 := by
    ext i
    have := congrFun hx (Sum.inr i)
    simpa using this
  have hl : l = 0 := by
    by_contra hne
    have := hK.pos l hne e2
    have h3 : a.Kii *ᵥ l = -(a.Pi *ᵥ mu) := eq_neg_of_add_eq_zero_left e1
    rw [h3, dotProduct_neg, dot_mulVec_transpose, e2, zero_dotProduct, neg_zero] at this
    exact lt_irrefl _ this
  have hmu : mu = 0 := by
    apply hP
    rw [hl, mulVec_zero, zero_add] at e1
    exact e1
  rw [h0, hl, hmu]
  ext i; cases i <;> rfl

/-- What a solution of the block system satisfies, target by target. -/
theorem ukSystem_iff (a : Arrays n m q) (X : Matrix (Fin n ⊕ Fin q) (Fin m) ℝ) :
    ukLHS a * X = ukRHS a ↔ ∀ t,
      (a.Kii *ᵥ (fun i => X (Sum.inl i) t) + a.Pi *ᵥ (fun j => X (Sum.inr j) t) = fun i => a.Kit i t) ∧
      (a.Piᵀ *ᵥ (fun i => X (Sum.inl i) t) = fun j => a.Pt t j) := by
  constructor
  · intro h t
    constructor
    · ext i
      have := congrFun (congrFun h (Sum.inl i)) t
      rw [Matrix.mul_apply, Fintype.sum_sum_type] at this
      simpa [ukLHS, ukRHS, mulVec, dotProduct] using this
    · ext j
      have := congrFun (congrFun h (Sum.inr j)) t
      rw [Matrix.mul_apply, Fintype.sum_sum_type] at this
      simpa [ukLHS, ukRHS, mulVec, dotProduct] using this
  · intro h
    ext i t
    rw [Matrix.mul_apply, Fintype.sum_sum_type]
    cases i with
    | inl i =>
      have := congrFun (h t).1 i
      simpa [ukLHS, ukRHS, mulVec, dotProduct] using this
    | inr j =>
      have := congrFun (h t).2 j
      simpa [ukLHS, ukRHS, mulVec, dotProduct] using this

theorem ukDirect_ok (hla : la.Contract be) (a : Arrays n m q) (hK : CPD a.Kii a.Pi)
    (hP : FullRank a.Pi) :
    ∃ X, ukLHS a * X = ukRHS a ∧
      ukDirect la a 0 = .ok (X.toRows₁, .var fun t => a.vt t - ∑ i, X i t * ukRHS a i t) ∧
      ukDirect la a 1 = .ok (X.toRows₁, .cov (a.Ktt - Xᵀ * ukRHS a)) := by
  obtain ⟨X, hX⟩ := hla.solve_total (ukLHS a) (ukRHS a) (ukLHS_unit a hK hP)
  refine ⟨X, hla.solve_ok _ _ _ hX, ?_, ?_⟩ <;>
    simp [ukDirect, hX, posteriorVariance, bind, Except.bind, pure, Except.pure]

/-- Whenever the block solve returns, its weights are the best unbiased ones. -/
theorem ukDirect_blue_of_ok (hla : la.Contract be) (a : Arrays n m q) (hK : CPD a.Kii a.Pi)
    {lam : Mat n m} {V : PostVar m} (h : ukDirect la a 0 = .ok (lam, V)) :
    ∃ v, V = .var v ∧ ∀ t,
      Unbiased a.Pi (a.Pt t) (fun i => lam i t) ∧
      v t = mse a.Kii (fun i => a.Kit i t) (a.vt t) (fun i => lam i t) ∧
      ∀ w, Unbiased a.Pi (a.Pt t) w → v t ≤ mse a.Kii (fun i => a.Kit i t) (a.vt t) w ∧
        (mse a.Kii (fun i => a.Kit i t) (a.vt t) w = v t → w = fun i => lam i t) := by
  simp only [ukDirect, bind, Except.bind, pure, Except.pure] at h
  cases hs : la.solve (ukLHS a) (ukRHS a) with
  | error e => rw [hs] at h; cases h
  | ok X =>
    rw [hs] at h
    simp only [posteriorVariance] at h
    rw [if_neg (by decide), if_pos trivial] at h
    have h' := Except.ok.inj h
    have hl := (Prod.mk.inj h').1
    have hV := (Prod.mk.inj h').2
    subst hl hV
    refine ⟨_, rfl, fun t => ?_⟩
    have hX := (ukSystem_iff a X).mp (hla.solve_ok _ _ _ hs) t
    have hu : Unbiased a.Pi (a.Pt t) (fun i => X.toRows₁ i t) := hX.2
    have hm := mse_at_universal (v := a.vt t) hX.1 hX.2
    have hv : a.vt t - ∑ i, X i t * ukRHS a i t =
        mse a.Kii (fun i => a.Kit i t) (a.vt t) (fun i => X (Sum.inl i) t) := by
      rw [hm, Fintype.sum_sum_type]
      rfl
    refine ⟨hu, hv, fun w hw => ?_⟩
    rw [hv]
    have := mse_universal hK (v := a.vt t) hX.1 hX.2 w hw
    exact ⟨this.1, this.2.mp⟩

/-- **C27** Universal kriging (`kriging_predictor`) with a conditionally positive
definite covariance and linearly independent mean functions: the weights are
unbiased, of least error variance among all unbiased weights (uniquely), and the
variance output is that error variance. -/
theorem universal_blue (hla : la.Contract be) {r : ℕ} (a : Arrays (q + r) m q)
    (hK : CPD a.Kii a.Pi) (hP : FullRank a.Pi) :
    ∃ lam v, krigingUniversal la a 0 = .ok (lam, .var v) ∧ ∀ t,
      Unbiased a.Pi (a.Pt t) (fun i => lam i t) ∧
      v t = mse a.Kii (fun i => a.Kit i t) (a.vt t) (fun i => lam i t) ∧
      ∀ w, Unbiased a.Pi (a.Pt t) w → v t ≤ mse a.Kii (fun i => a.Kit i t) (a.vt t) w ∧
        (mse a.Kii (fun i => a.Kit i t) (a.vt t) w = v t → w = fun i => lam i t) := by
  obtain ⟨X, _, h0, _⟩ := ukDirect_ok hla a hK hP
  obtain ⟨v, hv, hall⟩ := ukDirect_blue_of_ok hla a hK h0
  refine ⟨X.toRows₁, v, ?_, hall⟩
  simp only [krigingUniversal, h0, hv]

/-- **C27** Not knowing the mean costs variance: the universal kriging variance is
at least the zero-mean one. -/
theorem universal_var_ge_zeroMean (hla : la.Contract be) {r : ℕ} (a : Arrays (q + r) m q)
    (hK : a.Kii.PosDef) (hP : FullRank a.Pi) :
    ∃ lam v lam' v', krigingUniversal la a 0 = .ok (lam, .var v) ∧
      krigingZeroMean la a 0 = .ok (lam', .var v') ∧ ∀ t, v' t ≤ v t := by
  obtain ⟨lam, v, h, hv⟩ := universal_blue hla a (CPD.of_posDef hK _) hP
  obtain ⟨lam', v', h', hv'⟩ := zeroMean_blup hla a hK
  refine ⟨lam, v, lam', v', h, h', fun t => ?_⟩
  rw [(hv t).2.1]
  exact ((hv' t).2 _).1

theorem exArrays_fullRank : FullRank exArrays.Pi := by
  intro b hb
  have := congrFun hb 0
  ext i
  fin_cases i
  simpa [exArrays, mulVec, dotProduct] using this

example : ∃ lam v, krigingUniversal (q := 1) (r := 1) (exactLA .numpy) exArrays 0 = .ok (lam, .var v) := by
  obtain ⟨lam, v, h, _⟩ := universal_blue (q := 1) (r := 1) (exactLA_contract .numpy) exArrays
    (CPD.of_posDef exArrays_posDef _) exArrays_fullRank
  exact ⟨lam, v, h⟩

end Universal

end Verif.Core
