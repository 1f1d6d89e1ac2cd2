import Verif.Core.PropsObject
import Mathlib.Logic.Equiv.Fin.Basic

/-!
# C207: reordering observations, batching targets, changing units
-/

set_option autoImplicit false

namespace Verif.Core

open Verif Verif.Data Matrix

variable {n m m' q r : ℕ} {be be' : Backend} {la la' : LA}

/-- `a'` is the problem `a` with the observations reordered by `π`, the targets selected by
`σ`, all covariances multiplied by `c`, and the mean functions replaced by the combinations of
them given by `E`. -/
structure Moved (π : Equiv.Perm (Fin n)) (σ : Fin m' → Fin m) (c : ℝ) (E : Mat q q)
    (a : Arrays n m q) (a' : Arrays n m' q) : Prop where
  Kii : ∀ i j, a'.Kii i j = c * a.Kii (π i) (π j)
  Kit : ∀ i t, a'.Kit i t = c * a.Kit (π i) (σ t)
  vt : ∀ t, a'.vt t = c * a.vt (σ t)
  Pi : a'.Pi = a.Pi.submatrix π id * E
  Pt : a'.Pt = a.Pt.submatrix σ id * E

/-- The problem can be solved with this kind of mean. -/
def Regular (mt : MeanType n m) (a : Arrays n m q) : Prop :=
  match mt with
  | .zero => a.Kii.PosDef
  | .parameterized _ _ => a.Kii.PosDef
  | .linearPredictor => CPD a.Kii a.Pi ∧ FullRank a.Pi
  | _ => False

/-- The mean of the moved problem, data being multiplied by `s`. -/
def MeanType.moved (π : Equiv.Perm (Fin n)) (σ : Fin m' → Fin m) (s : ℝ) :
    MeanType n m → MeanType n m'
  | .zero => .zero
  | .parameterizedNone => .parameterizedNone
  | .parameterized mi mt => .parameterized (fun i => s * mi (π i)) fun t => s * mt (σ t)
  | .linearPredictor => .linearPredictor
  | .invalid => .invalid

section

variable {π : Equiv.Perm (Fin n)} {σ : Fin m' → Fin m} {c : ℝ} {E : Mat q q}
  {a : Arrays n m q} {a' : Arrays n m' q}

theorem Moved.quad (h : Moved π σ c E a a') (x : Fin n → ℝ) :
    x ⬝ᵥ (a'.Kii *ᵥ x) = c * ((x ∘ π.symm) ⬝ᵥ (a.Kii *ᵥ (x ∘ π.symm))) := by
  simp only [dotProduct, mulVec, h.Kii]
  rw [← Equiv.sum_comp π (fun i => (x ∘ π.symm) i * ∑ j, a.Kii i j * (x ∘ π.symm) j),
    Finset.mul_sum]
  refine Finset.sum_congr rfl fun i _ => ?_
  rw [← Equiv.sum_comp π (fun j => a.Kii (π i) j * (x ∘ π.symm) j)]
  simp only [Function.comp, Equiv.symm_apply_apply]
  rw [Finset.mul_sum, Finset.mul_sum, Finset.mul_sum]
  exact Finset.sum_congr rfl fun j _ => by ring

theorem comp_symm_ne (π : Equiv.Perm (Fin n)) {x : Fin n → ℝ} (hx : x ≠ 0) : x ∘ π.symm ≠ 0 := by
  intro h
  apply hx
  funext i
  have := congrFun h (π i)
  simpa using this

theorem Moved.posDef (h : Moved π σ c E a a') (hc : 0 < c) (hK : a.Kii.PosDef) :
    a'.Kii.PosDef := by
  refine posDef_of_quad ?_ fun x hx => ?_
  · ext i j
    rw [transpose_apply, h.Kii, h.Kii]
    congr 1
    exact congrFun (congrFun (PosDef.symm hK) (π i)) (π j)
  · rw [h.quad]
    exact mul_pos hc (PosDef.quad_pos hK (comp_symm_ne π hx))

theorem Moved.PiT (h : Moved π σ c E a a') (x : Fin n → ℝ) :
    a'.Piᵀ *ᵥ x = Eᵀ *ᵥ (a.Piᵀ *ᵥ (x ∘ π.symm)) := by
  rw [h.Pi, transpose_mul, ← mulVec_mulVec]
  congr 1
  funext j
  simp only [mulVec, dotProduct, transpose_apply, submatrix_apply, id]
  rw [← Equiv.sum_comp π (fun i => a.Pi i j * (x ∘ π.symm) i)]
  simp

theorem mulVec_inj {E : Mat q q} (hE : IsUnit E.det) {x : Fin q → ℝ} (h : E *ᵥ x = 0) : x = 0 := by
  have := congrArg (fun y => E⁻¹ *ᵥ y) h
  simpa [mulVec_mulVec, Matrix.nonsing_inv_mul _ hE] using this

theorem Moved.cpd (h : Moved π σ c E a a') (hc : 0 < c) (hE : IsUnit E.det)
    (hK : CPD a.Kii a.Pi) : CPD a'.Kii a'.Pi := by
  refine ⟨?_, fun x hx h0 => ?_⟩
  · ext i j
    rw [transpose_apply, h.Kii, h.Kii]
    congr 1
    exact congrFun (congrFun hK.symm (π i)) (π j)
  · rw [h.quad]
    rw [h.PiT] at h0
    exact mul_pos hc (hK.pos _ (comp_symm_ne π hx)
      (mulVec_inj (by rwa [det_transpose]) h0))

theorem Moved.fullRank (h : Moved π σ c E a a') (hE : IsUnit E.det) (hP : FullRank a.Pi) :
    FullRank a'.Pi := by
  intro b hb
  apply mulVec_inj hE
  apply hP
  funext i
  have := congrFun hb (π.symm i)
  rw [h.Pi, ← mulVec_mulVec] at this
  simpa [mulVec, dotProduct] using this

end

/-- **C207** Reordering the observations, selecting targets, multiplying the covariance by
`c` and the data by `s`, and replacing the mean functions by other combinations of them act on the answer of `predict` as they should (whatever backend and libraries are used): means are selected and
multiplied by `s`, variances selected and multiplied by `c`, weights reordered. -/
theorem predict_moved (hla : la.Contract be) (hla' : la'.Contract be') {π : Equiv.Perm (Fin (q + r))} {σ : Fin m' → Fin m}
    {c : ℝ} (hc : 0 < c) {E : Mat q q} (hE : IsUnit E.det) {a : Arrays (q + r) m q} {a' : Arrays (q + r) m' q}
    (h : Moved π σ c E a a') (mt : MeanType (q + r) m) (hr : Regular mt a) (s : ℝ)
    (z : Fin (q + r) → ℝ) (zn : Bool) :
    ∃ mean var lam, predict la mt a z zn = .ok (mean, var, lam) ∧
      predict la' (mt.moved π σ s) a' (fun i => s * z (π i)) zn =
        .ok (fun t => s * mean (σ t), fun t => c * var (σ t), lam.submatrix π σ) := by
  have hmax : ∀ v : ℝ, max (c * v) 0 = c * max v 0 := by
    intro v
    rw [mul_max_of_nonneg _ _ hc.le, mul_zero]
  have hzero : a.Kii.PosDef → a'.Kii⁻¹ * a'.Kit = (a.Kii⁻¹ * a.Kit).submatrix π σ := by
    intro hK
    have hK' := h.posDef hc hK
    have hs : a'.Kii * (a.Kii⁻¹ * a.Kit).submatrix π σ = a'.Kit := by
      ext i t
      rw [Matrix.mul_apply, h.Kit]
      simp only [h.Kii, submatrix_apply]
      rw [Equiv.sum_comp π (fun j => c * a.Kii (π i) j * (a.Kii⁻¹ * a.Kit) j (σ t))]
      have : a.Kii * (a.Kii⁻¹ * a.Kit) = a.Kit := by
        rw [← Matrix.mul_assoc, Matrix.mul_nonsing_inv _ (PosDef.det_unit hK), Matrix.one_mul]
      have h2 := congrFun (congrFun this (π i)) (σ t)
      rw [Matrix.mul_apply] at h2
      rw [← h2, Finset.mul_sum]
      exact Finset.sum_congr rfl fun j _ => by ring
    rw [← hs, ← Matrix.mul_assoc, Matrix.nonsing_inv_mul _ (PosDef.det_unit hK'), Matrix.one_mul]
  have hvar0 : a.Kii.PosDef → ∀ t, a'.vt t - ∑ i, (a'.Kii⁻¹ * a'.Kit) i t * a'.Kit i t =
      c * (a.vt (σ t) - ∑ i, (a.Kii⁻¹ * a.Kit) i (σ t) * a.Kit i (σ t)) := by
    intro hK t
    rw [hzero hK, h.vt, mul_sub, Finset.mul_sum]
    simp only [submatrix_apply, h.Kit]
    congr 1
    rw [Equiv.sum_comp π (fun j => (a.Kii⁻¹ * a.Kit) j (σ t) * (c * a.Kit j (σ t)))]
    exact Finset.sum_congr rfl fun j _ => by ring
  cases mt with
  | zero =>
    refine ⟨_, _, _, predict_zero hla a hr z zn, ?_⟩
    refine (predict_zero hla' a' (h.posDef hc hr) _ zn).trans ?_
    congr 2
    · funext t
      rw [hzero hr]
      simp only [submatrix_apply, add_zero]
      rw [Equiv.sum_comp π (fun j => (a.Kii⁻¹ * a.Kit) j (σ t) * (s * z j)), Finset.mul_sum]
      exact Finset.sum_congr rfl fun j _ => by ring
    · congr 1
      · cases zn
        · funext t
          exact hvar0 hr t
        · funext t
          simp only [if_true]
          rw [hvar0 hr t, hmax]
      · exact hzero hr
  | parameterized mi mt =>
    refine ⟨_, _, _, predict_param hla a hr mi mt z zn, ?_⟩
    refine (predict_param hla' a' (h.posDef hc hr) _ _ _ zn).trans ?_
    congr 2
    · funext t
      rw [hzero hr]
      simp only [submatrix_apply, Pi.sub_apply]
      rw [Equiv.sum_comp π (fun j => (a.Kii⁻¹ * a.Kit) j (σ t) * (s * z j - s * mi j)), mul_add,
        Finset.mul_sum]
      congr 1
      exact Finset.sum_congr rfl fun j _ => by ring
    · congr 1
      · cases zn
        · funext t
          exact hvar0 hr t
        · funext t
          simp only [if_true]
          rw [hvar0 hr t, hmax]
      · exact hzero hr
  | linearPredictor =>
    obtain ⟨hK, hP⟩ := hr
    have hK' := h.cpd hc hE hK
    have hP' := h.fullRank hE hP
    obtain ⟨X, hX, hpX⟩ := predict_linear hla a hK hP z zn
    obtain ⟨Y, hY, hpY⟩ := predict_linear hla' a' hK' hP' (fun i => s * z (π i)) zn
    refine ⟨_, _, _, hpX, ?_⟩
    -- the transformed solution
    let Z : Matrix (Fin (q + r) ⊕ Fin q) (Fin m') ℝ :=
      Matrix.fromRows (X.toRows₁.submatrix π σ) (c • (E⁻¹ * X.toRows₂.submatrix id σ))
    have hsys := (ukSystem_iff a X).mp hX
    have hZ : ukLHS a' * Z = ukRHS a' := by
      rw [ukSystem_iff]
      intro t
      obtain ⟨h1, h2⟩ := hsys (σ t)
      constructor
      · funext i
        have e1 := congrFun h1 (π i)
        simp only [Pi.add_apply, mulVec, dotProduct] at e1 ⊢
        rw [h.Kit, ← e1, mul_add]
        congr 1
        · simp only [h.Kii]
          rw [← Equiv.sum_comp π (fun j => a.Kii (π i) j * X (Sum.inl j) (σ t)), Finset.mul_sum]
          exact Finset.sum_congr rfl fun j _ => mul_assoc _ _ _
        · have e3 : a'.Pi * (c • (E⁻¹ * X.toRows₂.submatrix id σ)) =
              c • (a.Pi.submatrix π id * X.toRows₂.submatrix id σ) := by
            rw [h.Pi, Matrix.mul_smul, Matrix.mul_assoc, ← Matrix.mul_assoc E,
              Matrix.mul_nonsing_inv _ hE, Matrix.one_mul]
          have e4 := congrFun (congrFun e3 i) t
          rw [Matrix.mul_apply, Matrix.smul_apply, Matrix.mul_apply] at e4
          exact e4
      · rw [h.PiT]
        have e2 : a.Piᵀ *ᵥ ((fun i => Z (Sum.inl i) t) ∘ π.symm) = fun j => a.Pt (σ t) j := by
          rw [← h2]
          congr 1
          funext i
          simp [Z]
        rw [e2, h.Pt]
        funext j
        rw [Matrix.mul_apply]
        simp only [mulVec, dotProduct, transpose_apply, submatrix_apply, id]
        exact Finset.sum_congr rfl fun j _ => mul_comm _ _
    have hu := (Matrix.isUnit_iff_isUnit_det _).mp (ukLHS_unit a' hK' hP')
    have hYZ : Y = Z := by
      have := congrArg (fun W => (ukLHS a')⁻¹ * W) (hY.trans hZ.symm)
      simpa only [← Matrix.mul_assoc, Matrix.nonsing_inv_mul _ hu, Matrix.one_mul] using this
    subst hYZ
    refine hpY.trans ?_
    have hv : ∀ t, a'.vt t - ∑ i, Z i t * ukRHS a' i t =
        c * (a.vt (σ t) - ∑ i, X i (σ t) * ukRHS a i (σ t)) := by
      intro t
      rw [h.vt, mul_sub, Fintype.sum_sum_type, Fintype.sum_sum_type, mul_add]
      have e5 : ∑ j, Z (Sum.inr j) t * ukRHS a' (Sum.inr j) t =
          c * ∑ j, X (Sum.inr j) (σ t) * ukRHS a (Sum.inr j) (σ t) := by
        have e6 : a'.Pt * (c • (E⁻¹ * X.toRows₂.submatrix id σ)) =
            c • (a.Pt.submatrix σ id * X.toRows₂.submatrix id σ) := by
          rw [h.Pt, Matrix.mul_smul, Matrix.mul_assoc, ← Matrix.mul_assoc E,
            Matrix.mul_nonsing_inv _ hE, Matrix.one_mul]
        have e7 := congrFun (congrFun e6 t) t
        rw [Matrix.mul_apply, Matrix.smul_apply, Matrix.mul_apply] at e7
        simp only [submatrix_apply, id, smul_eq_mul] at e7
        simp only [ukRHS, fromRows_apply_inr, transpose_apply, Z]
        rw [show (∑ j, X (Sum.inr j) (σ t) * a.Pt (σ t) j) =
          ∑ j, a.Pt (σ t) j * X.toRows₂ j (σ t) from
            Finset.sum_congr rfl fun j _ => mul_comm _ _, ← e7]
        exact Finset.sum_congr rfl fun j _ => mul_comm _ _
      rw [e5]
      simp only [ukRHS, fromRows_apply_inl, h.Kit, Z, submatrix_apply]
      rw [Equiv.sum_comp π (fun j => X.toRows₁ j (σ t) * (c * a.Kit j (σ t))),
        Finset.sum_congr rfl fun j _ => mul_left_comm (X.toRows₁ j (σ t)) c (a.Kit j (σ t)),
        ← Finset.mul_sum]
      rfl
    congr 2
    · funext t
      simp only [Z, toRows₁_fromRows, submatrix_apply, add_zero]
      rw [Equiv.sum_comp π (fun j => X.toRows₁ j (σ t) * (s * z j)), Finset.mul_sum]
      exact Finset.sum_congr rfl fun j _ => mul_left_comm _ _ _
    · congr 1
      · cases zn
        · funext t
          exact hv t
        · funext t
          simp only [if_true]
          rw [hv t, hmax]
  | parameterizedNone => exact absurd hr (by simp [Regular])
  | invalid => exact absurd hr (by simp [Regular])

namespace Obj

variable {d : ℕ} {Θ M : Type}

/-- `predict` in terms of the arrays the model evaluates to. -/
theorem predict_arrays {g : GP d q Θ M} {θ : Θ} (hθ : g.covparam = some θ) (hr : g.refuses = false)
    (f : ℕ) (xi : Pts (q + r) d) (z : Fin (q + r) → ℝ) (xt : Pts m d) (zn c : Bool)
    {mt : MeanType (q + r) m} (hmt : g.meanType (conv c be f xi) (conv c be (f + 1) xt) = .ok mt) :
    predict be la f g xi (.vec z) xt zn c =
      Core.predict la mt (g.arrays θ (conv c be f xi) (conv c be (f + 1) xt)) z zn := by
  have hth : g.theta = .ok θ := by simp [GP.theta, hθ]
  change (if g.refuses = true then _ else _) = _
  rw [if_neg (by simp [hr])]
  change (do
    let θ ← g.theta
    let mt ← g.meanType (conv c be f xi) (conv c be (f + 1) xt)
    Core.predict la mt (g.arrays θ (conv c be f xi) (conv c be (f + 1) xt)) z zn) = _
  rw [hth, hmt]
  rfl

theorem Usable.refuses {g : GP d q Θ M} (h : Usable g) : g.refuses = false := by
  rcases h with h | h | ⟨h, _, h'⟩
  · simp [GP.refuses, h]
  · simp [GP.refuses, h]
  · obtain ⟨mp, hmp⟩ := Option.isSome_iff_exists.mp h'
    simp [GP.refuses, h, hmp]

/-- **C207** The same for the `Model` object: the points are moved by `T`, which multiplies the
kernel by `c` and combines the mean functions by `E`; the data are multiplied by `s`.  The two
calls may use different backends, array types and conversions. -/
theorem predict_units (hla : la.Contract be) (hla' : la'.Contract be') {g g' : GP d q Θ M}
    {θ θ' : Θ} {k k' : (Fin d → ℝ) → (Fin d → ℝ) → ℝ} {nug nug' : ℝ}
    {b b' : (Fin d → ℝ) → Fin q → ℝ} (hθ : g.covparam = some θ) (hθ' : g'.covparam = some θ')
    (hg : Pointwise g θ k nug b) (hg' : Pointwise g' θ' k' nug' b')
    (hu : Usable g) (hu' : Usable g') (hty : g'.meantype = g.meantype)
    (T : (Fin d → ℝ) → Fin d → ℝ) {c s : ℝ} (hc : 0 < c) {E : Mat q q} (hE : IsUnit E.det)
    (hk : ∀ x y, k' (T x) (T y) = c * k x y) (hn : nug' = c * nug)
    (hb : ∀ x j, b' (T x) j = ∑ l, b x l * E l j)
    (hs : g.meantype = "parameterized" → ∀ l j, E l j = s)
    (π : Equiv.Perm (Fin (q + r))) (σ : Fin m' → Fin m)
    (xi xi' : Pts (q + r) d) (xt : Pts m d) (xt' : Pts m' d)
    (hxi : ∀ i, xi'.val i = T (xi.val (π i))) (hxt : ∀ t, xt'.val t = T (xt.val (σ t)))
    (hne : xi.id ≠ xt.id) (hne' : xi'.id ≠ xt'.id) (f f' : ℕ) (hf : xi.id < f ∧ xt.id < f)
    (hf' : xi'.id < f' ∧ xt'.id < f')
    (hK : (g.covMat xi xi θ).PosDef ∨
      (g.meantype = "linear_predictor" ∧ CPD (g.covMat xi xi θ) (g.mean xi g.meanparam)))
    (hP : g.meantype = "linear_predictor" → FullRank (g.mean xi g.meanparam))
    (z : Fin (q + r) → ℝ) (zn c1 c2 : Bool) :
    ∃ mean var lam, predict be la f g xi (.vec z) xt zn c1 = .ok (mean, var, lam) ∧
      predict be' la' f' g' xi' (.vec fun i => s * z (π i)) xt' zn c2 =
        .ok (fun t => s * mean (σ t), fun t => c * var (σ t), lam.submatrix π σ) := by
  have v1 := conv_val c1 be f xi
  have v2 := conv_val c1 be (f + 1) xt
  have v3 := conv_val c2 be' f' xi'
  have v4 := conv_val c2 be' (f' + 1) xt'
  have n1 := conv_ne c1 be f xi xt hne hf.1 hf.2
  have n2 := conv_ne c2 be' f' xi' xt' hne' hf'.1 hf'.2
  set y := conv c1 be f xi
  set w := conv c1 be (f + 1) xt
  set y' := conv c2 be' f' xi'
  set w' := conv c2 be' (f' + 1) xt'
  have hmoved : Moved π σ c E (g.arrays θ y w) (g'.arrays θ' y' w') := by
    refine ⟨fun i j => ?_, fun i t => ?_, fun t => ?_, ?_, ?_⟩
    · change g'.covMat y' y' θ' i j = c * g.covMat y y θ (π i) (π j)
      rw [hg'.self, hg.self, v3, v1, hxi, hxi, hk, hn]
      by_cases h : i = j
      · simp [h, mul_add]
      · rw [if_neg h, if_neg (fun hp => h (π.injective hp))]
        ring
    · change g'.covMat y' w' θ' i t = c * g.covMat y w θ (π i) (σ t)
      rw [hg'.other _ _ _ _ n2, hg.other _ _ _ _ n1, v3, v4, v1, v2, hxi, hxt, hk]
    · change g'.covDiag w' θ' t = c * g.covDiag w θ (σ t)
      rw [hg'.diag, hg.diag, v4, v2, hxt, hk]
    · ext i j
      change g'.mean y' g'.meanparam i j = _
      rw [hg'.mean, v3, hxi, hb, Matrix.mul_apply]
      refine Finset.sum_congr rfl fun l _ => ?_
      change _ = g.mean y g.meanparam (π i) l * _
      rw [hg.mean, v1]
    · ext i j
      change g'.mean w' g'.meanparam i j = _
      rw [hg'.mean, v4, hxt, hb, Matrix.mul_apply]
      refine Finset.sum_congr rfl fun l _ => ?_
      change _ = g.mean w g.meanparam (σ i) l * _
      rw [hg.mean, v2]
  have hKe : (g.arrays θ y w).Kii = g.covMat xi xi θ := hg.covMat_val v1
  have hPe : (g.arrays θ y w).Pi = g.mean xi g.meanparam := hg.mean_val v1
  have key : ∀ mt : MeanType (q + r) m, g.meanType y w = .ok mt →
      g'.meanType y' w' = .ok (mt.moved π σ s) → Regular mt (g.arrays θ y w) →
      ∃ mean var lam, predict be la f g xi (.vec z) xt zn c1 = .ok (mean, var, lam) ∧
      predict be' la' f' g' xi' (.vec fun i => s * z (π i)) xt' zn c2 =
        .ok (fun t => s * mean (σ t), fun t => c * var (σ t), lam.submatrix π σ) := by
    intro mt h1 h2 hreg
    obtain ⟨mean, var, lam, p1, p2⟩ := predict_moved hla hla' hc hE hmoved mt hreg s z zn
    exact ⟨mean, var, lam, (predict_arrays hθ hu.refuses f xi z xt zn c1 h1).trans p1,
      (predict_arrays hθ' hu'.refuses f' xi' _ xt' zn c2 h2).trans p2⟩
  have hu0 := hu
  rcases hu with hm | hm | ⟨hm, hq, hmp⟩
  · have hPD : (g.covMat xi xi θ).PosDef := by
      rcases hK with h | h
      · exact h
      · rw [hm] at h; exact absurd h.1 (by decide)
    refine key .zero (by simp [GP.meanType, hm]) (by simp [GP.meanType, hty, hm, MeanType.moved]) ?_
    change (g.arrays θ y w).Kii.PosDef
    rwa [hKe]
  · have hC : CPD (g.covMat xi xi θ) (g.mean xi g.meanparam) := by
      rcases hK with h | h
      · exact CPD.of_posDef h _
      · exact h.2
    refine key .linearPredictor (by simp [GP.meanType, hm])
      (by simp [GP.meanType, hty, hm, MeanType.moved]) ?_
    change CPD (g.arrays θ y w).Kii (g.arrays θ y w).Pi ∧ FullRank (g.arrays θ y w).Pi
    rw [hKe, hPe]
    exact ⟨hC, hP hm⟩
  · have hPD : (g.covMat xi xi θ).PosDef := by
      rcases hK with h | h
      · exact h
      · rw [hm] at h; exact absurd h.1 (by decide)
    have hmp' : g'.meanparam.isSome := by
      rcases hu' with h | h | ⟨_, _, h⟩
      · rw [hty, hm] at h; exact absurd h (by decide)
      · rw [hty, hm] at h; exact absurd h (by decide)
      · exact h
    obtain ⟨mp, hmp⟩ := Option.isSome_iff_exists.mp hmp
    obtain ⟨mp', hmp'⟩ := Option.isSome_iff_exists.mp hmp'
    set j0 : Fin q := ⟨0, by omega⟩
    have hty2 : ∀ {n m : ℕ} (x : Pts n d) (y : Pts m d), g.meanType x y =
        .ok (.parameterized (fun i => b (x.val i) j0) fun i => b (y.val i) j0) := by
      intro n m x y
      simp only [GP.meanType, hm, hmp, flatCol_one hq]
      simp only [bind, Except.bind, pure, Except.pure]
      rw [if_neg (by decide), if_neg (by decide), if_pos trivial]
      congr 2 <;> funext i
      · rw [← hmp, hg.mean]
      · rw [← hmp, hg.mean]
    have hty3 : ∀ {n m : ℕ} (x : Pts n d) (y : Pts m d), g'.meanType x y =
        .ok (.parameterized (fun i => b' (x.val i) j0) fun i => b' (y.val i) j0) := by
      intro n m x y
      simp only [GP.meanType, hty, hm, hmp', flatCol_one hq]
      simp only [bind, Except.bind, pure, Except.pure]
      rw [if_neg (by decide), if_neg (by decide), if_pos trivial]
      congr 2 <;> funext i
      · rw [← hmp', hg'.mean]
      · rw [← hmp', hg'.mean]
    have hbs : ∀ x, b' (T x) j0 = s * b x j0 := by
      intro x
      rw [hb, Finset.sum_eq_single j0]
      · rw [hs hm, mul_comm]
      · intro l _ hl
        exact absurd (Fin.ext (by have := l.2; simp [j0]; omega)) hl
      · simp
    refine key _ (hty2 y w) ?_ ?_
    · rw [hty3 y' w']
      simp only [MeanType.moved, v1, v2, v3, v4, hxi, hxt, hbs]
    · change (g.arrays θ y w).Kii.PosDef
      rwa [hKe]

end Obj

/-- Twice the data, four times the covariance, the points listed in the other order. -/
example : let a : Arrays (0 + 2) 1 0 := ⟨!![2, 1; 1, 2], !![1; 0], fun _ => 2, 0, 0, 0⟩
    let a' : Arrays (0 + 2) 1 0 := ⟨!![8, 4; 4, 8], !![0; 4], fun _ => 8, 0, 0, 0⟩
    ∃ mean var lam, predict (exactLA .numpy) .zero a ![3, 5] true = .ok (mean, var, lam) ∧
      predict (exactLA .torch) .zero a' ![10, 6] true =
        .ok (fun t => 2 * mean t, fun t => 4 * var t, lam.submatrix (Equiv.swap 0 1) id) := by
  intro a a'
  have h : Moved (Equiv.swap (0 : Fin (0 + 2)) 1) id 4 (1 : Mat 0 0) a a' := by
    refine ⟨fun i j => ?_, fun i t => ?_, fun t => ?_, ?_, ?_⟩
    · fin_cases i <;> fin_cases j <;> norm_num [a, a']
    · fin_cases i <;> fin_cases t <;> norm_num [a, a']
    · norm_num [a, a']
    · ext i j; exact j.elim0
    · ext i j; exact j.elim0
  have hK : a.Kii.PosDef := by
    refine PosDef.of_dotProduct_mulVec_pos ?_ fun x hx => ?_
    · ext i j; fin_cases i <;> fin_cases j <;> rfl
    · simp only [a, dotProduct, mulVec, star_trivial]
      have h01 : x 0 ≠ 0 ∨ x 1 ≠ 0 := by
        by_contra! h
        exact hx (funext fun i => by fin_cases i; exacts [h.1, h.2])
      simp
      rcases h01 with h | h
      · nlinarith [sq_nonneg (x 0 + x 1), sq_nonneg (x 1), mul_self_pos.mpr h]
      · nlinarith [sq_nonneg (x 0 + x 1), sq_nonneg (x 0), mul_self_pos.mpr h]
  have := predict_moved (exactLA_contract .numpy) (exactLA_contract .torch) (by norm_num) (by simp) h .zero hK 2
    ![3, 5] true
  have hz : (fun i => 2 * (![3, 5] : Fin (0 + 2) → ℝ) (Equiv.swap 0 1 i)) = ![10, 6] := by
    funext i
    fin_cases i <;> norm_num
  rw [hz] at this
  exact this

end Verif.Core
