import Verif.Core.PropsKriging
import Verif.Kernel.PropsCov

/-!
# C28, C29, C30, C35: the null-space fallback and `Model.predict`
-/

set_option autoImplicit false

namespace Verif.Core

open Verif Verif.Data Matrix

variable {m q : ℕ} {be : Backend} {la : LA}

/-! ## `predict` in closed form -/

theorem predict_zero {r : ℕ} (hla : la.Contract be) (a : Arrays (q + r) m q) (hK : a.Kii.PosDef)
    (zi : Fin (q + r) → ℝ) (zn : Bool) :
    predict la .zero a zi zn = .ok
      (fun t => ∑ i, (a.Kii⁻¹ * a.Kit) i t * zi i + 0,
       (let v := fun t => a.vt t - ∑ i, (a.Kii⁻¹ * a.Kit) i t * a.Kit i t
        if zn then fun t => max (v t) 0 else v),
       a.Kii⁻¹ * a.Kit) := by
  simp only [predict, selectPredictor, (krigingZeroMean_ok hla a hK).1, bind, Except.bind, pure,
    Except.pure, PostVar.toVar, Pi.zero_apply]

theorem predict_param {r : ℕ} (hla : la.Contract be) (a : Arrays (q + r) m q) (hK : a.Kii.PosDef)
    (mi : Fin (q + r) → ℝ) (mt : Fin m → ℝ) (zi : Fin (q + r) → ℝ) (zn : Bool) :
    predict la (.parameterized mi mt) a zi zn = .ok
      (fun t => ∑ i, (a.Kii⁻¹ * a.Kit) i t * (zi - mi) i + mt t,
       (let v := fun t => a.vt t - ∑ i, (a.Kii⁻¹ * a.Kit) i t * a.Kit i t
        if zn then fun t => max (v t) 0 else v),
       a.Kii⁻¹ * a.Kit) := by
  simp only [predict, selectPredictor, (krigingZeroMean_ok hla a hK).1, bind, Except.bind, pure,
    Except.pure, PostVar.toVar]

theorem predict_linear {r : ℕ} (hla : la.Contract be) (a : Arrays (q + r) m q)
    (hK : CPD a.Kii a.Pi) (hP : FullRank a.Pi) (zi : Fin (q + r) → ℝ) (zn : Bool) :
    ∃ X, ukLHS a * X = ukRHS a ∧ predict la .linearPredictor a zi zn = .ok
      (fun t => ∑ i, X.toRows₁ i t * zi i + 0,
       (let v := fun t => a.vt t - ∑ i, X i t * ukRHS a i t
        if zn then fun t => max (v t) 0 else v),
       X.toRows₁) := by
  obtain ⟨X, hX, h0, _⟩ := ukDirect_ok hla a hK hP
  refine ⟨X, hX, ?_⟩
  simp only [predict, selectPredictor, krigingUniversal, h0, bind, Except.bind, pure,
    Except.pure, PostVar.toVar, Pi.zero_apply]

/-! ## C30 -/

/-- **C30** With `zero_neg_variances` every returned variance is nonnegative, and
equals the raw one whenever that is nonnegative; the means and weights do not
depend on the flag. -/
theorem predict_nonneg {r : ℕ} (mt : MeanType (q + r) m) (a : Arrays (q + r) m q)
    (zi : Fin (q + r) → ℝ) {mean var : Fin m → ℝ} {lam : Mat (q + r) m}
    (h : predict la mt a zi true = .ok (mean, var, lam)) :
    (∀ t, 0 ≤ var t) ∧ ∃ raw, predict la mt a zi false = .ok (mean, raw, lam) ∧
      ∀ t, (0 ≤ raw t → var t = raw t) ∧ (raw t < 0 → var t = 0) := by
  simp only [predict, bind, Except.bind, pure, Except.pure] at h ⊢
  cases hs : selectPredictor la mt a zi with
  | error e => rw [hs] at h; cases h
  | ok x =>
    obtain ⟨zc, zm, l, v⟩ := x
    rw [hs] at h
    simp only [if_true, Except.ok.injEq, Prod.mk.injEq] at h
    obtain ⟨rfl, rfl, rfl⟩ := h
    refine ⟨fun t => le_max_right _ _, v, by simp, fun t => ⟨fun h => max_eq_left h, fun h => ?_⟩⟩
    exact max_eq_right h.le

/-- **C30** The refusals of `predict`: a parameterised mean without parameters and
an unknown mean type. -/
theorem predict_refuses {r : ℕ} (a : Arrays (q + r) m q) (zi : Fin (q + r) → ℝ) (zn : Bool) :
    predict la .parameterizedNone a zi zn = .error .valueError ∧
    predict la .invalid a zi zn = .error .valueError := ⟨rfl, rfl⟩

/-! ## C29: interpolation -/

/-- The arrays when the targets are the very array of observation points: the
cross covariance is the covariance matrix (nugget included). -/
structure SameObject {n q : ℕ} (a : Arrays n n q) : Prop where
  Kit : a.Kit = a.Kii
  Pt : a.Pt = a.Pi

/-- The three mean types, with the same mean vector at observations and targets. -/
def MeanSame {n : ℕ} : MeanType n n → Prop
  | .zero => True
  | .parameterized mi mt => mt = mi
  | .linearPredictor => True
  | _ => False

theorem uk_same {n q : ℕ} (a : Arrays n n q) (h : SameObject a) (hK : CPD a.Kii a.Pi)
    (hP : FullRank a.Pi) {X : Matrix (Fin n ⊕ Fin q) (Fin n) ℝ} (hX : ukLHS a * X = ukRHS a) :
    X = Matrix.fromRows 1 0 := by
  have h1 : ukLHS a * Matrix.fromRows 1 0 = ukRHS a := by
    rw [ukLHS, ukRHS, h.Kit, h.Pt, fromBlocks_mul_fromRows]
    simp
  have hu := (Matrix.isUnit_iff_isUnit_det _).mp (ukLHS_unit a hK hP)
  have := congrArg (fun Y => (ukLHS a)⁻¹ * Y) (hX.trans h1.symm)
  simp only [← Matrix.mul_assoc, Matrix.nonsing_inv_mul _ hu, Matrix.one_mul] at this
  exact this

/-- **C29** Predicting at the observation points themselves (the same array)
returns the data, for the three mean types, and the raw variance is the prior
variance minus the diagonal of the data covariance. -/
theorem predict_interpolates {r : ℕ} (hla : la.Contract be) (a : Arrays (q + r) (q + r) q)
    (hs : SameObject a) (hK : a.Kii.PosDef) (hP : FullRank a.Pi) (mt : MeanType (q + r) (q + r))
    (hmt : MeanSame mt) (zi : Fin (q + r) → ℝ) :
    ∃ lam, predict la mt a zi false = .ok (zi, fun t => a.vt t - a.Kii t t, lam) := by
  have h1 : a.Kii⁻¹ * a.Kit = 1 := by
    rw [hs.Kit, Matrix.nonsing_inv_mul _ (PosDef.det_unit hK)]
  have hsum : ∀ (t : Fin (q + r)) (f : Fin (q + r) → ℝ),
      ∑ i, (1 : Mat (q + r) (q + r)) i t * f i = f t := by
    intro t f
    simp [Matrix.one_apply]
  cases mt with
  | zero =>
    refine ⟨1, (predict_zero hla a hK zi false).trans ?_⟩
    rw [h1, hs.Kit]
    simp [Matrix.one_apply]
  | parameterized mi mt =>
    refine ⟨1, (predict_param hla a hK mi mt zi false).trans ?_⟩
    rw [h1, hs.Kit]
    have : mt = mi := hmt
    subst this
    simp [Matrix.one_apply]
  | linearPredictor =>
    obtain ⟨X, hX, hp⟩ := predict_linear hla a (CPD.of_posDef hK _) hP zi false
    have hX' := uk_same a hs (CPD.of_posDef hK _) hP hX
    refine ⟨1, hp.trans ?_⟩
    subst hX'
    simp [Matrix.one_apply, ukRHS, hs.Kit, hs.Pt]
  | parameterizedNone => exact absurd hmt (by simp [MeanSame])
  | invalid => exact absurd hmt (by simp [MeanSame])

open Verif.Kernel in
/-- The arrays of a Matérn model when `xt` is the same object as `xi`
(`maternp_covariance` applied as `kriging.py` does). -/
noncomputable def maternSame {n d : ℕ} (p : ℕ) (eps : ℝ) (param : Fin (d + 1) → ℝ)
    (x : Matrix (Fin n) (Fin d) ℝ) (P : Mat n q) : Arrays n n q where
  Kii := cov (maternFormula p) eps param x .same
  Kit := cov (maternFormula p) eps param x .same
  vt := covPairwise (maternFormula p) param x .none
  Ktt := cov (maternFormula p) eps param x .none
  Pi := P
  Pt := P

/-- **C29** For the Matérn covariance, predicting at the same array returns
exactly the data with variance exactly zero (the raw variance is `-10 ε σ²`, so
the clipping is what makes it zero). -/
theorem matern_interpolates {r d : ℕ} (hla : la.Contract be) (p : ℕ) {eps : ℝ} (heps : 0 ≤ eps)
    (param : Fin (d + 1) → ℝ) (x : Matrix (Fin (q + r)) (Fin d) ℝ) (P : Mat (q + r) q)
    (hK : (maternSame p eps param x P).Kii.PosDef) (hP : FullRank P)
    (mt : MeanType (q + r) (q + r)) (hmt : MeanSame mt) (zi : Fin (q + r) → ℝ) :
    (∃ lam, predict la mt (maternSame p eps param x P) zi true = .ok (zi, fun _ => 0, lam)) ∧
    (∃ lam, predict la mt (maternSame p eps param x P) zi false =
      .ok (zi, fun _ => -(10 * eps * Real.exp (param 0)), lam)) := by
  obtain ⟨lam, h⟩ := predict_interpolates hla (maternSame p eps param x P) ⟨rfl, rfl⟩ hK hP mt hmt zi
  have hv : ∀ t, (maternSame p eps param x P).vt t - (maternSame p eps param x P).Kii t t =
      -(10 * eps * Real.exp (param 0)) := by
    intro t
    have h1 := (Kernel.cov_pairwise p eps param x t).2 .none (Or.inl rfl)
    have h2 : Kernel.cov (Kernel.maternFormula p) eps param x .none =
        Kernel.cov (Kernel.maternFormula p) eps param x .same := rfl
    simp only [maternSame]
    rw [h1, h2]
    ring
  simp only [hv] at h
  refine ⟨⟨lam, ?_⟩, lam, h⟩
  simp only [predict, bind, Except.bind, pure, Except.pure] at h ⊢
  cases hs : selectPredictor la mt (maternSame p eps param x P) zi with
  | error e => rw [hs] at h; cases h
  | ok y =>
    obtain ⟨zc, zm, l, v⟩ := y
    rw [hs] at h
    simp only [Bool.false_eq_true, if_false, if_true, Except.ok.injEq, Prod.mk.injEq] at h ⊢
    obtain ⟨h1, h2, h3⟩ := h
    refine ⟨h1, ?_, h3⟩
    funext t
    rw [h2]
    apply max_eq_right
    have := Real.exp_pos (param 0)
    have : 0 ≤ 10 * eps * Real.exp (param 0) := by positivity
    linarith

/-- **C79** If the targets are a *copy* of the observation points (which is what
torch's conversion of numpy inputs produces) the zero-mean prediction is not the
data: it misses them by `nugget · K⁻¹ z`, which is nonzero for every nonzero data
vector. -/
theorem predict_copy {r : ℕ} (hla : la.Contract be) (a : Arrays (q + r) (q + r) q) (nug : ℝ)
    (hcopy : a.Kit = a.Kii - nug • (1 : Mat (q + r) (q + r))) (hK : a.Kii.PosDef)
    (zi : Fin (q + r) → ℝ) (zn : Bool) :
    ∃ mean var lam, predict la .zero a zi zn = .ok (mean, var, lam) ∧
      zi - mean = nug • (a.Kii⁻¹ *ᵥ zi) ∧ (nug ≠ 0 → zi ≠ 0 → mean ≠ zi) := by
  refine ⟨_, _, _, predict_zero hla a hK zi zn, ?_⟩
  have hsym : (a.Kii⁻¹)ᵀ = a.Kii⁻¹ := by rw [transpose_nonsing_inv, PosDef.symm hK]
  have h1 : a.Kii⁻¹ * a.Kit = 1 - nug • a.Kii⁻¹ := by
    rw [hcopy, Matrix.mul_sub, Matrix.nonsing_inv_mul _ (PosDef.det_unit hK), Matrix.mul_smul,
      Matrix.mul_one]
  have h2 : (zi - fun t => ∑ i, (a.Kii⁻¹ * a.Kit) i t * zi i + 0) = nug • (a.Kii⁻¹ *ᵥ zi) := by
    rw [h1]
    funext t
    have h3 : ∑ i, a.Kii⁻¹ i t * zi i = (a.Kii⁻¹ *ᵥ zi) t := by
      nth_rewrite 2 [← hsym]
      rfl
    simp only [Pi.sub_apply, Pi.smul_apply, smul_eq_mul, Matrix.sub_apply, Matrix.smul_apply,
      sub_mul, Finset.sum_sub_distrib, add_zero]
    rw [← h3, Finset.mul_sum]
    simp [Matrix.one_apply, mul_assoc]
  refine ⟨h2, fun hn hz hm => ?_⟩
  rw [hm, sub_self] at h2
  have h4 : a.Kii⁻¹ *ᵥ zi = 0 := by
    rcases smul_eq_zero.mp h2.symm with h | h
    · exact absurd h hn
    · exact h
  apply hz
  have h5 : a.Kii *ᵥ (a.Kii⁻¹ *ᵥ zi) = zi := by
    rw [mulVec_mulVec, Matrix.mul_nonsing_inv _ (PosDef.det_unit hK), one_mulVec]
  rw [← h5, h4, mulVec_zero]

open Verif.Kernel in
/-- The copy situation arises for the Matérn covariance, with `nug = 10 ε σ²`. -/
theorem matern_copy {n d : ℕ} (p : ℕ) (eps : ℝ) (param : Fin (d + 1) → ℝ)
    (x : Matrix (Fin n) (Fin d) ℝ) :
    cov (maternFormula p) eps param x (.other x) =
      cov (maternFormula p) eps param x .same -
        (10 * eps * Real.exp (param 0)) • (1 : Matrix (Fin n) (Fin n) ℝ) := by
  rw [cov_copy]; simp

/-! ## C35: equivariance -/

/-- **C35** With an unknown linear mean, adding `P β` to the observations adds
`Pt β` to the predictions and changes neither variances nor weights. -/
theorem predict_equivariant {r : ℕ} (hla : la.Contract be) (a : Arrays (q + r) m q)
    (hK : CPD a.Kii a.Pi) (hP : FullRank a.Pi) (zi : Fin (q + r) → ℝ) (beta : Fin q → ℝ)
    (zn : Bool) :
    ∃ mean var lam, predict la .linearPredictor a zi zn = .ok (mean, var, lam) ∧
      predict la .linearPredictor a (zi + a.Pi *ᵥ beta) zn =
        .ok (mean + a.Pt *ᵥ beta, var, lam) := by
  obtain ⟨X, hX, h0, _⟩ := ukDirect_ok hla a hK hP
  have hp : ∀ z, predict la .linearPredictor a z zn = .ok
      (fun t => ∑ i, X.toRows₁ i t * z i + 0,
       (let v := fun t => a.vt t - ∑ i, X i t * ukRHS a i t
        if zn then fun t => max (v t) 0 else v), X.toRows₁) := by
    intro z
    simp only [predict, selectPredictor, krigingUniversal, h0, bind, Except.bind, pure,
      Except.pure, PostVar.toVar, Pi.zero_apply]
  refine ⟨_, _, _, hp zi, (hp _).trans ?_⟩
  have : (fun t => ∑ i, X.toRows₁ i t * (zi + a.Pi *ᵥ beta) i + 0) =
      (fun t => ∑ i, X.toRows₁ i t * zi i + 0) + a.Pt *ᵥ beta := by
    funext t
    have h2 := ((ukSystem_iff a X).mp hX t).2
    have h3 : ∑ i, X.toRows₁ i t * (a.Pi *ᵥ beta) i = (a.Pt *ᵥ beta) t := by
      have h4 := dot_mulVec_transpose a.Pi (fun i => X (Sum.inl i) t) beta
      rw [h2] at h4
      exact h4
    simp only [Pi.add_apply, mul_add, Finset.sum_add_distrib, add_zero]
    rw [h3]
  rw [this]

/-! ## C28: the null-space fallback -/

/-- What the fallback computes (when it succeeds). -/
theorem ukNullspace_ok {r : ℕ} (hla : la.Sound be) (a : Arrays (q + r) m q)
    (hK : CPD a.Kii a.Pi) (hP : FullRank a.Pi) (hb : IsUnit (symSystem be (Rof (la.qr a.Pi).2)ᵀ)) :
    ∃ beta, symSystem be (Rof (la.qr a.Pi).2)ᵀ * beta = a.Ptᵀ ∧
      ∃ alpha, (Wof (la.qr a.Pi).1)ᵀ * (a.Kii * Wof (la.qr a.Pi).1) * alpha =
          (Wof (la.qr a.Pi).1)ᵀ * a.Kit ∧
        ukNullspace la a 0 = .ok
          (Wof (la.qr a.Pi).1 * alpha + Q1of (la.qr a.Pi).1 * beta,
           .var fun t => a.vt t - ∑ i, (Matrix.fromRows (Wof (la.qr a.Pi).1 * alpha +
             Q1of (la.qr a.Pi).1 * beta) beta) i t * ukRHS a i t) := by
  have hqr := hla.qr_ok a.Pi (Nat.le_add_right q r)
  have hW := hqr.contrast hP
  have hG : ((Wof (la.qr a.Pi).1)ᵀ * (a.Kii * Wof (la.qr a.Pi).1)).PosDef :=
    contrast_posDef hW.orth hW.null hK
  obtain ⟨C, _, hc⟩ := choleskySolve_ok hla hG ((Wof (la.qr a.Pi).1)ᵀ * a.Kit)
  obtain ⟨beta, hbeta⟩ := hla.solveSym_total (Rof (la.qr a.Pi).2)ᵀ a.Ptᵀ hb
  refine ⟨beta, hla.solveSym_ok _ _ _ hbeta,
    ((Wof (la.qr a.Pi).1)ᵀ * (a.Kii * Wof (la.qr a.Pi).1))⁻¹ *
      ((Wof (la.qr a.Pi).1)ᵀ * a.Kit), ?_, ?_⟩
  · rw [← Matrix.mul_assoc, Matrix.mul_nonsing_inv _ (PosDef.det_unit hG), Matrix.one_mul]
  · unfold ukNullspace qrNullspace
    have hc' : choleskySolve la
        (((la.qr a.Pi).1.submatrix id (Fin.natAdd q))ᵀ *
          (a.Kii * (la.qr a.Pi).1.submatrix id (Fin.natAdd q)))
        (((la.qr a.Pi).1.submatrix id (Fin.natAdd q))ᵀ * a.Kit) = _ := hc
    have hbeta' : la.solveSym ((la.qr a.Pi).2.submatrix (Fin.castAdd r) id)ᵀ a.Ptᵀ = _ := hbeta
    simp only [hc', hbeta', bind, Except.bind, pure, Except.pure, posteriorVariance]
    rw [if_neg (by decide), if_pos trivial]
    rfl

/-- The analysis of the fallback when the symmetric solver sees the right matrix. -/
theorem nullspace_core {r : ℕ} (hla : la.Sound be) (a : Arrays (q + r) m q)
    (hK : CPD a.Kii a.Pi) (hP : FullRank a.Pi)
    (hsym : symSystem be (Rof (la.qr a.Pi).2)ᵀ = (Rof (la.qr a.Pi).2)ᵀ) :
    ∃ lam V beta, ukNullspace la a 0 = .ok (lam, V) ∧
      (Rof (la.qr a.Pi).2)ᵀ * beta = a.Ptᵀ ∧
      ∀ t, Unbiased a.Pi (a.Pt t) (fun i => lam i t) ∧
        ((∀ w, Unbiased a.Pi (a.Pt t) w →
            mse a.Kii (fun i => a.Kit i t) (a.vt t) (fun i => lam i t) ≤
              mse a.Kii (fun i => a.Kit i t) (a.vt t) w) ↔
          (Wof (la.qr a.Pi).1)ᵀ *ᵥ (a.Kii *ᵥ (Q1of (la.qr a.Pi).1 *ᵥ (fun j => beta j t))) = 0) := by
  have hqr := hla.qr_ok a.Pi (Nat.le_add_right q r)
  have hW := hqr.contrast hP
  have hb : IsUnit (symSystem be (Rof (la.qr a.Pi).2)ᵀ) := by
    rw [hsym, Matrix.isUnit_iff_isUnit_det, det_transpose, ← Matrix.isUnit_iff_isUnit_det]
    exact Rof_unit hqr hP
  obtain ⟨beta, hbeta, alpha, halpha, hok⟩ := ukNullspace_ok hla a hK hP hb
  rw [hsym] at hbeta
  set Q := (la.qr a.Pi).1 with hQdef
  set R := (la.qr a.Pi).2 with hRdef
  set lam := Wof Q * alpha + Q1of Q * beta with hlam
  refine ⟨lam, _, beta, hok, hbeta, fun t => ?_⟩
  have hPl : a.Piᵀ * lam = a.Ptᵀ := by
    rw [hlam, Matrix.mul_add, ← Matrix.mul_assoc, hW.null, Matrix.zero_mul, zero_add, hqr.P_eq,
      transpose_mul, Matrix.mul_assoc, ← Matrix.mul_assoc _ (Q1of Q), hqr.Q1Q1, Matrix.one_mul,
      hbeta]
  have hu : Unbiased a.Pi (a.Pt t) (fun i => lam i t) := by
    unfold Unbiased
    ext j
    have := congrFun (congrFun hPl j) t
    rw [Matrix.mul_apply] at this
    exact this
  refine ⟨hu, ?_⟩
  -- the universal kriging weights
  let al : Fin r → ℝ := fun j => alpha j t
  let bt : Fin q → ℝ := fun j => beta j t
  have hl : (fun i => lam i t) = Wof Q *ᵥ al + Q1of Q *ᵥ bt := by
    ext i
    simp only [hlam, Matrix.add_apply, Matrix.mul_apply, Pi.add_apply, mulVec, dotProduct, al, bt]
  have hal : (Wof Q)ᵀ *ᵥ (a.Kii *ᵥ (Wof Q *ᵥ al)) = (Wof Q)ᵀ *ᵥ (fun i => a.Kit i t) := by
    ext j
    have := congrFun (congrFun halpha j) t
    rw [Matrix.mul_apply, Matrix.mul_apply] at this
    rw [mulVec_mulVec, mulVec_mulVec]
    rw [← Matrix.mul_assoc] at this
    exact this
  have hres : (Wof Q)ᵀ *ᵥ (a.Kii *ᵥ (fun i => lam i t) - fun i => a.Kit i t) =
      (Wof Q)ᵀ *ᵥ (a.Kii *ᵥ (Q1of Q *ᵥ bt)) := by
    rw [mulVec_sub, hl, mulVec_add, mulVec_add, hal]
    abel
  constructor
  · intro hmin
    -- move along the contrast `W (Wᵀ residual)`
    set g := (Wof Q)ᵀ *ᵥ (a.Kii *ᵥ (fun i => lam i t) - fun i => a.Kit i t) with hg
    have hg0 : g = 0 := by
      by_contra hne
      have hgg : 0 < g ⬝ᵥ g := by
        have := Matrix.dotProduct_self_star_pos_iff (v := g) |>.mpr hne
        simpa [star_trivial] using this
      set dvec := Wof Q *ᵥ g with hd
      set A := dvec ⬝ᵥ (a.Kii *ᵥ dvec) with hA
      have hdP : a.Piᵀ *ᵥ dvec = 0 := by rw [hd, mulVec_mulVec, hW.null, zero_mulVec]
      have key : ∀ s : ℝ, 0 ≤ s ^ 2 * A - 2 * s * (g ⬝ᵥ g) := by
        intro s
        have hw : Unbiased a.Pi (a.Pt t) ((fun i => lam i t) - s • dvec) := by
          unfold Unbiased
          rw [mulVec_sub, mulVec_smul, hdP, smul_zero, sub_zero]
          exact hu
        have h1 := hmin _ hw
        rw [mse_diff hK.symm _ _ (fun i => lam i t) ((fun i => lam i t) - s • dvec)] at h1
        have h2 : (fun i => lam i t) - s • dvec - (fun i => lam i t) = (-s) • dvec := by
          rw [neg_smul]; abel
        rw [h2, mulVec_smul, smul_dotProduct, dotProduct_smul, smul_dotProduct] at h1
        have h3 : dvec ⬝ᵥ (a.Kii *ᵥ (fun i => lam i t) - fun i => a.Kit i t) = g ⬝ᵥ g := by
          rw [hd, dotProduct_comm, dot_mulVec_transpose, ← hg]
        rw [h3] at h1
        simp only [smul_eq_mul] at h1
        nlinarith
      have hApos : 0 ≤ A := by
        rcases eq_or_ne dvec 0 with h0 | h0
        · rw [hA, h0, zero_dotProduct]
        · exact (hK.pos _ h0 hdP).le
      have hc := key ((g ⬝ᵥ g) / (A + 1))
      have hA1 : 0 < A + 1 := by linarith
      have h5 : ((g ⬝ᵥ g) / (A + 1)) ^ 2 * A - 2 * ((g ⬝ᵥ g) / (A + 1)) * (g ⬝ᵥ g) =
          -((g ⬝ᵥ g) ^ 2 * (A + 2) / (A + 1) ^ 2) := by
        field_simp
        ring
      rw [h5] at hc
      have : 0 < (g ⬝ᵥ g) ^ 2 * (A + 2) / (A + 1) ^ 2 := by positivity
      linarith
    rw [← hres]
    exact hg0
  · intro h0 w hw
    rw [h0] at hres
    have hdd : a.Piᵀ *ᵥ (w - fun i => lam i t) = 0 := by
      rw [mulVec_sub, hw, hu, sub_self]
    obtain ⟨c, hc⟩ := hW.span _ hdd
    have h1 := mse_diff hK.symm (fun i => a.Kit i t) (a.vt t) (fun i => lam i t) w
    have h2 : (w - fun i => lam i t) ⬝ᵥ (a.Kii *ᵥ (fun i => lam i t) - fun i => a.Kit i t) = 0 := by
      rw [hc, dotProduct_comm, dot_mulVec_transpose, hres, zero_dotProduct]
    rw [h2, mul_zero, add_zero] at h1
    rcases eq_or_ne (w - fun i => lam i t) 0 with h3 | h3
    · rw [h3, zero_dotProduct, add_zero] at h1; exact h1.ge
    · have := hK.pos _ h3 hdd; linarith

/-- **C28** partial (torch): the fallback weights are unbiased, and they are the
universal kriging weights of target `t` exactly when `Wᵀ K Q₁ β_t = 0`.  Missing
for the full claim: the code omits the term `K Q₁ β` from the right-hand side of
the contrast system. -/
theorem nullspace_partial {r : ℕ} (hla : la.Sound .torch) (a : Arrays (q + r) m q)
    (hK : CPD a.Kii a.Pi) (hP : FullRank a.Pi) :
    ∃ lam V beta, ukNullspace la a 0 = .ok (lam, V) ∧
      (Rof (la.qr a.Pi).2)ᵀ * beta = a.Ptᵀ ∧
      ∀ t, Unbiased a.Pi (a.Pt t) (fun i => lam i t) ∧
        ((∀ w, Unbiased a.Pi (a.Pt t) w →
            mse a.Kii (fun i => a.Kit i t) (a.vt t) (fun i => lam i t) ≤
              mse a.Kii (fun i => a.Kit i t) (a.vt t) w) ↔
          (Wof (la.qr a.Pi).1)ᵀ *ᵥ (a.Kii *ᵥ (Q1of (la.qr a.Pi).1 *ᵥ (fun j => beta j t))) = 0) :=
  nullspace_core hla a hK hP rfl

/-- A library whose general solver always fails (as on an ill-conditioned system). -/
noncomputable def failSolve (be : Backend) : LA :=
  { exactLA be with solve := fun _ _ => .error .linAlgError }

theorem failSolve_sound (be : Backend) : (failSolve be).Sound be :=
  have h := (exactLA_contract be).toSound
  { chol_ok := h.chol_ok, chol_err := h.chol_err, solve_ok := (fun _ _ _ h => by cases h),
    solveSym_ok := h.solveSym_ok, solveSym_total := h.solveSym_total, qr_ok := h.qr_ok,
    inv_ok := h.inv_ok, inv_err := h.inv_err }

/-- **C28** is false of the code, on both backends: when the block solve fails, the
fallback returns weights that are unbiased but not the optimal ones
(`K = [[2,1],[1,2]]`, `P = (1,0)ᵀ`, `Kit = (1,0)ᵀ`, `Pt = 1`). -/
theorem nullspace_same_predictor_false (be : Backend) :
    ∃ la : LA, la.Sound be ∧ ∃ a : Arrays (1 + 1) 1 1, a.Kii.PosDef ∧ FullRank a.Pi ∧
      ∃ lam V, krigingUniversal la a 0 = .ok (lam, V) ∧
        Unbiased a.Pi (a.Pt 0) (fun i => lam i 0) ∧
        ∃ w, Unbiased a.Pi (a.Pt 0) w ∧
          mse a.Kii (fun i => a.Kit i 0) (a.vt 0) w <
            mse a.Kii (fun i => a.Kit i 0) (a.vt 0) (fun i => lam i 0) := by
  refine ⟨failSolve be, failSolve_sound be, exArrays, exArrays_posDef, exArrays_fullRank, ?_⟩
  have hK := CPD.of_posDef exArrays_posDef exArrays.Pi
  have hsym : ∀ A : Mat 1 1, symSystem be A = A := by
    intro A
    cases be
    · ext i j; fin_cases i; fin_cases j; simp [symSystem, symUpper]
    · rfl
  obtain ⟨lam, V, beta, hok, hbeta, h⟩ := nullspace_core (r := 1) (failSolve_sound be) exArrays hK
    exArrays_fullRank (hsym _)
  obtain ⟨hu, hiff⟩ := h 0
  refine ⟨lam, V, hok, hu, ?_⟩
  by_contra hcon
  push Not at hcon
  have h0 := hiff.mp hcon
  have hqr : IsQR exArrays.Pi _ _ := (failSolve_sound be).qr_ok exArrays.Pi (by decide)
  have hPeq := hqr.P_eq (r := 1)
  have hWQ := hqr.WQ1 (r := 1)
  have hWW := hqr.WW (r := 1)
  set Q := ((failSolve be).qr exArrays.Pi).1
  set R := ((failSolve be).qr exArrays.Pi).2
  have hPeq0 := congrFun (congrFun hPeq 0) 0
  have hPeq1 := congrFun (congrFun hPeq 1) 0
  have hWQ0 := congrFun (congrFun hWQ 0) 0
  have hWW0 := congrFun (congrFun hWW 0) 0
  have hb0 := congrFun (congrFun hbeta 0) 0
  have h00 := congrFun h0 0
  have s2 : ∀ f : Fin (1 + 1) → ℝ, ∑ i, f i = f 0 + f 1 := fun f => Fin.sum_univ_two f
  have s1 : ∀ f : Fin 1 → ℝ, ∑ i, f i = f 0 := fun f => Fin.sum_univ_one f
  rw [Matrix.mul_apply, s1] at hPeq0 hPeq1 hb0
  rw [Matrix.mul_apply, s2] at hWQ0 hWW0
  simp only [mulVec, dotProduct, s2, s1, transpose_apply, Pi.zero_apply] at h00
  simp only [transpose_apply] at hWQ0 hWW0 hb0
  have e1 : exArrays.Kii 0 0 = 2 ∧ exArrays.Kii 0 1 = 1 ∧ exArrays.Kii 1 0 = 1 ∧
    exArrays.Kii 1 1 = 2 ∧ exArrays.Pi 0 0 = 1 ∧ exArrays.Pi 1 0 = 0 ∧ exArrays.Pt 0 0 = 1 := by
    simp [exArrays]
  obtain ⟨k1, k2, k3, k4, k5, k6, k7⟩ := e1
  rw [k5] at hPeq0
  rw [k6] at hPeq1
  rw [k7] at hb0
  rw [k1, k2, k3, k4] at h00
  have hWW0' : Wof (q := 1) (r := 1) Q 0 0 * Wof (q := 1) (r := 1) Q 0 0 +
    Wof (q := 1) (r := 1) Q 1 0 * Wof (q := 1) (r := 1) Q 1 0 = 1 := hWW0
  have hWQ0' : Wof (q := 1) (r := 1) Q 0 0 * Q1of (q := 1) (r := 1) Q 0 0 +
    Wof (q := 1) (r := 1) Q 1 0 * Q1of (q := 1) (r := 1) Q 1 0 = 0 := hWQ0
  generalize Q1of (q := 1) (r := 1) Q 0 0 = a at *
  generalize Q1of (q := 1) (r := 1) Q 1 0 = b at *
  generalize Wof (q := 1) (r := 1) Q 0 0 = c at *
  generalize Wof (q := 1) (r := 1) Q 1 0 = d at *
  generalize Rof (q := 1) (r := 1) R 0 0 = rr at *
  generalize beta 0 0 = bb at *
  have hrr : rr ≠ 0 := by rintro rfl; simp at hb0
  have hb : b = 0 := by
    rcases mul_eq_zero.mp hPeq1.symm with h | h
    · exact h
    · exact absurd h hrr
  have hbb : bb ≠ 0 := by rintro rfl; simp at hb0
  have ha : a ≠ 0 := by rintro rfl; simp at hPeq0
  subst hb
  have hc : c = 0 := by
    have : c * a = 0 := by linarith
    exact (mul_eq_zero.mp this).resolve_right ha
  subst hc
  have hd : d ≠ 0 := by rintro rfl; simp at hWW0'
  have : d * (a * bb) = 0 := by linarith
  simp [hd, ha, hbb] at this

/-- Three observations, two trend functions. -/
def exArrays3 : Arrays (2 + 1) 1 2 where
  Kii := 1
  Kit := 0
  vt := fun _ => 1
  Ktt := 1
  Pi := !![1, 1; 0, 1; 0, 0]
  Pt := !![1, 0]

theorem exArrays3_fullRank : FullRank exArrays3.Pi := by
  intro b hb
  have h1 := congrFun hb 1
  have h0 := congrFun hb 0
  simp [exArrays3, mulVec, dotProduct, Fin.sum_univ_two] at h0 h1
  ext i
  fin_cases i
  · simp; linarith
  · simpa using h1

/-- **C28** is also false as to unbiasedness, on numpy: `Rqᵀ` is lower triangular
but is solved as a symmetric matrix, of which only the upper triangle is read. -/
theorem nullspace_unbiased_false :
    ∃ la : LA, la.Sound .numpy ∧ ∃ a : Arrays (2 + 1) 1 2, a.Kii.PosDef ∧ FullRank a.Pi ∧
      ∃ lam V, krigingUniversal la a 0 = .ok (lam, V) ∧
        ¬ Unbiased a.Pi (a.Pt 0) (fun i => lam i 0) := by
  have hpd : exArrays3.Kii.PosDef := Matrix.PosDef.one
  refine ⟨failSolve .numpy, failSolve_sound .numpy, exArrays3, hpd, exArrays3_fullRank, ?_⟩
  have hK := CPD.of_posDef hpd exArrays3.Pi
  have hqr : IsQR exArrays3.Pi _ _ := (failSolve_sound .numpy).qr_ok exArrays3.Pi (by decide)
  have hP := hqr.P_eq
  have hQQ := hqr.Q1Q1
  have hup := hqr.upper
  have hW := hqr.contrast exArrays3_fullRank
  set Q := ((failSolve .numpy).qr exArrays3.Pi).1 with hQ
  set R := ((failSolve .numpy).qr exArrays3.Pi).2 with hR
  have s2 : ∀ f : Fin 2 → ℝ, ∑ i, f i = f 0 + f 1 := fun f => Fin.sum_univ_two f
  -- RᵀR = PᵀP
  have hRR : (Rof R)ᵀ * Rof R = exArrays3.Piᵀ * exArrays3.Pi := by
    rw [hP, transpose_mul, Matrix.mul_assoc, ← Matrix.mul_assoc (Q1of Q)ᵀ, hQQ, Matrix.one_mul]
  have hPP : exArrays3.Piᵀ * exArrays3.Pi = !![1, 1; 1, 2] := by
    ext i j
    rw [Matrix.mul_apply]
    have s3 : ∀ f : Fin (2 + 1) → ℝ, ∑ i, f i = f 0 + f 1 + f 2 := fun f => Fin.sum_univ_three f
    rw [s3]
    fin_cases i <;> fin_cases j <;> simp [exArrays3] <;> norm_num
  rw [hPP] at hRR
  have h10 : Rof R 1 0 = 0 := hup _ _ (by decide)
  have r00 := congrFun (congrFun hRR 0) 0
  have r01 := congrFun (congrFun hRR 0) 1
  have r11 := congrFun (congrFun hRR 1) 1
  rw [Matrix.mul_apply, s2] at r00 r01 r11
  simp only [transpose_apply, h10, mul_zero, zero_mul, add_zero] at r00 r01 r11
  have r00' : Rof R 0 0 * Rof R 0 0 = 1 := by simpa using r00
  have r01' : Rof R 0 0 * Rof R 0 1 = 1 := by simpa using r01
  have r11' : Rof R 0 1 * Rof R 0 1 + Rof R 1 1 * Rof R 1 1 = 2 := by simpa using r11
  have heq : Rof R 0 1 = Rof R 0 0 := by
    have : Rof R 0 0 * (Rof R 0 0 * Rof R 0 1) = Rof R 0 0 := by rw [r01', mul_one]
    rw [← mul_assoc, r00', one_mul] at this
    exact this
  rw [heq, r00'] at r11'
  have hd : Rof R 1 1 ≠ 0 := by intro h; rw [h] at r11'; norm_num at r11'
  have ha : Rof R 0 0 ≠ 0 := by intro h; rw [h] at r00'; norm_num at r00'
  have hsym : symSystem .numpy (Rof R)ᵀ = !![Rof R 0 0, 0; 0, Rof R 1 1] := by
    ext i j
    fin_cases i <;> fin_cases j <;> simp [symSystem, symUpper, h10]
  have hb : IsUnit (symSystem .numpy (Rof R)ᵀ) := by
    rw [hsym, Matrix.isUnit_iff_isUnit_det, Matrix.det_fin_two]
    simp [ha, hd]
  obtain ⟨beta, hbeta, alpha, _, hok⟩ := ukNullspace_ok (failSolve_sound .numpy) exArrays3 hK
    exArrays3_fullRank hb
  refine ⟨_, _, hok, fun hu => ?_⟩
  have hu1 := congrFun hu 1
  have h1 : (exArrays3.Piᵀ *ᵥ fun i => (Wof Q * alpha + Q1of Q * beta) i 0) 1 =
      ((Rof R)ᵀ * beta) 1 0 := by
    have : exArrays3.Piᵀ * (Wof Q * alpha + Q1of Q * beta) = (Rof R)ᵀ * beta := by
      rw [Matrix.mul_add, ← Matrix.mul_assoc, hW.null, Matrix.zero_mul, zero_add, hP,
        transpose_mul, Matrix.mul_assoc, ← Matrix.mul_assoc _ (Q1of Q), hQQ, Matrix.one_mul]
    rw [← this, Matrix.mul_apply]
    rfl
  have h2 : (exArrays3.Piᵀ *ᵥ fun i => (Wof Q * alpha + Q1of Q * beta) i 0) 1 =
    exArrays3.Pt 0 1 := hu1
  rw [h1, Matrix.mul_apply, s2] at h2
  change symSystem .numpy (Rof R)ᵀ * beta = exArrays3.Ptᵀ at hbeta
  rw [hsym] at hbeta
  have b0 := congrFun (congrFun hbeta 0) 0
  have b1 := congrFun (congrFun hbeta 1) 0
  rw [Matrix.mul_apply, s2] at b0 b1
  have p0 : exArrays3.Pt 0 0 = 1 ∧ exArrays3.Pt 0 1 = 0 := by simp [exArrays3]
  simp [p0.1] at b0
  simp [p0.2] at b1
  rcases b1 with h | h
  · exact hd h
  · rw [p0.2] at h2
    simp only [transpose_apply, heq, h, mul_zero, add_zero] at h2
    rw [h2] at b0
    norm_num at b0

/-! ## Concrete cases -/

/-- Interpolation: two points with covariance `[[2,1],[1,2]]`. -/
def exSame : Arrays (1 + 1) (1 + 1) 1 where
  Kii := !![2, 1; 1, 2]
  Kit := !![2, 1; 1, 2]
  vt := fun _ => 2
  Ktt := !![2, 1; 1, 2]
  Pi := !![1; 0]
  Pt := !![1; 0]

example : ∃ lam, predict (exactLA .torch) .linearPredictor exSame ![5, 7] false =
    .ok (![5, 7], fun t => 2 - exSame.Kii t t, lam) :=
  predict_interpolates (exactLA_contract .torch) exSame ⟨rfl, rfl⟩ exArrays_posDef
    exArrays_fullRank .linearPredictor trivial ![5, 7]

/-- Two points: the Matérn covariance matrix with a positive nugget is positive
definite, so `matern_interpolates` applies. -/
theorem matern_two_posDef {d : ℕ} (p : ℕ) {eps : ℝ} (heps : 0 < eps) (param : Fin (d + 1) → ℝ)
    (x : Matrix (Fin (1 + 1)) (Fin d) ℝ) (P : Mat (1 + 1) q) :
    (maternSame p eps param x P).Kii.PosDef := by
  obtain ⟨hs, hd, _, ho, _⟩ := Kernel.cov_self p eps param x .same (Or.inr rfl)
  set K := Kernel.cov (Kernel.maternFormula p) eps param x .same with hK
  change K.PosDef
  obtain ⟨h1, h2⟩ := ho 0 1 (by decide)
  have he := Real.exp_pos (param 0)
  apply posDef_of_quad
  · exact hs
  · intro v hv
    have hs' : K 1 0 = K 0 1 := congrFun (congrFun hs 0) 1
    have hq : v ⬝ᵥ (K *ᵥ v) = v 0 * (K 0 0 * v 0 + K 0 1 * v 1) +
        v 1 * (K 1 0 * v 0 + K 1 1 * v 1) := by
      have s2 : ∀ f : Fin (1 + 1) → ℝ, ∑ i, f i = f 0 + f 1 := fun f => Fin.sum_univ_two f
      simp only [mulVec, dotProduct, s2]
    have hvv : 0 < v 0 ^ 2 + v 1 ^ 2 := by
      by_contra hc
      have h0 : v 0 = 0 := by nlinarith [sq_nonneg (v 0), sq_nonneg (v 1)]
      have h1 : v 1 = 0 := by nlinarith [sq_nonneg (v 0), sq_nonneg (v 1)]
      apply hv
      ext i
      rcases (by omega : (i : ℕ) = 0 ∨ (i : ℕ) = 1) with h | h
      · rw [show i = 0 from Fin.ext h]; exact h0
      · rw [show i = 1 from Fin.ext h]; exact h1
    rw [hq, hd 0, hd 1, hs']
    set s2 := Real.exp (param 0)
    have h5 : 0 < 10 * eps * s2 * (v 0 ^ 2 + v 1 ^ 2) := by positivity
    have h6 : 0 ≤ K 0 1 * (v 0 + v 1) ^ 2 := by positivity
    have h7 : 0 ≤ (s2 - K 0 1) * (v 0 ^ 2 + v 1 ^ 2) :=
      mul_nonneg (by linarith) hvv.le
    nlinarith

example : ∃ lam, predict (q := 1) (r := 1) (exactLA .numpy) .linearPredictor
    (maternSame 2 1 ![0, 0] !![0; 1] (!![1; 1] : Mat (1 + 1) 1)) ![5, 7] true =
      .ok ((![5, 7] : Fin 2 → ℝ), fun _ => 0, lam) := by
  refine (matern_interpolates (q := 1) (r := 1) (exactLA_contract .numpy) 2 (eps := 1) (by norm_num) ![0, 0] !![0; 1]
    (!![1; 1] : Mat (1 + 1) 1) (matern_two_posDef 2 (by norm_num) _ _ _) ?_ .linearPredictor
    trivial ![5, 7]).1
  intro b hb
  have := congrFun hb 0
  ext i
  fin_cases i
  simpa [mulVec, dotProduct] using this

/-- **C28** A symmetric solver that reads one triangle solves the given system when it is
symmetric; otherwise it solves the symmetric system with that triangle. -/
theorem symSystem_spec {n : ℕ} (A : Mat n n) :
    (∀ be, Aᵀ = A → symSystem be A = A) ∧ (symSystem .numpy A)ᵀ = symSystem .numpy A ∧
      (∀ i j, i ≤ j → symSystem .numpy A i j = A i j) := by
  refine ⟨fun be h => ?_, ?_, fun i j h => by simp [symSystem, symUpper, h]⟩
  · cases be with
    | torch => rfl
    | numpy =>
      ext i j
      simp only [symSystem, symUpper, Matrix.of_apply]
      split_ifs
      · rfl
      · exact congrFun (congrFun h i) j
  · ext i j
    simp only [symSystem, symUpper, Matrix.transpose_apply, Matrix.of_apply]
    rcases lt_trichotomy i j with h | h | h
    · rw [if_neg (not_le.2 h), if_pos h.le]
    · rw [h]
    · rw [if_pos h.le, if_neg (not_le.2 h)]

end Verif.Core
