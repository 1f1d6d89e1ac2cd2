import Verif.Core.PropsObject
import Verif.Core.PropsCalib
import Verif.Core.Noisy

/-!
# Properties of regression with noisy observations (kernels of the examples)
-/

set_option autoImplicit false

namespace Verif.Core.Noisy

open Verif Verif.Data Verif.Core.Obj Verif.Kernel Matrix

variable {d e n m r s : ℕ} {be : Backend} {la : LA} {Θ : Type}

/-! ## Specification -/

/-- A model of a function with covariance `k`, observed with independent noise: the observation at `x` has
noise variance `nu x`, and `va x` is what `pairwise=True` adds at `x`.  The mean is an unknown constant. -/
structure IsNoisy (g : GP e 1 Θ Unit) (θ : Θ) (k : (Fin e → ℝ) → (Fin e → ℝ) → ℝ) (nu va : (Fin e → ℝ) → ℝ) :
    Prop where
  theta : g.covparam = some θ
  type : g.meantype = "linear_predictor"
  mean : ∀ {n : ℕ} (x : Pts n e) (i : Fin n) (j : Fin 1), g.mean x g.meanparam i j = 1
  self : ∀ {n : ℕ} (x : Pts n e) (i j : Fin n),
    g.covMat x x θ i j = k (x.val i) (x.val j) + if i = j then nu (x.val i) else 0
  other : ∀ {n m : ℕ} (x : Pts n e) (y : Pts m e) (i : Fin n) (j : Fin m), x.id ≠ y.id →
    g.covMat x y θ i j = k (x.val i) (y.val j)
  diag : ∀ {n : ℕ} (x : Pts n e) (i : Fin n), g.covDiag x θ i = k (x.val i) (x.val i) + va (x.val i)
  full : ∀ {n : ℕ} (x : Pts n e) (i j : Fin n),
    g.covFull x θ i j = k (x.val i) (x.val j) + if i = j then nu (x.val i) else 0
  psd : ∀ {ι : Type} [Fintype ι] (x : ι → Fin e → ℝ), (Matrix.of fun i j => k (x i) (x j)).PosSemidef

/-- Mean square of `f(t) - Σ w_i f(x_i)` when `f` has covariance `k`. -/
def gap (k : (Fin e → ℝ) → (Fin e → ℝ) → ℝ) (x : Fin n → Fin e → ℝ) (t : Fin e → ℝ) (w : Fin n → ℝ) : ℝ :=
  k t t - 2 * ∑ i, w i * k (x i) t + ∑ i, ∑ j, w i * w j * k (x i) (x j)

/-- Mean square of `f(t) - Σ w_i (f(x_i) + ε_i)` for independent noise `ε_i` of variance `nu_i`. -/
def noisyGap (k : (Fin e → ℝ) → (Fin e → ℝ) → ℝ) (nu : (Fin e → ℝ) → ℝ) (x : Fin n → Fin e → ℝ) (t : Fin e → ℝ)
    (w : Fin n → ℝ) : ℝ :=
  gap k x t w + ∑ i, w i ^ 2 * nu (x i)

/-! ## The three kernels -/

theorem latent_psd (p : ℕ) (s2 : ℝ) (hs : 0 ≤ s2) (l : Fin d → ℝ) {ι : Type} [Fintype ι] (x : ι → Fin d → ℝ) :
    (Matrix.of fun i j => latent (maternFormula p) s2 l (x i) (x j)).PosSemidef := by
  classical
  have h := (matern_posSemidef p l x).smul hs
  have e : (Matrix.of fun i j => latent (maternFormula p) s2 l (x i) (x j)) = s2 • kernelMat p l x := by
    ext i j; simp [latent, kernelMat]
  rw [e]; exact h

theorem dispatch_self (x : Pts n e) (ii it : Mat n n) : dispatch x x ii it = ii := by
  unfold dispatch
  rw [dif_pos ⟨rfl, rfl⟩]
  rfl

theorem dispatch_other (x : Pts n e) (y : Pts m e) (ii : Mat n n) (it : Mat n m) (h : x.id ≠ y.id) :
    dispatch x y ii it = it := by
  unfold dispatch
  rw [dif_neg fun hh => h hh.2]

theorem latent_self (p : ℕ) (s2 : ℝ) (l x : Fin d → ℝ) : latent (maternFormula p) s2 l x x = s2 := by
  simp [latent, Kernel.scaledDistance_self, (Kernel.maternFormula_shape_props p).1]

/-- **C276** example06 models a Matérn function of the coordinates, with noise where the flag is one. -/
theorem flagged_noisy (p : ℕ) (θ : Fin (d + 2) → ℝ) :
    IsNoisy (flagged (maternFormula p) θ) θ
      (fun x y => latent (maternFormula p) (Real.exp (θ 0)) (fun l => θ l.succ.succ) (coords x) (coords y))
      (fun x => Real.exp (θ 1) * x (Fin.last d)) (fun x => Real.exp (θ 1) * x (Fin.last d)) where
  theta := rfl
  type := rfl
  mean := fun _ _ _ => rfl
  self := fun x i j => by
    change dispatch x x _ _ i j = _
    rw [dispatch_self]
    simp [flagII, Matrix.diagonal_apply, side]
  other := fun x y i j h => by
    change dispatch x y _ _ i j = _
    rw [dispatch_other _ _ _ _ h]
    rfl
  diag := fun x i => by
    change Real.exp (θ 0) * 1 + Real.exp (θ 1) * side (x.val i) = _
    rw [latent_self, mul_one]; rfl
  full := fun x i j => by
    change flagII _ _ _ i j = _
    simp [flagII, Matrix.diagonal_apply, side]
  psd := fun x => latent_psd p _ (Real.exp_pos _).le _ fun i => coords (x i)

/-- **C276** example07 models a Matérn function with noise at every observation; `pairwise=True` leaves
the noise out. -/
theorem plain_noisy (p : ℕ) (θ : Fin (d + 2) → ℝ) :
    IsNoisy (plain (maternFormula p) θ) θ
      (fun x y => latent (maternFormula p) (Real.exp (θ 0)) (fun l => θ l.succ.succ) x y)
      (fun _ => Real.exp (θ 1)) (fun _ => 0) where
  theta := rfl
  type := rfl
  mean := fun _ _ _ => rfl
  self := fun x i j => by
    change dispatch x x _ _ i j = _
    rw [dispatch_self]
    simp [plainII, Matrix.one_apply]
  other := fun x y i j h => by
    change dispatch x y _ _ i j = _
    rw [dispatch_other _ _ _ _ h]
    rfl
  diag := fun x i => by
    change Real.exp (θ 0) * 1 = _
    rw [latent_self, mul_one, add_zero]
  full := fun x i j => by
    change plainII _ _ _ i j = _
    simp [plainII, Matrix.one_apply]
  psd := fun x => latent_psd p _ (Real.exp_pos _).le _ x

/-- **C276** example11 models a Matérn function of the coordinates, with the noise variance of the last
column. -/
theorem hetero_noisy (p : ℕ) (θ : Fin 2 → ℝ) :
    IsNoisy (hetero (d := d) (maternFormula p) θ) θ
      (fun x y => latent (maternFormula p) (Real.exp (θ 0)) (fun _ => θ 1) (coords x) (coords y))
      (fun x => x (Fin.last d)) (fun x => x (Fin.last d)) where
  theta := rfl
  type := rfl
  mean := fun _ _ _ => rfl
  self := fun x i j => by
    change dispatch x x _ _ i j = _
    rw [dispatch_self]
    simp [heteroII, Matrix.diagonal_apply, side]
  other := fun x y i j h => by
    change dispatch x y _ _ i j = _
    rw [dispatch_other _ _ _ _ h]
    rfl
  diag := fun x i => by
    change Real.exp (θ 0) * 1 + side (x.val i) = _
    rw [latent_self, mul_one]; rfl
  full := fun x i j => by
    change heteroII _ _ _ i j = _
    simp [heteroII, Matrix.diagonal_apply, side]
  psd := fun x => latent_psd p _ (Real.exp_pos _).le _ fun i => coords (x i)

/-- **C276** example05 models a Matérn function, with the nugget as noise. -/
theorem custom_noisy (p : ℕ) (nugget : ℝ) (θ : Fin 2 → ℝ) :
    IsNoisy (custom (d := d) (maternFormula p) nugget θ) θ
      (fun x y => latent (maternFormula p) (Real.exp (θ 0)) (fun _ => θ 1) x y) (fun _ => nugget) (fun _ => 0) where
  theta := rfl
  type := rfl
  mean := fun _ _ _ => rfl
  self := fun x i j => by
    change dispatch x x _ _ i j = _
    rw [dispatch_self]
    simp [Matrix.one_apply]
  other := fun x y i j h => by
    change dispatch x y _ _ i j = _
    rw [dispatch_other _ _ _ _ h]
    rfl
  diag := fun x i => by
    change Real.exp (θ 0) * 1 = _
    rw [latent_self, mul_one, add_zero]
  full := fun x i j => by simp [custom, Matrix.one_apply]
  psd := fun x => latent_psd p _ (Real.exp_pos _).le _ x

/-! ## Prediction -/

variable {g : GP e 1 Θ Unit} {θ : Θ} {k : (Fin e → ℝ) → (Fin e → ℝ) → ℝ} {nu va : (Fin e → ℝ) → ℝ}

theorem IsNoisy.Kii_posDef (hg : IsNoisy g θ k nu va) (x : Pts n e) (hpos : ∀ i, 0 < nu (x.val i)) :
    (g.covMat x x θ).PosDef := by
  have h1 : g.covMat x x θ = (Matrix.of fun i j => k (x.val i) (x.val j)) + Matrix.diagonal fun i => nu (x.val i) := by
    ext i j
    rw [hg.self]
    simp [Matrix.diagonal_apply]
  rw [h1]
  exact (Matrix.PosDef.diagonal hpos).posSemidef_add (hg.psd x.val)

theorem IsNoisy.fullRank (hg : IsNoisy g θ k nu va) (x : Pts (1 + r) e) : FullRank (g.mean x g.meanparam) := by
  intro b hb
  have := congrFun hb ⟨0, by omega⟩
  simp only [mulVec, dotProduct, hg.mean, Fin.sum_univ_one, one_mul, Pi.zero_apply] at this
  ext j
  fin_cases j
  exact this

/-- Any solution of the kriging system is what the predictor returns. -/
theorem predict_of_solution {q : ℕ} (hla : la.Contract be) (a : Arrays (q + r) m q) (hK : CPD a.Kii a.Pi)
    (hP : FullRank a.Pi) {X : Matrix (Fin (q + r) ⊕ Fin q) (Fin m) ℝ} (hX : ukLHS a * X = ukRHS a)
    (zi : Fin (q + r) → ℝ) (zn : Bool) :
    Core.predict la .linearPredictor a zi zn = .ok
      (fun t => ∑ i, X (Sum.inl i) t * zi i,
       (let v := fun t => a.vt t - ∑ i, X i t * ukRHS a i t
        if zn then fun t => max (v t) 0 else v),
       Matrix.of fun i t => X (Sum.inl i) t) := by
  obtain ⟨Y, hY, h⟩ := predict_linear hla a hK hP zi zn
  have hu := ukLHS_unit a hK hP
  have hXY : X = Y := by
    have := congrArg (fun Z => (ukLHS a)⁻¹ * Z) (hX.trans hY.symm)
    have hd : IsUnit (ukLHS a).det := (Matrix.isUnit_iff_isUnit_det _).mp hu
    simpa [← Matrix.mul_assoc, Matrix.nonsing_inv_mul _ hd] using this
  subst hXY
  rw [h]
  simp only [add_zero]
  rfl

theorem predict_arrays (hg : IsNoisy g θ k nu va) (xi : Pts (1 + r) e) (xt : Pts m e) (z : Fin (1 + r) → ℝ)
    (zn c : Bool) (f : ℕ) :
    Obj.predict be la f g xi (.vec z) xt zn c =
      Core.predict la .linearPredictor (g.arrays θ (conv c be f xi) (conv c be (f + 1) xt)) z zn := by
  unfold Obj.predict GP.refuses GP.theta GP.meanType conv
  simp [ZArg.flat, hg.type, hg.theta, bind, Except.bind]

theorem mse_noisyGap (x : Fin n → Fin e → ℝ) (t : Fin e → ℝ) (v : ℝ) (w : Fin n → ℝ) :
    mse (Matrix.of fun i j => k (x i) (x j) + if i = j then nu (x i) else 0) (fun i => k (x i) t) (k t t + v) w =
      noisyGap k nu x t w + v := by
  unfold mse noisyGap gap
  simp only [dotProduct, mulVec, Matrix.of_apply, add_mul, Finset.sum_add_distrib, ite_mul, zero_mul,
    Finset.sum_ite_eq, Finset.mem_univ, if_true, mul_add, Finset.mul_sum]
  have e1 : ∀ i, w i * (nu (x i) * w i) = w i ^ 2 * nu (x i) := fun i => by ring
  have e2 : ∀ i j, w i * (k (x i) (x j) * w j) = w i * w j * k (x i) (x j) := fun i j => by ring
  simp only [e1, e2]
  ring

theorem gap_nonneg (hg : IsNoisy g θ k nu va) (x : Fin n → Fin e → ℝ) (t : Fin e → ℝ) (w : Fin n → ℝ) :
    0 ≤ gap k x t w := by
  have hp := (hg.psd fun o : Option (Fin n) => o.elim t x)
  have hs := hp.isHermitian
  have h := hp.dotProduct_mulVec_nonneg fun o : Option (Fin n) => o.elim 1 fun i => -w i
  have hsym : ∀ i, k t (x i) = k (x i) t := fun i => by
    have := congrFun (congrFun hs (some i)) none
    simpa using this
  have e1 : ∀ i, -(w i * ∑ j, k (x i) (x j) * w j) = -∑ j, w i * w j * k (x i) (x j) := fun i => by
    rw [Finset.mul_sum]
    congr 1
    exact Finset.sum_congr rfl fun j _ => by ring
  simp only [star_trivial, dotProduct, mulVec, Fintype.sum_option, Matrix.of_apply, Option.elim_none, Option.elim_some,
    hsym] at h
  unfold gap
  have e2 : ∑ i, w i * k (x i) t = ∑ i, k (x i) t * w i := Finset.sum_congr rfl fun i _ => mul_comm _ _
  rw [e2]
  have e3 : ∑ i, -w i * (k (x i) t * 1 + ∑ j, k (x i) (x j) * -w j) =
      -∑ i, k (x i) t * w i + ∑ i, ∑ j, w i * w j * k (x i) (x j) := by
    rw [← Finset.sum_neg_distrib, ← Finset.sum_add_distrib]
    refine Finset.sum_congr rfl fun i _ => ?_
    rw [mul_add, Finset.mul_sum]
    congr 1
    · ring
    · exact Finset.sum_congr rfl fun j _ => by ring
  rw [e3] at h
  have e4 : ∑ i, k (x i) t * -w i = -∑ i, k (x i) t * w i := by
    rw [← Finset.sum_neg_distrib]; exact Finset.sum_congr rfl fun i _ => by ring
  rw [e4] at h
  linarith

theorem arrays_noisy (hg : IsNoisy g θ k nu va) (xi : Pts n e) (xt : Pts m e) (h : xi.id ≠ xt.id) :
    (g.arrays θ xi xt).Kii = (Matrix.of fun i j => k (xi.val i) (xi.val j) + if i = j then nu (xi.val i) else 0) ∧
    (g.arrays θ xi xt).Kit = (Matrix.of fun i t => k (xi.val i) (xt.val t)) ∧
    (g.arrays θ xi xt).vt = (fun t => k (xt.val t) (xt.val t) + va (xt.val t)) ∧
    (g.arrays θ xi xt).Ktt = (Matrix.of fun i j => k (xt.val i) (xt.val j) + if i = j then nu (xt.val i) else 0) ∧
    (g.arrays θ xi xt).Pi = (Matrix.of fun _ _ => 1) ∧ (g.arrays θ xi xt).Pt = (Matrix.of fun _ _ => 1) := by
  refine ⟨?_, ?_, ?_, ?_, ?_, ?_⟩
  · ext i j; exact hg.self xi i j
  · ext i j; exact hg.other xi xt i j h
  · ext t; exact hg.diag xt t
  · ext i j; exact hg.full xt i j
  · ext i j; exact hg.mean xi i j
  · ext i j; exact hg.mean xt i j

/-- The prediction when the covariance matrix of the observations is positive definite. -/
theorem predict_posDef (hla : la.Contract be) (hg : IsNoisy g θ k nu va) (xi : Pts (1 + r) e) (xt : Pts m e)
    (hne : xi.id ≠ xt.id) (f : ℕ) (hi : xi.id < f) (ht : xt.id < f)
    (hpd : ((Matrix.of fun i j => k (xi.val i) (xi.val j)) + Matrix.diagonal fun i => nu (xi.val i)).PosDef)
    (hpos : ∀ i, 0 ≤ nu (xi.val i)) (hva : ∀ t, 0 ≤ va (xt.val t)) (z : Fin (1 + r) → ℝ) (zn c : Bool) :
    ∃ zt v lam, Obj.predict be la f g xi (.vec z) xt zn c = .ok (zt, v, lam) ∧ ∀ t,
      zt t = ∑ i, lam i t * z i ∧ ∑ i, lam i t = 1 ∧
      v t = noisyGap k nu xi.val (xt.val t) (fun i => lam i t) + va (xt.val t) ∧
      ∀ w : Fin (1 + r) → ℝ, ∑ i, w i = 1 → v t ≤ noisyGap k nu xi.val (xt.val t) w + va (xt.val t) ∧
        (noisyGap k nu xi.val (xt.val t) w + va (xt.val t) = v t → w = fun i => lam i t) := by
  rw [predict_arrays hg]
  have hne' := conv_ne c be f xi xt hne hi ht
  obtain ⟨h1, h2, h3, _, h5, h6⟩ := arrays_noisy hg _ _ hne'
  rw [conv_val, conv_val] at *
  set a := g.arrays θ (conv c be f xi) (conv c be (f + 1) xt) with ha
  have hK : a.Kii.PosDef := by
    rw [h1]
    convert hpd using 1
    ext i j
    simp [Matrix.diagonal_apply]
  have hP : FullRank a.Pi := hg.fullRank _
  obtain ⟨X, hX, hp⟩ := predict_linear hla a (CPD.of_posDef hK _) hP z zn
  have key : ∀ t, ∑ i, X (Sum.inl i) t = 1 ∧
      a.vt t - ∑ i, X i t * ukRHS a i t =
        noisyGap k nu xi.val (xt.val t) (fun i => X (Sum.inl i) t) + va (xt.val t) ∧
      ∀ w : Fin (1 + r) → ℝ, ∑ i, w i = 1 →
        noisyGap k nu xi.val (xt.val t) (fun i => X (Sum.inl i) t) + va (xt.val t) ≤
          noisyGap k nu xi.val (xt.val t) w + va (xt.val t) ∧
        (noisyGap k nu xi.val (xt.val t) w + va (xt.val t) =
          noisyGap k nu xi.val (xt.val t) (fun i => X (Sum.inl i) t) + va (xt.val t) →
            w = fun i => X (Sum.inl i) t) := by
    intro t
    have hXt := (ukSystem_iff a X).mp hX t
    have hm := mse_at_universal (v := a.vt t) hXt.1 hXt.2
    have hu := fun (w : Fin (1 + r) → ℝ) (hw : a.Piᵀ *ᵥ w = fun j => a.Pt t j) =>
      mse_universal (CPD.of_posDef hK _) (v := a.vt t) hXt.1 hXt.2 w hw
    have hsum : ∀ w : Fin (1 + r) → ℝ, a.Piᵀ *ᵥ w = (fun j => a.Pt t j) ↔ ∑ i, w i = 1 := by
      intro w
      rw [h5, h6]
      constructor
      · intro h
        have := congrFun h 0
        simpa [mulVec, dotProduct] using this
      · intro h
        ext j
        simpa [mulVec, dotProduct] using h
    rw [h1, h2, h3] at hm hu
    simp only [Matrix.of_apply] at hm hu
    have hgap := fun w => mse_noisyGap (k := k) (nu := nu) xi.val (xt.val t) (va (xt.val t)) w
    rw [hgap] at hm
    refine ⟨(hsum _).mp hXt.2, ?_, fun w hw => ?_⟩
    · rw [hm, Fintype.sum_sum_type, h3]
      simp [ukRHS, dotProduct, h2]
    · have := hu w ((hsum w).mpr hw)
      rw [hgap, hgap] at this
      exact ⟨this.1, this.2.mp⟩
  have hmax : ∀ t, max (a.vt t - ∑ i, X i t * ukRHS a i t) 0 = a.vt t - ∑ i, X i t * ukRHS a i t := fun t => by
    refine max_eq_left ?_
    rw [(key t).2.1]
    have h1 : 0 ≤ gap k xi.val (xt.val t) (fun i => X (Sum.inl i) t) := gap_nonneg hg _ _ _
    have h2 : 0 ≤ ∑ i, X (Sum.inl i) t ^ 2 * nu (xi.val i) :=
      Finset.sum_nonneg fun i _ => mul_nonneg (sq_nonneg _) (hpos i)
    have := hva t
    unfold noisyGap
    linarith
  refine ⟨_, _, _, hp, fun t => ?_⟩
  have hv : (let v := fun t => a.vt t - ∑ i, X i t * ukRHS a i t
      if zn then fun t => max (v t) 0 else v) t = a.vt t - ∑ i, X i t * ukRHS a i t := by
    cases zn
    · rfl
    · exact hmax t
  refine ⟨add_zero _, (key t).1, ?_, fun w hw => ?_⟩
  · rw [hv]; exact (key t).2.1
  · rw [hv, (key t).2.1]; exact (key t).2.2 w hw

/-- **C276** When the noise variances of the observations are positive the prediction exists, even at repeated
points, and is the best combination of the noisy observations with weights of sum one: the variance is the
least mean square error, for the function itself or, with the noise added, for a noisy output. -/
theorem noisy_predict (hla : la.Contract be) (hg : IsNoisy g θ k nu va) (xi : Pts (1 + r) e) (xt : Pts m e)
    (hne : xi.id ≠ xt.id) (f : ℕ) (hi : xi.id < f) (ht : xt.id < f) (hpos : ∀ i, 0 < nu (xi.val i))
    (hva : ∀ t, 0 ≤ va (xt.val t)) (z : Fin (1 + r) → ℝ) (zn c : Bool) :
    ∃ zt v lam, Obj.predict be la f g xi (.vec z) xt zn c = .ok (zt, v, lam) ∧ ∀ t,
      zt t = ∑ i, lam i t * z i ∧ ∑ i, lam i t = 1 ∧
      v t = noisyGap k nu xi.val (xt.val t) (fun i => lam i t) + va (xt.val t) ∧
      ∀ w : Fin (1 + r) → ℝ, ∑ i, w i = 1 → v t ≤ noisyGap k nu xi.val (xt.val t) w + va (xt.val t) ∧
        (noisyGap k nu xi.val (xt.val t) w + va (xt.val t) = v t → w = fun i => lam i t) := by
  exact predict_posDef hla hg xi xt hne f hi ht ((Matrix.PosDef.diagonal hpos).posSemidef_add (hg.psd xi.val))
    (fun i => (hpos i).le) hva z zn c

/-- **C276** At targets that the function does not tell apart, the predictions and the weights are the same and
the variances differ by the noise. -/
theorem noisy_target (hla : la.Contract be) (hg : IsNoisy g θ k nu va) (xi : Pts (1 + r) e) (xt xt' : Pts m e)
    (hne : xi.id ≠ xt.id) (hne' : xi.id ≠ xt'.id) (f : ℕ) (hi : xi.id < f) (ht : xt.id < f) (ht' : xt'.id < f)
    (hpos : ∀ i, 0 < nu (xi.val i)) (hva : ∀ t, 0 ≤ va (xt.val t)) (hva' : ∀ t, 0 ≤ va (xt'.val t))
    (h1 : ∀ t x, k x (xt.val t) = k x (xt'.val t)) (h2 : ∀ t, k (xt.val t) (xt.val t) = k (xt'.val t) (xt'.val t))
    (z : Fin (1 + r) → ℝ) (zn c : Bool) :
    ∃ zt v lam, Obj.predict be la f g xi (.vec z) xt zn c = .ok (zt, v, lam) ∧
      Obj.predict be la f g xi (.vec z) xt' zn c =
        .ok (zt, fun t => v t - va (xt.val t) + va (xt'.val t), lam) := by
  obtain ⟨zt, v, lam, e1, P⟩ := noisy_predict hla hg xi xt hne f hi ht hpos hva z zn c
  obtain ⟨zt', v', lam', e1', P'⟩ := noisy_predict hla hg xi xt' hne' f hi ht' hpos hva' z zn c
  have hG : ∀ t w, noisyGap k nu xi.val (xt'.val t) w = noisyGap k nu xi.val (xt.val t) w := fun t w => by
    unfold noisyGap gap
    rw [← h2 t]
    simp only [fun i => (h1 t (xi.val i)).symm]
  have hl : lam' = lam := by
    ext i t
    obtain ⟨_, b1, b2, b3⟩ := P t
    obtain ⟨_, c1, c2, c3⟩ := P' t
    have u1 := (b3 _ c1).1
    have u2 := (c3 _ b1).1
    rw [hG] at c2 u2
    exact congrFun ((b3 _ c1).2 (by linarith)) i
  subst hl
  refine ⟨zt, v, _, e1, ?_⟩
  rw [e1']
  have ez : zt' = zt := by ext t; rw [(P t).1, (P' t).1]
  have ev : v' = fun t => v t - va (xt.val t) + va (xt'.val t) := by
    ext t
    rw [(P t).2.2.1, (P' t).2.2.1, hG]
    ring
  rw [ez, ev]

/-- **C276** example06: a target with flag one has the prediction of the target with flag zero, and the noise
variance is added to its variance. -/
theorem flagged_target (hla : la.Contract be) (p : ℕ) (θ : Fin (d + 2) → ℝ) (xi : Pts (1 + r) (d + 1))
    (xt xt' : Pts m (d + 1)) (hne : xi.id ≠ xt.id) (hne' : xi.id ≠ xt'.id) (f : ℕ) (hi : xi.id < f) (ht : xt.id < f)
    (ht' : xt'.id < f) (h1 : ∀ i, xi.val i (Fin.last d) = 1) (h0 : ∀ t, xt.val t (Fin.last d) = 0)
    (h1' : ∀ t, xt'.val t (Fin.last d) = 1) (hx : ∀ t (j : Fin d), xt.val t j.castSucc = xt'.val t j.castSucc)
    (z : Fin (1 + r) → ℝ) (zn c : Bool) :
    ∃ zt v lam, Obj.predict be la f (flagged (maternFormula p) θ) xi (.vec z) xt zn c = .ok (zt, v, lam) ∧
      Obj.predict be la f (flagged (maternFormula p) θ) xi (.vec z) xt' zn c =
        .ok (zt, fun t => v t + Real.exp (θ 1), lam) := by
  have hc : ∀ t, coords (xt.val t) = coords (xt'.val t) := fun t => funext fun j => hx t j
  obtain ⟨zt, v, lam, e1, e2⟩ := noisy_target hla (flagged_noisy p θ) xi xt xt' hne hne' f hi ht ht'
    (fun i => by simp [h1, Real.exp_pos]) (fun t => by simp [h0]) (fun t => by simp [h1', (Real.exp_pos _).le])
    (fun t x => by simp only [hc]) (fun t => by simp only [hc]) z zn c
  refine ⟨zt, v, lam, e1, e2.trans ?_⟩
  simp [h0, h1']

theorem sum_fiber {ι κ : Type} [Fintype ι] [Fintype κ] [DecidableEq κ] (c : ι → κ) (F N : κ → ℝ) (g : ι → ℝ)
    (hN : ∀ a, N a ≠ 0) (hg : ∀ a, (N a)⁻¹ = ∑ i with c i = a, g i) :
    ∑ i, F (c i) * (N (c i) * g i) = ∑ a, F a := by
  rw [← Finset.sum_fiberwise Finset.univ c]
  refine Finset.sum_congr rfl fun a _ => ?_
  have : ∑ i with c i = a, F (c i) * (N (c i) * g i) = ∑ i with c i = a, F a * N a * g i :=
    Finset.sum_congr rfl fun i hi => by rw [(Finset.mem_filter.mp hi).2]; ring
  rw [this, ← Finset.mul_sum, ← hg, mul_assoc, mul_inv_cancel₀ (hN a), mul_one]

/-- **C276** Observations that the function does not tell apart may be replaced by their average with weights
inverse to the noise variances, the precisions being added: the predictions and variances are the same. -/
theorem noisy_repeated (hla : la.Contract be) (hg : IsNoisy g θ k nu va) (xi : Pts (1 + r) e) (ui : Pts (1 + s) e)
    (xt : Pts m e) (hne : xi.id ≠ xt.id) (hne' : ui.id ≠ xt.id) (f : ℕ) (hi : xi.id < f) (hu : ui.id < f)
    (ht : xt.id < f) (c : Fin (1 + r) → Fin (1 + s)) (hk : ∀ i y, k (xi.val i) y = k (ui.val (c i)) y)
    (hk' : ∀ i y, k y (xi.val i) = k y (ui.val (c i)))
    (hpos : ∀ i, 0 < nu (xi.val i)) (hupos : ∀ a, 0 < nu (ui.val a))
    (hprec : ∀ a, (nu (ui.val a))⁻¹ = ∑ i with c i = a, (nu (xi.val i))⁻¹) (z : Fin (1 + r) → ℝ) (zn cv : Bool) :
    ∃ zt v lam lam', Obj.predict be la f g xi (.vec z) xt zn cv = .ok (zt, v, lam) ∧
      Obj.predict be la f g ui (.vec fun a => (∑ i with c i = a, (nu (xi.val i))⁻¹ * z i) /
        ∑ i with c i = a, (nu (xi.val i))⁻¹) xt zn cv = .ok (zt, v, lam') := by
  rw [predict_arrays hg, predict_arrays hg]
  obtain ⟨h1, h2, h3, _, h5, h6⟩ := arrays_noisy hg _ _ (conv_ne cv be f xi xt hne hi ht)
  obtain ⟨g1, g2, g3, _, g5, g6⟩ := arrays_noisy hg _ _ (conv_ne cv be f ui xt hne' hu ht)
  rw [conv_val, conv_val] at *
  set a := g.arrays θ (conv cv be f xi) (conv cv be (f + 1) xt)
  set b := g.arrays θ (conv cv be f ui) (conv cv be (f + 1) xt)
  have hK : a.Kii.PosDef := hg.Kii_posDef _ (by rw [conv_val]; exact hpos)
  have hP : FullRank a.Pi := hg.fullRank _
  have hK' : b.Kii.PosDef := hg.Kii_posDef _ (by rw [conv_val]; exact hupos)
  have hP' : FullRank b.Pi := hg.fullRank _
  obtain ⟨Y, hY, _⟩ := ukDirect_ok hla b (CPD.of_posDef hK' _) hP'
  have hN : ∀ a, nu (ui.val a) ≠ 0 := fun a => (hupos a).ne'
  let X : Matrix (Fin (1 + r) ⊕ Fin 1) (Fin m) ℝ := Matrix.of fun o t =>
    o.elim (fun i => Y (Sum.inl (c i)) t * (nu (ui.val (c i)) * (nu (xi.val i))⁻¹)) (fun j => Y (Sum.inr j) t)
  have hX : ukLHS a * X = ukRHS a := by
    rw [ukSystem_iff] at hY ⊢
    intro t
    obtain ⟨y1, y2⟩ := hY t
    constructor
    · ext i
      have := congrFun y1 (c i)
      simp only [g1, g2, g5, Pi.add_apply, mulVec, dotProduct, Matrix.of_apply, add_mul, ite_mul, zero_mul,
        Finset.sum_add_distrib, Finset.sum_ite_eq, Finset.mem_univ, if_true] at this
      simp only [h1, h2, h5, Pi.add_apply, mulVec, dotProduct, Matrix.of_apply, add_mul, ite_mul, zero_mul,
        Finset.sum_add_distrib, Finset.sum_ite_eq, Finset.mem_univ, if_true, X, Sum.elim_inl, Sum.elim_inr, hk, hk']
      have e1 := sum_fiber c (fun a => k (ui.val (c i)) (ui.val a) * Y (Sum.inl a) t) (fun a => nu (ui.val a))
        (fun i => (nu (xi.val i))⁻¹) hN hprec
      have e2 : ∑ j, k (ui.val (c i)) (ui.val (c j)) * (Y (Sum.inl (c j)) t * (nu (ui.val (c j)) * (nu (xi.val j))⁻¹)) =
          ∑ a, k (ui.val (c i)) (ui.val a) * Y (Sum.inl a) t := by
        rw [← e1]; exact Finset.sum_congr rfl fun j _ => by ring
      rw [e2, ← this]
      have h0 := (hpos i).ne'
      field_simp
    · ext j
      have := congrFun y2 j
      simp only [g5, g6, mulVec, dotProduct, Matrix.of_apply, Matrix.transpose_apply, one_mul] at this
      simp only [h5, h6, mulVec, dotProduct, Matrix.of_apply, Matrix.transpose_apply, one_mul, X, Sum.elim_inl]
      rw [sum_fiber c (fun a => Y (Sum.inl a) t) (fun a => nu (ui.val a)) (fun i => (nu (xi.val i))⁻¹) hN hprec]
      exact this
  have pa := predict_of_solution hla a (CPD.of_posDef hK _) hP hX z zn
  have pb := predict_of_solution hla b (CPD.of_posDef hK' _) hP' hY
    (fun a => (∑ i with c i = a, (nu (xi.val i))⁻¹ * z i) / ∑ i with c i = a, (nu (xi.val i))⁻¹) zn
  have ez : (fun t => ∑ i, X (Sum.inl i) t * z i) = fun t => ∑ a, Y (Sum.inl a) t *
      ((∑ i with c i = a, (nu (xi.val i))⁻¹ * z i) / ∑ i with c i = a, (nu (xi.val i))⁻¹) := by
    ext t
    rw [← Finset.sum_fiberwise Finset.univ c]
    refine Finset.sum_congr rfl fun a _ => ?_
    rw [← hprec, div_inv_eq_mul, Finset.sum_mul, Finset.mul_sum]
    refine Finset.sum_congr rfl fun i hi => ?_
    simp only [X, Matrix.of_apply, Sum.elim_inl, (Finset.mem_filter.mp hi).2]
    ring
  have ev : (fun t => a.vt t - ∑ i, X i t * ukRHS a i t) = fun t => b.vt t - ∑ i, Y i t * ukRHS b i t := by
    ext t
    rw [h3, g3, Fintype.sum_sum_type, Fintype.sum_sum_type]
    simp only [ukRHS, Matrix.fromRows_apply_inl, Matrix.fromRows_apply_inr, h2, g2, h6, g6, Matrix.of_apply,
      Matrix.transpose_apply, X, Sum.elim_inl, Sum.elim_inr, hk]
    have e1 := sum_fiber c (fun a => Y (Sum.inl a) t * k (ui.val a) (xt.val t)) (fun a => nu (ui.val a))
      (fun i => (nu (xi.val i))⁻¹) hN hprec
    rw [← e1]
    congr 2
    exact Finset.sum_congr rfl fun i _ => by ring
  rw [ez, ev] at pa
  exact ⟨_, _, _, _, pa, pb⟩

/-- **C276** example11: repeated inputs, with noise variances in the last column, may be replaced by one input
with the inverse of the sum of the inverse variances and the weighted average of the observations. -/
theorem hetero_repeated (hla : la.Contract be) (p : ℕ) (θ : Fin 2 → ℝ) (xi : Pts (1 + r) (d + 1))
    (ui : Pts (1 + s) (d + 1)) (xt : Pts m (d + 1)) (hne : xi.id ≠ xt.id) (hne' : ui.id ≠ xt.id) (f : ℕ)
    (hi : xi.id < f) (hu : ui.id < f) (ht : xt.id < f) (c : Fin (1 + r) → Fin (1 + s))
    (hc : ∀ i (j : Fin d), xi.val i j.castSucc = ui.val (c i) j.castSucc)
    (hpos : ∀ i, 0 < xi.val i (Fin.last d)) (hupos : ∀ a, 0 < ui.val a (Fin.last d))
    (hprec : ∀ a, (ui.val a (Fin.last d))⁻¹ = ∑ i with c i = a, (xi.val i (Fin.last d))⁻¹)
    (z : Fin (1 + r) → ℝ) (zn cv : Bool) :
    ∃ zt v lam lam', Obj.predict be la f (hetero (maternFormula p) θ) xi (.vec z) xt zn cv = .ok (zt, v, lam) ∧
      Obj.predict be la f (hetero (maternFormula p) θ) ui
        (.vec fun a => (∑ i with c i = a, (xi.val i (Fin.last d))⁻¹ * z i) /
          ∑ i with c i = a, (xi.val i (Fin.last d))⁻¹) xt zn cv = .ok (zt, v, lam') := by
  have hcc : ∀ i, coords (xi.val i) = coords (ui.val (c i)) := fun i => funext fun j => hc i j
  exact noisy_repeated hla (hetero_noisy p θ) xi ui xt hne hne' f hi hu ht c (fun i y => by simp only [hcc])
    (fun i y => by simp only [hcc]) hpos hupos hprec z zn cv

/-- **C276** The diagonal of the covariance returned with type 1 has the noise of the targets, the variances
returned with type 0 have what `pairwise=True` adds. -/
theorem noisy_cov_diag (hla : la.Contract be) (hg : IsNoisy g θ k nu va) (xi : Pts (1 + r) e) (xt : Pts m e)
    (hne : xi.id ≠ xt.id) (hpos : ∀ i, 0 < nu (xi.val i)) :
    ∃ lam v V, krigingPredictor la g xi xt 0 = .ok (lam, .var v) ∧ krigingPredictor la g xi xt 1 = .ok (lam, .cov V) ∧
      ∀ t, V t t = v t - va (xt.val t) + nu (xt.val t) := by
  obtain ⟨_, _, h3, h4, _, _⟩ := arrays_noisy hg _ _ hne
  have hK : (g.arrays θ xi xt).Kii.PosDef := hg.Kii_posDef _ hpos
  have hP : FullRank (g.arrays θ xi xt).Pi := hg.fullRank _
  obtain ⟨X, _, e0, e1⟩ := ukDirect_ok hla _ (CPD.of_posDef hK _) hP
  have hred : ∀ rt, krigingPredictor la g xi xt rt = krigingUniversal la (g.arrays θ xi xt) rt := fun rt => by
    unfold krigingPredictor GP.theta
    rw [hg.theta]
    rfl
  refine ⟨X.toRows₁, _, _, by rw [hred]; simp only [krigingUniversal, e0]; rfl,
    by rw [hred]; simp only [krigingUniversal, e1]; rfl, fun t => ?_⟩
  rw [h3, h4]
  simp only [Matrix.sub_apply, Matrix.of_apply, if_true, Matrix.mul_apply, Matrix.transpose_apply]
  ring

/-- **C276** example07: the diagonal of the posterior covariance is not the posterior variance, it is larger by
the noise variance. -/
theorem plain_cov_false (hla : la.Contract be) (p : ℕ) (θ : Fin (d + 2) → ℝ) (xi : Pts (1 + r) d) (xt : Pts m d)
    (hne : xi.id ≠ xt.id) (t : Fin m) :
    ∃ lam v V, krigingPredictor la (plain (maternFormula p) θ) xi xt 0 = .ok (lam, .var v) ∧
      krigingPredictor la (plain (maternFormula p) θ) xi xt 1 = .ok (lam, .cov V) ∧
      V t t = v t + Real.exp (θ 1) ∧ V t t ≠ v t := by
  obtain ⟨lam, v, V, e0, e1, h⟩ := noisy_cov_diag hla (plain_noisy p θ) xi xt hne fun _ => Real.exp_pos _
  have := h t
  have hp := Real.exp_pos (θ 1)
  exact ⟨lam, v, V, e0, e1, by rw [this]; ring, by rw [this]; linarith⟩

/-- **C276** Smoothing depends on the identity of the arrays: at the array of the observations itself the
prediction is the data with variance zero, at a copy the variance is at least that of the noise. -/
theorem flagged_same_false (hla : la.Contract be) (p : ℕ) (θ : Fin (d + 2) → ℝ) (xi xc : Pts (1 + r) (d + 1))
    (hv : xc.val = xi.val) (hne : xi.id ≠ xc.id) (f : ℕ) (hi : xi.id < f) (hc : xc.id < f)
    (h1 : ∀ i, xi.val i (Fin.last d) = 1) (z : Fin (1 + r) → ℝ) :
    ∃ lam zc vc lamc,
      Obj.predict be la f (flagged (maternFormula p) θ) xi (.vec z) xi false false = .ok (z, fun _ => 0, lam) ∧
      Obj.predict be la f (flagged (maternFormula p) θ) xi (.vec z) xc false false = .ok (zc, vc, lamc) ∧
      ∀ i, Real.exp (θ 1) ≤ vc i := by
  have hg := flagged_noisy (d := d) p θ
  have hpos : ∀ i, 0 < Real.exp (θ 1) * xi.val i (Fin.last d) := fun i => by simp [h1, Real.exp_pos]
  obtain ⟨zc, vc, lamc, e1, P⟩ := noisy_predict hla hg xi xc hne f hi hc hpos
    (fun t => by rw [hv]; exact (hpos t).le) z false false
  have hK := hg.Kii_posDef xi hpos
  obtain ⟨lam, e2⟩ := predict_interpolates hla ((flagged (maternFormula p) θ).arrays θ xi xi) ⟨rfl, rfl⟩ hK
    (hg.fullRank xi) .linearPredictor trivial z
  refine ⟨lam, zc, vc, lamc, ?_, e1, fun i => ?_⟩
  · rw [predict_arrays hg]
    change Core.predict la .linearPredictor ((flagged (maternFormula p) θ).arrays θ xi xi) z false = _
    rw [e2]
    have : (fun t => ((flagged (maternFormula p) θ).arrays θ xi xi).vt t -
        ((flagged (maternFormula p) θ).arrays θ xi xi).Kii t t) = fun _ => 0 := by
      ext t
      have a1 := hg.diag xi t
      have a2 := hg.self xi t t
      change (flagged (maternFormula p) θ).covDiag xi θ t - (flagged (maternFormula p) θ).covMat xi xi θ t t = 0
      rw [a1, a2, if_pos rfl, sub_self]
    rw [this]
  · rw [(P i).2.2.1, hv, h1, mul_one]
    have g0 := gap_nonneg hg xi.val (xi.val i) fun j => lamc j i
    have g1 : 0 ≤ ∑ j, (lamc j i) ^ 2 * (Real.exp (θ 1) * xi.val j (Fin.last d)) :=
      Finset.sum_nonneg fun j _ => mul_nonneg (sq_nonneg _) (hpos j).le
    unfold noisyGap
    linarith

/-! ## Concrete cases -/

/-- Three noisy observations, two of them at the same point (as in example06, which repeats points). -/
def exObs : Pts (1 + 2) 2 := ⟨0, .nd .working, Matrix.of ![![0, 1], ![1, 1], ![1, 1]]⟩

/-- A target. -/
noncomputable def exTgt (flag : ℝ) : Pts 1 2 := ⟨1, .nd .working, Matrix.of ![![1 / 2, flag]]⟩

/-- Concrete case of `flagged_target` (and of `noisy_predict`, `noisy_target`): repeated noisy observations. -/
example : ∃ zt v lam, Obj.predict .numpy (exactLA .numpy) 2 (flagged (maternFormula 2) ![0, 0, 0]) exObs (.vec ![1, 2, 4])
      (exTgt 0) true true = .ok (zt, v, lam) ∧
    Obj.predict .numpy (exactLA .numpy) 2 (flagged (maternFormula 2) ![0, 0, 0]) exObs (.vec ![1, 2, 4])
      (exTgt 1) true true = .ok (zt, fun t => v t + 1, lam) := by
  have := flagged_target (exactLA_contract .numpy) 2 ![0, 0, 0] exObs (exTgt 0) (exTgt 1) (by decide) (by decide) 2
    (by decide) (by decide) (by decide) (fun i => by fin_cases i <;> rfl) (fun t => by fin_cases t; rfl)
    (fun t => by fin_cases t; rfl) (fun t j => by fin_cases t; fin_cases j; rfl) ![1, 2, 4] true true
  simpa using this

/-- Concrete case of `hetero_repeated`: the two observations at one are averaged, the variance is halved. -/
example : ∃ zt v lam lam', Obj.predict .numpy (exactLA .numpy) 3 (hetero (maternFormula 2) ![0, 0]) exObs (.vec ![1, 2, 4])
      (exTgt 0) true true = .ok (zt, v, lam) ∧
    Obj.predict .numpy (exactLA .numpy) 3 (hetero (maternFormula 2) ![0, 0])
      (⟨2, .nd .working, Matrix.of ![![0, 1], ![1, 1 / 2]]⟩ : Pts (1 + 1) 2) (.vec ![1, 3])
      (exTgt 0) true true = .ok (zt, v, lam') := by
  have h := hetero_repeated (exactLA_contract .numpy) 2 ![0, 0] exObs
    (⟨2, .nd .working, Matrix.of ![![0, 1], ![1, 1 / 2]]⟩ : Pts (1 + 1) 2) (exTgt 0) (by decide) (by decide) 3
    (by decide) (by decide) (by decide) ![0, 1, 1] (fun i j => by fin_cases i <;> fin_cases j <;> rfl)
    (fun i => by fin_cases i <;> simp [exObs, Fin.last]) (fun i => by fin_cases i <;> simp [Fin.last])
    (fun a => by fin_cases a <;> simp [Finset.sum_filter, Fin.sum_univ_three, exObs, Fin.last] <;> norm_num) ![1, 2, 4] true true
  have e : (fun a : Fin (1 + 1) => (∑ i with (![0, 1, 1] : Fin (1 + 2) → Fin (1 + 1)) i = a,
      (exObs.val i (Fin.last 1))⁻¹ * (![1, 2, 4] : Fin (1 + 2) → ℝ) i) /
      ∑ i with (![0, 1, 1] : Fin (1 + 2) → Fin (1 + 1)) i = a, (exObs.val i (Fin.last 1))⁻¹) = ![1, 3] := by
    ext a
    fin_cases a <;> simp [Finset.sum_filter, Fin.sum_univ_three, exObs, Fin.last] <;> norm_num
  rw [e] at h
  exact h


/-! ## Conditioned sample paths -/

open MeasureTheory in
/-- Paths conditioned with the weights of the prediction with a linear mean: draws from the normal law with the
predicted mean and the covariance of the errors. -/
theorem conditional_law_linear {q N np : ℕ} (hla : la.Contract be) {S : Mat N N} (hS : S.PosSemidef) {P : Mat N q}
    {xi : Fin (q + r) → Fin N} (xt : Fin m → Fin N) (hK : CPD (S.submatrix xi xi) (P.submatrix xi id))
    (hP : FullRank (P.submatrix xi id)) (zi : Fin (q + r) → ℝ) :
    ∃ (mean : Fin m → ℝ) (lam : Mat (q + r) m) (V : Mat m m),
      Core.predict la .linearPredictor (arraysAt S P xi xt) zi false = .ok (mean, fun t => V t t, lam) ∧
      (Measure.pi fun _ : Fin np => normalLaw 0 S).map
          (fun zs k j => condPaths (Matrix.of fun a k => zs k a) xi zi xt lam j k) =
        Measure.pi fun _ : Fin np => normalLaw mean V := by
  obtain ⟨pred, lam, V, hV, hc, h1, h2⟩ := predict_linear_law hla hS xt hK hP
  refine ⟨pred zi, lam, V, h1 zi, ?_⟩
  have hpred : ∀ w t, pred w t = ∑ i, lam i t * w i := by
    intro w t
    obtain ⟨X, -, h⟩ := predict_linear hla (arraysAt S P xi xt) hK hP w false
    rw [h1 w] at h
    obtain ⟨e1, e2⟩ := Prod.mk.inj (Except.ok.inj h)
    obtain ⟨-, e3⟩ := Prod.mk.inj e2
    rw [e1, e3]
    exact add_zero _
  have h0 := h2 0
  rw [mulVec_zero] at h0
  have hm1 : Measurable fun z : Fin N → ℝ => z ∘ xt - pred (z ∘ xi) := by
    apply Continuous.measurable
    fun_prop
  have hsh := normalLaw_map hV 0 (1 : Mat m m) (pred zi)
  have hm2 : Measurable fun e : Fin m → ℝ => (1 : Mat m m) *ᵥ e + pred zi := by
    apply Continuous.measurable
    fun_prop
  rw [mulVec_zero, zero_add, Matrix.one_mul, Matrix.transpose_one, Matrix.mul_one, ← h0, Measure.map_map hm2 hm1] at hsh
  rw [← hsh]
  have hae : ∀ _ : Fin np, AEMeasurable ((fun e : Fin m → ℝ => (1 : Mat m m) *ᵥ e + pred zi) ∘
      fun z : Fin N → ℝ => z ∘ xt - pred (z ∘ xi)) (normalLaw 0 S) := fun _ => (hm2.comp hm1).aemeasurable
  have : ∀ _ : Fin np, SigmaFinite (Measure.map ((fun e : Fin m → ℝ => (1 : Mat m m) *ᵥ e + pred zi) ∘
      fun z : Fin N → ℝ => z ∘ xt - pred (z ∘ xi)) (normalLaw 0 S)) := fun _ => by rw [hsh]; infer_instance
  rw [← Measure.pi_map_pi hae]
  congr 1
  funext zs k j
  simp only [condPaths, Matrix.of_apply, Function.comp_apply, Matrix.one_mulVec, Pi.add_apply, Pi.sub_apply, hpred]
  rw [sub_add_eq_add_sub, add_sub_assoc, ← Finset.sum_sub_distrib]
  congr 1
  exact Finset.sum_congr rfl fun i _ => by ring

/-- **C276** When `x` stacks the observations and the targets, its covariance gives the arrays of the
prediction. -/
theorem stacked (hg : IsNoisy g θ k nu nu) {N : ℕ} (x : Pts N e) (xi : Pts n e) (xt : Pts m e) (hne : xi.id ≠ xt.id)
    (ii : Fin n → Fin N) (it : Fin m → Fin N) (hii : Function.Injective ii) (hit : Function.Injective it)
    (hd : ∀ i t, ii i ≠ it t) (hxi : ∀ i, x.val (ii i) = xi.val i) (hxt : ∀ t, x.val (it t) = xt.val t) :
    g.arrays θ xi xt = arraysAt (g.covMat x x θ) (g.mean x g.meanparam) ii it := by
  obtain ⟨h1, h2, h3, h4, h5, h6⟩ := arrays_noisy hg xi xt hne
  rcases ha : g.arrays θ xi xt with ⟨a1, a2, a3, a4, a5, a6⟩
  rw [ha] at h1 h2 h3 h4 h5 h6
  simp only at h1 h2 h3 h4 h5 h6
  subst h1 h2 h3 h4 h5 h6
  unfold arraysAt
  congr 1
  · ext i j; simp only [Matrix.submatrix_apply, hg.self, hxi, hii.eq_iff, Matrix.of_apply]
  · ext i t; simp only [Matrix.submatrix_apply, hg.self, hxi, hxt, hd, if_false, add_zero, Matrix.of_apply]
  · ext t; simp only [hg.self, hxt, if_true]
  · ext i j; simp only [Matrix.submatrix_apply, hg.self, hxt, hit.eq_iff, Matrix.of_apply]
  · ext i j; simp only [Matrix.submatrix_apply, hg.mean, Matrix.of_apply]
  · ext i j; simp only [Matrix.submatrix_apply, hg.mean, Matrix.of_apply]

open MeasureTheory in
/-- **C276** example11: paths drawn at the stacked points with mean zero and conditioned on the noisy observations
with the weights of `predict` are independent draws from the normal law with the predicted mean, whose variances
are the predicted variances. -/
theorem noisy_paths {N np : ℕ} (hla : la.Contract be) (hg : IsNoisy g θ k nu nu) (x : Pts N e) (xi : Pts (1 + r) e)
    (xt : Pts m e) (hne : xi.id ≠ xt.id) (ii : Fin (1 + r) → Fin N) (it : Fin m → Fin N)
    (hii : Function.Injective ii) (hit : Function.Injective it) (hd : ∀ i t, ii i ≠ it t)
    (hxi : ∀ i, x.val (ii i) = xi.val i) (hxt : ∀ t, x.val (it t) = xt.val t)
    (hpos : ∀ i, 0 < nu (xi.val i)) (hnn : ∀ i, 0 ≤ nu (x.val i)) (z : Fin (1 + r) → ℝ) (f : ℕ) :
    ∃ (zt : Fin m → ℝ) (lam : Mat (1 + r) m) (V : Mat m m),
      Obj.predict be la f g xi (.vec z) xt false false = .ok (zt, fun t => V t t, lam) ∧
      (Measure.pi fun _ : Fin np => normalLaw 0 (g.covMat x x θ)).map
          (fun zs p t => condPaths (Matrix.of fun a p => zs p a) ii z it lam t p) =
        Measure.pi fun _ : Fin np => normalLaw zt V := by
  have hst := stacked hg x xi xt hne ii it hii hit hd hxi hxt
  have hS : (g.covMat x x θ).PosSemidef := by
    have h1 : g.covMat x x θ = (Matrix.of fun i j => k (x.val i) (x.val j)) + Matrix.diagonal fun i => nu (x.val i) := by
      ext i j
      rw [hg.self]
      simp [Matrix.diagonal_apply]
    rw [h1]
    exact (hg.psd x.val).add (Matrix.PosSemidef.diagonal hnn)
  have hK : ((g.covMat x x θ).submatrix ii ii).PosDef := by
    have := hg.Kii_posDef xi hpos
    have e1 : g.covMat xi xi θ = (g.covMat x x θ).submatrix ii ii := congrArg Arrays.Kii hst
    rwa [← e1]
  have hP : FullRank ((g.mean x g.meanparam).submatrix ii id) := by
    have := hg.fullRank xi
    have e1 : g.mean xi g.meanparam = (g.mean x g.meanparam).submatrix ii id := congrArg Arrays.Pi hst
    rwa [← e1]
  obtain ⟨zt, lam, V, h1, h2⟩ := conditional_law_linear (np := np) hla hS it (CPD.of_posDef hK _) hP z
  refine ⟨zt, lam, V, ?_, h2⟩
  rw [predict_arrays hg]
  change Core.predict la .linearPredictor (g.arrays θ xi xt) z false = _
  rw [hst]
  exact h1

/-- Concrete case of `noisy_paths` (and of `stacked`): example11 with three observations, two at the same point,
and one target without noise. -/
example : ∃ (zt : Fin 1 → ℝ) (lam : Mat (1 + 2) 1) (V : Mat 1 1),
    Obj.predict .numpy (exactLA .numpy) 3 (hetero (maternFormula 2) ![0, 0]) exObs (.vec ![1, 2, 4]) (exTgt 0) false false =
      .ok (zt, fun t => V t t, lam) ∧
    (MeasureTheory.Measure.pi fun _ : Fin 5 => normalLaw 0 ((hetero (maternFormula 2) ![0, 0]).covMat
        (⟨2, .nd .working, Matrix.of ![![0, 1], ![1, 1], ![1, 1], ![1 / 2, 0]]⟩ : Pts 4 2)
        (⟨2, .nd .working, Matrix.of ![![0, 1], ![1, 1], ![1, 1], ![1 / 2, 0]]⟩ : Pts 4 2) ![0, 0])).map
        (fun zs p t => condPaths (Matrix.of fun a p => zs p a) ![0, 1, 2] ![1, 2, 4] ![3] lam t p) =
      MeasureTheory.Measure.pi fun _ : Fin 5 => normalLaw zt V :=
  noisy_paths (np := 5) (exactLA_contract .numpy) (hetero_noisy 2 ![0, 0]) _ exObs (exTgt 0) (by decide) _ _
    (by decide) (by decide) (by decide) (fun i => by fin_cases i <;> rfl) (fun t => by fin_cases t; rfl)
    (fun i => by fin_cases i <;> simp [exObs, Fin.last]) (fun i => by fin_cases i <;> simp [Fin.last]) _ 3

/-- Concrete case of `plain_cov_false` and of `noisy_cov_diag`. -/
example : ∃ lam v V, krigingPredictor (exactLA .numpy) (plain (maternFormula 2) ![0, 0, 0, 0]) exObs (exTgt 0) 0 =
      .ok (lam, .var v) ∧
    krigingPredictor (exactLA .numpy) (plain (maternFormula 2) ![0, 0, 0, 0]) exObs (exTgt 0) 1 = .ok (lam, .cov V) ∧
    V 0 0 = v 0 + Real.exp 0 ∧ V 0 0 ≠ v 0 :=
  plain_cov_false (exactLA_contract .numpy) 2 ![0, 0, 0, 0] exObs (exTgt 0) (by decide) 0

/-- Concrete case of `flagged_same_false`. -/
example : ∃ lam zc vc lamc,
    Obj.predict .numpy (exactLA .numpy) 2 (flagged (maternFormula 2) ![0, 0, 0]) exObs (.vec ![1, 2, 4]) exObs false false =
      .ok (![1, 2, 4], fun _ => 0, lam) ∧
    Obj.predict .numpy (exactLA .numpy) 2 (flagged (maternFormula 2) ![0, 0, 0]) exObs (.vec ![1, 2, 4])
      { exObs with id := 1 } false false = .ok (zc, vc, lamc) ∧ ∀ i, Real.exp 0 ≤ vc i :=
  flagged_same_false (exactLA_contract .numpy) 2 ![0, 0, 0] exObs { exObs with id := 1 } rfl (by decide) 2 (by decide)
    (by decide) (fun i => by fin_cases i <;> rfl) ![1, 2, 4]

end Verif.Core.Noisy
