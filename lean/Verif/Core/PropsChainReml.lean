import Verif.Core.PropsChain

/-!
# C227, C229: the restricted likelihood, universal kriging and the integrated likelihood
-/

set_option autoImplicit false

namespace Verif.Core

open Verif Verif.Data Matrix

variable {n m q r r' N : ℕ} {be : Backend} {la : LA}

/-! ## Bordered matrices -/

theorem schur_post {ι κ : Type} [Fintype ι] [DecidableEq ι] [Fintype κ] [DecidableEq κ] {A : Matrix ι ι ℝ}
    {B : Matrix ι κ ℝ} {D : Matrix κ κ ℝ} (hs : Aᵀ = A) {X : Matrix ι κ ℝ} (hX : A * X = B) (x : κ → ℝ) :
    Sum.elim (-(X *ᵥ x)) x ⬝ᵥ (fromBlocks A B Bᵀ D *ᵥ Sum.elim (-(X *ᵥ x)) x) = x ⬝ᵥ ((D - Xᵀ * B) *ᵥ x) := by
  rw [fromBlocks_mulVec]
  simp only [Sum.elim_comp_inl, Sum.elim_comp_inr]
  have h2 : A *ᵥ (-(X *ᵥ x)) + B *ᵥ x = 0 := by
    rw [mulVec_neg, mulVec_mulVec, hX, neg_add_cancel]
  have hXB : Bᵀ * X = Xᵀ * B := by
    rw [← hX, transpose_mul, hs, Matrix.mul_assoc]
  have h3 : Bᵀ *ᵥ (-(X *ᵥ x)) + D *ᵥ x = (D - Xᵀ * B) *ᵥ x := by
    rw [sub_mulVec, mulVec_neg, mulVec_mulVec, hXB]
    abel
  rw [h2, h3]
  simp [dotProduct, Fintype.sum_sum_type]

theorem quad_conj {ι κ : Type} [Fintype ι] [DecidableEq ι] [Fintype κ] [DecidableEq κ] (A : Matrix ι κ ℝ) (B : Matrix κ κ ℝ) (z : ι → ℝ) :
    z ⬝ᵥ ((A * (B * Aᵀ)) *ᵥ z) = (Aᵀ *ᵥ z) ⬝ᵥ (B *ᵥ (Aᵀ *ᵥ z)) := by
  rw [← mulVec_mulVec, ← mulVec_mulVec, dot_mulVec_transpose]

/-- The matrix of the universal kriging system for the points of `K` and the mean functions of `P`. -/
def bordered (K : Mat n n) (P : Mat n q) : Matrix (Fin n ⊕ Fin q) (Fin n ⊕ Fin q) ℝ := fromBlocks K P Pᵀ 0

theorem bordered_symm {K : Mat n n} (hK : K.PosDef) (P : Mat n q) : (bordered K P)ᵀ = bordered K P := by
  rw [bordered, fromBlocks_transpose, PosDef.symm hK, transpose_transpose, transpose_zero]

theorem bordered_spec {K : Mat n n} {P : Mat n q} (hK : K.PosDef) (hP : FullRank P) (z : Fin n → ℝ) :
    IsUnit (bordered K P) ∧ (bordered K P).det = (-1) ^ q * (K.det * (Pᵀ * (K⁻¹ * P)).det) ∧
    Sum.elim z 0 ⬝ᵥ ((bordered K P)⁻¹ *ᵥ Sum.elim z 0) =
      z ⬝ᵥ ((K⁻¹ - K⁻¹ * P * ((Pᵀ * (K⁻¹ * P))⁻¹ * (K⁻¹ * P)ᵀ)) *ᵥ z) := by
  have hKu := (Matrix.isUnit_iff_isUnit_det _).mpr (PosDef.det_unit hK)
  have hX : K * (K⁻¹ * P) = P := by
    rw [← Matrix.mul_assoc, Matrix.mul_nonsing_inv _ (PosDef.det_unit hK), Matrix.one_mul]
  have hF := posDef_gls hK hP
  have hS : (0 : Mat q q) - (K⁻¹ * P)ᵀ * P = -(Pᵀ * (K⁻¹ * P)) := by
    rw [transpose_mul, transpose_nonsing_inv, PosDef.symm hK, Matrix.mul_assoc, zero_sub]
  have hSu : IsUnit ((0 : Mat q q) - (K⁻¹ * P)ᵀ * P) := by
    rw [hS]
    exact ((Matrix.isUnit_iff_isUnit_det _).mpr (PosDef.det_unit hF)).neg
  obtain ⟨h1, h2, h3⟩ := schur_quad hKu (PosDef.symm hK) hX hSu z (0 : Fin q → ℝ)
  refine ⟨h1, ?_, ?_⟩
  · rw [bordered, h2, hS, det_neg, Fintype.card_fin]
    ring
  · rw [bordered, h3, hS]
    have hneg : (-(Pᵀ * (K⁻¹ * P)))⁻¹ = -(Pᵀ * (K⁻¹ * P))⁻¹ := by
      apply Matrix.inv_eq_left_inv
      rw [neg_mul_neg, Matrix.nonsing_inv_mul _ (PosDef.det_unit hF)]
    rw [hneg, zero_sub, neg_dotProduct, neg_mulVec, mulVec_neg, neg_neg, sub_mulVec, dotProduct_sub,
      sub_eq_add_neg]
    rw [quad_conj]

/-- The order of the rows of the bordered matrix of all points. -/
def borderEquiv (e : Fin n ⊕ Fin m ≃ Fin N) : (Fin n ⊕ Fin q) ⊕ Fin m ≃ Fin N ⊕ Fin q where
  toFun
    | .inl (.inl i) => .inl (e (.inl i))
    | .inl (.inr j) => .inr j
    | .inr t => .inl (e (.inr t))
  invFun
    | .inl i => match e.symm i with
      | .inl i => .inl (.inl i)
      | .inr t => .inr t
    | .inr j => .inl (.inr j)
  left_inv := by
    rintro ((i | j) | t) <;> simp
  right_inv := by
    rintro (i | j)
    · simp only
      cases h : e.symm i with
      | inl x => simp [← h]
      | inr x => simp [← h]
    · rfl

variable {e : Fin n ⊕ Fin m ≃ Fin N} {a : Arrays n m q} {K : Mat N N} {P : Mat N q}

theorem Joined.bordered (h : Joined e a K P) :
    (bordered K P).submatrix (borderEquiv e) (borderEquiv e) = fromBlocks (ukLHS a) (ukRHS a) (ukRHS a)ᵀ a.Ktt := by
  have hc : ∀ x y, K (e x) (e y) = fromBlocks a.Kii a.Kit a.Kitᵀ a.Ktt x y := fun x y => congrFun (congrFun h.cov x) y
  have hm : ∀ x j, P (e x) j = fromRows a.Pi a.Pt x j := fun x j => congrFun (congrFun h.mean x) j
  ext x y
  rcases x with (i | j) | t <;> rcases y with (i' | j') | t' <;>
    simp [Core.bordered, borderEquiv, ukLHS, ukRHS, hc, hm, transpose_apply]

theorem Joined.fullRank (h : Joined e a K P) (hP : FullRank a.Pi) : FullRank P := by
  intro b hb
  apply hP
  funext i
  have h1 := congrFun hb (e (.inl i))
  have hm : ∀ j, P (e (.inl i)) j = a.Pi i j := fun j => congrFun (congrFun h.mean (.inl i)) j
  simpa [mulVec, dotProduct, hm] using h1

/-- The posterior covariance matrix of universal kriging is positive definite. -/
theorem Joined.posDef_universal (h : Joined e a K P) (hK : K.PosDef) {X : Matrix (Fin n ⊕ Fin q) (Fin m) ℝ}
    (hX : ukLHS a * X = ukRHS a) : (a.Ktt - Xᵀ * ukRHS a).PosDef := by
  have hA := h.posDef hK
  have hM := h.blocks hK
  have hM' := PosDef.symm hM
  rw [fromBlocks_transpose, transpose_transpose] at hM'
  have hD : a.Kttᵀ = a.Ktt := (fromBlocks_inj.mp hM').2.2.2
  have hs : (ukLHS a)ᵀ = ukLHS a := bordered_symm hA a.Pi
  have hu : a.Piᵀ * X.toRows₁ = a.Ptᵀ := by
    have := congrArg Matrix.toRows₂ hX
    rw [ukLHS, ukRHS, toRows₂_fromRows] at this
    rw [← this]
    ext i j
    simp [Matrix.mul_apply, Fintype.sum_sum_type, toRows₂, toRows₁]
  apply posDef_of_quad
  · rw [transpose_sub, hD, transpose_mul, transpose_transpose, ← hX, transpose_mul, hs, Matrix.mul_assoc]
  · intro x hx
    rw [← schur_post hs hX x]
    have h1 := PosDef.quad_pos hM (x := Sum.elim (-(X.toRows₁ *ᵥ x)) x) (by
      intro h0
      apply hx
      ext i
      exact congrFun h0 (Sum.inr i))
    have hx1 : X *ᵥ x = Sum.elim (X.toRows₁ *ᵥ x) (X.toRows₂ *ᵥ x) := by
      funext i
      cases i <;> rfl
    have hpu : a.Piᵀ *ᵥ (-(X.toRows₁ *ᵥ x)) + a.Ptᵀ *ᵥ x = 0 := by
      rw [mulVec_neg, mulVec_mulVec, hu, neg_add_cancel]
    have key : Sum.elim (-(X *ᵥ x)) x ⬝ᵥ (fromBlocks (ukLHS a) (ukRHS a) (ukRHS a)ᵀ a.Ktt *ᵥ Sum.elim (-(X *ᵥ x)) x) =
        Sum.elim (-(X.toRows₁ *ᵥ x)) x ⬝ᵥ (fromBlocks a.Kii a.Kit a.Kitᵀ a.Ktt *ᵥ Sum.elim (-(X.toRows₁ *ᵥ x)) x) := by
      set u := -(X.toRows₁ *ᵥ x) with hu'
      set w := -(X.toRows₂ *ᵥ x) with hw'
      have e1 : -(X *ᵥ x) = Sum.elim u w := by
        rw [hx1]; funext i; cases i <;> rfl
      have e2 : (ukRHS a)ᵀ *ᵥ Sum.elim u w = a.Kitᵀ *ᵥ u + a.Pt *ᵥ w := by
        funext t
        simp [ukRHS, mulVec, dotProduct, Fintype.sum_sum_type]
      have e3 : ukRHS a *ᵥ x = Sum.elim (a.Kit *ᵥ x) (a.Ptᵀ *ᵥ x) := by
        funext t; cases t <;> rfl
      have e4 : ukLHS a *ᵥ Sum.elim u w = Sum.elim (a.Kii *ᵥ u + a.Pi *ᵥ w) (a.Piᵀ *ᵥ u) := by
        rw [ukLHS, fromBlocks_mulVec]
        simp
      rw [e1, fromBlocks_mulVec, fromBlocks_mulVec]
      simp only [Sum.elim_comp_inl, Sum.elim_comp_inr, e2, e3, e4]
      have s : ∀ {α β : Type} [Fintype α] [Fintype β] (f f' : α → ℝ) (g g' : β → ℝ),
          Sum.elim f g ⬝ᵥ Sum.elim f' g' = f ⬝ᵥ f' + g ⬝ᵥ g' := by
        intro α β _ _ f f' g g'
        simp [dotProduct, Fintype.sum_sum_type]
      have e5 : Sum.elim (a.Kii *ᵥ u + a.Pi *ᵥ w) (a.Piᵀ *ᵥ u) + Sum.elim (a.Kit *ᵥ x) (a.Ptᵀ *ᵥ x) =
          Sum.elim (a.Kii *ᵥ u + a.Pi *ᵥ w + a.Kit *ᵥ x) (a.Piᵀ *ᵥ u + a.Ptᵀ *ᵥ x) := by
        funext i; cases i <;> rfl
      rw [e5, s, s, s, hpu]
      have e6 : u ⬝ᵥ (a.Pi *ᵥ w) + x ⬝ᵥ (a.Pt *ᵥ w) = 0 := by
        rw [dot_mulVec_transpose a.Pi, dot_mulVec_transpose a.Pt, ← add_dotProduct, hpu, zero_dotProduct]
      simp only [dotProduct_add, dotProduct_zero]
      linarith
    rw [key]
    exact h1

/-- **C227** The restricted likelihood of all observations is that of some times the likelihood of the
others under the predictions of universal kriging; the constant depends on the mean functions only. -/
theorem reml_chain (hla : la.Contract be) {e : Fin (q + r) ⊕ Fin m ≃ Fin (q + r')} {a : Arrays (q + r) m q}
    {K : Mat (q + r') (q + r')} {P : Mat (q + r') q} (h : Joined e a K P) (hK : K.PosDef) (hP : FullRank a.Pi)
    (z : Fin (q + r') → ℝ) :
    ∃ lam V x y, krigingUniversal la a 1 = .ok (lam, .cov V) ∧
      reml be la a.Kii a.Pi (fun i => z (e (.inl i))) = .ok (.finite x) ∧
      nll be la V (fun t => ∑ i, lam i t * z (e (.inl i))) (fun t => z (e (.inr t))) = .ok (.finite y) ∧
      reml be la K P z = .ok (.finite
        (x + y + 1 / 2 * (Real.log (a.Piᵀ * a.Pi).det - Real.log (Pᵀ * P).det))) := by
  have hA := h.posDef hK
  have hP' := h.fullRank hP
  obtain ⟨X, hX, -, h1⟩ := ukDirect_ok hla a (CPD.of_posDef hA _) hP
  have hV := h.posDef_universal hK hX
  refine ⟨X.toRows₁, a.Ktt - Xᵀ * ukRHS a, _, _, by simp only [krigingUniversal, h1],
    reml_explicit hla.toSound hA hP _, (nll_eq hla.toSound hV _ _).1, ?_⟩
  rw [reml_explicit hla.toSound hK hP' z]
  obtain ⟨-, d1, q1⟩ := bordered_spec hK hP' z
  obtain ⟨u2, d2, q2⟩ := bordered_spec hA hP (fun i => z (e (.inl i)))
  have hVu := (Matrix.isUnit_iff_isUnit_det _).mpr (PosDef.det_unit hV)
  obtain ⟨-, d3, q3⟩ := schur_quad (D := a.Ktt) u2 (bordered_symm hA a.Pi) hX hVu
    (Sum.elim (fun i => z (e (.inl i))) (0 : Fin q → ℝ)) (fun t => z (e (.inr t)))
  obtain ⟨d4, q4⟩ := reindex_quad (borderEquiv e) (bordered K P) (Sum.elim z (0 : Fin q → ℝ))
  rw [h.bordered] at d4 q4
  have hz : (Sum.elim z (0 : Fin q → ℝ)) ∘ borderEquiv e =
      Sum.elim (Sum.elim (fun i => z (e (.inl i))) (0 : Fin q → ℝ)) (fun t => z (e (.inr t))) := by
    funext x
    rcases x with (i | j) | t <;> rfl
  rw [hz] at q4
  have hdet : K.det * (Pᵀ * (K⁻¹ * P)).det =
      a.Kii.det * (a.Piᵀ * (a.Kii⁻¹ * a.Pi)).det * (a.Ktt - Xᵀ * ukRHS a).det := by
    have e1 : (bordered K P).det = (bordered a.Kii a.Pi).det * (a.Ktt - Xᵀ * ukRHS a).det := by
      rw [← d4, ← d3]; rfl
    rw [d1, d2, mul_assoc] at e1
    have hne : ((-1 : ℝ)) ^ q ≠ 0 := pow_ne_zero _ (by norm_num)
    exact mul_left_cancel₀ hne e1
  have k1 := hA.det_pos
  have k2 := (posDef_gls hA hP).det_pos
  have k3 := hV.det_pos
  have k4 := hK.det_pos
  have k5 := (posDef_gls hK hP').det_pos
  have hlog := congrArg Real.log hdet
  rw [Real.log_mul k4.ne' k5.ne', Real.log_mul (mul_pos k1 k2).ne' k3.ne', Real.log_mul k1.ne' k2.ne'] at hlog
  have hmean : (fun t => z (e (.inr t))) - Xᵀ *ᵥ Sum.elim (fun i => z (e (.inl i))) (0 : Fin q → ℝ) =
      (fun t => z (e (.inr t))) - (fun t => ∑ i, X.toRows₁ i t * z (e (.inl i))) := by
    funext t
    simp [mulVec, dotProduct, Fintype.sum_sum_type, toRows₁]
  have hquad : z ⬝ᵥ ((K⁻¹ - K⁻¹ * P * ((Pᵀ * (K⁻¹ * P))⁻¹ * (K⁻¹ * P)ᵀ)) *ᵥ z) =
      (fun i => z (e (.inl i))) ⬝ᵥ ((a.Kii⁻¹ - a.Kii⁻¹ * a.Pi * ((a.Piᵀ * (a.Kii⁻¹ * a.Pi))⁻¹ * (a.Kii⁻¹ * a.Pi)ᵀ)) *ᵥ
          (fun i => z (e (.inl i)))) +
        ((fun t => z (e (.inr t))) - (fun t => ∑ i, X.toRows₁ i t * z (e (.inl i)))) ⬝ᵥ
          ((a.Ktt - Xᵀ * ukRHS a)⁻¹ *ᵥ ((fun t => z (e (.inr t))) - (fun t => ∑ i, X.toRows₁ i t * z (e (.inl i))))) := by
    rw [← q1, q4, ← q2, ← hmean]
    exact q3
  rw [hquad]
  have hcard : r' = r + m := by
    have := Fintype.card_congr e
    simp at this
    omega
  have hgd : -Real.log (gaussDensity (a.Ktt - Xᵀ * ukRHS a) (fun t => ∑ i, X.toRows₁ i t * z (e (.inl i)))
      (fun t => z (e (.inr t)))) = 1 / 2 * (m * Real.log (2 * Real.pi) + Real.log (a.Ktt - Xᵀ * ukRHS a).det +
        ((fun t => z (e (.inr t))) - (fun t => ∑ i, X.toRows₁ i t * z (e (.inl i)))) ⬝ᵥ
          ((a.Ktt - Xᵀ * ukRHS a)⁻¹ *ᵥ ((fun t => z (e (.inr t))) - (fun t => ∑ i, X.toRows₁ i t * z (e (.inl i)))))) := by
    have hp : (0 : ℝ) < (2 * Real.pi) ^ m := by have := Real.pi_pos; positivity
    unfold gaussDensity
    rw [Real.log_mul (by positivity) (Real.exp_pos _).ne', Real.log_exp, Real.log_inv,
      Real.log_sqrt (by positivity), Real.log_mul hp.ne' k3.ne', Real.log_pow]
    ring
  rw [hgd]
  have hcast : (r' : ℝ) = r + m := by exact_mod_cast hcard
  rw [hcast]
  congr 2
  linear_combination (1 / 2) * hlog

/-- **C227** With one more observation the restricted likelihood changes by the normal density given by
`Model.predict` with an unknown linear mean. -/
theorem predict_chain_linear (hla : la.Contract be) {e : Fin (q + r) ⊕ Fin 1 ≃ Fin (q + r')} {a : Arrays (q + r) 1 q}
    {K : Mat (q + r') (q + r')} {P : Mat (q + r') q} (h : Joined e a K P) (hK : K.PosDef) (hP : FullRank a.Pi)
    (z : Fin (q + r') → ℝ) (zn : Bool) :
    ∃ mean var lam x, predict la .linearPredictor a (fun i => z (e (.inl i))) zn = .ok (mean, var, lam) ∧ 0 < var 0 ∧
      reml be la a.Kii a.Pi (fun i => z (e (.inl i))) = .ok (.finite x) ∧
      reml be la K P z = .ok (.finite (x +
        1 / 2 * (Real.log (2 * Real.pi * var 0) + (z (e (.inr 0)) - mean 0) ^ 2 / var 0) +
        1 / 2 * (Real.log (a.Piᵀ * a.Pi).det - Real.log (Pᵀ * P).det))) := by
  have hA := h.posDef hK
  obtain ⟨lam, V, x, y, h1, h2, h3, h4⟩ := reml_chain hla h hK hP z
  obtain ⟨X, hX, h5⟩ := predict_linear hla a (CPD.of_posDef hA _) hP (fun i => z (e (.inl i))) zn
  have hVX := h.posDef_universal hK hX
  -- both solve the same system
  obtain ⟨X', hX', -, h6⟩ := ukDirect_ok hla a (CPD.of_posDef hA _) hP
  have hu := ukLHS_unit a (CPD.of_posDef hA _) hP
  have hXX : X' = X := by
    have hd := (Matrix.isUnit_iff_isUnit_det _).mp hu
    calc X' = (ukLHS a)⁻¹ * (ukLHS a * X') := by rw [← Matrix.mul_assoc, Matrix.nonsing_inv_mul _ hd, Matrix.one_mul]
      _ = (ukLHS a)⁻¹ * (ukLHS a * X) := by rw [hX', hX]
      _ = X := by rw [← Matrix.mul_assoc, Matrix.nonsing_inv_mul _ hd, Matrix.one_mul]
  subst hXX
  simp only [krigingUniversal, h6] at h1
  obtain ⟨hl, hV⟩ := Prod.mk.inj (Except.ok.inj h1)
  have hV' := PostVar.cov.inj hV
  subst hl hV'
  have hv : 0 < (a.Ktt - X'ᵀ * ukRHS a) 0 0 := hVX.diag_pos
  have hvt : a.vt 0 - ∑ i, X' i 0 * ukRHS a i 0 = (a.Ktt - X'ᵀ * ukRHS a) 0 0 := by
    rw [h.var, Matrix.sub_apply, Matrix.mul_apply]; rfl
  have hmax : (if zn then fun t => max (a.vt t - ∑ i, X' i t * ukRHS a i t) 0
      else fun t => a.vt t - ∑ i, X' i t * ukRHS a i t) 0 = (a.Ktt - X'ᵀ * ukRHS a) 0 0 := by
    cases zn
    · simpa using hvt
    · simp only [if_true, hvt]
      exact max_eq_left hv.le
  refine ⟨_, _, _, x, h5, by simp only [hmax]; exact hv, h2, ?_⟩
  rw [h4]
  rw [(nll_eq hla.toSound hVX _ _).1] at h3
  have h7 := Crit.finite.inj (Except.ok.inj h3)
  rw [neg_log_gaussDensity_one hv] at h7
  simp only [hmax, add_zero]
  rw [← h7]

/-! ## C229: the integrated likelihood -/

open MeasureTheory in
/-- **C229** The restricted likelihood is the likelihood integrated over the coefficients of the mean,
up to a constant that depends on the mean functions only. -/
theorem reml_integrated (hla : la.Sound be) {K : Mat (q + r) (q + r)} {P : Mat (q + r) q}
    (hK : K.PosDef) (hP : FullRank P) (z : Fin (q + r) → ℝ) :
    ∃ x, reml be la K P z = .ok (.finite x) ∧
      ∫ b : Fin q → ℝ, gaussDensity K (P *ᵥ b) z = Real.exp (-x) / Real.sqrt (Pᵀ * P).det := by
  refine ⟨_, reml_explicit hla hK hP z, ?_⟩
  have hKis : (K⁻¹)ᵀ = K⁻¹ := by rw [transpose_nonsing_inv, PosDef.symm hK]
  set F := Pᵀ * (K⁻¹ * P) with hF
  have hFp : F.PosDef := posDef_gls hK hP
  have hPP : (Pᵀ * P).PosDef := by
    have := posDef_gls (K := (1 : Mat (q + r) (q + r))) Matrix.PosDef.one hP
    rwa [inv_one, Matrix.one_mul] at this
  have hFs := PosDef.symm hFp
  set c := z ⬝ᵥ ((K⁻¹ - K⁻¹ * P * (F⁻¹ * (K⁻¹ * P)ᵀ)) *ᵥ z) with hc
  set bh := F⁻¹ *ᵥ ((K⁻¹ * P)ᵀ *ᵥ z) with hbh
  have hFb : F *ᵥ bh = (K⁻¹ * P)ᵀ *ᵥ z := by
    rw [hbh, mulVec_mulVec, Matrix.mul_nonsing_inv _ (PosDef.det_unit hFp), one_mulVec]
  have hsplit : ∀ b : Fin q → ℝ, (z - P *ᵥ b) ⬝ᵥ (K⁻¹ *ᵥ (z - P *ᵥ b)) = c + (b - bh) ⬝ᵥ (F *ᵥ (b - bh)) := by
    intro b
    have e1 : (P *ᵥ b) ⬝ᵥ (K⁻¹ *ᵥ z) = b ⬝ᵥ (F *ᵥ bh) := by
      rw [hFb, transpose_mul, hKis, ← mulVec_mulVec, dot_mulVec_transpose Pᵀ, transpose_transpose]
    have e2 : z ⬝ᵥ (K⁻¹ *ᵥ (P *ᵥ b)) = b ⬝ᵥ (F *ᵥ bh) := by
      rw [← e1, dot_mulVec_comm hKis]
    have e3 : (P *ᵥ b) ⬝ᵥ (K⁻¹ *ᵥ (P *ᵥ b)) = b ⬝ᵥ (F *ᵥ b) := by
      rw [hF, ← mulVec_mulVec, ← mulVec_mulVec, dot_mulVec_transpose Pᵀ, transpose_transpose]
    have e4 : c = z ⬝ᵥ (K⁻¹ *ᵥ z) - bh ⬝ᵥ (F *ᵥ bh) := by
      rw [hc, sub_mulVec, dotProduct_sub, quad_conj, ← hbh, ← hFb, dotProduct_comm bh]
    rw [mulVec_sub, sub_dotProduct, dotProduct_sub, dotProduct_sub, e1, e2, e3, e4, mulVec_sub, sub_dotProduct,
      dotProduct_sub, dotProduct_sub, dot_mulVec_comm hFs bh b]
    ring
  have hKd := hK.det_pos
  have hFd := hFp.det_pos
  have hPd := hPP.det_pos
  have hpi : (0 : ℝ) < 2 * Real.pi := by have := Real.pi_pos; positivity
  have hFi : (F⁻¹).PosDef := hFp.inv
  have hdens : ∀ b, gaussDensity K (P *ᵥ b) z =
      ((Real.sqrt ((2 * Real.pi) ^ (q + r) * K.det))⁻¹ * Real.exp (-(1 / 2) * c) *
        Real.sqrt ((2 * Real.pi) ^ q * (F⁻¹).det)) * gaussDensity F⁻¹ bh b := by
    intro b
    have hne : Real.sqrt ((2 * Real.pi) ^ q * (F⁻¹).det) ≠ 0 := by
      have := hFi.det_pos
      positivity
    unfold gaussDensity
    rw [hsplit b, mul_add, Real.exp_add, nonsing_inv_nonsing_inv _ (PosDef.det_unit hFp)]
    field_simp
  simp only [hdens]
  rw [integral_const_mul, gaussDensity_integral hFi, mul_one, det_nonsing_inv, Ring.inverse_eq_inv']
  have hr : Real.exp (-(1 / 2 * (r * Real.log (2 * Real.pi) + Real.log K.det + Real.log F.det -
      Real.log (Pᵀ * P).det + c))) = (Real.sqrt ((2 * Real.pi) ^ r * K.det * F.det / (Pᵀ * P).det))⁻¹ *
        Real.exp (-(1 / 2) * c) := by
    have hpos : 0 < (2 * Real.pi) ^ r * K.det * F.det / (Pᵀ * P).det := by positivity
    rw [← Real.exp_log (inv_pos.mpr (Real.sqrt_pos.mpr hpos)), Real.log_inv, Real.log_sqrt hpos.le,
      Real.log_div (by positivity) hPd.ne', Real.log_mul (by positivity) hFd.ne',
      Real.log_mul (by positivity) hKd.ne', Real.log_pow, ← Real.exp_add]
    congr 1
    ring
  rw [hr, Real.sqrt_div' _ hPd.le, inv_div, Real.sqrt_mul (by positivity), Real.sqrt_mul (by positivity),
    Real.sqrt_mul (by positivity), Real.sqrt_mul (by positivity), Real.sqrt_inv, pow_add, Real.sqrt_mul (by positivity)]
  have s1 := Real.sqrt_pos.mpr hKd
  have s2 := Real.sqrt_pos.mpr hFd
  have s3 := Real.sqrt_pos.mpr hPd
  have s4 : 0 < Real.sqrt ((2 * Real.pi) ^ q) := Real.sqrt_pos.mpr (by positivity)
  have s5 : 0 < Real.sqrt ((2 * Real.pi) ^ r) := Real.sqrt_pos.mpr (by positivity)
  field_simp

/-- A constant mean is seen at the two observed points of `ex_joined`. -/
theorem ex_fullRank : FullRank (pointArrays (n := 2) (m := 2) exK (fun _ => 1) (fun i => i) (fun t => 2 + t)).Pi := by
  intro b hb
  have := congrFun hb 0
  ext i
  fin_cases i
  simpa [pointArrays, mulVec, dotProduct] using this

example : ∃ x, reml (q := 1) (r := 3) .torch (exactLA .torch) (firstCov exK 4) (Matrix.of fun _ _ => 1)
    (fun i => (i : ℕ)) = .ok (.finite x) := by
  obtain ⟨_, _, x, y, -, -, -, h⟩ := reml_chain (q := 1) (r := 1) (r' := 3) (be := .torch) (exactLA_contract .torch)
    ex_joined (exK_posDef 4) ex_fullRank (fun i => (i : ℕ))
  exact ⟨_, h⟩

end Verif.Core
