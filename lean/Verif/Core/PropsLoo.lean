import Verif.Core.PropsPredict

/-!
# C31, C32, C35: fast leave-one-out
-/

set_option autoImplicit false

namespace Verif.Core

open Verif Verif.Data Matrix

variable {q r : ℕ} {be : Backend} {la : LA}

/-! ## The refit problem -/

/-- The arrays of the problem in which observation `i` is left out and predicted;
`v` is the prior variance used for the target. -/
def leaveOut {n q : ℕ} (K : Mat (n + 1) (n + 1)) (P : Mat (n + 1) q) (v : ℝ) (i : Fin (n + 1)) :
    Arrays n 1 q where
  Kii := Matrix.of fun a b => K (i.succAbove a) (i.succAbove b)
  Kit := Matrix.of fun a _ => K (i.succAbove a) i
  vt := fun _ => v
  Ktt := Matrix.of fun _ _ => v
  Pi := Matrix.of fun a j => P (i.succAbove a) j
  Pt := Matrix.of fun _ j => P i j

/-- The data without observation `i`. -/
def without {n : ℕ} (z : Fin (n + 1) → ℝ) (i : Fin (n + 1)) : Fin n → ℝ := fun a => z (i.succAbove a)

/-- The residual weights: one at `i`, minus the prediction weights elsewhere. -/
def resid {n : ℕ} (i : Fin (n + 1)) (l : Fin n → ℝ) : Fin (n + 1) → ℝ := i.insertNth 1 (-l)

theorem resid_dot {n : ℕ} (i : Fin (n + 1)) (l : Fin n → ℝ) (f : Fin (n + 1) → ℝ) :
    ∑ j, f j * resid i l j = f i - ∑ a, l a * f (i.succAbove a) := by
  rw [Fin.sum_univ_succAbove _ i]
  simp only [resid, Fin.insertNth_apply_same, Fin.insertNth_apply_succAbove, Pi.neg_apply, mul_one,
    mul_neg, Finset.sum_neg_distrib]
  rw [sub_eq_add_neg]
  congr 2
  exact Finset.sum_congr rfl fun a _ => mul_comm _ _

theorem leaveOut_posDef {n : ℕ} {K : Mat (n + 1) (n + 1)} (hK : K.PosDef) (P : Mat (n + 1) q)
    (v : ℝ) (i : Fin (n + 1)) : (leaveOut K P v i).Kii.PosDef :=
  hK.submatrix i.succAbove_right_injective

theorem leaveOut_cpd {n : ℕ} {K : Mat (n + 1) (n + 1)} {P : Mat (n + 1) q} (hK : CPD K P) (v : ℝ)
    (i : Fin (n + 1)) : CPD (leaveOut K P v i).Kii (leaveOut K P v i).Pi := by
  refine ⟨?_, ?_⟩
  · ext a b
    have := congrFun (congrFun hK.symm (i.succAbove a)) (i.succAbove b)
    exact this
  · intro x hx hPx
    let y : Fin (n + 1) → ℝ := i.insertNth 0 x
    have hsum : ∀ f : Fin (n + 1) → ℝ, ∑ j, f j * y j = ∑ a, f (i.succAbove a) * x a := by
      intro f
      rw [Fin.sum_univ_succAbove _ i]
      simp [y, Fin.insertNth_apply_same, Fin.insertNth_apply_succAbove]
    have hy : y ≠ 0 := by
      intro h
      apply hx
      funext a
      have := congrFun h (i.succAbove a)
      simpa [y, Fin.insertNth_apply_succAbove] using this
    have hPy : Pᵀ *ᵥ y = 0 := by
      funext j
      have := congrFun hPx j
      simp only [mulVec, dotProduct, transpose_apply] at this ⊢
      rw [hsum]
      exact this
    have := hK.pos y hy hPy
    have he : y ⬝ᵥ (K *ᵥ y) = x ⬝ᵥ ((leaveOut K P v i).Kii *ᵥ x) := by
      simp only [dotProduct, mulVec]
      have h1 : ∀ j, y j * ∑ k, K j k * y k = (∑ b, K j (i.succAbove b) * x b) * y j := by
        intro j; rw [hsum, mul_comm]
      simp only [h1]
      rw [hsum]
      refine Finset.sum_congr rfl fun a _ => ?_
      rw [mul_comm]
      rfl
    rw [← he]
    exact this

/-! ## C31: zero or known mean -/

/-- The fast formulas in closed form. -/
theorem looZeroMean_ok {n : ℕ} (hla : la.Sound be) {K : Mat n n} (hK : K.PosDef) (z : Fin n → ℝ) :
    looZeroMean la K z = .ok (fun i => z i - (K⁻¹ *ᵥ z) i / K⁻¹ i i, fun i => 1 / K⁻¹ i i,
      fun i => (K⁻¹ *ᵥ z) i / K⁻¹ i i) := by
  obtain ⟨C, hC, hc⟩ := choleskySolve_ok hla hK (colVec z)
  simp only [looZeroMean, hc, bind, Except.bind, pure, Except.pure, colVec_mul,
    diagKinvFromChol_spec hC]

/-- Algebra shared by C31: residual weights solve `K w = s eᵢ`. -/
theorem loo_algebra {n : ℕ} {K : Mat (n + 1) (n + 1)} (hK : K.PosDef) (P : Mat (n + 1) q) (v : ℝ)
    (i : Fin (n + 1)) (z : Fin (n + 1) → ℝ) (l : Fin n → ℝ)
    (hl : (leaveOut K P v i).Kii *ᵥ l = fun a => K (i.succAbove a) i) :
    K i i - ∑ a, l a * K (i.succAbove a) i = 1 / K⁻¹ i i ∧
    z i - ∑ a, l a * without z i a = (K⁻¹ *ᵥ z) i / K⁻¹ i i := by
  set s := K i i - ∑ a, l a * K (i.succAbove a) i with hs
  have hsym : ∀ a b, K a b = K b a := fun a b => congrFun (congrFun (PosDef.symm hK) b) a
  have hKw : K *ᵥ resid i l = s • Pi.single i (1 : ℝ) := by
    funext j
    simp only [mulVec, dotProduct, Pi.smul_apply, smul_eq_mul]
    rw [resid_dot i l (fun k => K j k)]
    rcases Fin.eq_self_or_eq_succAbove i j with rfl | ⟨a, rfl⟩
    · simp only [Pi.single_eq_same, mul_one, hs]
      congr 1
      exact Finset.sum_congr rfl fun a _ => by rw [hsym]
    · rw [Pi.single_eq_of_ne (Fin.succAbove_ne i a), mul_zero]
      have := congrFun hl a
      simp only [mulVec, dotProduct] at this
      rw [← this, sub_eq_zero]
      exact Finset.sum_congr rfl fun b _ => mul_comm _ _
  have hw : resid i l = s • (K⁻¹ *ᵥ Pi.single i 1) := by
    rw [← mulVec_smul, ← hKw, mulVec_mulVec, Matrix.nonsing_inv_mul _ (PosDef.det_unit hK),
      one_mulVec]
  have hcol : K⁻¹ *ᵥ Pi.single i (1 : ℝ) = fun j => K⁻¹ j i := by
    rw [Matrix.mulVec_single_one]; rfl
  rw [hcol] at hw
  have hsi : ∀ a b, K⁻¹ a b = K⁻¹ b a := by
    intro a b
    have : (K⁻¹)ᵀ = K⁻¹ := by rw [transpose_nonsing_inv, PosDef.symm hK]
    exact congrFun (congrFun this b) a
  have h1 : s * K⁻¹ i i = 1 := by
    have := congrFun hw i
    simp only [resid, Fin.insertNth_apply_same, Pi.smul_apply, smul_eq_mul] at this
    exact this.symm
  have hne : K⁻¹ i i ≠ 0 := right_ne_zero_of_mul_eq_one h1
  have hse : s = 1 / K⁻¹ i i := by rw [eq_div_iff hne]; exact h1
  refine ⟨hse, ?_⟩
  have h2 := resid_dot i l z
  rw [hw] at h2
  have h3 : ∑ j, z j * (s • fun j => K⁻¹ j i) j = s * (K⁻¹ *ᵥ z) i := by
    simp only [Pi.smul_apply, smul_eq_mul, mulVec, dotProduct, Finset.mul_sum]
    refine Finset.sum_congr rfl fun j _ => ?_
    rw [hsi i j]; ring
  rw [h3] at h2
  unfold without
  rw [← h2, hse]
  ring

/-- **C31** Zero mean: for each `i` the fast leave-one-out prediction equals
`Model.predict` from the other observations; the fast variance equals the refit
variance when the target's prior variance is `K i i`, and exceeds it by
`K i i - v` for any other prior variance `v` (`predict` uses the one without
nugget); the fast error is the data minus the prediction. -/
theorem loo_zeroMean_refit (hla : la.Contract be) {K : Mat (q + (r + 1)) (q + (r + 1))}
    (hK : K.PosDef) (P : Mat (q + (r + 1)) q) (z : Fin (q + (r + 1)) → ℝ) (v : ℝ) :
    ∃ zl s e, loo la (.zero : MeanType _ 1) K P z = .ok (zl, s, e) ∧ ∀ i : Fin (q + r + 1),
      ∃ mean var lam,
        predict la .zero (leaveOut (n := q + r) K P v i) (without z i) false = .ok (mean, var, lam) ∧
        zl i = mean 0 ∧ s i = var 0 + (K i i - v) ∧ e i = z i - mean 0 := by
  refine ⟨_, _, _, looZeroMean_ok hla.toSound hK z, fun i => ?_⟩
  set a := leaveOut (n := q + r) K P v i with ha
  have hKa : a.Kii.PosDef := leaveOut_posDef hK P v i
  refine ⟨_, _, _, predict_zero hla a hKa (without z i) false, ?_⟩
  have hl : a.Kii *ᵥ (fun b => (a.Kii⁻¹ * a.Kit) b 0) = fun b => K (i.succAbove b) i := by
    funext b
    have : a.Kii * (a.Kii⁻¹ * a.Kit) = a.Kit := by
      rw [← Matrix.mul_assoc, Matrix.mul_nonsing_inv _ (PosDef.det_unit hKa), Matrix.one_mul]
    have := congrFun (congrFun this b) 0
    rw [Matrix.mul_apply] at this
    exact this
  obtain ⟨h1, h2⟩ := loo_algebra (n := q + r) hK P v i z _ hl
  refine ⟨?_, ?_, ?_⟩
  · rw [add_zero, ← h2]; ring
  · rw [← h1]
    simp only [Bool.false_eq_true, if_false]
    have : a.vt 0 = v := rfl
    rw [this]
    simp only [ha, leaveOut, Matrix.of_apply]
    ring
  · rw [add_zero, ← h2]

/-- **C31** Known (parameterised) mean. -/
theorem loo_parameterized_refit (hla : la.Contract be) {K : Mat (q + (r + 1)) (q + (r + 1))}
    (hK : K.PosDef) (P : Mat (q + (r + 1)) q) (mi z : Fin (q + (r + 1)) → ℝ) (v : ℝ) :
    ∃ zl s e, loo la (.parameterized mi mi) K P z = .ok (zl, s, e) ∧ ∀ i : Fin (q + r + 1),
      ∃ mean var lam,
        predict la (.parameterized (without mi i) fun _ => mi i) (leaveOut (n := q + r) K P v i)
          (without z i) false = .ok (mean, var, lam) ∧
        zl i = mean 0 ∧ s i = var 0 + (K i i - v) ∧ e i = z i - mean 0 := by
  obtain ⟨zl, s, e, h, hi⟩ := loo_zeroMean_refit hla hK P (z - mi) v
  have h' : looZeroMean la K (z - mi) = .ok (zl, s, e) := h
  refine ⟨zl + mi, s, e, by simp [loo, looParameterized, h', bind, Except.bind, pure, Except.pure],
    fun i => ?_⟩
  obtain ⟨mean, var, lam, hp, h1, h2, h3⟩ := hi i
  set a := leaveOut (n := q + r) K P v i with ha
  have hKa : a.Kii.PosDef := leaveOut_posDef hK P v i
  rw [predict_zero hla a hKa] at hp
  refine ⟨_, _, _, predict_param hla a hKa (without mi i) _ (without z i) false, ?_⟩
  have hp' := Prod.mk.inj (Except.ok.inj hp)
  have hm := congrFun hp'.1 0
  have hv := congrFun (Prod.mk.inj hp'.2).1 0
  have hwo : without z i - without mi i = without (z - mi) i := rfl
  rw [hwo]
  rw [add_zero] at hm
  refine ⟨?_, ?_, ?_⟩
  · rw [hm]
    change zl i + mi i = mean 0 + mi i
    rw [h1]
  · rw [hv]; exact h2
  · rw [hm, h3]
    change (z i - mi i) - mean 0 = _
    ring

/-! ## C32: unknown linear mean -/

/-- Projection on contrasts. -/
theorem IsContrast.proj {P : Mat (q + r) q} {W : Mat (q + r) r} (hW : IsContrast P W)
    {k : ℕ} {D : Mat (q + r) k} (hD : Pᵀ * D = 0) : W * (Wᵀ * D) = D := by
  ext i j
  have h0 : Pᵀ *ᵥ (fun i => D i j) = 0 := by
    funext a
    have := congrFun (congrFun hD a) j
    rw [Matrix.mul_apply] at this
    exact this
  obtain ⟨c, hc⟩ := hW.span _ h0
  have h1 : W *ᵥ (Wᵀ *ᵥ (fun i => D i j)) = fun i => D i j := by
    rw [hc, mulVec_mulVec, mulVec_mulVec, Matrix.mul_assoc, hW.orth, Matrix.mul_one]
  have h2 := congrFun h1 i
  rw [mulVec_mulVec] at h2
  rw [← Matrix.mul_assoc, Matrix.mul_apply]
  exact h2

/-- The matrix `W (Wᵀ K W)⁻¹ Wᵀ` of the code. -/
noncomputable def Qinv (K : Mat (q + r) (q + r)) (W : Mat (q + r) r) : Mat (q + r) (q + r) :=
  W * ((Wᵀ * (K * W))⁻¹ * Wᵀ)

/-- The characterisation of `Qinv`, independent of the basis. -/
structure IsQinv {n q : ℕ} (K : Mat n n) (P : Mat n q) (M : Mat n n) : Prop where
  symm : Mᵀ = M
  null : Pᵀ * M = 0
  /-- `M K` is the identity on contrasts -/
  id : ∀ w : Fin n → ℝ, Pᵀ *ᵥ w = 0 → M *ᵥ (K *ᵥ w) = w

theorem Qinv_spec {K : Mat (q + r) (q + r)} {P : Mat (q + r) q} {W : Mat (q + r) r}
    (hK : CPD K P) (hW : IsContrast P W) : IsQinv K P (Qinv K W) := by
  have hG : (Wᵀ * (K * W)).PosDef := contrast_posDef hW.orth hW.null hK
  refine ⟨?_, ?_, ?_⟩
  · have hs : ((Wᵀ * (K * W))⁻¹)ᵀ = (Wᵀ * (K * W))⁻¹ := by
      rw [transpose_nonsing_inv, PosDef.symm hG]
    unfold Qinv
    rw [transpose_mul, transpose_mul, hs, transpose_transpose, Matrix.mul_assoc]
  · unfold Qinv
    rw [← Matrix.mul_assoc, hW.null, Matrix.zero_mul]
  · intro w hw
    obtain ⟨c, rfl⟩ := hW.span w hw
    unfold Qinv
    rw [mulVec_mulVec, mulVec_mulVec]
    have : W * ((Wᵀ * (K * W))⁻¹ * Wᵀ) * K * W = W := by
      have h1 : W * ((Wᵀ * (K * W))⁻¹ * Wᵀ) * K * W =
          W * ((Wᵀ * (K * W))⁻¹ * (Wᵀ * (K * W))) := by
        simp only [Matrix.mul_assoc]
      rw [h1, Matrix.nonsing_inv_mul _ (PosDef.det_unit hG), Matrix.mul_one]
    rw [this]

/-- Uniqueness: two matrices with the characterisation are equal. -/
theorem IsQinv.unique {n q : ℕ} {K : Mat n n} {P : Mat n q} {M N : Mat n n} (hK : CPD K P)
    (hM : IsQinv K P M) (hN : IsQinv K P N) : M = N := by
  -- each column of `D = M - N` is a contrast killed by the quadratic form
  have hcol : ∀ j, (fun i => (M - N) i j) = 0 := by
    intro j
    set d : Fin n → ℝ := fun i => (M - N) i j with hd
    have hPd : Pᵀ *ᵥ d = 0 := by
      have : Pᵀ * (M - N) = 0 := by rw [Matrix.mul_sub, hM.null, hN.null, sub_zero]
      funext a
      have := congrFun (congrFun this a) j
      rw [Matrix.mul_apply] at this
      exact this
    have hKd : ∀ w : Fin n → ℝ, Pᵀ *ᵥ w = 0 → d ⬝ᵥ (K *ᵥ w) = 0 := by
      intro w hw
      have h1 : (M - N) *ᵥ (K *ᵥ w) = 0 := by
        rw [sub_mulVec, hM.id w hw, hN.id w hw, sub_self]
      have h2 := congrFun h1 j
      have hs : ∀ i, (M - N) j i = (M - N) i j := by
        intro i
        have : (M - N)ᵀ = M - N := by rw [transpose_sub, hM.symm, hN.symm]
        exact congrFun (congrFun this i) j
      simp only [mulVec, dotProduct, hs] at h2
      exact h2
    by_contra hne
    have := hK.pos d hne hPd
    rw [hKd d hPd] at this
    exact lt_irrefl _ this
  ext i j
  have := congrFun (hcol j) i
  exact sub_eq_zero.mp this

theorem IsQinv.mul_P {n q : ℕ} {K : Mat n n} {P : Mat n q} {M : Mat n n} (hM : IsQinv K P M) :
    M * P = 0 := by
  have := congrArg transpose hM.null
  rw [transpose_mul, transpose_transpose, hM.symm, transpose_zero] at this
  exact this

/-- The fast formulas with an unknown mean, in terms of the characterisation. -/
theorem looCpd_ok (hla : la.Sound be) {K : Mat (q + r) (q + r)} {P : Mat (q + r) q}
    (hK : CPD K P) (hP : FullRank P) (z : Fin (q + r) → ℝ) :
    ∃ M, IsQinv K P M ∧ looCpd la K P z = .ok (fun i => z i - (M *ᵥ z) i / M i i,
      fun i => 1 / M i i, fun i => (M *ᵥ z) i / M i i) := by
  have hqr := hla.qr_ok P (Nat.le_add_right q r)
  have hW := hqr.contrast hP
  have hG : ((Wof (la.qr P).1)ᵀ * (K * Wof (la.qr P).1)).PosDef :=
    contrast_posDef hW.orth hW.null hK
  refine ⟨Qinv K (Wof (la.qr P).1), Qinv_spec hK hW, ?_⟩
  obtain ⟨C, _, hc⟩ := choleskySolve_ok hla hG (Wof (la.qr P).1)ᵀ
  have hc' : choleskySolve la (((la.qr P).1.submatrix id (Fin.natAdd q))ᵀ *
      (K * (la.qr P).1.submatrix id (Fin.natAdd q)))
      ((la.qr P).1.submatrix id (Fin.natAdd q))ᵀ = _ := hc
  simp only [looCpd, hc', bind, Except.bind, pure, Except.pure]
  have h1 : ∀ i, ((la.qr P).1.submatrix id (Fin.natAdd q) *ᵥ
      ((((Wof (la.qr P).1)ᵀ * (K * Wof (la.qr P).1))⁻¹ * (Wof (la.qr P).1)ᵀ) *ᵥ z)) i =
      (Qinv K (Wof (la.qr P).1) *ᵥ z) i := by
    intro i
    rw [mulVec_mulVec]
    rfl
  have h2 : ∀ i, ∑ j, (la.qr P).1.submatrix id (Fin.natAdd q) i j *
      (((Wof (la.qr P).1)ᵀ * (K * Wof (la.qr P).1))⁻¹ * (Wof (la.qr P).1)ᵀ) j i =
      Qinv K (Wof (la.qr P).1) i i := by
    intro i
    unfold Qinv
    rw [Matrix.mul_apply]
    rfl
  simp only [h1, h2]

/-- Algebra of C32: residual weights solve `K w = s eᵢ + P μ`, `Pᵀ w = 0`. -/
theorem loo_algebra_linear {n : ℕ} {K : Mat (n + 1) (n + 1)} {P : Mat (n + 1) q}
    {M : Mat (n + 1) (n + 1)} (hs : K.IsSymm) (hM : IsQinv K P M)
    (i : Fin (n + 1)) (z : Fin (n + 1) → ℝ) (l : Fin n → ℝ) (mu : Fin q → ℝ)
    (hl : ∀ a, ∑ b, K (i.succAbove a) (i.succAbove b) * l b + ∑ j, P (i.succAbove a) j * mu j =
      K (i.succAbove a) i)
    (hu : ∀ j, ∑ b, P (i.succAbove b) j * l b = P i j) :
    K i i - (∑ a, l a * K (i.succAbove a) i + ∑ j, mu j * P i j) = 1 / M i i ∧
    z i - ∑ a, l a * without z i a = (M *ᵥ z) i / M i i := by
  set s := K i i - (∑ a, l a * K (i.succAbove a) i + ∑ j, mu j * P i j) with hsdef
  have hsym : ∀ a b, K a b = K b a := fun a b => congrFun (congrFun hs b) a
  have hKw : K *ᵥ resid i l = s • Pi.single i (1 : ℝ) + P *ᵥ mu := by
    funext j
    simp only [mulVec, dotProduct, Pi.add_apply, Pi.smul_apply, smul_eq_mul]
    rw [resid_dot i l (fun k => K j k)]
    rcases Fin.eq_self_or_eq_succAbove i j with rfl | ⟨a, rfl⟩
    · simp only [Pi.single_eq_same, mul_one, hsdef]
      have e1 : ∑ a, l a * K j (j.succAbove a) = ∑ a, l a * K (j.succAbove a) j :=
        Finset.sum_congr rfl fun a _ => by rw [hsym]
      have e2 : ∑ k, P j k * mu k = ∑ k, mu k * P j k :=
        Finset.sum_congr rfl fun a _ => mul_comm _ _
      rw [e1, e2]
      ring
    · rw [Pi.single_eq_of_ne (Fin.succAbove_ne i a), mul_zero, zero_add, ← hl a]
      have e1 : ∑ b, l b * K (i.succAbove a) (i.succAbove b) =
          ∑ b, K (i.succAbove a) (i.succAbove b) * l b :=
        Finset.sum_congr rfl fun a _ => mul_comm _ _
      rw [e1]
      ring
  have hPw : Pᵀ *ᵥ resid i l = 0 := by
    funext j
    simp only [mulVec, dotProduct, transpose_apply, Pi.zero_apply]
    rw [resid_dot i l (fun k => P k j), ← hu j, sub_eq_zero]
    exact Finset.sum_congr rfl fun a _ => mul_comm _ _
  have hw : resid i l = s • (fun j => M j i) := by
    have h1 := hM.id _ hPw
    rw [hKw, mulVec_add, mulVec_mulVec, hM.mul_P, zero_mulVec, add_zero, mulVec_smul,
      Matrix.mulVec_single_one] at h1
    exact h1.symm
  have hMs : ∀ a b, M a b = M b a := fun a b => congrFun (congrFun hM.symm b) a
  have h1 : s * M i i = 1 := by
    have := congrFun hw i
    simp only [resid, Fin.insertNth_apply_same, Pi.smul_apply, smul_eq_mul] at this
    exact this.symm
  have hne : M i i ≠ 0 := right_ne_zero_of_mul_eq_one h1
  have hse : s = 1 / M i i := by rw [eq_div_iff hne]; exact h1
  refine ⟨hse, ?_⟩
  have h2 := resid_dot i l z
  rw [hw] at h2
  have h3 : ∑ j, z j * (s • fun j => M j i) j = s * (M *ᵥ z) i := by
    simp only [Pi.smul_apply, smul_eq_mul, mulVec, dotProduct, Finset.mul_sum]
    refine Finset.sum_congr rfl fun j _ => ?_
    rw [hMs i j]; ring
  rw [h3] at h2
  unfold without
  rw [← h2, hse]
  ring

/-- **C32** Unknown linear mean: the fast leave-one-out prediction, variance and
error at each `i` whose removal keeps the design of full rank are those of
`Model.predict` (universal kriging) from the other observations; the variance
convention is as in C31. -/
theorem loo_linear_refit (hla : la.Contract be) {K : Mat (q + (r + 1)) (q + (r + 1))}
    {P : Mat (q + (r + 1)) q} (hK : CPD K P) (hP : FullRank P) (z : Fin (q + (r + 1)) → ℝ) (v : ℝ) :
    ∃ zl s e, loo la (.linearPredictor : MeanType _ 1) K P z = .ok (zl, s, e) ∧
      ∀ i : Fin (q + r + 1), FullRank (leaveOut (n := q + r) K P v i).Pi →
      ∃ mean var lam,
        predict la .linearPredictor (leaveOut (n := q + r) K P v i) (without z i) false =
          .ok (mean, var, lam) ∧
        zl i = mean 0 ∧ s i = var 0 + (K i i - v) ∧ e i = z i - mean 0 := by
  obtain ⟨M, hM, hok⟩ := looCpd_ok hla.toSound hK hP z
  refine ⟨_, _, _, hok, fun i hPi => ?_⟩
  set a := leaveOut (n := q + r) K P v i with ha
  have hKa : CPD a.Kii a.Pi := leaveOut_cpd (n := q + r) hK v i
  obtain ⟨X, hX, hp⟩ := predict_linear hla a hKa hPi (without z i) false
  refine ⟨_, _, _, hp, ?_⟩
  have hsys := (ukSystem_iff a X).mp hX 0
  have hl : ∀ b, ∑ c, K (i.succAbove b) (i.succAbove c) * X (Sum.inl c) 0 +
      ∑ j, P (i.succAbove b) j * X (Sum.inr j) 0 = K (i.succAbove b) i := by
    intro b
    exact congrFun hsys.1 b
  have hu : ∀ j, ∑ b, P (i.succAbove b) j * X (Sum.inl b) 0 = P i j := by
    intro j
    exact congrFun hsys.2 j
  obtain ⟨h1, h2⟩ := loo_algebra_linear (n := q + r) hK.symm hM i z _ _ hl hu
  have hm : ∑ b, X.toRows₁ b 0 * without z i b = ∑ b, X (Sum.inl b) 0 * without z i b := rfl
  refine ⟨?_, ?_, ?_⟩
  · rw [add_zero, hm, ← h2]; ring
  · rw [← h1]
    simp only [Bool.false_eq_true, if_false]
    rw [Fintype.sum_sum_type]
    have e1 : ∑ b, X (Sum.inl b) 0 * ukRHS a (Sum.inl b) 0 =
      ∑ b, X (Sum.inl b) 0 * K (i.succAbove b) i := rfl
    have e2 : ∑ j, X (Sum.inr j) 0 * ukRHS a (Sum.inr j) 0 =
      ∑ j, X (Sum.inr j) 0 * P i j := rfl
    have e3 : a.vt 0 = v := rfl
    rw [e1, e2, e3]
    ring
  · rw [add_zero, hm, ← h2]

/-- `Pᵀ K⁻¹ P` is positive definite. -/
theorem posDef_gls {n q : ℕ} {K : Mat n n} {P : Mat n q} (hK : K.PosDef) (hP : FullRank P) :
    (Pᵀ * (K⁻¹ * P)).PosDef := by
  have hKis : (K⁻¹)ᵀ = K⁻¹ := by rw [transpose_nonsing_inv, PosDef.symm hK]
  apply posDef_of_quad
  · rw [transpose_mul, transpose_mul, hKis, transpose_transpose, Matrix.mul_assoc]
  · intro x hx
    have hPx : P *ᵥ x ≠ 0 := fun h => hx (hP x h)
    have := PosDef.quad_pos hK.inv hPx
    rw [← mulVec_mulVec, dot_mulVec_transpose, transpose_transpose, ← mulVec_mulVec]
    exact this

/-- The explicit formula satisfies the characterisation. -/
theorem Qinv_explicit {n q : ℕ} {K : Mat n n} {P : Mat n q} (hK : K.PosDef) (hP : FullRank P) :
    IsQinv K P (K⁻¹ - K⁻¹ * P * ((Pᵀ * (K⁻¹ * P))⁻¹ * (K⁻¹ * P)ᵀ)) := by
  have hKu := PosDef.det_unit hK
  have hKis : (K⁻¹)ᵀ = K⁻¹ := by rw [transpose_nonsing_inv, PosDef.symm hK]
  have hF := posDef_gls hK hP
  have hFs : ((Pᵀ * (K⁻¹ * P))⁻¹)ᵀ = (Pᵀ * (K⁻¹ * P))⁻¹ := by
    rw [transpose_nonsing_inv, PosDef.symm hF]
  refine ⟨?_, ?_, ?_⟩
  · rw [transpose_sub, hKis]
    congr 1
    rw [transpose_mul, transpose_mul, transpose_transpose, hFs, Matrix.mul_assoc]
  · rw [Matrix.mul_sub, ← Matrix.mul_assoc Pᵀ, ← Matrix.mul_assoc (Pᵀ * (K⁻¹ * P)),
      Matrix.mul_nonsing_inv _ (PosDef.det_unit hF), Matrix.one_mul, transpose_mul, hKis, sub_self]
  · intro w hw
    rw [mulVec_mulVec, Matrix.sub_mul, Matrix.nonsing_inv_mul _ hKu, sub_mulVec, one_mulVec,
      transpose_mul, hKis]
    have : K⁻¹ * P * ((Pᵀ * (K⁻¹ * P))⁻¹ * (Pᵀ * K⁻¹)) * K =
        K⁻¹ * P * ((Pᵀ * (K⁻¹ * P))⁻¹ * Pᵀ) := by
      rw [Matrix.mul_assoc, Matrix.mul_assoc _ _ K, Matrix.mul_assoc _ _ K,
        Matrix.nonsing_inv_mul _ hKu, Matrix.mul_one]
    rw [this, ← Matrix.mul_assoc, ← mulVec_mulVec, hw, mulVec_zero, sub_zero]

/-- **C32** The two algebraic variants (contrast-based and inverse-based) return
the same arrays, whenever the covariance is positive definite. -/
theorem loo_variants_agree (hla : la.Contract be) {K : Mat (q + r) (q + r)} {P : Mat (q + r) q}
    (hK : K.PosDef) (hP : FullRank P) (z : Fin (q + r) → ℝ) :
    looSpd la K P z = looCpd la K P z ∧ ∃ x, looCpd la K P z = .ok x := by
  have hC := CPD.of_posDef hK P
  obtain ⟨M, hM, hok⟩ := looCpd_ok hla.toSound hC hP z
  refine ⟨?_, _, hok⟩
  have hF := posDef_gls hK hP
  have hFu := (Matrix.isUnit_iff_isUnit_det _).mpr (PosDef.det_unit hF)
  obtain ⟨R, hR⟩ := hla.solve_total (Pᵀ * (K⁻¹ * P)) (K⁻¹ * P)ᵀ hFu
  have hR' := hla.solve_ok _ _ _ hR
  have hRe : R = (Pᵀ * (K⁻¹ * P))⁻¹ * (K⁻¹ * P)ᵀ := by
    rw [← hR', ← Matrix.mul_assoc, Matrix.nonsing_inv_mul _ (PosDef.det_unit hF), Matrix.one_mul]
  have hMe : K⁻¹ - K⁻¹ * P * R = M := by
    rw [hRe]
    exact IsQinv.unique hC (Qinv_explicit hK hP) hM
  have hinv := hla.inv_ok K ((Matrix.isUnit_iff_isUnit_det _).mpr (PosDef.det_unit hK))
  rw [hok]
  simp only [looSpd, hinv, hR, bind, Except.bind, pure, Except.pure, hMe]

/-- **C35** Leave-one-out errors and variances do not change when a combination of
mean functions is added to the data; the predictions move by it. -/
theorem loo_equivariant (hla : la.Sound be) {K : Mat (q + r) (q + r)} {P : Mat (q + r) q}
    (hK : CPD K P) (hP : FullRank P) (z : Fin (q + r) → ℝ) (beta : Fin q → ℝ) :
    ∃ zl s e, loo la (.linearPredictor : MeanType _ 1) K P z = .ok (zl, s, e) ∧
      loo la (.linearPredictor : MeanType _ 1) K P (z + P *ᵥ beta) = .ok (zl + P *ᵥ beta, s, e) := by
  obtain ⟨M, hM, hok⟩ := looCpd_ok hla hK hP z
  obtain ⟨N, hN, hok'⟩ := looCpd_ok hla hK hP (z + P *ᵥ beta)
  have hMN := IsQinv.unique hK hM hN
  subst hMN
  refine ⟨_, _, _, hok, hok'.trans ?_⟩
  have h : M *ᵥ (z + P *ᵥ beta) = M *ᵥ z := by
    rw [mulVec_add, mulVec_mulVec, hM.mul_P, zero_mulVec, add_zero]
  rw [h]
  congr 2
  funext i
  simp only [Pi.add_apply]
  ring

/-! ## Concrete case -/

example : ∃ zl s e, loo (q := 1) (r := 0 + 1) (exactLA .numpy)
    (.linearPredictor : MeanType _ 1) exArrays.Kii exArrays.Pi ![3, 4] = .ok (zl, s, e) := by
  obtain ⟨zl, s, e, h, _⟩ := loo_linear_refit (q := 1) (r := 0) (exactLA_contract .numpy)
    (CPD.of_posDef exArrays_posDef exArrays.Pi) exArrays_fullRank ![3, 4] 2
  exact ⟨zl, s, e, h⟩

/-- Removing the second point keeps the design of full rank. -/
example : FullRank (leaveOut (n := 1) exArrays.Kii exArrays.Pi 2 1).Pi := by
  intro b hb
  have := congrFun hb 0
  ext i
  fin_cases i
  simpa [leaveOut, exArrays, mulVec, dotProduct, Fin.succAbove] using this

end Verif.Core
