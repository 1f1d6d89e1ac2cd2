import Verif.Core.PropsGaussLimit
import Verif.Core.PropsGls
import Mathlib.LinearAlgebra.Matrix.SchurComplement

/-!
# C260: a linear mean is the limit of vaguer and vaguer priors on its coefficients
-/

set_option autoImplicit false

namespace Verif.Core

open Verif Verif.Data Matrix Filter Topology

variable {n m q r : ℕ} {be : Backend} {la : LA}

/-- What a model with zero mean and covariance `k(x, y) + t p(x) · p(y)` evaluates to: the coefficients of the mean are
independent normal variables of variance `t`. -/
def vague (a : Arrays n m q) (t : ℝ) : Arrays n m q :=
  { a with
    Kii := a.Kii + t • (a.Pi * a.Piᵀ)
    Kit := a.Kit + t • (a.Pi * a.Ptᵀ)
    vt := fun j => a.vt j + t * (a.Pt j ⬝ᵥ a.Pt j)
    Ktt := a.Ktt + t • (a.Pt * a.Ptᵀ) }

/-- The block system of universal kriging with `-s` in the corner. -/
def ridge (a : Arrays n m q) (s : ℝ) : Matrix (Fin n ⊕ Fin q) (Fin n ⊕ Fin q) ℝ :=
  Matrix.fromBlocks a.Kii a.Pi a.Piᵀ (-s • (1 : Mat q q))

theorem inv_lim {α ι : Type} [Fintype ι] [DecidableEq ι] {l : Filter α} {A : α → Matrix ι ι ℝ} {B : Matrix ι ι ℝ}
    (h : ∀ i j, Tendsto (fun p => A p i j) l (𝓝 (B i j))) (hB : B.det ≠ 0) (i j : ι) :
    Tendsto (fun p => (A p)⁻¹ i j) l (𝓝 (B⁻¹ i j)) := by
  have hA : Tendsto A l (𝓝 B) := tendsto_pi_nhds.mpr fun i => tendsto_pi_nhds.mpr fun j => h i j
  have hd : Tendsto (fun p => (A p).det) l (𝓝 B.det) := ((continuous_id.matrix_det).tendsto B).comp hA
  have ha : Tendsto (fun p => (A p).adjugate i j) l (𝓝 (B.adjugate i j)) :=
    ((Continuous.matrix_elem (continuous_id.matrix_adjugate) i j).tendsto B).comp hA
  simp only [Matrix.inv_def, Matrix.smul_apply, Ring.inverse_eq_inv', smul_eq_mul]
  exact (hd.inv₀ hB).mul ha

theorem quad_add_smul (K : Mat n n) (P : Mat n q) (t : ℝ) (x : Fin n → ℝ) :
    x ⬝ᵥ ((K + t • (P * Pᵀ)) *ᵥ x) = x ⬝ᵥ (K *ᵥ x) + t * ((Pᵀ *ᵥ x) ⬝ᵥ (Pᵀ *ᵥ x)) := by
  rw [Matrix.add_mulVec, dotProduct_add, Matrix.smul_mulVec, dotProduct_smul, smul_eq_mul, ← Matrix.mulVec_mulVec,
    dotProduct_mulVec x P, ← Matrix.mulVec_transpose]

/-- A conditionally positive definite covariance becomes positive definite with a vague enough prior. -/
theorem vague_posDef {K : Mat n n} {P : Mat n q} (h : CPD K P) : ∃ T : ℝ, ∀ t, T ≤ t → (K + t • (P * Pᵀ)).PosDef := by
  set f : (Fin n → ℝ) → ℝ := fun x => x ⬝ᵥ (K *ᵥ x) with hf
  set g : (Fin n → ℝ) → ℝ := fun x => (Pᵀ *ᵥ x) ⬝ᵥ (Pᵀ *ᵥ x) with hg
  have cf : Continuous f := by simp only [hf, dotProduct, mulVec]; fun_prop
  have cg : Continuous g := by simp only [hg, dotProduct, mulVec]; fun_prop
  have g0 : ∀ x, 0 ≤ g x := fun x => Finset.sum_nonneg fun _ _ => mul_self_nonneg _
  have hsph : IsCompact (Metric.sphere (0 : Fin n → ℝ) 1) := isCompact_sphere _ _
  obtain ⟨B, hB⟩ := (hsph.image cf).bddBelow
  have hB' : ∀ x ∈ Metric.sphere (0 : Fin n → ℝ) 1, B ≤ f x := fun x hx => hB ⟨x, hx, rfl⟩
  have hC : IsCompact (Metric.sphere (0 : Fin n → ℝ) 1 ∩ {x | f x ≤ 0}) :=
    hsph.inter_right (isClosed_le cf continuous_const)
  have key : ∃ T : ℝ, 0 ≤ T ∧ ∀ t, T ≤ t → ∀ x ∈ Metric.sphere (0 : Fin n → ℝ) 1, 0 < f x + t * g x := by
    rcases (Metric.sphere (0 : Fin n → ℝ) 1 ∩ {x | f x ≤ 0}).eq_empty_or_nonempty with he | hne
    · refine ⟨0, le_rfl, fun t ht x hx => ?_⟩
      have : 0 < f x := by
        by_contra hx0
        have : x ∈ Metric.sphere (0 : Fin n → ℝ) 1 ∩ {x | f x ≤ 0} := ⟨hx, not_lt.mp hx0⟩
        rw [he] at this
        exact this
      have := mul_nonneg ht (g0 x)
      linarith
    · obtain ⟨y, hy, hmin⟩ := hC.exists_isMinOn hne cg.continuousOn
      have hy0 : y ≠ 0 := by
        rintro rfl
        have := hy.1
        simp at this
      have hgy : 0 < g y := by
        rcases (g0 y).lt_or_eq with h1 | h1
        · exact h1
        · exfalso
          have h2 : Pᵀ *ᵥ y = 0 := dotProduct_self_eq_zero.mp h1.symm
          have := h.pos y hy0 h2
          exact absurd hy.2 (not_le.mpr this)
      refine ⟨|B| / g y + 1, by positivity, fun t ht x hx => ?_⟩
      have ht0 : 0 ≤ t := le_trans (by positivity) ht
      by_cases hx0 : f x ≤ 0
      · have h1 : g y ≤ g x := hmin ⟨hx, hx0⟩
        have h2 := hB' x hx
        have h3 : (|B| / g y + 1) * g y ≤ t * g x := mul_le_mul ht h1 hgy.le ht0
        have h4 : (|B| / g y + 1) * g y = |B| + g y := by field_simp
        have h5 := neg_abs_le B
        linarith
      · have := mul_nonneg ht0 (g0 x)
        linarith [not_le.mp hx0]
  obtain ⟨T, -, hT⟩ := key
  refine ⟨T, fun t ht => posDef_of_quad ?_ fun x hx => ?_⟩
  · rw [transpose_add, h.symm, transpose_smul, transpose_mul, transpose_transpose]
  · rw [quad_add_smul]
    have hn : 0 < ‖x‖ := norm_pos_iff.mpr hx
    have := hT t ht (‖x‖⁻¹ • x) (by simp [norm_smul, hn.ne'])
    have e1 : f (‖x‖⁻¹ • x) = ‖x‖⁻¹ ^ 2 * f x := by
      simp only [hf, Matrix.mulVec_smul, dotProduct_smul, smul_dotProduct, smul_eq_mul]; ring
    have e2 : g (‖x‖⁻¹ • x) = ‖x‖⁻¹ ^ 2 * g x := by
      simp only [hg, Matrix.mulVec_smul, dotProduct_smul, smul_dotProduct, smul_eq_mul]; ring
    rw [e1, e2] at this
    have h3 : 0 < ‖x‖⁻¹ ^ 2 * (f x + t * g x) := by linarith
    exact (pos_iff_pos_of_mul_pos h3).mp (by positivity)

/-- The weights with a vague prior solve the block system with a small corner. -/
theorem vague_system (a : Arrays n m q) {t : ℝ} (ht : 0 < t) {lam : Mat n m} (h : (vague a t).Kii * lam = (vague a t).Kit) :
    ridge a t⁻¹ * Matrix.fromRows lam (t • (a.Piᵀ * lam - a.Ptᵀ)) = ukRHS a := by
  simp only [vague] at h
  have h1 : a.Kii * lam + a.Pi * (t • (a.Piᵀ * lam - a.Ptᵀ)) = a.Kit := by
    rw [Matrix.add_mul, Matrix.smul_mul, Matrix.mul_assoc] at h
    rw [Matrix.mul_smul, Matrix.mul_sub, smul_sub, ← add_sub_assoc, h]
    abel
  have h2 : a.Piᵀ * lam + (-t⁻¹ • (1 : Mat q q)) * (t • (a.Piᵀ * lam - a.Ptᵀ)) = a.Ptᵀ := by
    rw [Matrix.smul_mul, Matrix.one_mul, smul_smul, neg_mul, inv_mul_cancel₀ ht.ne', neg_one_smul]
    abel
  rw [ridge, ukRHS, Matrix.fromBlocks_mul_fromRows, h1, h2]

/-- **C260** Predictions with a linear mean are the limits of predictions with zero mean and a prior of variance `t` on
the coefficients, as `t` grows: means, variances and weights. -/
theorem predict_vague (hla : la.Contract be) (a : Arrays (q + r) m q) (hK : CPD a.Kii a.Pi) (hP : FullRank a.Pi)
    (zi : Fin (q + r) → ℝ) :
    ∃ mean v lam, predict la .linearPredictor a zi false = .ok (mean, v, lam) ∧
      ∃ (mt vt : ℝ → Fin m → ℝ) (lt : ℝ → Mat (q + r) m),
        (∀ᶠ t in atTop, predict la .zero (vague a t) zi false = .ok (mt t, vt t, lt t)) ∧
        ∀ j, Tendsto (fun t => mt t j) atTop (𝓝 (mean j)) ∧ Tendsto (fun t => vt t j) atTop (𝓝 (v j)) ∧
          ∀ i, Tendsto (fun t => lt t i j) atTop (𝓝 (lam i j)) := by
  obtain ⟨T, hT⟩ := vague_posDef hK
  obtain ⟨X, hX, g0⟩ := predict_linear hla a hK hP zi false
  have hu : IsUnit (ukLHS a).det := (Matrix.isUnit_iff_isUnit_det _).mp (ukLHS_unit a hK hP)
  have eX : X = (ukLHS a)⁻¹ * ukRHS a := by
    rw [← hX, ← Matrix.mul_assoc, Matrix.nonsing_inv_mul _ hu, Matrix.one_mul]
  set Y : ℝ → Matrix (Fin (q + r) ⊕ Fin q) (Fin m) ℝ := fun t => (ridge a t⁻¹)⁻¹ * ukRHS a with hYd
  have hL : ∀ i j, Tendsto (fun t : ℝ => ridge a t⁻¹ i j) atTop (𝓝 (ukLHS a i j)) := by
    intro i j
    rcases i with i | i <;> rcases j with j | j
    · exact tendsto_const_nhds
    · exact tendsto_const_nhds
    · exact tendsto_const_nhds
    · have : Tendsto (fun t : ℝ => -t⁻¹ * (1 : Mat q q) i j) atTop (𝓝 (-0 * (1 : Mat q q) i j)) :=
        (tendsto_inv_atTop_zero.neg).mul_const _
      simpa [ridge, ukLHS] using this
  have hdet : Tendsto (fun t : ℝ => (ridge a t⁻¹).det) atTop (𝓝 (ukLHS a).det) :=
    ((continuous_id.matrix_det).tendsto (ukLHS a)).comp
      (tendsto_pi_nhds.mpr fun i => tendsto_pi_nhds.mpr fun j => hL i j)
  have hw : ∀ i j, Tendsto (fun t => Y t i j) atTop (𝓝 (X i j)) := by
    intro i j
    simp only [hYd, eX, Matrix.mul_apply]
    exact tendsto_finsetSum _ fun k _ => (inv_lim hL hu.ne_zero i k).mul_const _
  refine ⟨_, _, _, g0, fun t j => ∑ i, (Y t).toRows₁ i j * zi i + 0,
    fun t j => a.vt j - ∑ i, Y t i j * ukRHS a i j, fun t => (Y t).toRows₁, ?_, fun j => ?_⟩
  · filter_upwards [eventually_ge_atTop T, eventually_gt_atTop 0, hdet.eventually_ne hu.ne_zero] with t h1 h2 h3
    have hKt : (vague a t).Kii.PosDef := hT t h1
    have e0 := vague_system a h2 (lam := (vague a t).Kii⁻¹ * (vague a t).Kit) (by
      rw [← Matrix.mul_assoc, Matrix.mul_nonsing_inv _ (PosDef.det_unit hKt), Matrix.one_mul])
    have e1 : Matrix.fromRows ((vague a t).Kii⁻¹ * (vague a t).Kit)
        (t • (a.Piᵀ * ((vague a t).Kii⁻¹ * (vague a t).Kit) - a.Ptᵀ)) = Y t := by
      simp only [hYd]
      rw [← e0, Matrix.nonsing_inv_mul_cancel_left _ _ (isUnit_iff_ne_zero.mpr h3)]
    have e2 : (Y t).toRows₁ = (vague a t).Kii⁻¹ * (vague a t).Kit := by rw [← e1, Matrix.toRows₁_fromRows]
    rw [predict_zero hla (vague a t) hKt zi false]
    simp only [Bool.false_eq_true, if_false]
    rw [e2]
    set lam := (vague a t).Kii⁻¹ * (vague a t).Kit with hlam
    have e3 : (fun j => (vague a t).vt j - ∑ i, lam i j * (vague a t).Kit i j) =
        fun j => a.vt j - ∑ i, Y t i j * ukRHS a i j := by
      funext j
      have f1 : ∀ k, Y t (Sum.inr k) j = t * ((a.Piᵀ * lam) k j - a.Pt j k) := fun k => by
        rw [← e1]
        simp
      have f2 : ∀ i, Y t (Sum.inl i) j = lam i j := fun i => by rw [← e1]; simp
      rw [Fintype.sum_sum_type]
      simp only [f1, f2, ukRHS, Matrix.fromRows_apply_inl, Matrix.fromRows_apply_inr, Matrix.transpose_apply]
      simp only [vague, Matrix.add_apply, Matrix.smul_apply, smul_eq_mul, mul_add, Finset.sum_add_distrib]
      have f3 : ∑ i, lam i j * (t * (a.Pi * a.Ptᵀ) i j) = t * ∑ k, (a.Piᵀ * lam) k j * a.Pt j k := by
        simp only [Matrix.mul_apply, Matrix.transpose_apply, Finset.sum_mul, Finset.mul_sum]
        rw [Finset.sum_comm]
        exact Finset.sum_congr rfl fun k _ => Finset.sum_congr rfl fun i _ => by ring
      have f4 : ∑ k, t * ((a.Piᵀ * lam) k j - a.Pt j k) * a.Pt j k =
          t * ∑ k, (a.Piᵀ * lam) k j * a.Pt j k - t * (a.Pt j ⬝ᵥ a.Pt j) := by
        simp only [dotProduct, Finset.mul_sum, ← Finset.sum_sub_distrib]
        exact Finset.sum_congr rfl fun k _ => by ring
      rw [f3, f4]
      ring
    rw [e3]
  · simp only [Bool.false_eq_true, if_false]
    refine ⟨(tendsto_finsetSum _ fun i _ => (hw (Sum.inl i) j).mul_const _).add_const _, ?_, fun i => hw (Sum.inl i) j⟩
    exact Tendsto.sub tendsto_const_nhds (tendsto_finsetSum _ fun i _ => (hw i j).mul_const _)

/-- **C260** The restricted likelihood is, up to a constant that does not depend on the covariance, the limit of the
likelihood with that prior, corrected for the variance of the prior. -/
theorem reml_vague (hla : la.Sound be) {K : Mat (q + r) (q + r)} {P : Mat (q + r) q} (hK : K.PosDef) (hP : FullRank P)
    (z : Fin (q + r) → ℝ) :
    ∃ R, reml be la K P z = .ok (.finite R) ∧ ∃ L : ℝ → ℝ,
      (∀ t, 0 < t → nllZeroMean be la (K + t • (P * Pᵀ)) z = .ok (.finite (L t))) ∧
      Tendsto (fun t => L t - q / 2 * Real.log (2 * Real.pi * t)) atTop (𝓝 (R + 1 / 2 * Real.log (Pᵀ * P).det)) := by
  have hKu := PosDef.det_unit hK
  have hS : (Pᵀ * (K⁻¹ * P)).PosDef := posDef_gls hK hP
  have hKt : ∀ t : ℝ, 0 < t → (K + t • (P * Pᵀ)).PosDef := fun t ht => by
    refine posDef_of_quad ?_ fun x hx => ?_
    · rw [transpose_add, PosDef.symm hK, transpose_smul, transpose_mul, transpose_transpose]
    · rw [quad_add_smul]
      have h1 := PosDef.quad_pos hK hx
      have h2 : 0 ≤ t * ((Pᵀ *ᵥ x) ⬝ᵥ (Pᵀ *ᵥ x)) := mul_nonneg ht.le (Finset.sum_nonneg fun _ _ => mul_self_nonneg _)
      linarith
  refine ⟨_, reml_explicit hla hK hP z, fun t => -Real.log (gaussDensity (K + t • (P * Pᵀ)) 0 z),
    fun t ht => (nll_eq hla (hKt t ht) z z).2, ?_⟩
  -- the matrix in the middle of Woodbury's formula
  set S := Pᵀ * (K⁻¹ * P) with hSd
  have hM : ∀ i j, Tendsto (fun t : ℝ => (t⁻¹ • (1 : Mat q q) + S) i j) atTop (𝓝 (S i j)) := fun i j => by
    have : Tendsto (fun t : ℝ => t⁻¹ * (1 : Mat q q) i j + S i j) atTop (𝓝 (0 * (1 : Mat q q) i j + S i j)) :=
      (tendsto_inv_atTop_zero.mul_const _).add_const _
    simpa using this
  have hMd : Tendsto (fun t : ℝ => (t⁻¹ • (1 : Mat q q) + S).det) atTop (𝓝 S.det) :=
    ((continuous_id.matrix_det).tendsto S).comp (tendsto_pi_nhds.mpr fun i => tendsto_pi_nhds.mpr fun j => hM i j)
  have hMp : ∀ t : ℝ, 0 < t → (t⁻¹ • (1 : Mat q q) + S).PosDef := fun t ht =>
    Matrix.PosDef.add_posSemidef (Matrix.PosDef.smul Matrix.PosDef.one (inv_pos.mpr ht)) hS.posSemidef
  have hw : ∀ t : ℝ, 0 < t → (K + t • (P * Pᵀ))⁻¹ =
      K⁻¹ - K⁻¹ * P * ((t⁻¹ • (1 : Mat q q) + S)⁻¹ * (K⁻¹ * P)ᵀ) := fun t ht => by
    have hc : IsUnit (t • (1 : Mat q q)) := by
      refine (Matrix.isUnit_iff_isUnit_det _).mpr ?_
      rw [det_smul, det_one, mul_one]
      exact isUnit_iff_ne_zero.mpr (pow_ne_zero _ ht.ne')
    have hci : (t • (1 : Mat q q))⁻¹ = t⁻¹ • (1 : Mat q q) := by
      refine Matrix.inv_eq_left_inv ?_
      rw [Matrix.smul_mul, Matrix.mul_smul, Matrix.one_mul, smul_smul, inv_mul_cancel₀ ht.ne', one_smul]
    have := Matrix.add_mul_mul_inv_eq_sub K P (t • (1 : Mat q q)) Pᵀ ((Matrix.isUnit_iff_isUnit_det _).mpr hKu) hc (by
      rw [hci, Matrix.mul_assoc Pᵀ]
      exact (Matrix.isUnit_iff_isUnit_det _).mpr (PosDef.det_unit (hMp t ht)))
    rw [Matrix.mul_smul, Matrix.mul_one, Matrix.smul_mul, hci, Matrix.mul_assoc Pᵀ, ← hSd] at this
    rw [this, transpose_mul, transpose_nonsing_inv, PosDef.symm hK]
    simp only [Matrix.mul_assoc]
  have hdet : ∀ t : ℝ, 0 < t → (K + t • (P * Pᵀ)).det = K.det * (t ^ q * (t⁻¹ • (1 : Mat q q) + S).det) := fun t ht => by
    have e1 : K + t • (P * Pᵀ) = K * (1 + (K⁻¹ * P) * (t • Pᵀ)) := by
      rw [Matrix.mul_add, Matrix.mul_one, ← Matrix.mul_assoc, ← Matrix.mul_assoc, Matrix.mul_nonsing_inv _ hKu,
        Matrix.one_mul, Matrix.mul_smul]
    rw [e1, det_mul, det_one_add_mul_comm, Matrix.smul_mul, ← hSd]
    have e2 : 1 + t • S = t • (t⁻¹ • (1 : Mat q q) + S) := by
      rw [smul_add, smul_smul, mul_inv_cancel₀ ht.ne', one_smul]
    rw [e2, det_smul, Fintype.card_fin]
  have hquad : Tendsto (fun t : ℝ => z ⬝ᵥ ((K⁻¹ - K⁻¹ * P * ((t⁻¹ • (1 : Mat q q) + S)⁻¹ * (K⁻¹ * P)ᵀ)) *ᵥ z)) atTop
      (𝓝 (z ⬝ᵥ ((K⁻¹ - K⁻¹ * P * (S⁻¹ * (K⁻¹ * P)ᵀ)) *ᵥ z))) := by
    simp only [dotProduct, mulVec]
    refine tendsto_finsetSum _ fun i _ => (tendsto_finsetSum _ fun j _ => Tendsto.mul_const _ ?_).const_mul _
    simp only [Matrix.sub_apply, Matrix.mul_apply (M := K⁻¹ * P), Matrix.mul_apply (N := (K⁻¹ * P)ᵀ)]
    exact Tendsto.sub tendsto_const_nhds (tendsto_finsetSum _ fun k _ =>
      (tendsto_finsetSum _ fun l _ => (inv_lim hM hS.det_pos.ne' k l).mul_const _).const_mul _)
  have hlim : Tendsto (fun t : ℝ => 1 / 2 * (r * Real.log (2 * Real.pi) + Real.log K.det +
      Real.log (t⁻¹ • (1 : Mat q q) + S).det +
      z ⬝ᵥ ((K⁻¹ - K⁻¹ * P * ((t⁻¹ • (1 : Mat q q) + S)⁻¹ * (K⁻¹ * P)ᵀ)) *ᵥ z))) atTop
      (𝓝 (1 / 2 * (r * Real.log (2 * Real.pi) + Real.log K.det + Real.log S.det +
        z ⬝ᵥ ((K⁻¹ - K⁻¹ * P * (S⁻¹ * (K⁻¹ * P)ᵀ)) *ᵥ z)))) :=
    (((hMd.log hS.det_pos.ne').const_add _).add hquad).const_mul _
  have hR : 1 / 2 * ((r : ℝ) * Real.log (2 * Real.pi) + Real.log K.det + Real.log S.det - Real.log (Pᵀ * P).det +
      z ⬝ᵥ ((K⁻¹ - K⁻¹ * P * (S⁻¹ * (K⁻¹ * P)ᵀ)) *ᵥ z)) + 1 / 2 * Real.log (Pᵀ * P).det =
      1 / 2 * (r * Real.log (2 * Real.pi) + Real.log K.det + Real.log S.det +
        z ⬝ᵥ ((K⁻¹ - K⁻¹ * P * (S⁻¹ * (K⁻¹ * P)ᵀ)) *ᵥ z)) := by ring
  rw [hR]
  refine hlim.congr' ?_
  filter_upwards [eventually_gt_atTop 0] with t ht
  have hd := (hMp t ht).det_pos
  have hkd := hK.det_pos
  have hpi : (0 : ℝ) < 2 * Real.pi := by positivity
  have hlog : Real.log ((2 * Real.pi) ^ (q + r) * (K.det * (t ^ q * (t⁻¹ • (1 : Mat q q) + S).det))) =
      (q + r) * Real.log (2 * Real.pi) + (Real.log K.det + (q * Real.log t + Real.log (t⁻¹ • (1 : Mat q q) + S).det)) := by
    have hp2 : ((2 * Real.pi) ^ (q + r) : ℝ) ≠ 0 := pow_ne_zero _ hpi.ne'
    have htq : (t ^ q : ℝ) ≠ 0 := pow_ne_zero _ ht.ne'
    rw [Real.log_mul hp2 (mul_ne_zero hkd.ne' (mul_ne_zero htq hd.ne')), Real.log_pow,
      Real.log_mul hkd.ne' (mul_ne_zero htq hd.ne'), Real.log_mul htq hd.ne', Real.log_pow]
    push_cast
    ring
  rw [gaussDensity, sub_zero, hw t ht, hdet t ht, Real.log_mul (by positivity) (Real.exp_pos _).ne', Real.log_inv,
    Real.log_sqrt (by positivity), Real.log_exp, hlog, Real.log_mul (x := 2 * Real.pi) hpi.ne' ht.ne']
  ring

/-- A variogram: minus the distance of two points, with a constant mean, is no covariance, but the theorem applies. -/
example : ∃ mean v lam, predict (q := 1) (r := 1) (exactLA .numpy) .linearPredictor
    ⟨!![0, -1; -1, 0], !![-2; -1], ![0], !![0], !![1; 1], !![1]⟩ ![1, 3] false = .ok (mean, v, lam) ∧
    ∃ (mt vt : ℝ → Fin 1 → ℝ) (lt : ℝ → Mat 2 1), (∀ᶠ t in atTop, predict (q := 1) (r := 1) (exactLA .numpy) .zero
      (vague ⟨!![0, -1; -1, 0], !![-2; -1], ![0], !![0], !![1; 1], !![1]⟩ t) ![1, 3] false = .ok (mt t, vt t, lt t)) ∧
      Tendsto (fun t => mt t 0) atTop (𝓝 (mean 0)) := by
  obtain ⟨mean, v, lam, h1, mt, vt, lt, h2, h3⟩ := predict_vague (q := 1) (r := 1) (m := 1) (exactLA_contract .numpy)
    ⟨!![0, -1; -1, 0], !![-2; -1], ![0], !![0], !![1; 1], !![1]⟩ (by
      refine ⟨by ext i j; fin_cases i <;> fin_cases j <;> rfl, fun z hz h => ?_⟩
      have h0 := congrFun h 0
      simp [mulVec, dotProduct, Fin.sum_univ_two] at h0
      have h1 : z 1 = -z 0 := by linarith
      have h2 : z 0 ≠ 0 := fun h2 => hz (by ext i; fin_cases i <;> simp [h1, h2])
      simp [mulVec, dotProduct, Fin.sum_univ_two, h1]
      positivity) (fun b hb => by
      have := congrFun hb 0
      funext j
      fin_cases j
      simpa [mulVec, dotProduct] using this) ![1, 3]
  exact ⟨mean, v, lam, h1, mt, vt, lt, h2, (h3 0).1⟩

end Verif.Core
