import Verif.Core.PropsGls

/-!
# C238: predictions and the norms `norm_k_sqrd`, `norm_k_sqrd_with_zero_mean`

Core/linalg.py 113-118 and 132-141 with `Model.predict` (core/model.py 227-307).
-/

set_option autoImplicit false

namespace Verif.Core

open Verif Verif.Data Matrix

variable {n m q r r' N : ℕ} {be : Backend} {la : LA}

/-- Observations and target values in one vector. -/
def together (e : Fin n ⊕ Fin m ≃ Fin N) (zi : Fin n → ℝ) (zt : Fin m → ℝ) : Fin N → ℝ := Sum.elim zi zt ∘ e.symm

theorem quad_split {e : Fin n ⊕ Fin m ≃ Fin N} {a : Arrays n m q} {K : Mat N N} {P : Mat N q} (h : Joined e a K P)
    (hK : K.PosDef) (zi : Fin n → ℝ) (zt : Fin m → ℝ) :
    together e zi zt ⬝ᵥ (K⁻¹ *ᵥ together e zi zt) = zi ⬝ᵥ (a.Kii⁻¹ *ᵥ zi) +
      (zt - (a.Kii⁻¹ * a.Kit)ᵀ *ᵥ zi) ⬝ᵥ ((a.Ktt - (a.Kii⁻¹ * a.Kit)ᵀ * a.Kit)⁻¹ *ᵥ
        (zt - (a.Kii⁻¹ * a.Kit)ᵀ *ᵥ zi)) := by
  have hA := h.posDef hK
  have hV := h.posDef_post hK
  have hX : a.Kii * (a.Kii⁻¹ * a.Kit) = a.Kit := by
    rw [← Matrix.mul_assoc, Matrix.mul_nonsing_inv _ (PosDef.det_unit hA), Matrix.one_mul]
  obtain ⟨-, -, hq⟩ := schur_quad ((Matrix.isUnit_iff_isUnit_det _).mpr (PosDef.det_unit hA)) (PosDef.symm hA) hX
    ((Matrix.isUnit_iff_isUnit_det _).mpr (PosDef.det_unit hV)) zi zt
  have r2 := (reindex_quad e K (together e zi zt)).2
  have e1 : together e zi zt ∘ e = Sum.elim zi zt := by
    funext x
    simp [together]
  rw [h.cov, e1, hq] at r2
  exact r2

theorem quad_excess {e : Fin n ⊕ Fin m ≃ Fin N} {a : Arrays n m q} {K : Mat N N} {P : Mat N q} (h : Joined e a K P)
    (hK : K.PosDef) (zi : Fin n → ℝ) (zt : Fin m → ℝ) :
    zi ⬝ᵥ (a.Kii⁻¹ *ᵥ zi) ≤ together e zi zt ⬝ᵥ (K⁻¹ *ᵥ together e zi zt) ∧
    (together e zi zt ⬝ᵥ (K⁻¹ *ᵥ together e zi zt) = zi ⬝ᵥ (a.Kii⁻¹ *ᵥ zi) ↔ zt = (a.Kii⁻¹ * a.Kit)ᵀ *ᵥ zi) := by
  have hV := (h.posDef_post hK).inv
  rw [quad_split h hK]
  have h0 := PosSemidef.quad_nonneg hV.posSemidef (zt - (a.Kii⁻¹ * a.Kit)ᵀ *ᵥ zi)
  refine ⟨by linarith, fun hz => ?_, fun hz => ?_⟩
  · by_contra hne
    have := PosDef.quad_pos hV (sub_ne_zero.mpr hne)
    linarith
  · rw [hz, sub_self]
    simp

/-- **C238** The prediction with zero mean is the completion of the data of least norm: whatever values
are put at the targets, `norm_k_sqrd_with_zero_mean` does not decrease, and it stays the same only for
the predicted values. -/
theorem norm_least (hla : la.Contract be) {e : Fin (q + r) ⊕ Fin m ≃ Fin N} {a : Arrays (q + r) m q} {K : Mat N N}
    {P : Mat N q} (h : Joined e a K P) (hK : K.PosDef) (zi : Fin (q + r) → ℝ) :
    ∃ mean v lam s, predict la .zero a zi false = .ok (mean, v, lam) ∧
      normKSqrdZeroMean la a.Kii zi = .ok s ∧
      ∀ zt, ∃ s', normKSqrdZeroMean la K (together e zi zt) = .ok s' ∧ s ≤ s' ∧ (s' = s ↔ zt = mean) := by
  have hA := h.posDef hK
  refine ⟨_, _, _, _, predict_zero hla a hA zi false, (norms_zero hla.toSound hA zi).1, fun zt =>
    ⟨_, (norms_zero hla.toSound hK _).1, (quad_excess h hK zi zt).1, ?_⟩⟩
  rw [(quad_excess h hK zi zt).2]
  have : (a.Kii⁻¹ * a.Kit)ᵀ *ᵥ zi = fun t => ∑ i, (a.Kii⁻¹ * a.Kit) i t * zi i + 0 := by
    funext t
    simp [mulVec, dotProduct]
  rw [this]

theorem together_sub {e : Fin n ⊕ Fin m ≃ Fin N} {a : Arrays n m q} {K : Mat N N} {P : Mat N q} (h : Joined e a K P)
    (zi : Fin n → ℝ) (zt : Fin m → ℝ) (b : Fin q → ℝ) :
    together e zi zt - P *ᵥ b = together e (zi - a.Pi *ᵥ b) (zt - a.Pt *ᵥ b) := by
  funext i
  obtain ⟨x, rfl⟩ := e.surjective i
  have hm : ∀ x, P (e x) = fromRows a.Pi a.Pt x := fun x => by
    rw [← h.mean]
    rfl
  have hx : (P *ᵥ b) (e x) = fromRows a.Pi a.Pt x ⬝ᵥ b := by rw [← hm]; rfl
  rw [Pi.sub_apply, hx]
  cases x <;> simp [together, mulVec] <;> rfl

/-- **C238** The same with an unknown linear mean and `norm_k_sqrd`. -/
theorem norm_least_linear (hla : la.Contract be) {e : Fin (q + r) ⊕ Fin m ≃ Fin (q + r')} {a : Arrays (q + r) m q}
    {K : Mat (q + r') (q + r')} {P : Mat (q + r') q} (h : Joined e a K P) (hK : K.PosDef) (hP : FullRank a.Pi)
    (zi : Fin (q + r) → ℝ) :
    ∃ mean v lam s, predict la .linearPredictor a zi false = .ok (mean, v, lam) ∧
      normKSqrd la a.Kii a.Pi zi = .ok s ∧
      ∀ zt, ∃ s', normKSqrd la K P (together e zi zt) = .ok s' ∧ s ≤ s' ∧ (s' = s ↔ zt = mean) := by
  have hA := h.posDef hK
  have hPP : FullRank P := by
    intro v hv
    refine hP v ?_
    have := together_sub h 0 0 v
    rw [hv] at this
    funext i
    have hi := congrFun this (e (.inl i))
    simp [together] at hi
    simpa using hi
  obtain ⟨beta, mean, v, v', lam, lam', hb, g1, g2, -⟩ := predict_gls hla a hA hP zi
  obtain ⟨s, hs, hmin, b0, hb0⟩ := normKSqrd_gls hla.toSound hA hP zi
  have hs' : s = (zi - a.Pi *ᵥ beta) ⬝ᵥ (a.Kii⁻¹ *ᵥ (zi - a.Pi *ᵥ beta)) :=
    le_antisymm (hmin beta) (by rw [hb0]; exact hb b0)
  have hbu : ∀ b, s = (zi - a.Pi *ᵥ b) ⬝ᵥ (a.Kii⁻¹ *ᵥ (zi - a.Pi *ᵥ b)) → b = beta := by
    intro b hbb
    have : IsGLS a.Kii a.Pi zi b := fun c => by rw [← hbb]; exact hmin c
    rw [(glsBeta_spec hA hP zi).2 b this, (glsBeta_spec hA hP zi).2 beta hb]
  have hmean : mean = (a.Kii⁻¹ * a.Kit)ᵀ *ᵥ (zi - a.Pi *ᵥ beta) + a.Pt *ᵥ beta := by
    rw [predict_param hla a hA] at g2
    obtain ⟨e1, -⟩ := Prod.mk.inj (Except.ok.inj g2)
    rw [← e1]
    rfl
  refine ⟨mean, v, lam, s, g1, hs, fun zt => ?_⟩
  obtain ⟨s1, hs1, hmin1, b1, hb1⟩ := normKSqrd_gls hla.toSound hK hPP (together e zi zt)
  rw [together_sub h] at hb1
  have h1 := quad_excess h hK (zi - a.Pi *ᵥ b1) (zt - a.Pt *ᵥ b1)
  refine ⟨s1, hs1, ?_, fun he => ?_, fun he => ?_⟩
  · rw [hb1]
    exact (hmin b1).trans h1.1
  · have h2 : s = (zi - a.Pi *ᵥ b1) ⬝ᵥ (a.Kii⁻¹ *ᵥ (zi - a.Pi *ᵥ b1)) :=
      le_antisymm (hmin b1) (by rw [← he, hb1]; exact h1.1)
    have h3 := hbu b1 h2
    subst h3
    have := h1.2.mp (by rw [← hb1, he, h2])
    rw [hmean, ← this]
    abel
  · refine le_antisymm ?_ ?_
    · have h4 := hmin1 beta
      rw [together_sub h, (quad_excess h hK _ _).2.mpr (by rw [he, hmean]; abel), ← hs'] at h4
      exact h4
    · rw [hb1]
      exact (hmin b1).trans h1.1

theorem cauchy_schwarz_psd {M : Mat n n} (hM : M.PosSemidef) (x y : Fin n → ℝ) :
    (x ⬝ᵥ (M *ᵥ y)) ^ 2 ≤ (x ⬝ᵥ (M *ᵥ x)) * (y ⬝ᵥ (M *ᵥ y)) := by
  have hs : Mᵀ = M := PosSemidef.symm hM
  have hc : y ⬝ᵥ (M *ᵥ x) = x ⬝ᵥ (M *ᵥ y) := dot_mulVec_comm hs _ _
  have key : ∀ t : ℝ, 0 ≤ (y ⬝ᵥ (M *ᵥ y)) * (t * t) + 2 * (x ⬝ᵥ (M *ᵥ y)) * t + x ⬝ᵥ (M *ᵥ x) := by
    intro t
    have := PosSemidef.quad_nonneg hM (x + t • y)
    rw [mulVec_add, mulVec_smul, dotProduct_add, add_dotProduct, add_dotProduct, dotProduct_smul, dotProduct_smul,
      smul_dotProduct, smul_dotProduct, hc] at this
    simp only [smul_eq_mul] at this
    linarith
  have := discrim_le_zero key
  unfold discrim at this
  nlinarith

/-- **C238** Bounds on predictions by the norm of the data: a prediction is at most the root of
`norm² (k(t,t) - v(t))`, so at most `norm · √k(t,t)`, and two predictions differ by at most `norm` times
the distance `√(k(t,t) - 2 k(t,u) + k(u,u))` of their targets in the metric of the covariance. -/
theorem norm_bounds (hla : la.Contract be) {e : Fin (q + r) ⊕ Fin m ≃ Fin N} {a : Arrays (q + r) m q} {K : Mat N N}
    {P : Mat N q} (h : Joined e a K P) (hK : K.PosDef) (zi : Fin (q + r) → ℝ) :
    ∃ mean v lam s, predict la .zero a zi false = .ok (mean, v, lam) ∧
      normKSqrdZeroMean la a.Kii zi = .ok s ∧
      ∀ t u, mean t ^ 2 ≤ s * (a.vt t - v t) ∧ mean t ^ 2 ≤ s * a.vt t ∧
        (mean t - mean u) ^ 2 ≤ s * (a.Ktt t t - 2 * a.Ktt t u + a.Ktt u u) := by
  have hA := h.posDef hK
  have hV := h.posDef_post hK
  have hAi := hA.inv
  have hAs : (a.Kii⁻¹)ᵀ = a.Kii⁻¹ := PosDef.symm hAi
  have hp := predict_zero hla a hA zi false
  simp only [Bool.false_eq_true, if_false] at hp
  refine ⟨_, _, _, _, hp, (norms_zero hla.toSound hA zi).1, fun t u => ?_⟩
  set k : Fin m → Fin (q + r) → ℝ := fun t i => a.Kit i t with hk
  have hm : ∀ t, ∑ i, (a.Kii⁻¹ * a.Kit) i t * zi i + 0 = k t ⬝ᵥ (a.Kii⁻¹ *ᵥ zi) := by
    intro t
    rw [add_zero, dot_mulVec_comm hAs, dotProduct_comm]
    rfl
  have hv : ∀ t u, ∑ i, (a.Kii⁻¹ * a.Kit) i t * a.Kit i u = k t ⬝ᵥ (a.Kii⁻¹ *ᵥ k u) := by
    intro t u
    rw [dot_mulVec_comm hAs, dotProduct_comm]
    rfl
  have hs0 := PosSemidef.quad_nonneg hAi.posSemidef zi
  have hpost : ∀ t u, (a.Ktt - (a.Kii⁻¹ * a.Kit)ᵀ * a.Kit) t u = a.Ktt t u - k t ⬝ᵥ (a.Kii⁻¹ *ᵥ k u) := by
    intro t u
    rw [← hv]
    rfl
  have hc : k u ⬝ᵥ (a.Kii⁻¹ *ᵥ k t) = k t ⬝ᵥ (a.Kii⁻¹ *ᵥ k u) := dot_mulVec_comm hAs _ _
  have hKs : a.Ktt u t = a.Ktt t u := by
    have h1 := congrFun (congrFun (PosDef.symm hV) t) u
    rw [transpose_apply, hpost, hpost, hc] at h1
    linarith
  simp only [hm, hv]
  have h1 := cauchy_schwarz_psd hAi.posSemidef (k t) zi
  have h2 := cauchy_schwarz_psd hAi.posSemidef (k t - k u) zi
  have hvt : 0 ≤ a.vt t - k t ⬝ᵥ (a.Kii⁻¹ *ᵥ k t) := by
    have := hV.posSemidef.diag_nonneg (i := t)
    rw [hpost, ← h.var] at this
    exact this
  refine ⟨by nlinarith, by nlinarith [mul_nonneg hs0 hvt], ?_⟩
  have h3 := PosSemidef.quad_nonneg hV.posSemidef (Pi.single t 1 - Pi.single u 1)
  have h4 : (Pi.single t 1 - Pi.single u 1 : Fin m → ℝ) ⬝ᵥ ((a.Ktt - (a.Kii⁻¹ * a.Kit)ᵀ * a.Kit) *ᵥ
      (Pi.single t 1 - Pi.single u 1)) = (a.Ktt t t - 2 * a.Ktt t u + a.Ktt u u) -
        (k t - k u) ⬝ᵥ (a.Kii⁻¹ *ᵥ (k t - k u)) := by
    rw [mulVec_sub, mulVec_single_one, mulVec_single_one, sub_dotProduct, single_one_dotProduct,
      single_one_dotProduct]
    simp only [Pi.sub_apply, col_apply, hpost, mulVec_sub, dotProduct_sub, sub_dotProduct, hc, hKs]
    ring
  rw [h4] at h3
  rw [sub_dotProduct] at h2
  nlinarith [mul_nonneg hs0 h3]

/-- Two observations and two targets. -/
example : ∃ mean v lam s, predict (q := 1) (r := 1) (exactLA .numpy) .zero
      (pointArrays exK (fun _ => 1) (fun i => i) (fun t => 2 + t)) ![1, 3] false = .ok (mean, v, lam) ∧
    normKSqrdZeroMean (exactLA .numpy) (pointArrays (n := 2) (m := 2) exK (fun _ => 1) (fun i => i)
      (fun t => 2 + t)).Kii ![1, 3] = .ok s ∧ ∀ t : Fin 2, mean t ^ 2 ≤ s * 2 := by
  obtain ⟨mean, v, lam, s, h1, h2, h3⟩ := norm_bounds (q := 1) (r := 1) (be := .numpy) (exactLA_contract .numpy)
    ex_joined (exK_posDef 4) ![1, 3]
  refine ⟨mean, v, lam, s, h1, h2, fun t => ?_⟩
  have := (h3 t t).2.1
  simpa [pointArrays, exK] using this

end Verif.Core
