import Verif.Core.PropsNoisy
import Verif.Core.PropsGls

/-!
# C281: regression predictions are penalised least-squares fits

`Model.predict` (core/model.py 227-307) with the kernels of the regression examples.
-/

set_option autoImplicit false

namespace Verif.Core.Noisy

open Verif Verif.Data Matrix Verif.Core.Obj Verif.Kernel

variable {d e n m r N : ℕ} {be : Backend} {la : LA} {Θ : Type}

/-- A constant plus a combination of kernels centred at `y`. -/
def fit (k : (Fin e → ℝ) → (Fin e → ℝ) → ℝ) (b : ℝ) (y : Fin N → Fin e → ℝ) (c : Fin N → ℝ) (t : Fin e → ℝ) : ℝ :=
  b + ∑ a, c a * k (y a) t

/-- The squared norm of the combination. -/
def energy (k : (Fin e → ℝ) → (Fin e → ℝ) → ℝ) (y : Fin N → Fin e → ℝ) (c : Fin N → ℝ) : ℝ :=
  ∑ a, ∑ b, c a * c b * k (y a) (y b)

/-- Squared residuals, divided by the noise variances, plus the squared norm. -/
noncomputable def cost (k : (Fin e → ℝ) → (Fin e → ℝ) → ℝ) (nu : (Fin e → ℝ) → ℝ) (x : Fin n → Fin e → ℝ) (z : Fin n → ℝ)
    (b : ℝ) (y : Fin N → Fin e → ℝ) (c : Fin N → ℝ) : ℝ :=
  ∑ i, (z i - fit k b y c (x i)) ^ 2 / nu (x i) + energy k y c

/-- What positive semidefiniteness says of two combinations. -/
theorem energy_diff {k : (Fin e → ℝ) → (Fin e → ℝ) → ℝ}
    (psd : ∀ {ι : Type} [Fintype ι] (x : ι → Fin e → ℝ), (Matrix.of fun i j => k (x i) (x j)).PosSemidef)
    (x : Fin n → Fin e → ℝ) (al : Fin n → ℝ) (y : Fin N → Fin e → ℝ) (c : Fin N → ℝ) (t : Fin e → ℝ) (s : ℝ) :
    0 ≤ energy k y c - 2 * ∑ i, al i * ∑ a, c a * k (y a) (x i) + energy k x al +
      2 * s * (∑ a, c a * k (y a) t - ∑ i, al i * k (x i) t) + s ^ 2 * k t t := by
  have hp := psd (ι := Fin N ⊕ (Fin n ⊕ Unit)) (Sum.elim y (Sum.elim x fun _ => t))
  have hs : ∀ u v, k u v = k v u := fun u v => by
    have := (psd (ι := Fin 2) ![u, v]).1.apply 0 1
    simpa using this.symm
  have h := PosSemidef.quad_nonneg hp (Sum.elim c (Sum.elim (fun i => -al i) fun _ => s))
  simp only [dotProduct, mulVec, Fintype.sum_sum_type, of_apply, Sum.elim_inl, Sum.elim_inr, Finset.univ_unique,
    Finset.sum_singleton] at h
  refine h.trans_eq ?_
  have e1 : ∑ a, c a * (∑ b, k (y a) (y b) * c b) = energy k y c := by
    simp only [energy, Finset.mul_sum]
    exact Finset.sum_congr rfl fun a _ => Finset.sum_congr rfl fun b _ => by ring
  have e2 : ∑ i, -al i * (∑ j, k (x i) (x j) * -al j) = energy k x al := by
    simp only [energy, Finset.mul_sum]
    exact Finset.sum_congr rfl fun a _ => Finset.sum_congr rfl fun b _ => by ring
  have e3 : ∑ a, c a * (∑ i, k (y a) (x i) * -al i) = -∑ i, al i * ∑ a, c a * k (y a) (x i) := by
    simp only [Finset.mul_sum]
    rw [Finset.sum_comm, ← Finset.sum_neg_distrib]
    refine Finset.sum_congr rfl fun a _ => ?_
    rw [← Finset.sum_neg_distrib]
    exact Finset.sum_congr rfl fun b _ => by ring
  have e4 : ∑ i, -al i * (∑ a, k (x i) (y a) * c a) = -∑ i, al i * ∑ a, c a * k (y a) (x i) := by
    simp only [Finset.mul_sum]
    rw [← Finset.sum_neg_distrib]
    refine Finset.sum_congr rfl fun a _ => ?_
    rw [← Finset.sum_neg_distrib]
    exact Finset.sum_congr rfl fun b _ => by rw [hs]; ring
  have e5 : ∑ a, c a * (k (y a) t * s) = s * ∑ a, c a * k (y a) t := by
    rw [Finset.mul_sum]
    exact Finset.sum_congr rfl fun b _ => by ring
  have e6 : ∑ a, k t (y a) * c a = ∑ a, c a * k (y a) t :=
    Finset.sum_congr rfl fun b _ => by rw [hs]; ring
  have e7 : ∑ i, -al i * (k (x i) t * s) = -(s * ∑ i, al i * k (x i) t) := by
    rw [Finset.mul_sum, ← Finset.sum_neg_distrib]
    exact Finset.sum_congr rfl fun b _ => by ring
  have e8 : ∑ i, k t (x i) * -al i = -∑ i, al i * k (x i) t := by
    rw [← Finset.sum_neg_distrib]
    exact Finset.sum_congr rfl fun b _ => by rw [hs]; ring
  simp only [mul_add, Finset.sum_add_distrib, e1, e2, e3, e4, e5, e6, e7, e8]
  ring

/-- Coefficients with residuals `nu α` and sum zero give the least cost; any other function of the same cost is the same
function. -/
theorem cost_least {k : (Fin e → ℝ) → (Fin e → ℝ) → ℝ} {nu : (Fin e → ℝ) → ℝ}
    (psd : ∀ {ι : Type} [Fintype ι] (x : ι → Fin e → ℝ), (Matrix.of fun i j => k (x i) (x j)).PosSemidef)
    {x : Fin n → Fin e → ℝ} (hn : 0 < n) (hpos : ∀ i, 0 < nu (x i)) {z al : Fin n → ℝ} {b : ℝ}
    (hr : ∀ i, z i - fit k b x al (x i) = nu (x i) * al i) (h0 : ∑ i, al i = 0)
    (b' : ℝ) (y : Fin N → Fin e → ℝ) (c : Fin N → ℝ) :
    cost k nu x z b x al ≤ cost k nu x z b' y c ∧
    (cost k nu x z b' y c = cost k nu x z b x al → ∀ t, fit k b' y c t = fit k b x al t) := by
  set u : Fin n → ℝ := fun i => fit k b' y c (x i) - fit k b x al (x i) with hu
  set Q := energy k y c - 2 * ∑ i, al i * ∑ a, c a * k (y a) (x i) + energy k x al with hQ
  have key : cost k nu x z b' y c = cost k nu x z b x al + ∑ i, u i ^ 2 / nu (x i) + Q := by
    have e1 : ∀ i, (z i - fit k b' y c (x i)) ^ 2 / nu (x i) =
        (z i - fit k b x al (x i)) ^ 2 / nu (x i) + u i ^ 2 / nu (x i) - 2 * (al i * u i) := fun i => by
      have h1 : z i - fit k b' y c (x i) = nu (x i) * al i - u i := by rw [hu, ← hr i]; ring
      rw [h1, hr i]
      have := (hpos i).ne'
      field_simp
      ring
    have e2 : ∑ i, al i * u i = ∑ i, al i * ∑ a, c a * k (y a) (x i) - energy k x al := by
      have : ∀ i, al i * u i = (b' - b) * al i + al i * ∑ a, c a * k (y a) (x i) - ∑ j, al j * al i * k (x j) (x i) := fun i => by
        have h3 : ∑ j, al j * al i * k (x j) (x i) = al i * ∑ j, al j * k (x j) (x i) := by
          rw [Finset.mul_sum]
          exact Finset.sum_congr rfl fun j _ => by ring
        rw [h3, hu]
        simp only [fit]
        ring
      simp only [this, Finset.sum_sub_distrib, Finset.sum_add_distrib, ← Finset.mul_sum, h0, mul_zero, zero_add]
      rw [energy, Finset.sum_comm]
    simp only [cost, e1, Finset.sum_sub_distrib, Finset.sum_add_distrib, ← Finset.mul_sum, e2, hQ]
    ring
  have hU : 0 ≤ ∑ i, u i ^ 2 / nu (x i) := Finset.sum_nonneg fun i _ => div_nonneg (sq_nonneg _) (hpos i).le
  have hd := energy_diff psd x al y c
  have hQ0 : 0 ≤ Q := by simpa [hQ] using hd (x ⟨0, hn⟩) 0
  refine ⟨by linarith, fun he t => ?_⟩
  have hU0 : ∑ i, u i ^ 2 / nu (x i) = 0 := by linarith
  have hQ00 : Q = 0 := by linarith
  have hui : ∀ i, u i = 0 := fun i => by
    have := (Finset.sum_eq_zero_iff_of_nonneg fun i _ => div_nonneg (sq_nonneg (u i)) (hpos i).le).1 hU0 i (Finset.mem_univ i)
    rcases div_eq_zero_iff.1 this with h | h
    · exact pow_eq_zero_iff two_ne_zero |>.1 h
    · exact absurd h (hpos i).ne'
  have hg : ∀ t, ∑ a, c a * k (y a) t - ∑ i, al i * k (x i) t = 0 := fun t => by
    by_contra hne
    set g := ∑ a, c a * k (y a) t - ∑ i, al i * k (x i) t with hgd
    have h1 : ∀ s, 0 ≤ 2 * s * g + s ^ 2 * k t t := fun s => by
      have := hd t s
      rw [← hQ, hQ00, ← hgd] at this
      linarith
    have hk : 0 ≤ k t t := by
      have := PosSemidef.quad_nonneg (psd (ι := Unit) fun _ => t) 1
      simpa [dotProduct, mulVec] using this
    rcases hk.eq_or_lt with hk | hk
    · have := h1 (-g)
      rw [← hk] at this
      have := mul_self_pos.2 hne
      nlinarith
    · have := h1 (-g / k t t)
      have h2 : 2 * (-g / k t t) * g + (-g / k t t) ^ 2 * k t t = -(g * g / k t t) := by
        field_simp
        ring
      rw [h2] at this
      have := div_pos (mul_self_pos.2 hne) hk
      linarith
  have hb : b' = b := by
    have := hui ⟨0, hn⟩
    simp only [hu, fit] at this
    have h2 := hg (x ⟨0, hn⟩)
    linarith
  have := hg t
  simp only [fit, hb]
  linarith

/-! ## What the predictor returns -/

variable {g : GP e 1 Θ Unit} {θ : Θ} {k : (Fin e → ℝ) → (Fin e → ℝ) → ℝ} {nu va : (Fin e → ℝ) → ℝ}

/-- The system that defines the coefficients has a solution. -/
theorem coefs (psd : ∀ {ι : Type} [Fintype ι] (x : ι → Fin e → ℝ), (Matrix.of fun i j => k (x i) (x j)).PosSemidef)
    (x : Fin (1 + r) → Fin e → ℝ)
    (hK : ((Matrix.of fun i j => k (x i) (x j)) + Matrix.diagonal fun i => nu (x i)).PosDef) (z : Fin (1 + r) → ℝ) :
    ∃ (b : ℝ) (al : Fin (1 + r) → ℝ), (∀ i, z i - fit k b x al (x i) = nu (x i) * al i) ∧ ∑ i, al i = 0 := by
  set K : Mat (1 + r) (1 + r) := (Matrix.of fun i j => k (x i) (x j)) + Matrix.diagonal fun i => nu (x i) with hKd
  set P : Mat (1 + r) 1 := Matrix.of fun _ _ => 1 with hPd
  have hP : FullRank P := fun b hb => by
    have := congrFun hb ⟨0, by omega⟩
    simp only [mulVec, dotProduct, hPd, of_apply, Fin.sum_univ_one, one_mul, Pi.zero_apply] at this
    ext j
    fin_cases j
    exact this
  have hF := posDef_gls hK hP
  have hs : ∀ u v, k u v = k v u := fun u v => by
    have := (psd (ι := Fin 2) ![u, v]).1.apply 0 1
    simpa using this.symm
  set bh := glsBeta K P z with hbh
  have hnorm : Pᵀ *ᵥ (K⁻¹ *ᵥ (z - P *ᵥ bh)) = 0 := by
    have e : Pᵀ *ᵥ (K⁻¹ *ᵥ (P *ᵥ bh)) = Pᵀ *ᵥ (K⁻¹ *ᵥ z) := by
      have e' : (Pᵀ * (K⁻¹ * P)) *ᵥ bh = Pᵀ *ᵥ (K⁻¹ *ᵥ z) := by
        rw [hbh, glsBeta, mulVec_mulVec, Matrix.mul_nonsing_inv _ (PosDef.det_unit hF), one_mulVec]
      rwa [← mulVec_mulVec, ← mulVec_mulVec] at e'
    rw [mulVec_sub, mulVec_sub, e, sub_self]
  refine ⟨bh 0, K⁻¹ *ᵥ (z - P *ᵥ bh), fun i => ?_, ?_⟩
  · have h : K *ᵥ (K⁻¹ *ᵥ (z - P *ᵥ bh)) = z - P *ᵥ bh := by
      rw [mulVec_mulVec, Matrix.mul_nonsing_inv _ (PosDef.det_unit hK), one_mulVec]
    set al := K⁻¹ *ᵥ (z - P *ᵥ bh)
    have hi := congrFun h i
    rw [hKd, add_mulVec, Pi.add_apply, mulVec_diagonal] at hi
    simp only [mulVec, dotProduct, of_apply, Pi.sub_apply, hPd, Fin.sum_univ_one, one_mul] at hi
    have e : ∑ a, al a * k (x a) (x i) = ∑ j, k (x i) (x j) * al j :=
      Finset.sum_congr rfl fun j _ => by rw [hs, mul_comm]
    rw [fit, e]
    linarith
  · have := congrFun hnorm 0
    simpa [mulVec, dotProduct, hPd] using this

/-- The predictions are the values of the function with these coefficients. -/
theorem predict_fit (hla : la.Contract be) (hg : IsNoisy g θ k nu va) (xi : Pts (1 + r) e) (xt : Pts m e)
    (hne : xi.id ≠ xt.id) (f : ℕ) (hi : xi.id < f) (ht : xt.id < f)
    (hpd : ((Matrix.of fun i j => k (xi.val i) (xi.val j)) + Matrix.diagonal fun i => nu (xi.val i)).PosDef)
    {b : ℝ} {al z : Fin (1 + r) → ℝ} (hr : ∀ i, z i - fit k b xi.val al (xi.val i) = nu (xi.val i) * al i)
    (h0 : ∑ i, al i = 0) (zn cv : Bool) :
    ∃ v lam, Obj.predict be la f g xi (.vec z) xt zn cv =
      .ok (fun t => fit k b xi.val al (xt.val t), v, lam) := by
  rw [predict_arrays hg]
  obtain ⟨h1, h2, _, _, h5, h6⟩ := arrays_noisy hg _ _ (conv_ne cv be f xi xt hne hi ht)
  rw [conv_val, conv_val] at *
  set a := g.arrays θ (conv cv be f xi) (conv cv be (f + 1) xt) with ha
  have hK : a.Kii.PosDef := by
    rw [h1]
    convert hpd using 1
    ext i j
    simp [Matrix.diagonal_apply]
  have hP : FullRank a.Pi := hg.fullRank _
  obtain ⟨X, hX, hp⟩ := predict_linear hla a (CPD.of_posDef hK _) hP z zn
  have hz : ∀ i, z i = b + ∑ j, a.Kii i j * al j := fun i => by
    have := hr i
    have hs : ∀ u v, k u v = k v u := fun u v => by
      have := (hg.psd (ι := Fin 2) ![u, v]).1.apply 0 1
      simpa using this.symm
    have e : ∑ j, a.Kii i j * al j = ∑ j, al j * k (xi.val j) (xi.val i) + nu (xi.val i) * al i := by
      rw [h1]
      simp only [of_apply, add_mul, ite_mul, zero_mul, Finset.sum_add_distrib, Finset.sum_ite_eq, Finset.mem_univ, if_true]
      congr 1
      exact Finset.sum_congr rfl fun j _ => by rw [hs, mul_comm]
    rw [e]
    simp only [fit] at this
    linarith
  have hKs : ∀ i j, a.Kii i j = a.Kii j i := fun i j => by
    have := hK.1.apply i j
    simpa using this.symm
  have hm : ∀ t, ∑ i, X.toRows₁ i t * z i = fit k b xi.val al (xt.val t) := fun t => by
    obtain ⟨x1, x2⟩ := (ukSystem_iff a X).mp hX t
    have s1 : ∑ i, X (Sum.inl i) t = 1 := by
      have := congrFun x2 0
      rw [h5, h6] at this
      simpa [mulVec, dotProduct] using this
    have s2 : ∀ j, ∑ i, a.Kii j i * X (Sum.inl i) t = k (xi.val j) (xt.val t) - X (Sum.inr 0) t := fun j => by
      have := congrFun x1 j
      rw [h5, h2] at this
      simp only [Pi.add_apply, mulVec, dotProduct, of_apply, Fin.sum_univ_one, one_mul] at this
      linarith
    calc ∑ i, X.toRows₁ i t * z i
        = ∑ i, X (Sum.inl i) t * z i := rfl
      _ = b * ∑ i, X (Sum.inl i) t + ∑ j, al j * ∑ i, a.Kii j i * X (Sum.inl i) t := by
          simp only [hz, mul_add, Finset.sum_add_distrib, Finset.mul_sum]
          congr 1
          · exact Finset.sum_congr rfl fun i _ => by ring
          · rw [Finset.sum_comm]
            exact Finset.sum_congr rfl fun j _ => Finset.sum_congr rfl fun i _ => by rw [hKs i j]; ring
      _ = fit k b xi.val al (xt.val t) := by
          simp only [s1, s2, mul_sub, Finset.sum_sub_distrib, ← Finset.sum_mul, h0, zero_mul, sub_zero, mul_one, fit]
  rw [hp]
  simp only [hm, add_zero]
  exact ⟨_, _, rfl⟩

/-- **C281** With positive noise variances the predictions at all targets are the values of one function, a constant
plus kernels centred at the observations. Among all constants plus finite combinations of kernels, wherever centred,
it alone makes the cost least. -/
theorem noisy_ridge (hla : la.Contract be) (hg : IsNoisy g θ k nu va) (xi : Pts (1 + r) e)
    (hpos : ∀ i, 0 < nu (xi.val i)) (z : Fin (1 + r) → ℝ) :
    ∃ (b : ℝ) (al : Fin (1 + r) → ℝ), ∑ i, al i = 0 ∧
      (∀ i, z i - fit k b xi.val al (xi.val i) = nu (xi.val i) * al i) ∧
      (∀ (N : ℕ) (b' : ℝ) (y : Fin N → Fin e → ℝ) (c : Fin N → ℝ),
        cost k nu xi.val z b xi.val al ≤ cost k nu xi.val z b' y c ∧
        (cost k nu xi.val z b' y c = cost k nu xi.val z b xi.val al →
          ∀ t, fit k b' y c t = fit k b xi.val al t)) ∧
      ∀ (m : ℕ) (xt : Pts m e) (zn cv : Bool) (f : ℕ), xi.id ≠ xt.id → xi.id < f → xt.id < f →
        ∃ v lam, Obj.predict be la f g xi (.vec z) xt zn cv =
          .ok (fun t => fit k b xi.val al (xt.val t), v, lam) := by
  have hpd := (Matrix.PosDef.diagonal hpos).posSemidef_add (hg.psd xi.val)
  obtain ⟨b, al, hr, h0⟩ := coefs (nu := nu) hg.psd xi.val hpd z
  exact ⟨b, al, h0, hr, fun N b' y c => cost_least hg.psd (by omega) hpos hr h0 b' y c,
    fun m xt zn cv f hne hi ht => predict_fit hla hg xi xt hne f hi ht hpd hr h0 zn cv⟩

/-- **C281** The residuals at the observations, divided by the noise variances, sum to zero, and the sum of their
squares, divided so, is at most that of the residuals of any constant, with equality only if the
predictions at all the observations are that constant. -/
theorem noisy_residuals (hla : la.Contract be) (hg : IsNoisy g θ k nu va) (xi xt : Pts (1 + r) e)
    (hx : ∀ i, xt.val i = xi.val i) (hne : xi.id ≠ xt.id) (f : ℕ) (hi : xi.id < f) (ht : xt.id < f)
    (hpos : ∀ i, 0 < nu (xi.val i)) (z : Fin (1 + r) → ℝ) (zn cv : Bool) :
    ∃ zt v lam, Obj.predict be la f g xi (.vec z) xt zn cv = .ok (zt, v, lam) ∧
      ∑ i, (z i - zt i) / nu (xi.val i) = 0 ∧
      ∀ c : ℝ, ∑ i, (z i - zt i) ^ 2 / nu (xi.val i) ≤ ∑ i, (z i - c) ^ 2 / nu (xi.val i) ∧
        (∑ i, (z i - zt i) ^ 2 / nu (xi.val i) = ∑ i, (z i - c) ^ 2 / nu (xi.val i) → ∀ i, zt i = c) := by
  obtain ⟨b, al, h0, hr, hl, hp⟩ := noisy_ridge (la := la) (be := be) hla hg xi hpos z
  obtain ⟨v, lam, h⟩ := hp _ xt zn cv f hne hi ht
  refine ⟨_, v, lam, h, ?_, fun c => ?_⟩
  · simp only [hx, hr]
    rw [← h0]
    refine Finset.sum_congr rfl fun i _ => ?_
    have := (hpos i).ne'
    field_simp
  · simp only [hx]
    have hc := hl 0 c Fin.elim0 Fin.elim0
    have e0 : cost k nu xi.val z c Fin.elim0 Fin.elim0 = ∑ i, (z i - c) ^ 2 / nu (xi.val i) := by
      simp [cost, fit, energy]
    have en : 0 ≤ energy k xi.val al := by
      have := PosSemidef.quad_nonneg (hg.psd xi.val) al
      refine this.trans_eq ?_
      simp only [dotProduct, mulVec, of_apply, energy, Finset.mul_sum]
      exact Finset.sum_congr rfl fun i _ => Finset.sum_congr rfl fun j _ => by ring
    rw [e0] at hc
    have ec : cost k nu xi.val z b xi.val al = ∑ i, (z i - fit k b xi.val al (xi.val i)) ^ 2 / nu (xi.val i) +
      energy k xi.val al := rfl
    refine ⟨by linarith [hc.1], fun heq i => ?_⟩
    have := hc.2 (by linarith [hc.1]) (xi.val i)
    rw [← this]
    simp [fit]

/-- **C281** Noisier observations give larger variances: with the same function and the same noise at the targets,
variances of the noise that are at least as large at each observation give predictive variances at least as large. -/
theorem noise_monotone {Θ' : Type} (hla : la.Contract be) (hg : IsNoisy g θ k nu va) {g' : GP e 1 Θ' Unit} {θ' : Θ'}
    {nu' : (Fin e → ℝ) → ℝ} (hg' : IsNoisy g' θ' k nu' va) (xi : Pts (1 + r) e) (xt : Pts m e) (hne : xi.id ≠ xt.id)
    (f : ℕ) (hi : xi.id < f) (ht : xt.id < f) (hpos : ∀ i, 0 < nu (xi.val i)) (hle : ∀ i, nu (xi.val i) ≤ nu' (xi.val i))
    (hva : ∀ t, 0 ≤ va (xt.val t)) (z z' : Fin (1 + r) → ℝ) (zn cv : Bool) :
    ∃ zt v lam zt' v' lam', Obj.predict be la f g xi (.vec z) xt zn cv = .ok (zt, v, lam) ∧
      Obj.predict be la f g' xi (.vec z') xt zn cv = .ok (zt', v', lam') ∧ ∀ t, v t ≤ v' t := by
  obtain ⟨zt, v, lam, e1, P⟩ := noisy_predict hla hg xi xt hne f hi ht hpos hva z zn cv
  obtain ⟨zt', v', lam', e1', P'⟩ := noisy_predict hla hg' xi xt hne f hi ht (fun i => (hpos i).trans_le (hle i)) hva z' zn cv
  refine ⟨zt, v, lam, zt', v', lam', e1, e1', fun t => ?_⟩
  obtain ⟨-, s', ev', -⟩ := P' t
  refine ((P t).2.2.2 _ s').1.trans ?_
  rw [ev']
  unfold noisyGap
  have := Finset.sum_le_sum fun i (_ : i ∈ Finset.univ) => mul_le_mul_of_nonneg_left (hle i) (sq_nonneg (lam' i t))
  linarith

/-- Concrete case of `noise_monotone`: example07 with noise variances one and `e`. -/
example : ∃ zt v lam zt' v' lam',
    Obj.predict .numpy (exactLA .numpy) 2 (plain (maternFormula 2) ![0, 0, 0, 0]) exObs (.vec ![1, 2, 4]) (exTgt 0) true true =
      .ok (zt, v, lam) ∧
    Obj.predict .numpy (exactLA .numpy) 2 (plain (maternFormula 2) ![0, 1, 0, 0]) exObs (.vec ![1, 2, 4]) (exTgt 0) true true =
      .ok (zt', v', lam') ∧ ∀ t, v t ≤ v' t := by
  have h' := plain_noisy (d := 2) 2 ![0, 1, 0, 0]
  have e : (fun l : Fin 2 => (![0, 1, 0, 0] : Fin 4 → ℝ) l.succ.succ) = fun l => (![0, 0, 0, 0] : Fin 4 → ℝ) l.succ.succ := by
    ext l; fin_cases l <;> rfl
  have e0 : (![0, 1, 0, 0] : Fin 4 → ℝ) 0 = (![0, 0, 0, 0] : Fin 4 → ℝ) 0 := rfl
  rw [e, e0] at h'
  exact noise_monotone (exactLA_contract .numpy) (plain_noisy 2 ![0, 0, 0, 0]) h' exObs (exTgt 0) (by decide) 2 (by decide)
    (by decide) (fun _ => Real.exp_pos _) (fun _ => Real.exp_le_exp.2 (by simp)) (fun _ => le_rfl) _ _ true true

/-- Concrete case of `noisy_ridge`, `noisy_residuals` and the lemmas before: example11 with three observations, two at
the same point. -/
example : ∃ zt v lam, Obj.predict .numpy (exactLA .numpy) 2 (hetero (maternFormula 2) ![0, 0]) exObs (.vec ![1, 2, 4])
      { exObs with id := 1 } true true = .ok (zt, v, lam) ∧ ∑ i, (![1, 2, 4] i - zt i) = 0 := by
  obtain ⟨zt, v, lam, h, h1, _⟩ := noisy_residuals (exactLA_contract .numpy) (hetero_noisy 2 ![0, 0]) exObs
    { exObs with id := 1 } (fun _ => rfl) (by decide) 2 (by decide) (by decide)
    (fun i => by fin_cases i <;> simp [exObs, Fin.last]) ![1, 2, 4] true true
  refine ⟨zt, v, lam, h, ?_⟩
  rw [← h1]
  refine Finset.sum_congr rfl fun i _ => ?_
  have : exObs.val i (Fin.last 1) = 1 := by fin_cases i <;> rfl
  rw [this, div_one]

end Verif.Core.Noisy
