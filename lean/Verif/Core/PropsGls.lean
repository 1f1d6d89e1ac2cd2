import Verif.Core.PropsMaternGP
import Verif.Core.PropsChainReml

/-!
# C236: an unknown linear mean is predicted by generalised least squares

`Model.predict` (core/model.py 227-307) with `meantype="linear_predictor"` compared with
`meantype="parameterized"`.
-/

set_option autoImplicit false

namespace Verif.Core

open Verif Verif.Data Matrix

variable {n m q r : ℕ} {be : Backend} {la : LA}

/-- `beta` is the generalised least-squares estimate of the coefficients of the mean functions `P` from
the data `z`: it makes `(z - P b)ᵀ K⁻¹ (z - P b)` least. -/
def IsGLS (K : Mat n n) (P : Mat n q) (z : Fin n → ℝ) (beta : Fin q → ℝ) : Prop :=
  ∀ b : Fin q → ℝ, (z - P *ᵥ beta) ⬝ᵥ (K⁻¹ *ᵥ (z - P *ᵥ beta)) ≤ (z - P *ᵥ b) ⬝ᵥ (K⁻¹ *ᵥ (z - P *ᵥ b))

/-- The formula of the estimate. -/
noncomputable def glsBeta (K : Mat n n) (P : Mat n q) (z : Fin n → ℝ) : Fin q → ℝ :=
  (Pᵀ * (K⁻¹ * P))⁻¹ *ᵥ (Pᵀ *ᵥ (K⁻¹ *ᵥ z))

theorem glsBeta_spec {K : Mat n n} {P : Mat n q} (hK : K.PosDef) (hP : FullRank P) (z : Fin n → ℝ) :
    IsGLS K P z (glsBeta K P z) ∧ ∀ b, IsGLS K P z b → b = glsBeta K P z := by
  have hF := posDef_gls hK hP
  have hKi : (K⁻¹)ᵀ = K⁻¹ := by rw [transpose_nonsing_inv, PosDef.symm hK]
  have hKp : K⁻¹.PosDef := hK.inv
  set bh := glsBeta K P z with hbh
  have hnorm : Pᵀ *ᵥ (K⁻¹ *ᵥ (z - P *ᵥ bh)) = 0 := by
    have e : Pᵀ *ᵥ (K⁻¹ *ᵥ (P *ᵥ bh)) = Pᵀ *ᵥ (K⁻¹ *ᵥ z) := by
      have e' : (Pᵀ * (K⁻¹ * P)) *ᵥ bh = Pᵀ *ᵥ (K⁻¹ *ᵥ z) := by
        rw [hbh, glsBeta, mulVec_mulVec, Matrix.mul_nonsing_inv _ (PosDef.det_unit hF), one_mulVec]
      rwa [← mulVec_mulVec, ← mulVec_mulVec] at e'
    rw [mulVec_sub, mulVec_sub, e, sub_self]
  have key : ∀ b, (z - P *ᵥ b) ⬝ᵥ (K⁻¹ *ᵥ (z - P *ᵥ b)) =
      (z - P *ᵥ bh) ⬝ᵥ (K⁻¹ *ᵥ (z - P *ᵥ bh)) + (P *ᵥ (bh - b)) ⬝ᵥ (K⁻¹ *ᵥ (P *ᵥ (bh - b))) := by
    intro b
    have e : z - P *ᵥ b = (z - P *ᵥ bh) + P *ᵥ (bh - b) := by rw [mulVec_sub]; abel
    have h0 : (P *ᵥ (bh - b)) ⬝ᵥ (K⁻¹ *ᵥ (z - P *ᵥ bh)) = 0 := by
      rw [dotProduct_comm, dot_mulVec_transpose, hnorm, zero_dotProduct]
    have h1 : (z - P *ᵥ bh) ⬝ᵥ (K⁻¹ *ᵥ (P *ᵥ (bh - b))) = 0 := by
      rw [dot_mulVec_comm hKi, h0]
    rw [e, mulVec_add, dotProduct_add, add_dotProduct, add_dotProduct, h0, h1]
    ring
  refine ⟨fun b => ?_, fun b hb => ?_⟩
  · rw [key b]
    have := PosSemidef.quad_nonneg hKp.posSemidef (P *ᵥ (bh - b))
    linarith
  · have h1 := hb bh
    rw [key b] at h1
    have h2 : P *ᵥ (bh - b) = 0 := by
      by_contra hne
      have := PosDef.quad_pos hKp hne
      linarith
    exact (sub_eq_zero.mp (hP _ h2)).symm

/-- The solution of the universal kriging system. -/
theorem uk_explicit {a : Arrays n m q} (hK : a.Kii.PosDef) (hP : FullRank a.Pi)
    {X : Matrix (Fin n ⊕ Fin q) (Fin m) ℝ} (hX : ukLHS a * X = ukRHS a) (t : Fin m) :
    let k : Fin n → ℝ := fun i => a.Kit i t
    let u := a.Piᵀ *ᵥ (a.Kii⁻¹ *ᵥ k) - a.Pt t
    let mu := (a.Piᵀ * (a.Kii⁻¹ * a.Pi))⁻¹ *ᵥ u
    (fun j => X (Sum.inr j) t) = mu ∧ (fun i => X (Sum.inl i) t) = a.Kii⁻¹ *ᵥ (k - a.Pi *ᵥ mu) := by
  intro k u mu
  obtain ⟨h1, h2⟩ := (ukSystem_iff a X).mp hX t
  have hF := posDef_gls hK hP
  have hKu := PosDef.det_unit hK
  set l : Fin n → ℝ := fun i => X (Sum.inl i) t
  set nu : Fin q → ℝ := fun j => X (Sum.inr j) t
  have hl : l = a.Kii⁻¹ *ᵥ (k - a.Pi *ᵥ nu) := by
    have : k - a.Pi *ᵥ nu = a.Kii *ᵥ l := by
      rw [← show a.Kii *ᵥ l + a.Pi *ᵥ nu = k from h1]; abel
    rw [this, mulVec_mulVec, Matrix.nonsing_inv_mul _ hKu, one_mulVec]
  have hnu : nu = mu := by
    have h3 : a.Pt t = a.Piᵀ *ᵥ (a.Kii⁻¹ *ᵥ k) - (a.Piᵀ * (a.Kii⁻¹ * a.Pi)) *ᵥ nu := by
      have h2' : a.Piᵀ *ᵥ l = a.Pt t := h2
      rw [← h2', hl, mulVec_sub, mulVec_sub, ← mulVec_mulVec, ← mulVec_mulVec]
    have h4 : u = (a.Piᵀ * (a.Kii⁻¹ * a.Pi)) *ᵥ nu := by
      change a.Piᵀ *ᵥ (a.Kii⁻¹ *ᵥ k) - a.Pt t = _
      rw [h3]; abel
    change nu = (a.Piᵀ * (a.Kii⁻¹ * a.Pi))⁻¹ *ᵥ u
    rw [h4, mulVec_mulVec, Matrix.nonsing_inv_mul _ (PosDef.det_unit hF), one_mulVec]
  exact ⟨hnu, by rw [hl, hnu]⟩

/-- **C236** With an unknown linear mean, `predict` returns the prediction with the mean whose
coefficients are the generalised least-squares estimate; its variance is that of the known mean plus
the nonnegative variance `uᵀ (Pᵀ K⁻¹ P)⁻¹ u` due to the estimation of the coefficients, which vanishes
only where the weights of the known mean already reproduce the mean functions (`u = 0`). -/
theorem predict_gls (hla : la.Contract be) (a : Arrays (q + r) m q) (hK : a.Kii.PosDef) (hP : FullRank a.Pi)
    (zi : Fin (q + r) → ℝ) :
    ∃ (beta : Fin q → ℝ) (mean v v' : Fin m → ℝ) (lam lam' : Mat (q + r) m),
      IsGLS a.Kii a.Pi zi beta ∧
      predict la .linearPredictor a zi false = .ok (mean, v, lam) ∧
      predict la (.parameterized (a.Pi *ᵥ beta) (a.Pt *ᵥ beta)) a zi false = .ok (mean, v', lam') ∧
      ∀ t, v t = v' t + (a.Piᵀ *ᵥ (fun i => lam' i t) - a.Pt t) ⬝ᵥ
          ((a.Piᵀ * (a.Kii⁻¹ * a.Pi))⁻¹ *ᵥ (a.Piᵀ *ᵥ (fun i => lam' i t) - a.Pt t)) ∧
        v' t ≤ v t ∧ (v t = v' t ↔ a.Piᵀ *ᵥ (fun i => lam' i t) = a.Pt t) := by
  obtain ⟨X, hX, hp⟩ := predict_linear hla a (CPD.of_posDef hK _) hP zi false
  have hq := predict_param hla a hK (a.Pi *ᵥ glsBeta a.Kii a.Pi zi) (a.Pt *ᵥ glsBeta a.Kii a.Pi zi) zi false
  simp only [Bool.false_eq_true, if_false] at hp hq
  have hF := posDef_gls hK hP
  have hFi : ((a.Piᵀ * (a.Kii⁻¹ * a.Pi))⁻¹).PosDef := hF.inv
  have hFs : ((a.Piᵀ * (a.Kii⁻¹ * a.Pi))⁻¹)ᵀ = (a.Piᵀ * (a.Kii⁻¹ * a.Pi))⁻¹ := PosDef.symm hFi
  have hKi : (a.Kii⁻¹)ᵀ = a.Kii⁻¹ := by rw [transpose_nonsing_inv, PosDef.symm hK]
  have hlam : ∀ t, (fun i => (a.Kii⁻¹ * a.Kit) i t) = a.Kii⁻¹ *ᵥ (fun i => a.Kit i t) := fun t => rfl
  set F := (a.Piᵀ * (a.Kii⁻¹ * a.Pi))⁻¹ with hFd
  have hmean : (fun t => ∑ i, X.toRows₁ i t * zi i + 0) =
      fun t => ∑ i, (a.Kii⁻¹ * a.Kit) i t * (zi - a.Pi *ᵥ glsBeta a.Kii a.Pi zi) i +
        (a.Pt *ᵥ glsBeta a.Kii a.Pi zi) t := by
    funext t
    obtain ⟨h1, h2⟩ := uk_explicit hK hP hX t
    have e1 : ∑ i, X.toRows₁ i t * zi i = (fun i => X (Sum.inl i) t) ⬝ᵥ zi := rfl
    have e2 : ∑ i, (a.Kii⁻¹ * a.Kit) i t * (zi - a.Pi *ᵥ glsBeta a.Kii a.Pi zi) i =
      (a.Kii⁻¹ *ᵥ (fun i => a.Kit i t)) ⬝ᵥ (zi - a.Pi *ᵥ glsBeta a.Kii a.Pi zi) := rfl
    have e3 : (a.Pt *ᵥ glsBeta a.Kii a.Pi zi) t = a.Pt t ⬝ᵥ glsBeta a.Kii a.Pi zi := rfl
    rw [e1, e2, e3, h2]
    set k : Fin (q + r) → ℝ := fun i => a.Kit i t
    set u := a.Piᵀ *ᵥ (a.Kii⁻¹ *ᵥ k) - a.Pt t with hu
    have e4 : (a.Kii⁻¹ *ᵥ (a.Pi *ᵥ (F *ᵥ u))) ⬝ᵥ zi = u ⬝ᵥ glsBeta a.Kii a.Pi zi := by
      rw [glsBeta, dotProduct_comm, dot_mulVec_comm hKi, dotProduct_comm, dot_mulVec_transpose,
        dotProduct_comm, dot_mulVec_comm hFs]
      exact dotProduct_comm _ _
    have e5 : (a.Kii⁻¹ *ᵥ k) ⬝ᵥ (a.Pi *ᵥ glsBeta a.Kii a.Pi zi) =
        (a.Piᵀ *ᵥ (a.Kii⁻¹ *ᵥ k)) ⬝ᵥ glsBeta a.Kii a.Pi zi := dot_mulVec_transpose _ _ _
    rw [mulVec_sub, sub_dotProduct, dotProduct_sub, e4, e5, hu, sub_dotProduct]
    ring
  have hvar : ∀ t, a.vt t - ∑ i, X i t * ukRHS a i t =
      (a.vt t - ∑ i, (a.Kii⁻¹ * a.Kit) i t * a.Kit i t) +
        (a.Piᵀ *ᵥ (a.Kii⁻¹ *ᵥ fun i => a.Kit i t) - a.Pt t) ⬝ᵥ
          (F *ᵥ (a.Piᵀ *ᵥ (a.Kii⁻¹ *ᵥ fun i => a.Kit i t) - a.Pt t)) := by
    intro t
    obtain ⟨h1, h2⟩ := uk_explicit hK hP hX t
    have e1 : ∑ i, X i t * ukRHS a i t =
        (fun i => X (Sum.inl i) t) ⬝ᵥ (fun i => a.Kit i t) + (fun j => X (Sum.inr j) t) ⬝ᵥ a.Pt t := by
      rw [Fintype.sum_sum_type]
      rfl
    have e2 : ∑ i, (a.Kii⁻¹ * a.Kit) i t * a.Kit i t =
      (a.Kii⁻¹ *ᵥ (fun i => a.Kit i t)) ⬝ᵥ (fun i => a.Kit i t) := rfl
    rw [e1, e2, h1, h2]
    set k : Fin (q + r) → ℝ := fun i => a.Kit i t
    set u := a.Piᵀ *ᵥ (a.Kii⁻¹ *ᵥ k) - a.Pt t with hu
    rw [← hFd]
    have e4 : (a.Kii⁻¹ *ᵥ (a.Pi *ᵥ (F *ᵥ u))) ⬝ᵥ k = (F *ᵥ u) ⬝ᵥ (a.Piᵀ *ᵥ (a.Kii⁻¹ *ᵥ k)) := by
      rw [dotProduct_comm, dot_mulVec_comm hKi, dotProduct_comm, dot_mulVec_transpose, dotProduct_comm]
    have e6 : a.Piᵀ *ᵥ (a.Kii⁻¹ *ᵥ k) = u + a.Pt t := by rw [hu]; abel
    rw [mulVec_sub, sub_dotProduct, e4, e6, dotProduct_add, dotProduct_comm (F *ᵥ u) u]
    ring
  refine ⟨glsBeta a.Kii a.Pi zi, _, _, _, _, _, (glsBeta_spec hK hP zi).1, hmean ▸ hp, hq, fun t => ?_⟩
  rw [hvar t, hlam t]
  have h0 := PosSemidef.quad_nonneg hFi.posSemidef (a.Piᵀ *ᵥ (a.Kii⁻¹ *ᵥ fun i => a.Kit i t) - a.Pt t)
  refine ⟨rfl, by linarith, ?_⟩
  constructor
  · intro h
    by_contra hne
    have := PosDef.quad_pos hFi (sub_ne_zero.mpr hne)
    linarith
  · intro h
    rw [h, sub_self]
    simp

/-- **C236** Where the estimate is wrong the two differ: it is the only coefficient vector for which
`parameterized` and `linear_predictor` give the same predictions at all targets, as soon as some target
is not already explained. -/
theorem predict_gls_unique (hla : la.Contract be) (a : Arrays (q + r) m q) (hK : a.Kii.PosDef)
    (hP : FullRank a.Pi) (zi : Fin (q + r) → ℝ) (b : Fin q → ℝ) {mean v v' : Fin m → ℝ} {lam lam' : Mat (q + r) m}
    (h1 : predict la .linearPredictor a zi false = .ok (mean, v, lam))
    (h2 : predict la (.parameterized (a.Pi *ᵥ b) (a.Pt *ᵥ b)) a zi false = .ok (mean, v', lam'))
    (hs : ∀ c : Fin q → ℝ, (∀ t, (a.Piᵀ *ᵥ (fun i => lam' i t) - a.Pt t) ⬝ᵥ c = 0) → c = 0) :
    IsGLS a.Kii a.Pi zi b := by
  obtain ⟨beta, mean', w, w', l, l', hb, g1, g2, -⟩ := predict_gls hla a hK hP zi
  rw [g1] at h1
  obtain ⟨rfl, -⟩ := Prod.mk.inj (Except.ok.inj h1)
  rw [predict_param hla a hK] at g2 h2
  obtain ⟨e1, -⟩ := Prod.mk.inj (Except.ok.inj g2)
  obtain ⟨e2, e3⟩ := Prod.mk.inj (Except.ok.inj h2)
  obtain ⟨-, rfl⟩ := Prod.mk.inj e3
  have : b - beta = 0 := by
    refine hs _ fun t => ?_
    have e4 := congrFun (e1.trans e2.symm) t
    have s : ∀ c, ∑ i, (a.Kii⁻¹ * a.Kit) i t * (zi - a.Pi *ᵥ c) i + (a.Pt *ᵥ c) t =
        (fun i => (a.Kii⁻¹ * a.Kit) i t) ⬝ᵥ zi -
          (a.Piᵀ *ᵥ (fun i => (a.Kii⁻¹ * a.Kit) i t) - a.Pt t) ⬝ᵥ c := by
      intro c
      change (fun i => (a.Kii⁻¹ * a.Kit) i t) ⬝ᵥ (zi - a.Pi *ᵥ c) + a.Pt t ⬝ᵥ c = _
      rw [dotProduct_sub, sub_dotProduct, dot_mulVec_transpose]
      ring
    rw [s, s] at e4
    rw [dotProduct_sub]
    linarith
  rw [sub_eq_zero.mp this]
  exact hb

/-- Two observations, a constant mean and two targets: the hypotheses are met. -/
example : ∃ (beta : Fin 1 → ℝ) (mean v : Fin 2 → ℝ) (lam : Mat 2 2),
    IsGLS (pointArrays (n := 2) (m := 2) exK (fun _ => 1) (fun i => i) (fun t => 2 + t)).Kii
      (pointArrays (n := 2) (m := 2) exK (fun _ => 1) (fun i => i) (fun t => 2 + t)).Pi ![1, 3] beta ∧
    predict (q := 1) (r := 1) (exactLA .numpy) .linearPredictor
      (pointArrays exK (fun _ => 1) (fun i => i) (fun t => 2 + t)) ![1, 3] false = .ok (mean, v, lam) := by
  obtain ⟨b, mean, v, -, lam, -, h1, h2, -, -⟩ := predict_gls (q := 1) (r := 1) (be := .numpy)
    (exactLA_contract .numpy) _ (ex_joined.posDef (exK_posDef 4)) ex_fullRank ![1, 3]
  exact ⟨b, mean, v, lam, h1, h2⟩

end Verif.Core
