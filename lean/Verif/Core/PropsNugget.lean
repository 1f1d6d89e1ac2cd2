import Verif.Core.PropsRidge
import Mathlib.Algebra.QuadraticDiscriminant

/-!
# C282: what the nugget of the Matérn covariance costs

`maternp_covariance_ii_or_tt` (kernel/matern.py 67-94) adds `10 * sigma2 * eps` to the diagonal of the
covariance matrix of the observations.
-/

set_option autoImplicit false

namespace Verif.Core.Noisy

open Verif Verif.Data Matrix Verif.Core.Obj Verif.Kernel

variable {d e n m r : ℕ} {be : Backend} {la : LA}

/-- **C282** A model with the standard Matérn covariance and a constant mean is one with noise of variance
`10 sigma2 eps` at each observation. -/
theorem matern_noisy (p : ℕ) (eps : ℝ) (θ : Fin (d + 1) → ℝ) :
    IsNoisy (Obj.matern (maternFormula p) eps "linear_predictor" ones (none : Option Unit) (some θ)) θ
      (fun x y => latent (maternFormula p) (Real.exp (θ 0)) (fun l => θ l.succ) x y)
      (fun _ => 10 * Real.exp (θ 0) * eps) (fun _ => 0) where
  theta := rfl
  type := rfl
  mean := fun _ _ _ => rfl
  self := fun x i j => by
    change maternMat _ _ _ _ _ i j = _
    simp [maternMat, covII, latent]
  other := fun x y i j h => by
    change maternMat _ _ _ _ _ i j = _
    simp [maternMat, h, covIT, latent]
  diag := fun x i => by
    change Real.exp (θ 0) * 1 = _
    rw [latent_self, mul_one, add_zero]
  full := fun x i j => by
    change covII _ _ _ _ i j = _
    simp [covII, latent]
  psd := fun x => latent_psd p _ (Real.exp_pos _).le _ x

section

variable {k : (Fin e → ℝ) → (Fin e → ℝ) → ℝ} {x : Fin n → Fin e → ℝ} {z a a0 : Fin n → ℝ} {b b0 nu kap : ℝ}

/-- Coefficients with noise compared with coefficients without. -/
theorem nugget_abs
    (psd : ∀ {ι : Type} [Fintype ι] (x : ι → Fin e → ℝ), (Matrix.of fun i j => k (x i) (x j)).PosSemidef)
    (hnu : 0 < nu) (h0 : ∀ i, z i = fit k b0 x a0 (x i)) (s0 : ∑ i, a0 i = 0)
    (h : ∀ i, z i - fit k b x a (x i) = nu * a i) (s : ∑ i, a i = 0) :
    ∑ i, a i ^ 2 ≤ ∑ i, a0 i ^ 2 ∧
    ∀ t, (∑ i, a0 i * k (x i) t - ∑ i, a i * k (x i) t) ^ 2 ≤ k t t * (nu * (∑ i, a0 i ^ 2) / 4) := by
  set E := energy k x a0 - 2 * ∑ i, a i * ∑ j, a0 j * k (x j) (x i) + energy k x a with hE
  have hs : ∀ u v, k u v = k v u := fun u v => by
    have := (psd (ι := Fin 2) ![u, v]).1.apply 0 1
    simpa using this.symm
  have hd := energy_diff psd x a x a0
  have en : ∀ c c' : Fin n → ℝ, ∑ i, c i * ∑ j, c' j * k (x j) (x i) = ∑ i, c' i * ∑ j, c j * k (x j) (x i) := fun c c' => by
    simp only [Finset.mul_sum]
    rw [Finset.sum_comm]
    exact Finset.sum_congr rfl fun i _ => Finset.sum_congr rfl fun j _ => by rw [hs]; ring
  have ee : ∀ c : Fin n → ℝ, energy k x c = ∑ i, c i * ∑ j, c j * k (x j) (x i) := fun c => by
    simp only [energy, Finset.mul_sum]
    exact Finset.sum_congr rfl fun i _ => Finset.sum_congr rfl fun j _ => by rw [hs]; ring
  have hDi : ∀ i, ∑ j, a0 j * k (x j) (x i) - ∑ j, a j * k (x j) (x i) = nu * a i - (b0 - b) := fun i => by
    have e1 := h0 i
    have e2 := h i
    simp only [fit] at e1 e2
    linarith
  have hE1 : E = ∑ i, (a0 i - a i) * (∑ j, a0 j * k (x j) (x i) - ∑ j, a j * k (x j) (x i)) := by
    simp only [mul_sub, sub_mul, Finset.sum_sub_distrib]
    rw [hE, ee, ee, en a0 a]
    ring
  have hE2 : E = nu * (∑ i, a0 i * a i - ∑ i, a i ^ 2) := by
    rw [hE1]
    simp only [hDi, mul_sub, sub_mul, Finset.sum_sub_distrib, ← Finset.sum_mul, s, s0]
    have e1 : ∑ i, a0 i * (nu * a i) = nu * ∑ i, a0 i * a i := by
      rw [Finset.mul_sum]; exact Finset.sum_congr rfl fun i _ => by ring
    have e2 : ∑ i, a i * (nu * a i) = nu * ∑ i, a i ^ 2 := by
      rw [Finset.mul_sum]; exact Finset.sum_congr rfl fun i _ => by ring
    rw [e1, e2]
    ring
  have q1 : ∀ c : ℝ, 0 ≤ c ^ 2 * ∑ i, a0 i ^ 2 - 2 * c * ∑ i, a0 i * a i + ∑ i, a i ^ 2 := fun c => by
    have := Finset.sum_nonneg fun i (_ : i ∈ Finset.univ) => sq_nonneg (c * a0 i - a i)
    refine this.trans_eq ?_
    simp only [Finset.mul_sum, ← Finset.sum_sub_distrib, ← Finset.sum_add_distrib]
    exact Finset.sum_congr rfl fun i _ => by ring
  have hEn : ∀ t s', 0 ≤ E + 2 * s' * (∑ i, a0 i * k (x i) t - ∑ i, a i * k (x i) t) + s' ^ 2 * k t t := fun t s' => hd t s'
  rcases Nat.eq_zero_or_pos n with hn | hn
  · subst hn
    simp
  have hE0 : 0 ≤ E := by
    have := hEn (x ⟨0, hn⟩) 0
    simpa using this
  have hle : 0 ≤ ∑ i, a0 i * a i - ∑ i, a i ^ 2 := by
    rw [hE2] at hE0
    exact nonneg_of_mul_nonneg_right hE0 hnu
  have hEu : E ≤ nu * (∑ i, a0 i ^ 2) / 4 := by
    rw [hE2, mul_div_assoc]
    refine mul_le_mul_of_nonneg_left ?_ hnu.le
    have := q1 (1 / 2)
    linarith
  refine ⟨by have := q1 1; linarith, fun t => ?_⟩
  have hk : 0 ≤ k t t := by
    have := PosSemidef.quad_nonneg (psd (ι := Unit) fun _ => t) 1
    simpa [dotProduct, mulVec] using this
  have hdis := discrim_le_zero (a := k t t) (b := 2 * (∑ i, a0 i * k (x i) t - ∑ i, a i * k (x i) t)) (c := E) fun s' => by
    have := hEn t s'
    linarith
  rw [discrim] at hdis
  have := mul_le_mul_of_nonneg_left hEu hk
  linarith

/-- The differences of residuals and of values. -/
theorem nugget_bound
    (psd : ∀ {ι : Type} [Fintype ι] (x : ι → Fin e → ℝ), (Matrix.of fun i j => k (x i) (x j)).PosSemidef)
    (hn : 0 < n) (hkap : ∀ t, k t t = kap)
    (hnu : 0 < nu) (h0 : ∀ i, z i = fit k b0 x a0 (x i)) (s0 : ∑ i, a0 i = 0)
    (h : ∀ i, z i - fit k b x a (x i) = nu * a i) (s : ∑ i, a i = 0) :
    (∀ i, |z i - fit k b x a (x i)| ≤ nu * √(∑ i, a0 i ^ 2)) ∧
    ∀ t, |fit k b x a t - fit k b0 x a0 t| ≤ (nu + √(nu * kap)) * √(∑ i, a0 i ^ 2) := by
  obtain ⟨ha, hD⟩ := nugget_abs psd hnu h0 s0 h s
  have hr : ∀ i, |z i - fit k b x a (x i)| ≤ nu * √(∑ i, a0 i ^ 2) := fun i => by
    rw [h i, abs_mul, abs_of_pos hnu]
    refine mul_le_mul_of_nonneg_left ?_ hnu.le
    refine Real.abs_le_sqrt (le_trans ?_ ha)
    exact Finset.single_le_sum (f := fun i => a i ^ 2) (fun i _ => sq_nonneg (a i)) (Finset.mem_univ i)
  refine ⟨hr, fun t => ?_⟩
  have hDt : ∀ t, |∑ i, a0 i * k (x i) t - ∑ i, a i * k (x i) t| ≤ √(nu * kap) * √(∑ i, a0 i ^ 2) / 2 := fun t => by
    have hkn : 0 ≤ kap := by
      have := PosSemidef.quad_nonneg (psd (ι := Unit) fun _ => t) 1
      rw [← hkap t]
      simpa [dotProduct, mulVec] using this
    have h1 : √(nu * kap) * √(∑ i, a0 i ^ 2) / 2 = √(kap * (nu * (∑ i, a0 i ^ 2) / 4)) := by
      rw [← Real.sqrt_mul (mul_nonneg hnu.le hkn)]
      have : kap * (nu * (∑ i, a0 i ^ 2) / 4) = (nu * kap * ∑ i, a0 i ^ 2) / 2 ^ 2 := by ring
      rw [this, Real.sqrt_div' _ (by positivity), Real.sqrt_sq (by norm_num)]
    rw [h1]
    have := hD t
    rw [hkap t] at this
    exact Real.abs_le_sqrt this
  set i0 : Fin n := ⟨0, hn⟩
  have e1 : fit k b x a t - fit k b0 x a0 t =
      -(∑ i, a0 i * k (x i) t - ∑ i, a i * k (x i) t) + (∑ i, a0 i * k (x i) (x i0) - ∑ i, a i * k (x i) (x i0)) -
        (z i0 - fit k b x a (x i0)) := by
    rw [h0 i0]
    simp only [fit]
    ring
  rw [e1]
  have t1 := abs_add_le (-(∑ i, a0 i * k (x i) t - ∑ i, a i * k (x i) t) +
    (∑ i, a0 i * k (x i) (x i0) - ∑ i, a i * k (x i) (x i0))) (-(z i0 - fit k b x a (x i0)))
  have t2 := abs_add_le (-(∑ i, a0 i * k (x i) t - ∑ i, a i * k (x i) t))
    (∑ i, a0 i * k (x i) (x i0) - ∑ i, a i * k (x i) (x i0))
  rw [abs_neg] at t1 t2
  rw [sub_eq_add_neg]
  have := hr i0
  have := hDt t
  have := hDt (x i0)
  linarith

end

theorem latent_const (p : ℕ) (θ : Fin (d + 1) → ℝ) (t : Fin d → ℝ) :
    latent (maternFormula p) (Real.exp (θ 0)) (fun l => θ l.succ) t t = Real.exp (θ 0) := latent_self p _ _ t

/-- **C282** Predictions with the nugget compared with those without (distinct observation points, constant mean).
The coefficients `a0` of the interpolating prediction do not depend on `eps` nor on the targets. -/
theorem nugget_error (hla : la.Contract be) (p : ℕ) (θ : Fin (d + 1) → ℝ) (xi : Pts (1 + r) d)
    (hinj : Function.Injective xi.val) (z : Fin (1 + r) → ℝ) :
    ∃ (b0 : ℝ) (a0 : Fin (1 + r) → ℝ), ∑ i, a0 i = 0 ∧
      (∀ i, z i = fit (fun x y => latent (maternFormula p) (Real.exp (θ 0)) (fun l => θ l.succ) x y) b0 xi.val a0 (xi.val i)) ∧
      ∀ (eps : ℝ), 0 < eps → ∀ (m : ℕ) (xt : Pts m d) (zn cv : Bool) (f : ℕ), xi.id ≠ xt.id → xi.id < f → xt.id < f →
        ∃ zt v lam zt0 v0 lam0,
          Obj.predict be la f (Obj.matern (maternFormula p) eps "linear_predictor" ones (none : Option Unit) (some θ))
            xi (.vec z) xt zn cv = .ok (zt, v, lam) ∧
          Obj.predict be la f (Obj.matern (maternFormula p) 0 "linear_predictor" ones (none : Option Unit) (some θ))
            xi (.vec z) xt zn cv = .ok (zt0, v0, lam0) ∧
          ∀ t, |zt t - zt0 t| ≤ Real.exp (θ 0) * (10 * eps + √(10 * eps)) * √(∑ i, a0 i ^ 2) ∧
            v0 t ≤ v t ∧ v t ≤ v0 t + 10 * Real.exp (θ 0) * eps * ∑ i, lam0 i t ^ 2 ∧
            ∀ i, xt.val t = xi.val i → zt0 t = z i ∧
              |zt t - z i| ≤ 10 * Real.exp (θ 0) * eps * √(∑ i, a0 i ^ 2) := by
  have g0 := matern_noisy p 0 θ
  set k : (Fin d → ℝ) → (Fin d → ℝ) → ℝ := fun x y => latent (maternFormula p) (Real.exp (θ 0)) (fun l => θ l.succ) x y with hk
  have pd0 : ((Matrix.of fun i j => k (xi.val i) (xi.val j)) +
      Matrix.diagonal fun i => (fun _ : Fin d → ℝ => 10 * Real.exp (θ 0) * 0) (xi.val i)).PosDef := by
    have := Kernel.cov_posDef p 0 le_rfl θ xi.val .same (Or.inr rfl) hinj
    convert this using 1
    ext i j
    simp [hk, latent, cov, covII]
  obtain ⟨b0, a0, hr0, s0⟩ := coefs (nu := fun _ => 10 * Real.exp (θ 0) * 0) g0.psd xi.val pd0 z
  have hz0 : ∀ i, z i = fit k b0 xi.val a0 (xi.val i) := fun i => by
    have := hr0 i
    simp only [mul_zero, zero_mul] at this
    linarith
  refine ⟨b0, a0, s0, hz0, fun eps heps m xt zn cv f hne hi ht => ?_⟩
  have g1 := matern_noisy p eps θ
  have hnu : 0 < 10 * Real.exp (θ 0) * eps := by positivity
  have pd1 : ((Matrix.of fun i j => k (xi.val i) (xi.val j)) +
      Matrix.diagonal fun i => (fun _ : Fin d → ℝ => 10 * Real.exp (θ 0) * eps) (xi.val i)).PosDef :=
    (Matrix.PosDef.diagonal fun _ => hnu).posSemidef_add (g1.psd xi.val)
  obtain ⟨b1, a1, hr1, s1⟩ := coefs (nu := fun _ => 10 * Real.exp (θ 0) * eps) g1.psd xi.val pd1 z
  obtain ⟨v1, lam1, hp1⟩ := predict_fit hla g1 xi xt hne f hi ht pd1 hr1 s1 zn cv
  obtain ⟨v0, lam0, hp0⟩ := predict_fit hla g0 xi xt hne f hi ht pd0 hr0 s0 zn cv
  obtain ⟨zt1', v1', lam1', hp1', P1⟩ := predict_posDef hla g1 xi xt hne f hi ht pd1 (fun _ => hnu.le) (fun _ => le_rfl) z zn cv
  obtain ⟨zt0', v0', lam0', hp0', P0⟩ := predict_posDef hla g0 xi xt hne f hi ht pd0 (fun _ => by simp) (fun _ => le_rfl) z zn cv
  have q1 := Except.ok.inj (hp1.symm.trans hp1')
  have q0 := Except.ok.inj (hp0.symm.trans hp0')
  simp only [Prod.mk.injEq] at q1 q0
  obtain ⟨-, rfl, rfl⟩ := q1
  obtain ⟨-, rfl, rfl⟩ := q0
  refine ⟨_, _, _, _, _, _, hp1, hp0, fun t => ?_⟩
  obtain ⟨hres, hdif⟩ := nugget_bound g0.psd (by omega) (fun t => latent_const p θ t) hnu hz0 s0 hr1 s1
  obtain ⟨-, sum1, ev1, -⟩ := P1 t
  obtain ⟨-, sum0, ev0, mn0⟩ := P0 t
  obtain ⟨-, -, -, mn1⟩ := P1 t
  have gv : ∀ (w : Fin (1 + r) → ℝ), noisyGap k (fun _ => 10 * Real.exp (θ 0) * eps) xi.val (xt.val t) w =
      gap k xi.val (xt.val t) w + 10 * Real.exp (θ 0) * eps * ∑ i, w i ^ 2 := fun w => by
    simp only [noisyGap, Finset.mul_sum]
    congr 1
    exact Finset.sum_congr rfl fun i _ => by ring
  have gv0 : ∀ (w : Fin (1 + r) → ℝ), noisyGap k (fun _ => 10 * Real.exp (θ 0) * 0) xi.val (xt.val t) w =
      gap k xi.val (xt.val t) w := fun w => by simp [noisyGap]
  refine ⟨?_, ?_, ?_, fun i hi => ?_⟩
  · have e : Real.exp (θ 0) * (10 * eps + √(10 * eps)) =
        10 * Real.exp (θ 0) * eps + √(10 * Real.exp (θ 0) * eps * Real.exp (θ 0)) := by
      have : 10 * Real.exp (θ 0) * eps * Real.exp (θ 0) = Real.exp (θ 0) ^ 2 * (10 * eps) := by ring
      rw [this, Real.sqrt_mul (sq_nonneg _), Real.sqrt_sq (Real.exp_pos _).le]
      ring
    rw [e]
    exact hdif _
  · have := (mn0 _ sum1).1
    rw [ev1]
    refine this.trans ?_
    rw [gv0, gv]
    have : 0 ≤ 10 * Real.exp (θ 0) * eps * ∑ i, lam1 i t ^ 2 :=
      mul_nonneg hnu.le (Finset.sum_nonneg fun i _ => sq_nonneg _)
    linarith
  · have := (mn1 _ sum0).1
    rw [gv] at this
    rw [ev0, gv0]
    linarith
  · refine ⟨by rw [hi]; exact (hz0 i).symm, ?_⟩
    rw [hi, abs_sub_comm]
    exact hres i

/-- **C282** As `eps` goes to zero, the predictions go to those without nugget, uniformly over all targets. -/
theorem nugget_limit (hla : la.Contract be) (p : ℕ) (θ : Fin (d + 1) → ℝ) (xi : Pts (1 + r) d)
    (hinj : Function.Injective xi.val) (z : Fin (1 + r) → ℝ) (del : ℝ) (hdel : 0 < del) :
    ∃ e0 > 0, ∀ eps, 0 < eps → eps < e0 →
      ∀ (m : ℕ) (xt : Pts m d) (zn cv : Bool) (f : ℕ), xi.id ≠ xt.id → xi.id < f → xt.id < f →
        ∃ zt v lam zt0 v0 lam0,
          Obj.predict be la f (Obj.matern (maternFormula p) eps "linear_predictor" ones (none : Option Unit) (some θ))
            xi (.vec z) xt zn cv = .ok (zt, v, lam) ∧
          Obj.predict be la f (Obj.matern (maternFormula p) 0 "linear_predictor" ones (none : Option Unit) (some θ))
            xi (.vec z) xt zn cv = .ok (zt0, v0, lam0) ∧
          ∀ t, |zt t - zt0 t| < del := by
  obtain ⟨b0, a0, -, -, h⟩ := nugget_error hla p θ xi hinj z
  have hc : Filter.Tendsto (fun eps : ℝ => Real.exp (θ 0) * (10 * eps + √(10 * eps)) * √(∑ i, a0 i ^ 2)) (nhds 0) (nhds 0) := by
    have : Continuous fun eps : ℝ => Real.exp (θ 0) * (10 * eps + √(10 * eps)) * √(∑ i, a0 i ^ 2) := by fun_prop
    have h2 := this.tendsto 0
    simpa using h2
  obtain ⟨e0, h0, hb⟩ := Metric.eventually_nhds_iff.mp (hc.eventually_lt_const hdel)
  refine ⟨e0, h0, fun eps he hlt m xt zn cv f hne hi ht => ?_⟩
  obtain ⟨zt, v, lam, zt0, v0, lam0, e1, e2, H⟩ := h eps he m xt zn cv f hne hi ht
  refine ⟨zt, v, lam, zt0, v0, lam0, e1, e2, fun t => (H t).1.trans_lt (hb ?_)⟩
  rwa [Real.dist_eq, sub_zero, abs_of_pos he]

/-- Two observations. -/
def exTwo : Pts (1 + 1) 1 := ⟨0, .nd .working, Matrix.of ![![0], ![1]]⟩

/-- Concrete case of `nugget_error` (and of `nugget_abs`, `nugget_bound`, `matern_noisy`): two observations and a copy
of their points as targets. -/
example : ∃ A : ℝ, ∀ eps, 0 < eps → ∃ zt v lam,
    Obj.predict .numpy (exactLA .numpy) 2 (Obj.matern (maternFormula 2) eps "linear_predictor" ones
      (none : Option Unit) (some ![0, 0])) exTwo (.vec ![1, 2]) { exTwo with id := 1 } true true = .ok (zt, v, lam) ∧
    |zt 0 - 1| ≤ 10 * eps * A ∧ |zt 1 - 2| ≤ 10 * eps * A := by
  have hinj : Function.Injective exTwo.val := by
    intro i j h
    have := congrFun h 0
    fin_cases i <;> fin_cases j <;> simp_all [exTwo]
  obtain ⟨b0, a0, -, -, h⟩ := nugget_error (exactLA_contract .numpy) 2 ![0, 0] exTwo hinj ![1, 2]
  refine ⟨√(∑ i, a0 i ^ 2), fun eps he => ?_⟩
  obtain ⟨zt, v, lam, _, _, _, e1, _, H⟩ := h eps he _ { exTwo with id := 1 } true true 2 (by decide)
    (by decide) (by decide)
  refine ⟨zt, v, lam, e1, ?_, ?_⟩
  · simpa using ((H 0).2.2.2 0 rfl).2
  · simpa using ((H 1).2.2.2 1 rfl).2

/-- Concrete case of `nugget_limit`. -/
example : ∃ e0 > 0, ∀ eps, 0 < eps → eps < e0 → ∃ zt v lam zt0 v0 lam0,
    Obj.predict .numpy (exactLA .numpy) 2 (Obj.matern (maternFormula 2) eps "linear_predictor" ones
      (none : Option Unit) (some ![0, 0])) exTwo (.vec ![1, 2]) { exTwo with id := 1 } true true = .ok (zt, v, lam) ∧
    Obj.predict .numpy (exactLA .numpy) 2 (Obj.matern (maternFormula 2) 0 "linear_predictor" ones
      (none : Option Unit) (some ![0, 0])) exTwo (.vec ![1, 2]) { exTwo with id := 1 } true true = .ok (zt0, v0, lam0) ∧
    ∀ t, |zt t - zt0 t| < 1 / 1000 := by
  have hinj : Function.Injective exTwo.val := by
    intro i j h
    have := congrFun h 0
    fin_cases i <;> fin_cases j <;> simp_all [exTwo]
  obtain ⟨e0, h0, h⟩ := nugget_limit (exactLA_contract .numpy) 2 ![0, 0] exTwo hinj ![1, 2] (1 / 1000) (by norm_num)
  exact ⟨e0, h0, fun eps he hl => h eps he hl _ { exTwo with id := 1 } true true 2 (by decide) (by decide) (by decide)⟩

end Verif.Core.Noisy
