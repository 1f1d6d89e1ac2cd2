import Verif.Core.PropsMaternGP
import Verif.Core.PropsNormLeast
import Verif.Kernel.PropsRegularity
import Mathlib.Analysis.Calculus.MeanValue

/-!
# C245: prediction errors near the data

A target close to an observation is predicted with a small variance, and a function of the space spanned by the
kernel is predicted within its norm times the predictive standard deviation.
-/

set_option autoImplicit false

namespace Verif.Kernel

/-- The kernel leaves 1 at least as slowly as a parabola when its order is positive. -/
theorem shape_gap (p : ℕ) {t : ℝ} (ht : 0 ≤ t) : 1 - shape (p + 1) t ≤ t ^ 2 / (2 * (2 * p + 1)) := by
  have h0 : ∀ q, shape q 0 = 1 := by
    intro q
    unfold shape
    rw [Finset.sum_range_succ']
    simp [coef_zero]
  have hle : ∀ q s, 0 ≤ s → shape q s ≤ 1 := by
    intro q s hs
    rw [← h0 q]
    exact (shape_strictAnti q).antitoneOn (Set.mem_Ici.mpr le_rfl) (Set.mem_Ici.mpr hs) hs
  have hp : (0 : ℝ) < 2 * p + 1 := by positivity
  set g : ℝ → ℝ := fun s => shape (p + 1) s + s ^ 2 / (2 * (2 * p + 1)) with hg
  have hd : ∀ s, HasDerivAt g (-s / (2 * p + 1) * shape p s + 2 * s / (2 * (2 * p + 1))) s := by
    intro s
    refine (shape_deriv p s).add ?_
    simpa using ((hasDerivAt_pow 2 s).div_const (2 * (2 * (p : ℝ) + 1)))
  have hm : MonotoneOn g (Set.Ici 0) := by
    refine monotoneOn_of_deriv_nonneg (convex_Ici 0) (fun s _ => (hd s).continuousAt.continuousWithinAt)
      (fun s _ => (hd s).differentiableAt.differentiableWithinAt) fun s hs => ?_
    rw [interior_Ici] at hs
    have hs0 : 0 < s := hs
    rw [(hd s).deriv]
    have h1 := hle p s hs0.le
    have : -s / (2 * p + 1) * shape p s + 2 * s / (2 * (2 * p + 1)) = s / (2 * p + 1) * (1 - shape p s) := by
      field_simp
      ring
    rw [this]
    exact mul_nonneg (by positivity) (by linarith)
  have := hm (Set.mem_Ici.mpr le_rfl) (Set.mem_Ici.mpr ht) ht
  simp only [hg, h0, zero_pow two_ne_zero, zero_div] at this
  linarith

/-- **C245** How fast the correlation leaves 1. -/
theorem matern_gap (p : ℕ) {h : ℝ} (hh : 0 ≤ h) :
    1 - maternFormula (p + 1) h ≤ (2 * p + 3) / (2 * p + 1) * h ^ 2 ∧ 1 - maternFormula 0 h ≤ √2 * h := by
  constructor
  · have := shape_gap p (t := 2 * √(((p + 1 : ℕ) : ℝ) + 1 / 2) * h) (by positivity)
    rw [maternFormula_shape]
    refine this.trans_eq ?_
    rw [mul_pow, mul_pow, Real.sq_sqrt (by positivity)]
    push_cast
    field_simp
    ring
  · rw [maternFormula_shape, shape_zero_eq]
    have h1 := Real.add_one_le_exp (-(2 * √(((0 : ℕ) : ℝ) + 1 / 2) * h))
    have h2 : 2 * √(((0 : ℕ) : ℝ) + 1 / 2) = √2 := by
      rw [show (2 : ℝ) * √(((0 : ℕ) : ℝ) + 1 / 2) = √4 * √(((0 : ℕ) : ℝ) + 1 / 2) by
        rw [show (4 : ℝ) = 2 ^ 2 by norm_num, Real.sqrt_sq (by norm_num)], ← Real.sqrt_mul (by norm_num)]
      norm_num
    rw [h2] at h1 ⊢
    linarith

end Verif.Kernel

namespace Verif.Core

open Verif Verif.Data Matrix
open Verif.Kernel (cov covII covIT covPairwise maternFormula YArg scaledDistance kernelMat)

variable {n m q d r k : ℕ} {be : Backend} {la : LA}

/-- Specification: covariance of the values at two points, `σ² k(distance / length scales)`. -/
noncomputable def pointCov (p : ℕ) (param : Fin (d + 1) → ℝ) (a b : Fin d → ℝ) : ℝ :=
  Real.exp (param 0) * maternFormula p (scaledDistance (fun j => param j.succ) a b)

/-- Specification: the function `∑ j, c j k(·, u j)`. -/
noncomputable def spanned (p : ℕ) (param : Fin (d + 1) → ℝ) (u : Fin k → Fin d → ℝ) (c : Fin k → ℝ) (z : Fin d → ℝ) : ℝ :=
  ∑ j, c j * pointCov p param z (u j)

/-- Specification: the square of its norm in the space of the kernel. -/
noncomputable def spannedSq (p : ℕ) (param : Fin (d + 1) → ℝ) (u : Fin k → Fin d → ℝ) (c : Fin k → ℝ) : ℝ :=
  ∑ i, ∑ j, c i * c j * pointCov p param (u i) (u j)

theorem cauchy_schwarz_psd' {ι : Type} [Fintype ι] [DecidableEq ι] {M : Matrix ι ι ℝ} (hM : M.PosSemidef) (x y : ι → ℝ) :
    (x ⬝ᵥ (M *ᵥ y)) ^ 2 ≤ (x ⬝ᵥ (M *ᵥ x)) * (y ⬝ᵥ (M *ᵥ y)) := by
  have hs : Mᵀ = M := PosSemidef.symm hM
  have hc : y ⬝ᵥ (M *ᵥ x) = x ⬝ᵥ (M *ᵥ y) := dot_mulVec_comm hs _ _
  have key : ∀ t : ℝ, 0 ≤ (y ⬝ᵥ (M *ᵥ y)) * (t * t) + 2 * (x ⬝ᵥ (M *ᵥ y)) * t + x ⬝ᵥ (M *ᵥ x) := by
    intro t
    have := PosSemidef.quad_nonneg hM (x + t • y)
    rw [mulVec_add, mulVec_smul, dotProduct_add, add_dotProduct, add_dotProduct, dotProduct_smul, dotProduct_smul,
      smul_dotProduct, smul_dotProduct, hc] at this
    simp only [smul_eq_mul] at this
    linarith
  have := discrim_le_zero key
  unfold discrim at this
  nlinarith

/-- Whatever the weights, the error on a spanned function is at most its norm times the mean squared error of
the weights. -/
theorem spanned_error (p : ℕ) {eps : ℝ} (he : 0 ≤ eps) (param : Fin (d + 1) → ℝ) (x : Matrix (Fin n) (Fin d) ℝ)
    (y : Matrix (Fin m) (Fin d) ℝ) (t : Fin m) (w : Fin n → ℝ) (u : Fin k → Fin d → ℝ) (c : Fin k → ℝ) :
    (spanned p param u c (y t) - ∑ i, w i * spanned p param u c (x i)) ^ 2 ≤
      spannedSq p param u c * mse (cov (maternFormula p) eps param x .same)
        (fun i => covIT (maternFormula p) param x y i t) (Real.exp (param 0)) w := by
  obtain ⟨pts, hp1, hp2, hp3⟩ : ∃ pts : Fin k ⊕ (Unit ⊕ Fin n) → Fin d → ℝ, (∀ j, pts (Sum.inl j) = u j) ∧
      (∀ j, pts (Sum.inr (Sum.inl j)) = y t) ∧ ∀ i, pts (Sum.inr (Sum.inr i)) = x i :=
    ⟨Sum.elim u (Sum.elim (fun _ => y t) x), fun _ => rfl, fun _ => rfl, fun _ => rfl⟩
  obtain ⟨G, hG, hent⟩ : ∃ G : Matrix (Fin k ⊕ (Unit ⊕ Fin n)) (Fin k ⊕ (Unit ⊕ Fin n)) ℝ, G.PosSemidef ∧
      ∀ i j, G i j = pointCov p param (pts i) (pts j) :=
    ⟨_, (Kernel.matern_posSemidef p (fun j => param j.succ) pts).smul (Real.exp_pos (param 0)).le, fun i j => rfl⟩
  have h := cauchy_schwarz_psd' hG (Sum.elim c 0) (Sum.elim 0 (Sum.elim (fun _ => 1) (-w)))
  have hsym : ∀ a b, pointCov p param a b = pointCov p param b a := by
    intro a b
    unfold pointCov
    rw [Kernel.scaledDistance_comm]
  have hself : ∀ a, pointCov p param a a = Real.exp (param 0) := by
    intro a
    unfold pointCov
    rw [Kernel.scaledDistance_self, (Kernel.maternFormula_shape_props p).1, mul_one]
  have e1 : Sum.elim c 0 ⬝ᵥ (G *ᵥ
      (Sum.elim 0 (Sum.elim (fun _ => 1) (-w)))) =
      spanned p param u c (y t) - ∑ i, w i * spanned p param u c (x i) := by
    simp only [dotProduct, mulVec, hent, hp1, hp2, hp3, Fintype.sum_sum_type, Sum.elim_inl, Sum.elim_inr, Pi.zero_apply, mul_zero,
      zero_mul, Finset.sum_const_zero, add_zero, zero_add, Finset.univ_unique, Finset.sum_singleton, Pi.neg_apply,
      mul_one, spanned]
    simp only [mul_add, Finset.sum_add_distrib, Finset.mul_sum, mul_neg, Finset.sum_neg_distrib]
    rw [Finset.sum_comm (f := fun i j => w i * (c j * pointCov p param (x i) (u j))), ← sub_eq_add_neg]
    congr 1
    · exact Finset.sum_congr rfl fun j _ => by rw [hsym]
    · exact Finset.sum_congr rfl fun j _ => Finset.sum_congr rfl fun i _ => by rw [hsym]; ring
  have e2 : Sum.elim c 0 ⬝ᵥ (G *ᵥ (Sum.elim c 0)) =
      spannedSq p param u c := by
    simp only [dotProduct, mulVec, hent, hp1, Fintype.sum_sum_type, Sum.elim_inl, Sum.elim_inr, Pi.zero_apply, mul_zero,
      zero_mul, Finset.sum_const_zero, add_zero, spannedSq, Finset.mul_sum]
    exact Finset.sum_congr rfl fun j _ => Finset.sum_congr rfl fun i _ => by ring
  have e3 : (Sum.elim 0 (Sum.elim (fun _ => 1) (-w)) : Fin k ⊕ (Unit ⊕ Fin n) → ℝ) ⬝ᵥ
      (G *ᵥ (Sum.elim 0 (Sum.elim (fun _ => 1) (-w)))) ≤
      mse (cov (maternFormula p) eps param x .same) (fun i => covIT (maternFormula p) param x y i t)
        (Real.exp (param 0)) w := by
    have h1 : w ⬝ᵥ (cov (maternFormula p) eps param x .same *ᵥ w) =
        ∑ i, ∑ j, w i * (pointCov p param (x i) (x j) * w j) + 10 * Real.exp (param 0) * eps * (w ⬝ᵥ w) := by
      show w ⬝ᵥ (covII (maternFormula p) eps param x *ᵥ w) = _
      rw [Kernel.covII_eq, add_mulVec, dotProduct_add]
      congr 1
      · simp only [dotProduct, mulVec, Finset.mul_sum]
        rfl
      · rw [smul_mulVec, one_mulVec, dotProduct_smul, smul_eq_mul]
    have h2 : 0 ≤ 10 * Real.exp (param 0) * eps * (w ⬝ᵥ w) := by
      have h3 : 0 ≤ w ⬝ᵥ w := Finset.sum_nonneg fun i _ => mul_self_nonneg (w i)
      positivity
    have h4 : w ⬝ᵥ (fun i => covIT (maternFormula p) param x y i t) = ∑ i, w i * pointCov p param (x i) (y t) := rfl
    unfold mse
    rw [h1, h4]
    generalize 10 * Real.exp (param 0) * eps * (w ⬝ᵥ w) = e0 at h2 ⊢
    have h5 : ∑ i, pointCov p param (y t) (x i) * w i = ∑ i, w i * pointCov p param (x i) (y t) :=
      Finset.sum_congr rfl fun i _ => by rw [hsym, mul_comm]
    generalize hB : ∑ i, w i * pointCov p param (x i) (y t) = B at h5 ⊢
    simp only [dotProduct, mulVec, hent, hp1, hp2, hp3, Fintype.sum_sum_type, Sum.elim_inl, Sum.elim_inr, Pi.zero_apply, mul_zero,
      zero_mul, Finset.sum_const_zero, zero_add, Finset.univ_unique, Finset.sum_singleton, Pi.neg_apply,
      mul_one, one_mul, hself, mul_add, Finset.sum_add_distrib, Finset.mul_sum, mul_neg, neg_mul, Finset.sum_neg_distrib]
    rw [h5, hB]
    linarith
  have hn : 0 ≤ spannedSq p param u c := by
    rw [← e2]
    exact PosSemidef.quad_nonneg hG _
  rw [e1, e2] at h
  exact h.trans (mul_le_mul_of_nonneg_left e3 hn)

/-- The weight on one observation only. -/
theorem mse_single (p : ℕ) (eps : ℝ) (param : Fin (d + 1) → ℝ) (x : Matrix (Fin n) (Fin d) ℝ)
    (y : Matrix (Fin m) (Fin d) ℝ) (t : Fin m) (i : Fin n) :
    mse (cov (maternFormula p) eps param x .same) (fun i => covIT (maternFormula p) param x y i t) (Real.exp (param 0))
      (Pi.single i 1) = 2 * (Real.exp (param 0) - pointCov p param (x i) (y t)) + 10 * eps * Real.exp (param 0) := by
  obtain ⟨k0, -⟩ := Kernel.maternFormula_shape_props p
  unfold mse
  rw [mulVec_single_one]
  simp only [single_dotProduct, one_mul, cov, covII, covIT, of_apply, Kernel.scaledDistance_self, k0, if_true, col_apply,
    pointCov]
  ring

/-- **C245** Zero-mean prediction: the variance at a target is at most `2 (σ² - k(x i, t))` plus the nugget, for
every observation `i`; and if the observations are the values of a function spanned by the kernel, the square of the
error is at most the squared norm of the function times the returned variance. -/
theorem fill_zero (hla : la.Contract be) (p : ℕ) {eps : ℝ} (param : Fin (d + 1) → ℝ)
    {x : Matrix (Fin (q + r)) (Fin d) ℝ} (hx : Admissible eps x) (y : Matrix (Fin m) (Fin d) ℝ)
    (P : Mat (q + r) q) (Pt : Mat m q) (u : Fin k → Fin d → ℝ) (c : Fin k → ℝ) :
    ∃ mean v lam, (∀ zn, predict la .zero (maternOther p eps param x y P Pt) (fun i => spanned p param u c (x i)) zn =
        .ok (mean, v, lam)) ∧
      ∀ t, (spanned p param u c (y t) - mean t) ^ 2 ≤ spannedSq p param u c * v t ∧
        ∀ i, v t ≤ 2 * (Real.exp (param 0) - pointCov p param (x i) (y t)) + 10 * eps * Real.exp (param 0) := by
  have hK : (maternOther p eps param x y P Pt).Kii.PosDef := matern_Kii p param hx
  set zi : Fin (q + r) → ℝ := fun i => spanned p param u c (x i) with hzi
  obtain ⟨mean, v, lam, g0, g1, -⟩ := matern_predict_zero hla p param hx y P Pt zi
  obtain ⟨lam', v', hk, hb⟩ := zeroMean_blup hla (maternOther p eps param x y P Pt) hK
  have g := predict_zero hla _ hK zi false
  rw [g0] at g
  obtain ⟨gm, gv⟩ := Prod.mk.inj (Except.ok.inj g)
  obtain ⟨gv, gl⟩ := Prod.mk.inj gv
  rw [(krigingZeroMean_ok hla _ hK).1] at hk
  injection hk with hk
  obtain ⟨hl, hv⟩ := Prod.mk.inj hk
  injection hv with hv
  have hvv : v = v' := by rw [gv, ← hv]; simp
  refine ⟨mean, v, lam, fun zn => by cases zn <;> assumption, fun t => ⟨?_, fun i => ?_⟩⟩
  · have h1 := spanned_error p hx.nonneg param x y t (fun i => lam i t) u c
    have h2 : mean t = ∑ i, lam i t * spanned p param u c (x i) := by
      rw [gm, gl]
      simp [hzi]
    have h3 : v t = mse (cov (maternFormula p) eps param x .same) (fun i => covIT (maternFormula p) param x y i t)
        (Real.exp (param 0)) (fun i => lam i t) := by
      rw [hvv, (hb t).1, ← hl, ← gl]
      simp [maternOther, covPairwise, Kernel.covIIPairwise]
    rw [h2, h3]
    exact h1
  · rw [hvv, ← mse_single]
    have := ((hb t).2 (Pi.single i 1)).1
    simpa [maternOther, covPairwise, Kernel.covIIPairwise] using this

/-- **C245** The same with an unknown linear mean: the observations may be the values of a spanned function plus any
element of the mean space; the bound on the variance holds for the observations at which the mean functions take the
same values as at the target (all of them for a constant mean). -/
theorem fill_linear (hla : la.Contract be) (p : ℕ) {eps : ℝ} (param : Fin (d + 1) → ℝ)
    {x : Matrix (Fin (q + r)) (Fin d) ℝ} (hx : Admissible eps x) (y : Matrix (Fin m) (Fin d) ℝ)
    {P : Mat (q + r) q} (hP : FullRank P) (Pt : Mat m q) (u : Fin k → Fin d → ℝ) (c : Fin k → ℝ) (beta : Fin q → ℝ) :
    ∃ mean v lam, (∀ zn, predict la .linearPredictor (maternOther p eps param x y P Pt)
        (fun i => spanned p param u c (x i) + (P *ᵥ beta) i) zn = .ok (mean, v, lam)) ∧
      ∀ t, 0 ≤ v t ∧
        (spanned p param u c (y t) + (Pt *ᵥ beta) t - mean t) ^ 2 ≤ spannedSq p param u c * v t ∧
        ∀ i, P i = Pt t →
          v t ≤ 2 * (Real.exp (param 0) - pointCov p param (x i) (y t)) + 10 * eps * Real.exp (param 0) := by
  have hK : (maternOther p eps param x y P Pt).Kii.PosDef := matern_Kii p param hx
  set zi : Fin (q + r) → ℝ := fun i => spanned p param u c (x i) + (P *ᵥ beta) i with hzi
  obtain ⟨lam, v, hk, hb⟩ := universal_blue hla (maternOther p eps param x y P Pt) (CPD.of_posDef hK _) hP
  have hv0 : ∀ t, 0 ≤ v t := by
    intro t
    rw [(hb t).2.1]
    exact mse_nonneg (matern_joint p hx.nonneg param x y t) _
  have hmax : (fun t => max (v t) 0) = v := funext fun t => max_eq_left (hv0 t)
  refine ⟨fun t => ∑ i, lam i t * zi i, v, lam, fun zn => ?_, fun t => ⟨hv0 t, ?_, fun i hi => ?_⟩⟩
  · simp only [predict, selectPredictor, hk, bind, Except.bind, pure, Except.pure, PostVar.toVar, Pi.zero_apply, add_zero]
    cases zn
    · simp
    · simp [hmax]
  · have h1 := spanned_error p hx.nonneg param x y t (fun i => lam i t) u c
    have h2 : (Pt *ᵥ beta) t = ∑ i, lam i t * (P *ᵥ beta) i := by
      have hu : Pᵀ *ᵥ (fun i => lam i t) = Pt t := (hb t).1
      show Pt t ⬝ᵥ beta = (fun i => lam i t) ⬝ᵥ (P *ᵥ beta)
      rw [← hu, mulVec_transpose, dotProduct_mulVec]
    have h3 : v t = mse (cov (maternFormula p) eps param x .same) (fun i => covIT (maternFormula p) param x y i t)
        (Real.exp (param 0)) (fun i => lam i t) := by
      rw [(hb t).2.1]
      simp [maternOther, covPairwise, Kernel.covIIPairwise]
    rw [h3, h2]
    refine le_trans (le_of_eq ?_) h1
    simp only [hzi, mul_add, Finset.sum_add_distrib]
    ring
  · rw [← mse_single]
    have hu : Unbiased P (Pt t) (Pi.single i 1) := by
      unfold Unbiased
      rw [mulVec_single_one, ← hi]
      rfl
    have := ((hb t).2.2 (Pi.single i 1) hu).1
    simpa [maternOther, covPairwise, Kernel.covIIPairwise] using this

/-- **C245** Rates: within a scaled distance `h` of an observation, the variance of order `p + 1 ≥ 1` is at most
`2 (2p + 3)/(2p + 1) σ² h²` and that of order 0 at most `2 √2 σ² h`, plus the nugget. -/
theorem fill_rate (hla : la.Contract be) (p : ℕ) {eps : ℝ} (param : Fin (d + 1) → ℝ)
    {x : Matrix (Fin (q + r)) (Fin d) ℝ} (hx : Admissible eps x) (y : Matrix (Fin m) (Fin d) ℝ)
    (P : Mat (q + r) q) (Pt : Mat m q) (zi : Fin (q + r) → ℝ) :
    (∃ mean v lam, predict la .zero (maternOther (p + 1) eps param x y P Pt) zi false = .ok (mean, v, lam) ∧
      ∀ t i, v t ≤ Real.exp (param 0) * (2 * ((2 * p + 3) / (2 * p + 1) *
        scaledDistance (fun j => param j.succ) (x i) (y t) ^ 2) + 10 * eps)) ∧
    ∃ mean v lam, predict la .zero (maternOther 0 eps param x y P Pt) zi false = .ok (mean, v, lam) ∧
      ∀ t i, v t ≤ Real.exp (param 0) * (2 * (√2 * scaledDistance (fun j => param j.succ) (x i) (y t)) + 10 * eps) := by
  have hs := Real.exp_pos (param 0)
  have key : ∀ p', ∃ mean v lam, predict la .zero (maternOther p' eps param x y P Pt) zi false = .ok (mean, v, lam) ∧
      ∀ t i, v t ≤ 2 * (Real.exp (param 0) - pointCov p' param (x i) (y t)) + 10 * eps * Real.exp (param 0) := by
    intro p'
    obtain ⟨mean, v, lam, h1, h2⟩ := fill_zero hla p' param hx y P Pt (k := 0) (fun _ => 0) (fun _ => 0)
    have hK : (maternOther p' eps param x y P Pt).Kii.PosDef := matern_Kii p' param hx
    have g1 := predict_zero hla _ hK (fun i => spanned p' param (k := 0) (fun _ => 0) (fun _ => 0) (x i)) false
    rw [h1 false] at g1
    obtain ⟨-, gv⟩ := Prod.mk.inj (Except.ok.inj g1)
    obtain ⟨gv, -⟩ := Prod.mk.inj gv
    refine ⟨_, _, _, predict_zero hla _ hK zi false, fun t i => ?_⟩
    have := (h2 t).2 i
    rw [gv] at this
    exact this
  refine ⟨?_, ?_⟩
  · obtain ⟨mean, v, lam, h1, h2⟩ := key (p + 1)
    refine ⟨mean, v, lam, h1, fun t i => (h2 t i).trans ?_⟩
    have := (Kernel.matern_gap p (Kernel.scaledDistance_nonneg (fun j => param j.succ) (x i) (y t))).1
    unfold pointCov
    nlinarith
  · obtain ⟨mean, v, lam, h1, h2⟩ := key 0
    refine ⟨mean, v, lam, h1, fun t i => (h2 t i).trans ?_⟩
    have := (Kernel.matern_gap 0 (Kernel.scaledDistance_nonneg (fun j => param j.succ) (x i) (y t))).2
    unfold pointCov
    nlinarith

/-- **C245** Without nugget, predictions converge as the designs become dense: for every function spanned by the
kernel and every tolerance there is a distance such that at all targets within this distance of an observation, for
every design of distinct points, the variance and the error are within the tolerance. -/
theorem fill_converges (hla : la.Contract be) (p : ℕ) (param : Fin (d + 1) → ℝ) (u : Fin k → Fin d → ℝ)
    (c : Fin k → ℝ) {tol : ℝ} (htol : 0 < tol) :
    ∃ h, 0 < h ∧ ∀ (q r m : ℕ) (x : Matrix (Fin (q + r)) (Fin d) ℝ), Function.Injective x →
      ∀ (y : Matrix (Fin m) (Fin d) ℝ) (P : Mat (q + r) q) (Pt : Mat m q),
      ∃ mean v lam, predict la .zero (maternOther p 0 param x y P Pt) (fun i => spanned p param u c (x i)) false =
          .ok (mean, v, lam) ∧
        ∀ t i, scaledDistance (fun j => param j.succ) (x i) (y t) ≤ h →
          v t ≤ tol ∧ |spanned p param u c (y t) - mean t| ≤ tol := by
  have hs := Real.exp_pos (param 0)
  set s := spannedSq p param u c with hsd
  have hcont : Continuous (maternFormula p) := by
    have : maternFormula p = fun h => Kernel.shape p (2 * √((p : ℝ) + 1 / 2) * h) :=
      funext fun h => Kernel.maternFormula_shape p h
    rw [this]
    exact (Kernel.shape_continuous p).comp (by fun_prop)
  have h0 := (Kernel.maternFormula_shape_props p).1
  set tol' := min tol (tol ^ 2 / (|s| + 1)) with ht'
  have htol' : 0 < tol' := lt_min htol (by positivity)
  have hc0 := Metric.continuousAt_iff.mp (hcont.continuousAt (x := 0)) (tol' / (2 * Real.exp (param 0))) (by positivity)
  obtain ⟨δ, hδ, hb⟩ := hc0
  refine ⟨δ / 2, by positivity, fun q r m x hx y P Pt => ?_⟩
  obtain ⟨mean, v, lam, h1, h2⟩ := fill_zero (q := q) hla p param (Or.inr ⟨le_rfl, hx⟩) y P Pt u c
  refine ⟨mean, v, lam, h1 false, fun t i hi => ?_⟩
  have hd0 := Kernel.scaledDistance_nonneg (fun j => param j.succ) (x i) (y t)
  have h3 := hb (x := scaledDistance (fun j => param j.succ) (x i) (y t)) (by
    rw [Real.dist_eq, sub_zero, abs_of_nonneg hd0]
    linarith)
  rw [h0, Real.dist_eq, abs_lt] at h3
  have h4 : v t ≤ tol' := by
    refine ((h2 t).2 i).trans ?_
    have h5 : 1 - maternFormula p (scaledDistance (fun j => param j.succ) (x i) (y t)) ≤ tol' / (2 * Real.exp (param 0)) := by
      linarith [h3.1]
    rw [le_div_iff₀ (by positivity)] at h5
    unfold pointCov
    linarith
  refine ⟨h4.trans (min_le_left _ _), ?_⟩
  refine abs_le_of_sq_le_sq ?_ htol.le
  have h6 := (h2 t).1
  have h7 : v t ≤ tol ^ 2 / (|s| + 1) := h4.trans (min_le_right _ _)
  have h8 : s * v t ≤ |s| * (tol ^ 2 / (|s| + 1)) := by
    rcases le_or_gt 0 (v t) with hv | hv
    · exact (mul_le_mul_of_nonneg_right (le_abs_self s) hv).trans (mul_le_mul_of_nonneg_left h7 (abs_nonneg s))
    · have hs0 : 0 ≤ s := by
        by_contra hneg
        push Not at hneg
        have := PosSemidef.quad_nonneg ((Kernel.matern_posSemidef p (fun j => param j.succ) u).smul hs.le) c
        have e : c ⬝ᵥ ((Real.exp (param 0) • kernelMat p (fun j => param j.succ) u) *ᵥ c) = s := by
          simp only [dotProduct, mulVec, Finset.mul_sum, hsd, spannedSq]
          refine Finset.sum_congr rfl fun i _ => Finset.sum_congr rfl fun j _ => ?_
          show c i * (pointCov p param (u i) (u j) * c j) = _
          ring
        linarith
      have : s * v t ≤ 0 := mul_nonpos_of_nonneg_of_nonpos hs0 hv.le
      refine this.trans (by positivity)
  refine h6.trans (h8.trans ?_)
  rw [mul_div_assoc', div_le_iff₀ (by positivity)]
  nlinarith [sq_nonneg tol, abs_nonneg s]

/-- **C245** The same with an unknown constant mean: the data may be the values of a spanned function plus any constant,
and the distance does not depend on the constant. -/
theorem fill_converges_constant (hla : la.Contract be) (p : ℕ) (param : Fin (d + 1) → ℝ) (u : Fin k → Fin d → ℝ)
    (c : Fin k → ℝ) {tol : ℝ} (htol : 0 < tol) :
    ∃ h, 0 < h ∧ ∀ (r m : ℕ) (x : Matrix (Fin (1 + r)) (Fin d) ℝ), Function.Injective x →
      ∀ (y : Matrix (Fin m) (Fin d) ℝ) (mu : ℝ),
      ∃ mean v lam, predict la .linearPredictor (maternOther p 0 param x y (fun _ _ => 1 : Mat (1 + r) 1) (fun _ _ => 1))
          (fun i => spanned p param u c (x i) + mu) false = .ok (mean, v, lam) ∧
        ∀ t i, scaledDistance (fun j => param j.succ) (x i) (y t) ≤ h →
          v t ≤ tol ∧ |spanned p param u c (y t) + mu - mean t| ≤ tol := by
  have hs := Real.exp_pos (param 0)
  set s := spannedSq p param u c with hsd
  have hcont : Continuous (maternFormula p) := by
    have : maternFormula p = fun h => Kernel.shape p (2 * √((p : ℝ) + 1 / 2) * h) :=
      funext fun h => Kernel.maternFormula_shape p h
    rw [this]
    exact (Kernel.shape_continuous p).comp (by fun_prop)
  have h0 := (Kernel.maternFormula_shape_props p).1
  set tol' := min tol (tol ^ 2 / (|s| + 1)) with ht'
  have htol' : 0 < tol' := lt_min htol (by positivity)
  have hc0 := Metric.continuousAt_iff.mp (hcont.continuousAt (x := 0)) (tol' / (2 * Real.exp (param 0))) (by positivity)
  obtain ⟨δ, hδ, hb⟩ := hc0
  refine ⟨δ / 2, by positivity, fun r m x hx y mu => ?_⟩
  have hP : FullRank (fun _ _ => 1 : Mat (1 + r) 1) := by
    intro b hb
    funext j
    have := congrFun hb 0
    rw [Subsingleton.elim j 0]
    simpa [mulVec, dotProduct] using this
  obtain ⟨mean, v, lam, h1, h2⟩ := fill_linear hla p param (eps := 0) (Or.inr ⟨le_rfl, hx⟩) y hP (fun _ _ => 1 : Mat m 1) u c
    (fun _ => mu)
  have hmu : ∀ (n : ℕ) (t : Fin n), ((fun _ _ => 1 : Mat n 1) *ᵥ fun _ => mu) t = mu := fun n t => by
    simp [mulVec, dotProduct]
  simp only [hmu] at h1 h2
  refine ⟨mean, v, lam, h1 false, fun t i hi => ?_⟩
  have hd0 := Kernel.scaledDistance_nonneg (fun j => param j.succ) (x i) (y t)
  have h3 := hb (x := scaledDistance (fun j => param j.succ) (x i) (y t)) (by
    rw [Real.dist_eq, sub_zero, abs_of_nonneg hd0]
    linarith)
  rw [h0, Real.dist_eq, abs_lt] at h3
  obtain ⟨hv, h6, hvar⟩ := h2 t
  have h4 : v t ≤ tol' := by
    refine (hvar i trivial).trans ?_
    have h5 : 1 - maternFormula p (scaledDistance (fun j => param j.succ) (x i) (y t)) ≤ tol' / (2 * Real.exp (param 0)) := by
      linarith [h3.1]
    rw [le_div_iff₀ (by positivity)] at h5
    unfold pointCov
    linarith
  refine ⟨h4.trans (min_le_left _ _), ?_⟩
  refine abs_le_of_sq_le_sq ?_ htol.le
  have h7 : v t ≤ tol ^ 2 / (|s| + 1) := h4.trans (min_le_right _ _)
  have h8 : s * v t ≤ |s| * (tol ^ 2 / (|s| + 1)) :=
    (mul_le_mul_of_nonneg_right (le_abs_self s) hv).trans (mul_le_mul_of_nonneg_left h7 (abs_nonneg s))
  refine h6.trans (h8.trans ?_)
  rw [mul_div_assoc', div_le_iff₀ (by positivity)]
  nlinarith [sq_nonneg tol, abs_nonneg s]

/-- Two observations of `k(·, 0)` in dimension one, predicted at a third point. -/
example : ∃ mean v lam, predict (q := 1) (r := 1) (exactLA .numpy) .zero
      (maternOther 1 0 ![0, 0] !![0; 1] !![(1 / 4 : ℝ)] (fun _ _ => 1) (fun _ _ => 1))
      (fun i => spanned 1 ![0, 0] (fun _ : Fin 1 => ![0]) (fun _ => 1) ((!![0; 1] : Matrix (Fin 2) (Fin 1) ℝ) i)) false =
        .ok (mean, v, lam) ∧
    (spanned 1 ![0, 0] (fun _ : Fin 1 => ![0]) (fun _ => 1) ![1 / 4] - mean 0) ^ 2 ≤ v 0 ∧ v 0 ≤ 3 / 8 := by
  have hx : Function.Injective (!![0; 1] : Matrix (Fin 2) (Fin 1) ℝ) := by
    intro i j h
    have := congrFun h 0
    fin_cases i <;> fin_cases j <;> simp_all
  obtain ⟨mean, v, lam, h1, h2⟩ := fill_zero (q := 1) (r := 1) (be := .numpy) (exactLA_contract .numpy) 1 ![0, 0]
    (Or.inr ⟨le_rfl, hx⟩) !![(1 / 4 : ℝ)] (fun _ _ => 1) (fun _ _ => 1) (fun _ : Fin 1 => ![0]) (fun _ => 1)
  have hself : ∀ a, pointCov 1 (![0, 0] : Fin 2 → ℝ) a a = 1 := by
    intro a
    unfold pointCov
    rw [Kernel.scaledDistance_self, (Kernel.maternFormula_shape_props 1).1]
    simp
  refine ⟨mean, v, lam, h1 false, ?_, ?_⟩
  · have := (h2 0).1
    simp only [spannedSq, Finset.univ_unique, Finset.sum_singleton, hself, mul_one, one_mul] at this
    exact this
  · have h3 := (h2 0).2 0
    have h4 := (Kernel.matern_gap 0 (Kernel.scaledDistance_nonneg (fun j : Fin 1 => (![0, 0] : Fin 2 → ℝ) j.succ)
      ((!![0; 1] : Matrix (Fin 2) (Fin 1) ℝ) 0) ((!![(1 / 4 : ℝ)] : Matrix (Fin 1) (Fin 1) ℝ) 0))).1
    have h5 : scaledDistance (fun j : Fin 1 => (![0, 0] : Fin 2 → ℝ) j.succ)
      ((!![0; 1] : Matrix (Fin 2) (Fin 1) ℝ) 0) ((!![(1 / 4 : ℝ)] : Matrix (Fin 1) (Fin 1) ℝ) 0) ^ 2 = 1 / 16 := by
      unfold scaledDistance Kernel.cdistNumpy Kernel.scaleRow
      rw [Real.sq_sqrt (by positivity)]
      norm_num
    unfold pointCov at h3
    rw [h5] at h4
    simp at h3 h4
    linarith

end Verif.Core
