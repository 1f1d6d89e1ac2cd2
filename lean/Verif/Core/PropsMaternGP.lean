import Verif.Core.PropsPredict
import Verif.Core.PropsLikelihood
import Verif.Kernel.PropsMaternPD

/-!
# C119: the whole pipeline with a Matérn covariance

No positive-definiteness hypothesis is left: it follows from C118.
-/

set_option autoImplicit false

namespace Verif.Core

open Verif Verif.Data Matrix
open Verif.Kernel (cov covII covIT covPairwise maternFormula YArg)

variable {n m q d r : ℕ} {be : Backend} {la : LA}

/-- The arrays of a Matérn model for targets `y` held in another array
(`maternp_covariance` applied as kriging.py 59-60, 95-101 and 193-196 do). -/
noncomputable def maternOther (p : ℕ) (eps : ℝ) (param : Fin (d + 1) → ℝ)
    (x : Matrix (Fin n) (Fin d) ℝ) (y : Matrix (Fin m) (Fin d) ℝ) (P : Mat n q) (Pt : Mat m q) :
    Arrays n m q where
  Kii := cov (maternFormula p) eps param x .same
  Kit := covIT (maternFormula p) param x y
  vt := covPairwise (maternFormula p) param y .none
  Ktt := cov (maternFormula p) eps param y .none
  Pi := P
  Pt := Pt

/-- The data allow a factorisation: a positive nugget, or distinct points. -/
def Admissible (eps : ℝ) (x : Matrix (Fin n) (Fin d) ℝ) : Prop :=
  0 < eps ∨ (0 ≤ eps ∧ Function.Injective x)

theorem Admissible.nonneg {eps : ℝ} {x : Matrix (Fin n) (Fin d) ℝ} (h : Admissible eps x) :
    0 ≤ eps := by
  rcases h with h | h
  · exact h.le
  · exact h.1

theorem matern_Kii (p : ℕ) {eps : ℝ} (param : Fin (d + 1) → ℝ) {x : Matrix (Fin n) (Fin d) ℝ}
    (h : Admissible eps x) : (cov (maternFormula p) eps param x .same).PosDef := by
  rcases h with h | h
  · exact Kernel.cov_posDef_nugget p eps h param x _ (Or.inr rfl)
  · exact Kernel.cov_posDef p eps h.1 param x _ (Or.inr rfl) h.2

theorem matern_joint (p : ℕ) {eps : ℝ} (he : 0 ≤ eps) (param : Fin (d + 1) → ℝ)
    (x : Matrix (Fin n) (Fin d) ℝ) (y : Matrix (Fin m) (Fin d) ℝ) (t : Fin m) :
    (joint (cov (maternFormula p) eps param x .same)
      (fun i => covIT (maternFormula p) param x y i t)
      (covPairwise (maternFormula p) param y .none t)).PosSemidef := by
  have h := (Kernel.cov_joint p eps 0 he le_rfl param x y).submatrix
    (Sum.map id fun _ : Unit => t)
  have e : joint (cov (maternFormula p) eps param x .same)
      (fun i => covIT (maternFormula p) param x y i t)
      (covPairwise (maternFormula p) param y .none t) =
      (Matrix.fromBlocks (covII (maternFormula p) eps param x) (covIT (maternFormula p) param x y)
      (covIT (maternFormula p) param x y)ᵀ (covII (maternFormula p) 0 param y)).submatrix
        (Sum.map id fun _ : Unit => t) (Sum.map id fun _ : Unit => t) := by
    ext i j
    rcases i with i | i <;> rcases j with j | j
    · rfl
    · rfl
    · rfl
    · simp [joint, covPairwise, Kernel.covIIPairwise, covII, Kernel.scaledDistance_self,
        (Kernel.maternFormula_shape_props p).1]
  rw [e]
  exact h

/-- **C119** Zero-mean prediction with a Matérn covariance never fails, and the variances
lie between 0 and `σ²` before any clipping. -/
theorem matern_predict_zero (hla : la.Contract be) (p : ℕ) {eps : ℝ} (param : Fin (d + 1) → ℝ)
    {x : Matrix (Fin (q + r)) (Fin d) ℝ} (hx : Admissible eps x) (y : Matrix (Fin m) (Fin d) ℝ)
    (P : Mat (q + r) q) (Pt : Mat m q) (zi : Fin (q + r) → ℝ) :
    ∃ mean v lam, predict la .zero (maternOther p eps param x y P Pt) zi false =
        .ok (mean, v, lam) ∧
      predict la .zero (maternOther p eps param x y P Pt) zi true = .ok (mean, v, lam) ∧
      ∀ t, 0 ≤ v t ∧ v t ≤ Real.exp (param 0) := by
  have hK : (maternOther p eps param x y P Pt).Kii.PosDef := matern_Kii p param hx
  have h0 := predict_zero hla _ hK zi false
  have h1 := predict_zero hla _ hK zi true
  obtain ⟨lam', v', hk, hb⟩ := zeroMean_var_bounds hla (maternOther p eps param x y P Pt) hK
    (fun t => matern_joint p hx.nonneg param x y t)
  rw [(krigingZeroMean_ok hla _ hK).1] at hk
  injection hk with hk
  obtain ⟨-, hv⟩ := Prod.mk.inj hk
  injection hv with hv
  refine ⟨_, _, _, h0, ?_, ?_⟩
  · rw [h1]
    simp only [if_true, Bool.false_eq_true, if_false]
    congr 3
    funext t
    refine max_eq_left ?_
    rw [congrFun hv t]
    exact (hb t).1
  · intro t
    simp only [Bool.false_eq_true, if_false]
    rw [congrFun hv t]
    refine ⟨(hb t).1, (hb t).2.trans_eq ?_⟩
    simp [maternOther, covPairwise, Kernel.covIIPairwise]

/-- **C119** At a target equal to an observation point the variance is at most the nugget
`10 ε σ²`. -/
theorem matern_var_at_obs (hla : la.Contract be) (p : ℕ) {eps : ℝ} (param : Fin (d + 1) → ℝ)
    {x : Matrix (Fin n) (Fin d) ℝ} (hx : Admissible eps x) (y : Matrix (Fin m) (Fin d) ℝ)
    (P : Mat n q) (Pt : Mat m q) (i : Fin n) (t : Fin m) (h : y t = x i) :
    ∃ lam v, krigingZeroMean la (maternOther p eps param x y P Pt) 0 = .ok (lam, .var v) ∧
      0 ≤ v t ∧ v t ≤ 10 * eps * Real.exp (param 0) := by
  have hK : (maternOther p eps param x y P Pt).Kii.PosDef := matern_Kii p param hx
  obtain ⟨lam, v, hk, hv⟩ := zeroMean_blup hla (maternOther p eps param x y P Pt) hK
  refine ⟨lam, v, hk, ?_, ?_⟩
  · rw [(hv t).1]
    exact mse_nonneg (matern_joint p hx.nonneg param x y t) _
  · refine ((hv t).2 (Pi.single i 1)).1.trans_eq ?_
    obtain ⟨k0, -⟩ := Kernel.maternFormula_shape_props p
    unfold mse
    rw [mulVec_single_one]
    simp only [single_dotProduct, one_mul, maternOther, cov, covII, covIT, covPairwise,
      Kernel.covIIPairwise, of_apply, h, Kernel.scaledDistance_self, k0, if_true, col_apply]
    ring

/-- **C119** Universal kriging with a Matérn covariance and independent mean functions never
fails; its weights are the best unbiased ones and its variances are nonnegative. -/
theorem matern_universal (hla : la.Contract be) (p : ℕ) {eps : ℝ} (param : Fin (d + 1) → ℝ)
    {x : Matrix (Fin (q + r)) (Fin d) ℝ} (hx : Admissible eps x) (y : Matrix (Fin m) (Fin d) ℝ)
    (P : Mat (q + r) q) (hP : FullRank P) (Pt : Mat m q) :
    ∃ lam v, krigingUniversal la (maternOther p eps param x y P Pt) 0 = .ok (lam, .var v) ∧ ∀ t,
      0 ≤ v t ∧ Unbiased P (Pt t) (fun i => lam i t) ∧
      ∀ w, Unbiased P (Pt t) w → v t ≤ mse (cov (maternFormula p) eps param x .same)
        (fun i => covIT (maternFormula p) param x y i t) (Real.exp (param 0)) w := by
  have hK : (maternOther p eps param x y P Pt).Kii.PosDef := matern_Kii p param hx
  obtain ⟨lam, v, h, hv⟩ := universal_blue hla (maternOther p eps param x y P Pt)
    (CPD.of_posDef hK _) hP
  refine ⟨lam, v, h, fun t => ⟨?_, (hv t).1, fun w hw => ?_⟩⟩
  · rw [(hv t).2.1]
    exact mse_nonneg (matern_joint p hx.nonneg param x y t) _
  · have := ((hv t).2.2 w hw).1
    simpa [maternOther, covPairwise, Kernel.covIIPairwise] using this

/-- **C119** The posterior covariance of a Matérn model is positive semidefinite. -/
theorem matern_posterior_cov (hla : la.Contract be) (p : ℕ) {eps : ℝ} (param : Fin (d + 1) → ℝ)
    {x : Matrix (Fin n) (Fin d) ℝ} (hx : Admissible eps x) (y : Matrix (Fin m) (Fin d) ℝ)
    (P : Mat n q) (Pt : Mat m q) :
    ∃ lam V, krigingZeroMean la (maternOther p eps param x y P Pt) 1 = .ok (lam, .cov V) ∧
      V.PosSemidef :=
  (zeroMean_cov hla (maternOther p eps param x y P Pt) (matern_Kii p param hx)
    (Kernel.cov_joint p eps eps hx.nonneg hx.nonneg param x y)).1

/-- **C119** (C29 without hypothesis on the matrix.) Predicting at the very array of
observation points returns the data with variance zero. -/
theorem matern_interpolates_all (hla : la.Contract be) (p : ℕ) {eps : ℝ}
    (param : Fin (d + 1) → ℝ) {x : Matrix (Fin (q + r)) (Fin d) ℝ} (hx : Admissible eps x)
    (P : Mat (q + r) q) (hP : FullRank P)
    (mt : MeanType (q + r) (q + r)) (hmt : MeanSame mt) (zi : Fin (q + r) → ℝ) :
    ∃ lam, predict la mt (maternSame p eps param x P) zi true = .ok (zi, fun _ => 0, lam) :=
  (matern_interpolates hla p hx.nonneg param x P (matern_Kii p param hx) hP mt hmt zi).1

/-- **C119** The likelihood criteria of a Matérn model are finite for all parameters. -/
theorem matern_criteria (hla : la.Sound be) (p : ℕ) {eps : ℝ} (param : Fin (d + 1) → ℝ)
    {x : Matrix (Fin (q + r)) (Fin d) ℝ} (hx : Admissible eps x) (P : Mat (q + r) q)
    (hP : FullRank P) (mi zi : Fin (q + r) → ℝ) :
    (∃ v, nll be la (cov (maternFormula p) eps param x .same) mi zi = .ok (.finite v)) ∧
    (∃ v, nllZeroMean be la (cov (maternFormula p) eps param x .same) zi = .ok (.finite v)) ∧
    ∃ v, reml be la (cov (maternFormula p) eps param x .same) P zi = .ok (.finite v) := by
  have hK := matern_Kii p param hx
  refine ⟨⟨_, (nll_eq hla hK mi zi).1⟩, ⟨_, (nll_eq hla hK mi zi).2⟩, _,
    reml_eq hla (CPD.of_posDef hK P) hP zi (hla.qr_ok P (Nat.le_add_right q r) |>.contrast hP)⟩

/-- **C119** Without nugget two equal observation points make the likelihood fail: `+inf` on
torch, an exception on numpy. -/
theorem matern_repeated_fails (hla : la.Sound be) (p : ℕ) (param : Fin (d + 1) → ℝ)
    (x : Matrix (Fin n) (Fin d) ℝ) (i j : Fin n) (hij : i ≠ j) (h : x i = x j)
    (mi zi : Fin n → ℝ) :
    nll be la (cov (maternFormula p) 0 param x .same) mi zi = (match be with
      | .torch => .ok .inf
      | .numpy => .error .linAlgError) :=
  nll_failure hla (Kernel.cov_self p 0 param x .same (Or.inr rfl)).1
    (Kernel.cov_repeated_singular p param x i j hij h) mi zi

/-- Three points, a constant mean: the hypotheses are met. -/
example : Admissible 0 (Matrix.of ![![(0 : ℝ)], ![1], ![3]] : Matrix (Fin 3) (Fin 1) ℝ) ∧
    FullRank (Matrix.of fun _ _ => 1 : Mat (1 + 2) 1) := by
  refine ⟨Or.inr ⟨le_rfl, ?_⟩, ?_⟩
  · intro i j h
    have := congrFun h 0
    fin_cases i <;> fin_cases j <;> simp_all
  · intro b hb
    have := congrFun hb 0
    ext i
    fin_cases i
    simpa [mulVec, dotProduct] using this

end Verif.Core
