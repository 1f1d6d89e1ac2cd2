import Verif.Core.PropsMaternGP
import Verif.Kernel.PropsRegularity
import Mathlib.Analysis.SpecialFunctions.Sqrt
import Mathlib.Analysis.SpecialFunctions.Log.Deriv

/-!
# C247: criteria and predictions are smooth functions of the covariance parameters

So gradients of every order exist, and a criterion has a minimum on every bounded closed set of parameters.
-/

set_option autoImplicit false

namespace Verif.Core

open Verif Verif.Data Matrix
open Verif.Kernel (cov covII covIT covPairwise maternFormula YArg scaledDistance)

variable {n m q d r : ℕ} {be : Backend} {la : LA} {E : Type} [NormedAddCommGroup E] [NormedSpace ℝ E] {N : WithTop ℕ∞}

theorem det_smooth {ι : Type} [Fintype ι] [DecidableEq ι] {A : E → Matrix ι ι ℝ}
    (h : ∀ i j, ContDiff ℝ N fun e => A e i j) : ContDiff ℝ N fun e => (A e).det := by
  simp only [Matrix.det_apply']
  exact ContDiff.sum fun s _ => contDiff_const.mul (contDiff_prod fun i _ => h _ _)

theorem inv_smooth {ι : Type} [Fintype ι] [DecidableEq ι] {A : E → Matrix ι ι ℝ}
    (h : ∀ i j, ContDiff ℝ N fun e => A e i j) (hd : ∀ e, (A e).det ≠ 0) (i j : ι) :
    ContDiff ℝ N fun e => (A e)⁻¹ i j := by
  have e1 : (fun e => (A e)⁻¹ i j) = fun e => (A e).det⁻¹ * ((A e).updateRow j (Pi.single i 1)).det := by
    funext e
    rw [Matrix.inv_def, Matrix.smul_apply, Matrix.adjugate_apply, Ring.inverse_eq_inv', smul_eq_mul]
  rw [e1]
  refine ((det_smooth h).inv hd).mul (det_smooth fun k l => ?_)
  by_cases hk : k = j
  · subst hk
    simp only [Matrix.updateRow_self]
    exact contDiff_const
  · simp only [Matrix.updateRow_ne hk]
    exact h k l

theorem quad_smooth {A : E → Mat n n} (h : ∀ i j, ContDiff ℝ N fun e => A e i j) (z : Fin n → ℝ) :
    ContDiff ℝ N fun e => z ⬝ᵥ (A e *ᵥ z) := by
  simp only [dotProduct, mulVec]
  exact ContDiff.sum fun i _ => contDiff_const.mul (ContDiff.sum fun j _ => (h i j).mul contDiff_const)

theorem density_smooth {A : E → Mat n n} (h : ∀ i j, ContDiff ℝ N fun e => A e i j) (hA : ∀ e, (A e).PosDef)
    (mi z : Fin n → ℝ) : ContDiff ℝ N fun e => -Real.log (gaussDensity (A e) mi z) := by
  have hp : (0 : ℝ) < (2 * Real.pi) ^ n := by have := Real.pi_pos; positivity
  have hd : ∀ e, 0 < (2 * Real.pi) ^ n * (A e).det := fun e => mul_pos hp (hA e).det_pos
  refine (ContDiff.log ?_ fun e => (gaussDensity_pos (hA e) mi z).ne').neg
  unfold gaussDensity
  refine ContDiff.mul (ContDiff.inv (ContDiff.sqrt (contDiff_const.mul (det_smooth h)) fun e => (hd e).ne')
    fun e => (Real.sqrt_pos.mpr (hd e)).ne') (ContDiff.exp ?_)
  exact contDiff_const.mul (quad_smooth (inv_smooth h fun e => (hA e).det_pos.ne') _)

theorem maternFormula_smooth (p : ℕ) : ContDiff ℝ N (maternFormula p) := by
  have : maternFormula p = fun h => Kernel.shape p (2 * √((p : ℝ) + 1 / 2) * h) :=
    funext fun h => Kernel.maternFormula_shape p h
  rw [this]
  unfold Kernel.shape
  fun_prop

/-- The correlation of two points is a smooth function of the parameters. -/
theorem point_smooth (p : ℕ) (a b : Fin d → ℝ) : ContDiff ℝ N fun param : Fin (d + 1) → ℝ =>
    maternFormula p (scaledDistance (fun j => param j.succ) a b) := by
  by_cases hab : a = b
  · subst hab
    simp only [Kernel.scaledDistance_self]
    exact contDiff_const
  · refine (maternFormula_smooth p).comp ?_
    unfold scaledDistance Kernel.cdistNumpy Kernel.scaleRow
    refine ContDiff.sqrt ?_ fun param => ?_
    · refine ContDiff.sum fun k _ => ?_
      fun_prop
    · obtain ⟨k, hk⟩ := Function.ne_iff.mp hab
      refine (Finset.sum_pos' (fun i _ => sq_nonneg _) ⟨k, Finset.mem_univ _, ?_⟩).ne'
      rw [← mul_sub, mul_pow]
      have := sub_ne_zero.mpr hk
      positivity

/-- **C247** Every entry of the covariances is a smooth function of the parameters. -/
theorem cov_smooth (p : ℕ) (eps : ℝ) (x : Matrix (Fin n) (Fin d) ℝ) (y : Matrix (Fin m) (Fin d) ℝ) :
    (∀ i j, ContDiff ℝ N fun param => cov (maternFormula p) eps param x .same i j) ∧
    (∀ i t, ContDiff ℝ N fun param => covIT (maternFormula p) param x y i t) ∧
    ∀ t, ContDiff ℝ N fun param : Fin (d + 1) → ℝ => covPairwise (maternFormula p) param y .none t := by
  have h0 : ContDiff ℝ N fun param : Fin (d + 1) → ℝ => Real.exp (param 0) := by fun_prop
  refine ⟨fun i j => ?_, fun i t => ?_, fun t => ?_⟩
  · simp only [cov, covII, of_apply]
    exact (h0.mul (point_smooth p _ _)).add (((contDiff_const.mul h0).mul contDiff_const).mul contDiff_const)
  · simp only [covIT, of_apply]
    exact h0.mul (point_smooth p _ _)
  · simp only [covPairwise, Kernel.covIIPairwise]
    exact h0.mul contDiff_const

/-- **C247** The likelihood criteria are smooth functions of the covariance parameters. -/
theorem criteria_smooth (hla : la.Sound be) (p : ℕ) {eps : ℝ} {x : Matrix (Fin (q + r)) (Fin d) ℝ} (hx : Admissible eps x)
    {P : Mat (q + r) q} (hP : FullRank P) (mi zi : Fin (q + r) → ℝ) :
    (∃ L : (Fin (d + 1) → ℝ) → ℝ, ContDiff ℝ N L ∧
      ∀ param, nll be la (cov (maternFormula p) eps param x .same) mi zi = .ok (.finite (L param))) ∧
    ∃ L : (Fin (d + 1) → ℝ) → ℝ, ContDiff ℝ N L ∧
      ∀ param, reml be la (cov (maternFormula p) eps param x .same) P zi = .ok (.finite (L param)) := by
  have hK : ∀ param, (cov (maternFormula p) eps param x .same).PosDef := fun param => matern_Kii p param hx
  have hs := (cov_smooth (N := N) p eps x x).1
  refine ⟨⟨_, density_smooth hs hK mi zi, fun param => (nll_eq hla (hK param) mi zi).1⟩, ?_⟩
  have hW : IsContrast P (contrastMatrix la P) := (hla.qr_ok P (Nat.le_add_right q r)).contrast hP
  refine ⟨_, density_smooth (A := fun param => (contrastMatrix la P)ᵀ *
      (cov (maternFormula p) eps param x .same * contrastMatrix la P)) (fun i j => ?_)
    (fun param => contrast_posDef hW.orth hW.null (CPD.of_posDef (hK param) P)) 0 ((contrastMatrix la P)ᵀ *ᵥ zi),
    fun param => reml_eq hla (CPD.of_posDef (hK param) P) hP zi hW⟩
  simp only [Matrix.mul_apply]
  exact ContDiff.sum fun k _ => contDiff_const.mul (ContDiff.sum fun l _ => (hs k l).mul contDiff_const)

/-- **C247** So on every bounded closed set of parameters each criterion has a minimum. -/
theorem criteria_min (hla : la.Sound be) (p : ℕ) {eps : ℝ} {x : Matrix (Fin (q + r)) (Fin d) ℝ} (hx : Admissible eps x)
    {P : Mat (q + r) q} (hP : FullRank P) (mi zi : Fin (q + r) → ℝ) {S : Set (Fin (d + 1) → ℝ)} (hS : IsCompact S)
    (hne : S.Nonempty) :
    (∃ best ∈ S, ∃ v, nll be la (cov (maternFormula p) eps best x .same) mi zi = .ok (.finite v) ∧
      ∀ param ∈ S, ∃ w, nll be la (cov (maternFormula p) eps param x .same) mi zi = .ok (.finite w) ∧ v ≤ w) ∧
    ∃ best ∈ S, ∃ v, reml be la (cov (maternFormula p) eps best x .same) P zi = .ok (.finite v) ∧
      ∀ param ∈ S, ∃ w, reml be la (cov (maternFormula p) eps param x .same) P zi = .ok (.finite w) ∧ v ≤ w := by
  obtain ⟨⟨L, hL, h⟩, ⟨R, hR, h'⟩⟩ := criteria_smooth (N := 0) hla p hx hP mi zi
  obtain ⟨b, hb, hb'⟩ := hS.exists_isMinOn hne hL.continuous.continuousOn
  obtain ⟨c, hc, hc'⟩ := hS.exists_isMinOn hne hR.continuous.continuousOn
  exact ⟨⟨b, hb, _, h b, fun param hp => ⟨_, h param, hb' hp⟩⟩, ⟨c, hc, _, h' c, fun param hp => ⟨_, h' param, hc' hp⟩⟩⟩

/-- **C247** Predictive means and variances are smooth functions of the covariance parameters, for a zero mean and for an
unknown linear mean. -/
theorem predict_smooth (hla : la.Contract be) (p : ℕ) {eps : ℝ} {x : Matrix (Fin (q + r)) (Fin d) ℝ} (hx : Admissible eps x)
    (y : Matrix (Fin m) (Fin d) ℝ) {P : Mat (q + r) q} (hP : FullRank P) (Pt : Mat m q) (zi : Fin (q + r) → ℝ) :
    (∃ mean var : (Fin (d + 1) → ℝ) → Fin m → ℝ, (∀ t, ContDiff ℝ N fun param => mean param t) ∧
      (∀ t, ContDiff ℝ N fun param => var param t) ∧
      ∀ param, ∃ lam, predict la .zero (maternOther p eps param x y P Pt) zi false =
        .ok (mean param, var param, lam)) ∧
    ∃ mean var : (Fin (d + 1) → ℝ) → Fin m → ℝ, (∀ t, ContDiff ℝ N fun param => mean param t) ∧
      (∀ t, ContDiff ℝ N fun param => var param t) ∧
      ∀ param, ∃ lam, predict la .linearPredictor (maternOther p eps param x y P Pt) zi false =
        .ok (mean param, var param, lam) := by
  have hK : ∀ param, (maternOther p eps param x y P Pt).Kii.PosDef := fun param => matern_Kii p param hx
  obtain ⟨s1, s2, s3⟩ := cov_smooth (N := N) p eps x y
  constructor
  · have hinv := inv_smooth s1 fun param => (hK param).det_pos.ne'
    have hw : ∀ i t, ContDiff ℝ N fun param => ((cov (maternFormula p) eps param x .same)⁻¹ *
        covIT (maternFormula p) param x y) i t := by
      intro i t
      simp only [Matrix.mul_apply]
      exact ContDiff.sum fun k _ => (hinv i k).mul (s2 k t)
    refine ⟨fun param t => ∑ i, ((cov (maternFormula p) eps param x .same)⁻¹ * covIT (maternFormula p) param x y) i t * zi i,
      fun param t => covPairwise (maternFormula p) param y .none t - ∑ i, ((cov (maternFormula p) eps param x .same)⁻¹ *
        covIT (maternFormula p) param x y) i t * covIT (maternFormula p) param x y i t,
      fun t => ContDiff.sum fun i _ => (hw i t).mul contDiff_const,
      fun t => (s3 t).sub (ContDiff.sum fun i _ => (hw i t).mul (s2 i t)), fun param => ⟨(cov (maternFormula p) eps param x .same)⁻¹ *
        covIT (maternFormula p) param x y, ?_⟩⟩
    have := predict_zero hla _ (hK param) zi false
    simp only [Bool.false_eq_true, if_false, add_zero] at this
    exact this
  · have hL : ∀ i j, ContDiff ℝ N fun param => ukLHS (maternOther p eps param x y P Pt) i j := by
      intro i j
      rcases i with i | i <;> rcases j with j | j
      · exact s1 i j
      · exact contDiff_const
      · exact contDiff_const
      · exact contDiff_const
    have hR : ∀ i t, ContDiff ℝ N fun param => ukRHS (maternOther p eps param x y P Pt) i t := by
      intro i t
      rcases i with i | i
      · exact s2 i t
      · exact contDiff_const
    have hu : ∀ param, IsUnit (ukLHS (maternOther p eps param x y P Pt)).det := fun param =>
      (Matrix.isUnit_iff_isUnit_det _).mp (ukLHS_unit _ (CPD.of_posDef (hK param) _) hP)
    have hinv := inv_smooth hL fun param => (hu param).ne_zero
    have hw : ∀ i t, ContDiff ℝ N fun param => ((ukLHS (maternOther p eps param x y P Pt))⁻¹ *
        ukRHS (maternOther p eps param x y P Pt)) i t := by
      intro i t
      simp only [Matrix.mul_apply]
      exact ContDiff.sum fun k _ => (hinv i k).mul (hR k t)
    refine ⟨fun param t => ∑ i, ((ukLHS (maternOther p eps param x y P Pt))⁻¹ *
        ukRHS (maternOther p eps param x y P Pt)) (Sum.inl i) t * zi i,
      fun param t => covPairwise (maternFormula p) param y .none t - ∑ i, ((ukLHS (maternOther p eps param x y P Pt))⁻¹ *
        ukRHS (maternOther p eps param x y P Pt)) i t * ukRHS (maternOther p eps param x y P Pt) i t,
      fun t => ContDiff.sum fun i _ => (hw _ t).mul contDiff_const,
      fun t => (s3 t).sub (ContDiff.sum fun i _ => (hw i t).mul (hR i t)), fun param => ?_⟩
    obtain ⟨X, hX, hpred⟩ := predict_linear hla (maternOther p eps param x y P Pt) (CPD.of_posDef (hK param) _) hP zi false
    have hXe : X = (ukLHS (maternOther p eps param x y P Pt))⁻¹ * ukRHS (maternOther p eps param x y P Pt) := by
      rw [← hX, ← Matrix.mul_assoc, Matrix.nonsing_inv_mul _ (hu param), Matrix.one_mul]
    refine ⟨X.toRows₁, ?_⟩
    beta_reduce
    rw [hpred, ← hXe]
    simp only [Bool.false_eq_true, if_false, add_zero]
    rfl

/-- Two observations on a line and a constant mean; parameters in a box. -/
example : ∃ best ∈ Set.Icc (![-1, -1] : Fin 2 → ℝ) ![1, 1], ∃ v,
    reml .numpy (exactLA .numpy) (q := 1) (r := 1) (cov (maternFormula 1) 0 best (!![0; 1] : Matrix (Fin 2) (Fin 1) ℝ) .same)
      (fun _ _ => 1) ![1, 2] = .ok (.finite v) ∧
    ∀ param ∈ Set.Icc (![-1, -1] : Fin 2 → ℝ) ![1, 1], ∃ w, reml .numpy (exactLA .numpy) (q := 1) (r := 1)
      (cov (maternFormula 1) 0 param (!![0; 1] : Matrix (Fin 2) (Fin 1) ℝ) .same) (fun _ _ => 1) ![1, 2] =
        .ok (.finite w) ∧ v ≤ w := by
  have hx : Function.Injective (!![0; 1] : Matrix (Fin 2) (Fin 1) ℝ) := by
    intro i j h
    have := congrFun h 0
    fin_cases i <;> fin_cases j <;> simp_all
  have hP : FullRank (fun _ _ => 1 : Mat 2 1) := by
    intro b hb
    have := congrFun hb 0
    funext j
    fin_cases j
    simpa [mulVec, dotProduct] using this
  exact (criteria_min (be := .numpy) (exactLA_contract .numpy).toSound 1 (q := 1) (r := 1) (Or.inr ⟨le_rfl, hx⟩) hP 0 ![1, 2]
    isCompact_Icc ⟨0, by constructor <;> intro i <;> fin_cases i <;> norm_num⟩).2

end Verif.Core
