import Verif.Core.FisherTorch
import Verif.Core.PropsFisher
import Verif.Backend.PropsCriterion
import Mathlib.Analysis.SpecialFunctions.Log.Deriv
import Mathlib.LinearAlgebra.Matrix.PosDef

/-!
# C172, C173: Fisher information by second derivatives, reference prior
-/

set_option autoImplicit false

namespace Verif.Core

open Verif Verif.Data Verif.Backend Matrix

variable {n p q : ℕ} {be : Backend} {la : LA}

/-! ## C172 -/

theorem logDetCov_ok (hla : la.Sound be) (cov : (Fin p → ℝ) → Mat n n) (x : Fin p → ℝ)
    (h : (cov x).PosDef) : logDetCov la cov x = .ok (Real.log (cov x).det) := by
  obtain ⟨C, hc, hC⟩ := hla.chol_ok _ h
  simp only [logDetCov, hc, hC.logdet]

/-- **C172** What the torch routine returns: half the symmetrised matrix of second partial
derivatives of the log determinant it evaluates; a covariance that is not positive definite
raises the linear-algebra error, and the numpy backend lacks the class it needs. -/
theorem fisherTorch_value (hla : la.Sound .torch) (cov : (Fin p → ℝ) → Mat n n)
    (theta : Fin p → ℝ) :
    ((cov theta).PosDef → fisherTorch .torch la cov theta = .ok (Matrix.of fun i j =>
      (hessOf (pyVal (logDetCov la cov)) theta i j +
        hessOf (pyVal (logDetCov la cov)) theta j i) / 4)) ∧
    ((cov theta).IsSymm → ¬ (cov theta).PosDef →
      fisherTorch .torch la cov theta = .error .linAlgError) ∧
    (∀ la', fisherTorch .numpy la' cov theta = .error .attributeError) := by
  refine ⟨fun h => ?_, fun hs h => ?_, fun la' => ?_⟩
  · have hv := logDetCov_ok hla cov theta h
    have e1 : fun2Eval (logDetFun la cov) theta (Fun2State.init p) =
        (.ok (Real.log (cov theta).det), ⟨some (0, theta), some (0, theta), none, 1⟩) := by
      simp [fun2Eval, logDetFun, hv, Fun2State.init]
    have e2 : fun2Grad (logDetFun la cov) ⟨some (0, theta), some (0, theta), none, 1⟩ =
        (.ok (gradOf (pyVal (logDetCov la cov)) theta),
          ⟨some (0, theta), some (0, theta), some (0, theta), 1⟩) := by
      simp [fun2Grad, logDetFun]
    unfold fisherTorch
    simp only [reduceCtorEq, if_false, e1, bind, Except.bind, pure, Except.pure, e2, fun2Hess,
      ne_eq, not_true_eq_false]
    simp only [logDetFun]
    congr 1
    ext i j
    show (0.5 : ℝ) * (0.5 * (_ + _)) = _
    norm_num
    ring
  · have he : logDetCov la cov theta = .error .linAlgError := by
      simp only [logDetCov, hla.chol_err _ hs h]
    unfold fisherTorch
    simp [fun2Eval, logDetFun, he, bind, Except.bind, pure, Except.pure]
  · simp [fisherTorch, bind, Except.bind]

/-- **C172** (negative) For a variance parameter `θ` of `K = θ K₀`, with any positive
definite `K₀`, the torch routine returns minus the Fisher information `n / (2 θ²)` that
`fisher_information` computes. -/
theorem fisherTorch_scale_false (hla : la.Sound .torch) {K0 : Mat n n} (hK : K0.PosDef)
    (theta : Fin 1 → ℝ) (ht : 0 < theta 0) (eps : ℝ) (heps : eps ≠ 0) :
    fisherTorch .torch la (fun t => t 0 • K0) theta = .ok (fun _ _ => -(n / (2 * theta 0 ^ 2))) ∧
    fisher la (fun t => t 0 • K0) theta eps = .ok (fun _ _ => n / (2 * theta 0 ^ 2)) := by
  refine ⟨?_, fisher_scale hla hK theta ht eps heps⟩
  have hpd : ∀ t : Fin 1 → ℝ, 0 < t 0 → ((fun t : Fin 1 → ℝ => t 0 • K0) t).PosDef :=
    fun t h => hK.smul h
  rw [(fisherTorch_value hla _ theta).1 (hpd theta ht)]
  set F := pyVal (logDetCov la fun t : Fin 1 → ℝ => t 0 • K0) with hF
  have hval : ∀ t : Fin 1 → ℝ, 0 < t 0 → F t = n * Real.log (t 0) + Real.log K0.det := by
    intro t h
    simp only [hF, pyVal, logDetCov_ok hla (fun t : Fin 1 → ℝ => t 0 • K0) t (hpd t h)]
    rw [det_smul, Fintype.card_fin, Real.log_mul (pow_pos h n).ne' hK.det_pos.ne', Real.log_pow]
  have hgrad : ∀ t : Fin 1 → ℝ, 0 < t 0 → gradOf F t 0 = n * (t 0)⁻¹ := by
    intro t h
    have h1 : (fun s => F (Function.update t 0 s)) =ᶠ[nhds (t 0)]
        fun s => n * Real.log s + Real.log K0.det := by
      filter_upwards [lt_mem_nhds h] with s hs
      rw [hval _ (by simpa using hs)]
      simp
    unfold gradOf
    rw [h1.deriv_eq]
    exact (((Real.hasDerivAt_log h.ne').const_mul (n : ℝ)).add_const _).deriv
  have hhess : hessOf F theta 0 0 = -(n * (theta 0 ^ 2)⁻¹) := by
    have h1 : (fun s => gradOf F (Function.update theta 0 s) 0) =ᶠ[nhds (theta 0)]
        fun s => n * s⁻¹ := by
      filter_upwards [lt_mem_nhds ht] with s hs
      rw [hgrad _ (by simpa using hs)]
      simp
    simp only [hessOf, Matrix.of_apply]
    rw [h1.deriv_eq, ((hasDerivAt_inv ht.ne').const_mul (n : ℝ)).deriv]
    ring
  congr 1
  funext i j
  rw [Matrix.of_apply, Subsingleton.elim i 0, Subsingleton.elim j 0, hhess]
  have := ht.ne'
  field_simp
  ring

/-- **C172** (negative) For every covariance of the form used throughout the package,
`K(θ) = exp(θ₀) R(θ₁, …)`, the row and the column of the log-variance in the torch result
are zero: the matrix is singular whatever `R`, though the information on `θ₀` is `n / 2`. -/
theorem fisherTorch_variance_false (hla : la.Sound .torch) (R : (Fin q → ℝ) → Mat n n)
    (hR : ∀ t, (R t).PosDef) (theta : Fin (q + 1) → ℝ) :
    ∃ I, fisherTorch .torch la (fun t => Real.exp (t 0) • R (fun i => t i.succ)) theta = .ok I ∧
      (∀ j, I 0 j = 0) ∧ (∀ i, I i 0 = 0) ∧ I.det = 0 := by
  set cov : (Fin (q + 1) → ℝ) → Mat n n := fun t => Real.exp (t 0) • R (fun i => t i.succ) with hc
  have hpd : ∀ t, (cov t).PosDef := fun t => (hR _).smul (Real.exp_pos _)
  set F := pyVal (logDetCov la cov) with hF
  have hval : ∀ t, F t = n * t 0 + Real.log (R fun i => t i.succ).det := by
    intro t
    simp only [hF, pyVal, logDetCov_ok hla _ t (hpd t)]
    rw [hc]
    simp only
    rw [det_smul, Fintype.card_fin, Real.log_mul (pow_pos (Real.exp_pos _) n).ne'
      (hR _).det_pos.ne', Real.log_pow, Real.log_exp]
  have hg0 : ∀ t, gradOf F t 0 = n := by
    intro t
    unfold gradOf
    have : (fun s => F (Function.update t 0 s)) =
        fun s => n * s + Real.log (R fun i => t i.succ).det := by
      funext s
      rw [hval]
      simp [Function.update_of_ne (Fin.succ_ne_zero _)]
    rw [this, (((hasDerivAt_id' (t 0)).const_mul (n : ℝ)).add_const _).deriv, mul_one]
  have hgk : ∀ (k : Fin q) (t : Fin (q + 1) → ℝ) s,
      gradOf F (Function.update t 0 s) k.succ = gradOf F t k.succ := by
    intro k t s
    unfold gradOf
    rw [Function.update_of_ne (Fin.succ_ne_zero k)]
    have e : ∀ w : Fin (q + 1) → ℝ, (fun v => F (Function.update w k.succ v)) =
        fun v => n * w 0 + Real.log (R fun i => Function.update w k.succ v i.succ).det := by
      intro w
      funext v
      rw [hval, Function.update_of_ne (Fin.succ_ne_zero k).symm]
    rw [e, e]
    have e2 : ∀ v, (fun i : Fin q => Function.update (Function.update t 0 s) k.succ v i.succ) =
        fun i => Function.update t k.succ v i.succ := by
      intro v
      funext i
      by_cases h : i = k
      · subst h; simp
      · rw [Function.update_of_ne (by simpa using h), Function.update_of_ne (Fin.succ_ne_zero i),
          Function.update_of_ne (by simpa using h)]
    simp only [e2]
    simp only [deriv_const_add]
  have hrow : ∀ j, hessOf F theta 0 j = 0 := by
    intro j
    simp only [hessOf, Matrix.of_apply, hg0, deriv_const]
  have hcol : ∀ i, hessOf F theta i 0 = 0 := by
    intro i
    refine Fin.cases (hrow 0) (fun k => ?_) i
    simp only [hessOf, Matrix.of_apply, hgk, deriv_const]
  refine ⟨_, (fisherTorch_value hla cov theta).1 (hpd theta), ?_, ?_, ?_⟩
  · intro j; rw [Matrix.of_apply, hrow, hcol]; norm_num
  · intro i; rw [Matrix.of_apply, hrow, hcol]; norm_num
  · refine Matrix.det_eq_zero_of_row_eq_zero 0 fun j => ?_
    rw [Matrix.of_apply, hrow, hcol]; norm_num

/-! ## C173: `logdet` and the reference prior -/

/-- **C173** Both `logdet`s return the log determinant when it is positive (in particular
for positive definite matrices); otherwise numpy raises `ValueError`, torch answers NaN or
`-inf`. -/
theorem logdet_spec {m : ℕ} (A : Mat m m) :
    (0 < A.det → logdetNumpy A = .ok (Real.log A.det) ∧ logdetTorch A = Flt.fin (Real.log A.det)) ∧
    (A.det = 0 → logdetNumpy A = .error .valueError ∧ logdetTorch A = .num ⊥) ∧
    (A.det < 0 → logdetNumpy A = .error .valueError ∧ logdetTorch A = .nan) ∧
    (A.PosDef → ∃ v, logdetNumpy A = .ok v) := by
  have h1 : 0 < A.det → logdetNumpy A = .ok (Real.log A.det) := by
    intro h; simp [logdetNumpy, not_le.mpr h, abs_of_pos h]
  refine ⟨fun h => ⟨h1 h, ?_⟩, fun h => ⟨?_, ?_⟩, fun h => ⟨?_, ?_⟩, fun h => ⟨_, h1 h.det_pos⟩⟩
  · simp [logdetTorch, not_lt.mpr h.le, h.ne']
  · simp [logdetNumpy, h]
  · simp [logdetTorch, h]
  · simp [logdetNumpy, h.le]
  · simp [logdetTorch, h]

/-- **C173** (negative) The error message of numpy's `logdet` speaks of positive
definiteness, but only the sign of the determinant is looked at: `-I` in even dimension
passes. -/
theorem logdet_negative_definite_false :
    logdetNumpy (-1 : Mat 2 2) = .ok 0 ∧ (1 : Mat 2 2).PosDef ∧ ¬ (-1 : Mat 2 2).PosDef := by
  have hd : (-1 : Mat 2 2).det = 1 := by
    rw [Matrix.det_fin_two]; norm_num
  refine ⟨by simp [logdetNumpy, hd], Matrix.PosDef.one, fun h => ?_⟩
  have := h.diag_pos (i := 0)
  norm_num at this

/-- **C173** `log_prior_reference` is half the log determinant of the Fisher information,
finite exactly when no non-trivial direction of the parameters leaves the (finite-difference)
covariance unchanged; otherwise `ValueError` on numpy. -/
theorem logPriorReference_spec (hla : la.Sound be) (cov : (Fin p → ℝ) → Mat n n)
    (hs : ∀ t, (cov t).IsSymm) (theta : Fin p → ℝ) (hK : (cov theta).PosDef) (eps : ℝ) :
    ∃ I : Mat p p, (∀ i j, I i j = 1 / 2 * Matrix.trace ((cov theta)⁻¹ * dCov cov theta eps i *
        (cov theta)⁻¹ * dCov cov theta eps j)) ∧
      ((∀ x : Fin p → ℝ, ∑ i, x i • dCov cov theta eps i = 0 → x = 0) →
        0 < I.det ∧ logPriorReference la cov theta eps = .ok (1 / 2 * Real.log I.det)) ∧
      ((∃ x : Fin p → ℝ, x ≠ 0 ∧ ∑ i, x i • dCov cov theta eps i = 0) →
        logPriorReference la cov theta eps = .error .valueError) := by
  obtain ⟨I, h1, h2, h3, h4⟩ := fisher_psd hla cov hs theta hK eps
  refine ⟨I, h3, fun hx => ?_, ?_⟩
  · have hpd : I.PosDef := by
      refine Matrix.PosDef.of_dotProduct_mulVec_pos h2.isHermitian fun x hx0 => ?_
      rcases (h2.dotProduct_mulVec_nonneg x).lt_or_eq with h | h
      · exact h
      · exact absurd (hx x ((h4 x).mp (by simpa using h.symm))) hx0
    refine ⟨hpd.det_pos, ?_⟩
    simp only [logPriorReference, h1, bind, Except.bind, pure, Except.pure,
      ((logdet_spec I).1 hpd.det_pos).1]
    norm_num
  · rintro ⟨x, hx0, hx⟩
    have hz : x ⬝ᵥ (I *ᵥ x) = 0 := (h4 x).mpr hx
    have hdet : I.det = 0 := by
      have hIx : I *ᵥ x = 0 := by
        have := h2.dotProduct_mulVec_zero_iff x
        simp only [star_trivial] at this
        exact this.mp hz
      by_contra hne
      apply hx0
      have hu : IsUnit I.det := isUnit_iff_ne_zero.mpr hne
      have := congrArg (fun v => I⁻¹ *ᵥ v) hIx
      simpa [Matrix.mulVec_mulVec, Matrix.nonsing_inv_mul I hu] using this
    simp only [logPriorReference, h1, bind, Except.bind, ((logdet_spec I).2.1 hdet).1]

/-- **C173** On positive definite matrices both `cholesky_inv` return the inverse; on a
symmetric invertible matrix that is not positive definite numpy returns the inverse while
torch raises. -/
theorem cholInv_spec (hla : la.Sound be) {m : ℕ} (A : Mat m m) :
    (A.PosDef → cholInvNumpy la A = .ok A⁻¹ ∧ cholInvTorch la A = .ok A⁻¹) ∧
    (A.IsSymm → IsUnit A → ¬ A.PosDef →
      cholInvNumpy la A = .ok A⁻¹ ∧ cholInvTorch la A = .error .linAlgError) ∧
    (A.IsSymm → ¬ IsUnit A →
      cholInvNumpy la A = .error .linAlgError ∧ cholInvTorch la A = .error .linAlgError) := by
  refine ⟨fun h => ⟨?_, ?_⟩, fun hs hu h => ⟨hla.inv_ok _ hu, ?_⟩,
    fun hs hu => ⟨hla.inv_err _ hu, ?_⟩⟩
  · exact hla.inv_ok _ ((Matrix.isUnit_iff_isUnit_det _).mpr (PosDef.det_unit h))
  · obtain ⟨C, hc, hC⟩ := hla.chol_ok _ h
    simp only [cholInvTorch, hc, hC.inv]
  · simp only [cholInvTorch, hla.chol_err _ hs h]
  · have : ¬ A.PosDef := fun h => hu ((Matrix.isUnit_iff_isUnit_det _).mpr (PosDef.det_unit h))
    simp only [cholInvTorch, hla.chol_err _ hs this]

/-! ## Concrete cases -/

/-- `n = 2`, `K = θ I` at `θ = 3`: the torch answer is `-1/9`, the information `1/9`. -/
example : fisherTorch (n := 2) .torch (exactLA .torch) (fun t => t 0 • 1) ![3] =
    .ok (fun _ _ => -((2 : ℕ) / (2 * (![3] : Fin 1 → ℝ) 0 ^ 2))) :=
  (fisherTorch_scale_false (exactLA_contract .torch).toSound Matrix.PosDef.one ![3] (by simp)
    0.001 (by norm_num)).1

example : ∃ I, fisherTorch (n := 2) .torch (exactLA .torch)
    (fun t : Fin 2 → ℝ => Real.exp (t 0) • (Real.exp (t (Fin.succ 0)) • (1 : Mat 2 2))) ![0, 0] =
      .ok I ∧ I.det = 0 := by
  obtain ⟨I, h, _, _, hd⟩ := fisherTorch_variance_false (q := 1) (exactLA_contract .torch).toSound
    (fun t => Real.exp (t 0) • (1 : Mat 2 2)) (fun t => Matrix.PosDef.one.smul (Real.exp_pos _)) ![0, 0]
  exact ⟨I, h, hd⟩

end Verif.Core
