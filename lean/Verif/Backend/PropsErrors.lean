import Verif.Backend.Errors
import Verif.Backend.PropsConvert
import Verif.Core.Contract
import Mathlib.Analysis.SpecialFunctions.Exp
import Mathlib.Analysis.Real.Pi.Bounds
import Mathlib.Analysis.Complex.ExponentialBounds
import Mathlib.Tactic.FinCases

/-!
# C222-C225: exceptions, the normal distribution, norms, variances and factorisations
-/

set_option autoImplicit false

namespace Verif.Backend.Err

open Verif Verif.Backend

/-! ## C222: which exceptions become +inf -/

/-- **C222** An exception counts as a failure of linear algebra exactly when it is a
`LinAlgError` or when one of the fifteen words occurs in its message, in upper or lower case. -/
theorem isLinalg_iff (e : Exc) :
    isLinalg e = true ↔
      e.cls = .linAlgError ∨ ∃ w ∈ keywords, w.toList <:+: e.msg.map Char.toLower := by
  simp [isLinalg, Conv.hasSub_iff]

/-- **C222** The fifteen words, written out: those of numpy_backend.py 30-46 and of
torch_backend.py 29-45. -/
theorem isLinalg_words (e : Exc) :
    isLinalg e = true ↔ e.cls = .linAlgError ∨
      ∃ w ∈ ["singular", "not positive definite", "not positive-definite", "cholesky", "decomposition",
        "factorization", "matrix is not invertible", "matrix inversion", "inverse",
        "svd did not converge", "ill-conditioned", "linalg", "lapack", "cusolver",
        "array must not contain infs or nans"], w.toList <:+: e.msg.map Char.toLower :=
  isLinalg_iff e

/-- **C222** The guarded evaluations return the criterion's value, `+inf` after such an exception,
and let every other exception through unchanged. -/
theorem guarded_spec {P : Type} (c : CritM P) (p : P) :
    (∀ v, c p = .ok v → guarded c p = .ok v) ∧
    (∀ e, c p = .error e → (isLinalg e = true → guarded c p = .ok (.num ⊤)) ∧
      (isLinalg e = false → guarded c p = .error e)) := by
  refine ⟨fun v h => by simp [guarded, h], fun e h => ⟨fun he => by simp [guarded, h, he], fun he => by
    simp [guarded, h, he]⟩⟩

/-- The class that the code treats an exception as. -/
def erase (e : Exc) : PyErr := if isLinalg e then .linAlgError else e.cls

/-- The criterion without messages. -/
def eraseCrit {P : Type} (c : CritM P) : P → Py Flt := fun p => (c p).mapError erase

theorem erase_linalg (e : Exc) : erase e = .linAlgError ↔ isLinalg e = true := by
  unfold erase
  by_cases h : isLinalg e = true
  · simp [h]
  · simp only [h, Bool.false_eq_true, if_false, iff_false]
    intro hc
    exact h ((isLinalg_iff e).mpr (Or.inl hc))

/-- **C222** Without their messages the exceptions behave as in the model of the selection: the
optimiser sees the same values, the same history is recorded, and the same exceptions come out. -/
theorem runSolver_erase {P : Type} (c : CritM P) (sv : Kernel.Solver P) (h : Kernel.Hist P) :
    Kernel.runSolver (eraseCrit c) sv h =
      ((runSolverM c sv h).1.mapError erase, (runSolverM c sv h).2) := by
  induction sv generalizing h with
  | stop x f => rfl
  | ask p k ih =>
    simp only [Kernel.runSolver, runSolverM, Kernel.withHistory, withHistoryM, eraseCrit]
    cases hc : c p with
    | ok v =>
      simp only [Except.mapError]
      exact ih v (h.record p v)
    | error e =>
      simp only [Except.mapError]
      by_cases he : isLinalg e = true
      · simp only [(erase_linalg e).mpr he, he, if_true]
        exact ih _ _
      · rw [if_neg (fun hh => he ((erase_linalg e).mp hh)), if_neg he]

/-- The `NameError` of a misspelt variable in a user's criterion. -/
def typo : Exc := ⟨.nameError, "name 'inverse_scale' is not defined".toList⟩

/-- **C222** (negative) "Only failures of linear algebra become `+inf`" is false: a `NameError` for a
variable whose name contains "inverse" does, so that an optimiser runs to its end on a criterion
that never works. -/
theorem linalg_only_false :
    typo.cls = .nameError ∧ isLinalg typo = true ∧
    (∀ p : ℝ, guarded (fun _ : ℝ => .error typo) p = .ok (.num ⊤)) ∧
    ∀ (sv : Kernel.Solver ℝ) (h : Kernel.Hist ℝ), ∃ r, (runSolverM (fun _ => .error typo) sv h).1 = .ok r := by
  have ht : isLinalg typo = true := by
    rw [isLinalg_iff]
    refine Or.inr ⟨"inverse", by simp [keywords], ?_⟩
    rw [← Conv.hasSub_iff]
    simp [typo, Conv.hasSub]
  refine ⟨rfl, ht, fun p => by simp [guarded, ht], ?_⟩
  intro sv
  induction sv with
  | stop x f => exact fun h => ⟨_, rfl⟩
  | ask p k ih =>
    intro h
    simp only [runSolverM, withHistoryM, ht, if_true]
    exact ih _ _

/-- The message of scipy's check on NaN, in its own capitals. -/
example : isLinalg ⟨.valueError, "array must not contain infs or NaNs".toList⟩ = true := by
  rw [isLinalg_iff]
  refine Or.inr ⟨"array must not contain infs or nans", by simp [keywords], ?_⟩
  rw [← Conv.hasSub_iff]
  simp [Conv.hasSub]

/-! ## C223: the normal distribution -/

/-- **C223** With positive scales the two backends agree on the distribution function, which is that of
the Gaussian with this mean and standard deviation. -/
theorem cdf_agree_partial (l : List (ℝ × ℝ × ℝ)) (hl : ∀ t ∈ l, 0 < t.2.2) :
    cdfTorch l = .ok (l.map fun t => cdfNp t.1 t.2.1 t.2.2) ∧
    ∀ t ∈ l, cdfNp t.1 t.2.1 t.2.2 =
      Flt.fin (ProbabilityTheory.cdf (ProbabilityTheory.gaussianReal t.2.1 (NNReal.mk (t.2.2 ^ 2) (sq_nonneg _))) t.1) := by
  constructor
  · unfold cdfTorch
    rw [if_pos hl]
    congr 1
    refine List.map_congr_left fun t ht => ?_
    rw [cdfNp, if_pos (hl t ht)]
  · intro t ht
    rw [cdfNp, if_pos (hl t ht), Score.cdf_gauss t.2.1 (hl t ht)]

/-- **C223** (negative) One scale equal to zero (a prediction at an observation point) gives one NaN on
numpy and makes the whole call fail on torch. -/
theorem cdf_zero_scale_false (x loc : ℝ) (l : List (ℝ × ℝ × ℝ)) :
    cdfNp x loc 0 = .nan ∧ cdfTorch ((x, loc, 0) :: l) = .error .valueError := by
  constructor
  · simp [cdfNp]
  · unfold cdfTorch
    rw [if_neg]
    intro h
    exact lt_irrefl _ (h (x, loc, 0) (by simp))

theorem Phi_pos (t : ℝ) : 0 < Score.Phi t := by
  rcases (Score.Phi_nonneg t).lt_or_eq with h | h
  · exact h
  · exfalso
    -- Φ is zero up to `t`, but its derivative is positive
    have h0 : ∀ s ≤ t, Score.Phi s = 0 := fun s hs =>
      le_antisymm ((Score.Phi_mono hs).trans h.symm.le) (Score.Phi_nonneg s)
    have hmin : IsLocalMin Score.Phi t :=
      Filter.Eventually.of_forall fun s => by rw [← h]; exact Score.Phi_nonneg s
    have := hmin.hasDerivAt_eq_zero (Score.Phi_deriv t)
    exact (Score.phi_pos t).ne' this

/-- Far in the lower tail the probability is below half the distance of the doubles next to -1. -/
theorem Phi_tail (t : ℝ) (ht : t ≤ -9) : 2 * Score.Phi t ≤ 1 / 2 ^ 54 := by
  have h1 : Score.Phi t ≤ Score.Phi (-9) := Score.Phi_mono ht
  have h2 := Score.mills 9 (by norm_num)
  have h3 : Score.Phi (-9) = 1 - Score.Phi 9 := Score.Phi_neg 9
  have h4 : Score.phi 9 ≤ 1 / 2 ^ 55 := by
    have hs : 1 ≤ Real.sqrt (2 * Real.pi) := by
      rw [Real.one_le_sqrt]
      nlinarith [Real.pi_gt_d2]
    have he : Score.phi 9 ≤ Real.exp (-(9 : ℝ) ^ 2 / 2) := by
      unfold Score.phi
      calc (Real.sqrt (2 * Real.pi))⁻¹ * Real.exp (-(9 : ℝ) ^ 2 / 2)
          ≤ 1 * Real.exp (-(9 : ℝ) ^ 2 / 2) :=
            mul_le_mul_of_nonneg_right (inv_le_one_of_one_le₀ hs) (Real.exp_pos _).le
        _ = _ := one_mul _
    refine he.trans ?_
    have h5 : Real.exp (-(9 : ℝ) ^ 2 / 2) ≤ Real.exp (-40) := Real.exp_le_exp.mpr (by norm_num)
    refine h5.trans ?_
    rw [Real.exp_neg, one_div]
    refine inv_anti₀ (by positivity) ?_
    have h6 : Real.exp 40 = Real.exp 1 ^ 40 := by
      rw [← Real.exp_nat_mul]; norm_num
    rw [h6]
    calc (2 : ℝ) ^ 55 ≤ 2.7 ^ 40 := by norm_num
      _ ≤ Real.exp 1 ^ 40 := pow_le_pow_left₀ (by norm_num) (by linarith [Real.exp_one_gt_d9]) 40
  rw [← h3] at h2
  have : Score.Phi (-9) ≤ 1 / 2 ^ 55 := by nlinarith [Score.Phi_nonneg (-9)]
  calc 2 * Score.Phi t ≤ 2 * (1 / 2 ^ 55) := by linarith
    _ = 1 / 2 ^ 54 := by norm_num

/-- **C223** (negative) `normal.logcdf` of torch is minus infinity from -9 downwards, where the
logarithm of the probability is an ordinary number. -/
theorem logcdf_tail_false (R : Near) (t : ℝ) (ht : t ≤ -9) :
    logcdfTorch R t = .num ⊥ ∧ 0 < Score.Phi t ∧ ∀ r : ℝ, logcdfTorch R t ≠ Flt.fin r := by
  have h1 : R.rnd (2 * Score.Phi t - 1) = -1 := by
    refine R.near _ ?_
    rw [sub_add_cancel, abs_of_nonneg (by linarith [Score.Phi_nonneg t])]
    exact Phi_tail t ht
  have h2 : cdfRounded R t = 0 := by
    simp [cdfRounded, h1, R.zero]
  have h3 : logcdfTorch R t = .num ⊥ := by
    simp [logcdfTorch, h2, logF]
  refine ⟨h3, Phi_pos t, fun r hr => ?_⟩
  rw [h3] at hr
  simp [Flt.fin] at hr

/-- Such a rounding exists. -/
noncomputable def sampleNear : Near where
  rnd := fun v => open Classical in if |v + 1| ≤ 1 / 2 ^ 54 then -1 else v
  near := fun v h => if_pos h
  zero := by rw [if_neg]; norm_num

/-! ## C224: norms and variances -/

/-- **C224** For vectors, rows of a matrix, and matrices without `ord`, the backends compute the same
norm; its square is the sum of squares. -/
theorem norm_agree_partial {n m : ℕ} (A : Matrix (Fin n) (Fin m) ℝ) (v : List ℝ) (X : List (List ℝ)) :
    normNp false A = normTorch A ∧ normVec v ^ 2 = (v.map fun x => x ^ 2).sum ∧ 0 ≤ normVec v ∧
    (normRows X).length = X.length ∧ ∀ i (h : i < X.length), (normRows X)[i]? = some (normVec X[i]) := by
  refine ⟨rfl, ?_, Real.sqrt_nonneg _, by simp [normRows], fun i h => by simp [normRows, h]⟩
  rw [normVec, Real.sq_sqrt]
  exact List.sum_nonneg fun x hx => by
    obtain ⟨y, -, rfl⟩ := List.mem_map.mp hx
    positivity

/-- **C224** (negative) With `ord=2` on a matrix the answers differ: numpy gives the largest singular
value, torch the square root of the sum of squares. -/
theorem norm_matrix_false :
    normNp true (1 : Matrix (Fin 2) (Fin 2) ℝ) = 1 ∧ normTorch (1 : Matrix (Fin 2) (Fin 2) ℝ) = Real.sqrt 2 := by
  constructor
  · have : {r | ∃ v : Fin 2 → ℝ, (∑ j, v j ^ 2) = 1 ∧
        r = Real.sqrt (∑ i, (1 : Matrix (Fin 2) (Fin 2) ℝ).mulVec v i ^ 2)} = {1} := by
      ext r
      simp only [Set.mem_setOf_eq, Set.mem_singleton_iff, Matrix.one_mulVec]
      constructor
      · rintro ⟨v, hv, rfl⟩
        rw [hv, Real.sqrt_one]
      · rintro rfl
        refine ⟨![1, 0], by simp [Fin.sum_univ_two], by simp [Fin.sum_univ_two]⟩
    unfold normNp
    rw [if_pos rfl, this, csSup_singleton]
  · unfold normTorch
    congr 1
    simp [Matrix.one_apply]

/-- **C224** With an integer `ddof` the two backends compute the same variance: the sum of squared
deviations over `n - ddof` when that is positive; NaN or infinity otherwise. -/
theorem var_agree_partial (x : List ℝ) (k : ℤ) :
    varTorchF x k = varNp x k ∧
    (k < x.length → varNp x k = Flt.fin ((x.map fun v => (v - avg x) ^ 2).sum / (x.length - k)) ∧
      sqrtF (varNp x k) = Flt.fin (Real.sqrt ((x.map fun v => (v - avg x) ^ 2).sum / (x.length - k)))) ∧
    ((x.length : ℤ) ≤ k → varNp x k = .nan ∨ varNp x k = .num ⊤) := by
  have ht : Conv.trunc (k : ℝ) = k := by simp [Conv.trunc]
  refine ⟨by rw [varTorchF, varNp, ht], ?_, ?_⟩
  · intro hk
    have hpos : (0 : ℝ) < x.length - k := by
      have : (k : ℝ) < x.length := by exact_mod_cast hk
      linarith
    have e : varNp x k = Flt.fin ((x.map fun v => (v - avg x) ^ 2).sum / (x.length - k)) := by
      rw [varNp, overDof, if_pos hpos]
    refine ⟨e, ?_⟩
    rw [e]
    simp [sqrtF, Flt.fin]
  · intro hk
    have hle : ¬ (0 : ℝ) < x.length - k := by
      have : (x.length : ℝ) ≤ k := by exact_mod_cast hk
      linarith
    rw [varNp, overDof, if_neg hle]
    split
    · exact Or.inl rfl
    · exact Or.inr rfl

/-- **C224** (negative) A fractional `ddof` is cut to an integer by torch. -/
theorem var_ddof_false : varNp [0, 2] 0.5 = Flt.fin (4 / 3) ∧ varTorchF [0, 2] 0.5 = Flt.fin 1 := by
  have ht : Conv.trunc 0.5 = 0 := by
    unfold Conv.trunc; rw [if_pos (by norm_num), Int.floor_eq_iff]; norm_num
  have hs : (([0, 2] : List ℝ).map fun v => (v - avg [0, 2]) ^ 2).sum = 2 := by
    simp [avg]; norm_num
  constructor
  · rw [varNp, hs, overDof, if_pos (by norm_num)]; norm_num
  · rw [varTorchF, hs, ht, overDof, if_pos (by norm_num)]; norm_num

/-! ## C225: `cho_factor`, `cho_solve` -/

open Matrix in
/-- **C225** For a positive definite matrix, either triangle and either backend, `cho_solve` of
`cho_factor` gives the solution of the system, column by column; scipy's factor may differ from
torch's outside the triangle. -/
theorem cho_solve_factor {n : ℕ} {chol : Matrix (Fin n) (Fin n) ℝ → Py (Matrix (Fin n) (Fin n) ℝ)}
    {A C : Matrix (Fin n) (Fin n) ℝ} (hc : chol A = .ok C) (hC : Core.IsChol A C) (hA : A.PosDef)
    (lower : Bool) (cols : List (Fin n → ℝ)) :
    ∃ ft fn, choFactorTorch chol A lower = .ok ft ∧ choFactorNp chol A lower = .ok fn ∧
      ft.2 = lower ∧ fn.2 = lower ∧
      triPart (!lower) ft.1 = ft.1 ∧ triPart (!lower) fn.1 = ft.1 ∧
      ∃ sols, choSolveTorch ft (.cols cols) = .ok (.cols sols) ∧ choSolveNp fn (.cols cols) = .ok (.cols sols) ∧
        List.Forall₂ (fun b x => A.mulVec x = b) cols sols := by
  have hlow : triPart false C = C := by
    funext i j
    simp only [triPart, Bool.false_eq_true, if_false]
    split
    · rfl
    · rename_i h; exact (hC.lower i j (not_le.mp h)).symm
  have hup : triPart true Cᵀ = Cᵀ := by
    funext i j
    simp only [triPart, if_true, transpose_apply]
    split
    · rfl
    · rename_i h; exact (hC.lower j i (not_le.mp h)).symm
  have hT : triPart (!lower) (if lower then C else Cᵀ) = if lower then C else Cᵀ := by
    cases lower
    · exact hup
    · exact hlow
  have hN : triPart (!lower) (fun i j => if (if lower then i < j else j < i) then A i j
      else (if lower then C i j else C j i)) = if lower then C else Cᵀ := by
    rw [← hT]
    funext i j
    cases lower with
    | true =>
      simp only [triPart, Bool.not_true, Bool.false_eq_true, if_false, if_true]
      split
      · rename_i h; rw [if_neg (not_lt.mpr h)]
      · rfl
    | false =>
      simp only [triPart, Bool.not_false, Bool.false_eq_true, if_false, if_true, transpose_apply]
      split
      · rename_i h; rw [if_neg (not_lt.mpr h)]
      · rfl
  have hdet : A.det ≠ 0 := hA.det_pos.ne'
  refine ⟨_, _, by simp only [choFactorTorch, hc, bind, Except.bind]; rfl,
    by simp only [choFactorNp, hc, bind, Except.bind]; rfl, rfl, rfl, hT, hN, cols.map fun b => A⁻¹.mulVec b, ?_, ?_, ?_⟩
  · have : ∀ b, choSolve (if lower then C else Cᵀ, lower) b = A⁻¹.mulVec b := by
      intro b
      simp only [choSolve]
      rw [hT]
      cases lower <;> simp [hC.mul]
    simp [choSolveTorch, this]
  · simp only [choSolveNp]
    congr 2
    refine List.map_congr_left fun b _ => ?_
    simp only [choSolve]
    rw [hN]
    cases lower <;> simp [hC.mul]
  · rw [List.forall₂_map_right_iff]
    refine List.forall₂_same.mpr fun b _ => ?_
    rw [mulVec_mulVec, mul_nonsing_inv A (isUnit_iff_ne_zero.mpr hdet), one_mulVec]

/-- **C225** A failed factorisation is passed on by both. -/
theorem cho_factor_fails {n : ℕ} {chol : Matrix (Fin n) (Fin n) ℝ → Py (Matrix (Fin n) (Fin n) ℝ)}
    {A : Matrix (Fin n) (Fin n) ℝ} {e : PyErr} (hc : chol A = .error e) (lower : Bool) :
    choFactorTorch chol A lower = .error e ∧ choFactorNp chol A lower = .error e := by
  simp [choFactorTorch, choFactorNp, hc, bind, Except.bind]

/-- **C225** (negative) A right-hand side that is a vector is solved by scipy and refused by torch. -/
theorem cho_solve_vector_false {n : ℕ} (c : Matrix (Fin n) (Fin n) ℝ × Bool) (b : Fin n → ℝ) :
    choSolveNp c (.vec b) = .ok (.vec (choSolve c b)) ∧ choSolveTorch c (.vec b) = .error .runtimeError :=
  ⟨rfl, rfl⟩

/-- The hypotheses of `cho_solve_factor` hold for the identity. -/
example : ∃ C, (Core.exactLA .numpy).chol (1 : Matrix (Fin 2) (Fin 2) ℝ) = .ok C ∧
    Core.IsChol (1 : Matrix (Fin 2) (Fin 2) ℝ) C :=
  (Core.exactLA_contract .numpy).chol_ok _ Matrix.PosDef.one

end Verif.Backend.Err
