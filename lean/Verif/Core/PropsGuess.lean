import Verif.Core.PropsInputs
import Verif.Core.PropsInit

/-!
# C96: the whole initial guess as a parameter vector
-/

set_option autoImplicit false

namespace Verif.Core

open Verif Verif.Data Verif.Kernel Matrix

variable {n q r d : ℕ} {be : Backend} {la : LA}

/-- Length scale `j` of a parameter vector is the range of coordinate `j` times the factor for dimension `d`. -/
def GuessedRanges (x : Matrix (Fin n) (Fin d) ℝ) (th : Fin (d + 1) → ℝ) : Prop :=
  ∀ j, ∃ lo hi, (∀ i, x lo j ≤ x i j ∧ x i j ≤ x hi j) ∧
    Real.exp (-th j.succ) = Real.Gamma (d / 2 + 1) ^ (1 / (d : ℝ)) / Real.sqrt Real.pi * (x hi j - x lo j)

theorem rhoFactor_eq (d : ℕ) : rhoFactor d = Real.Gamma (d / 2 + 1) ^ (1 / (d : ℝ)) / Real.sqrt Real.pi := by
  have hG : 0 < Real.Gamma ((d : ℝ) / 2 + 1) := Real.Gamma_pos_of_pos (by positivity)
  rw [rhoFactor, Real.rpow_def_of_pos hG, Real.sqrt_eq_rpow]
  norm_num
  ring_nf

theorem guessed_ranges {x : Matrix (Fin n) (Fin d) ℝ} (h : Varies x) (a : ℝ) :
    GuessedRanges x (Fin.cons a (guessLoginvrho x)) := by
  intro j
  have hne : List.ofFn (fun i => x i j) ≠ [] := by
    obtain ⟨i, k, -⟩ := h j
    intro e
    have := congrArg List.length e
    simp only [List.length_ofFn, List.length_nil] at this
    exact absurd i.2 (by omega)
  obtain ⟨lo, hlo, hi, hhi, he, hb⟩ := colRange_spec hne
  obtain ⟨il, rfl⟩ := (List.mem_ofFn' _ _).mp hlo
  obtain ⟨ih, rfl⟩ := (List.mem_ofFn' _ _).mp hhi
  refine ⟨il, ih, fun i => hb _ ((List.mem_ofFn' _ _).mpr ⟨i, rfl⟩), ?_⟩
  have hr := varies_range h j
  rw [Fin.cons_succ, guessLoginvrho, neg_neg, Real.exp_log (mul_pos (rhoFactor_pos d) hr), he, rhoFactor_eq]

/-- The covariance is proportional to the variance parameter (nugget included). -/
theorem cov_cons (k : ℝ → ℝ) (eps a : ℝ) (l : Fin d → ℝ) (x : Matrix (Fin n) (Fin d) ℝ) :
    cov k eps (Fin.cons a l) x .same = Real.exp a • cov k eps (Fin.cons (Real.log 1) l) x .same := by
  ext i j
  simp only [cov, covII, of_apply, Matrix.smul_apply, Fin.cons_zero, Fin.cons_succ, Real.log_one, Real.exp_zero,
    smul_eq_mul]
  ring

/-- **C96** (zero mean) The guess is a parameter vector whose length scales are the scaled ranges of the coordinates and
whose log-variance is the unique minimiser of the negative log-likelihood among the parameter vectors with these
length scales. -/
theorem guessZeroMean_min (hla : la.Sound be) (p : ℕ) {eps : ℝ} {x : Matrix (Fin n) (Fin d) ℝ} (ha : Admissible eps x)
    (hv : Varies x) (z : Fin n → ℝ) (hz : z ≠ 0) :
    ∃ (th : Fin (d + 1) → ℝ) (v : ℝ → ℝ), guessZeroMean la (maternFormula p) eps x z = .ok th ∧ GuessedRanges x th ∧
      (∀ a, nllZeroMean be la (cov (maternFormula p) eps (Function.update th 0 a) x .same) z = .ok (.finite (v a))) ∧
      ∀ a, a ≠ th 0 → v (th 0) < v a := by
  obtain ⟨s2, hs, hs0, v, hv1, hv2⟩ := initSigma2Zero_min (be := be) hla
    (matern_Kii p (Fin.cons (Real.log 1) (guessLoginvrho x)) ha) z hz
  refine ⟨Fin.cons (Real.log s2) (guessLoginvrho x), fun a => v (Real.exp a), ?_, guessed_ranges hv _, ?_, ?_⟩
  · simp only [guessZeroMean, hs, bind, Except.bind, pure, Except.pure]
  · intro a
    rw [Fin.update_cons_zero, cov_cons]
    exact hv1 _ (Real.exp_pos a)
  · intro a hne
    simp only [Fin.cons_zero] at hne ⊢
    rw [Real.exp_log hs0]
    refine hv2 _ (Real.exp_pos a) fun h => hne ?_
    rw [← h, Real.log_exp]

/-- **C96** (constant mean) The guess consists of the generalised least-squares mean under the guessed covariance and of
a parameter vector with the scaled ranges as length scales; its variance makes the data which are *not* centred have mean
square one. -/
theorem guessConstantMean_value (hla : la.Sound be) (p : ℕ) {eps : ℝ} {x : Matrix (Fin n) (Fin d) ℝ}
    (ha : Admissible eps x) (hv : Varies x) (hn : 0 < n) (z : Fin n → ℝ) (hz : z ≠ 0) :
    ∃ m th, guessConstantMean la (maternFormula p) eps x z = .ok (m, th) ∧ GuessedRanges x th ∧
      (∀ b : ℝ, (fun i => z i - m) ⬝ᵥ ((cov (maternFormula p) eps th x .same)⁻¹ *ᵥ fun i => z i - m) ≤
        (fun i => z i - b) ⬝ᵥ ((cov (maternFormula p) eps th x .same)⁻¹ *ᵥ fun i => z i - b)) ∧
      z ⬝ᵥ ((cov (maternFormula p) eps th x .same)⁻¹ *ᵥ z) = n := by
  have hK := matern_Kii p (Fin.cons (Real.log 1) (guessLoginvrho x)) ha
  obtain ⟨m, s2, hs, -, hm⟩ := initConstantMean_mean (be := be) hla hK hn z
  have hB : 0 < z ⬝ᵥ ((cov (maternFormula p) eps (Fin.cons (Real.log 1) (guessLoginvrho x)) x .same)⁻¹ *ᵥ z) :=
    PosDef.quad_pos hK.inv hz
  have hn' : (0 : ℝ) < n := by exact_mod_cast hn
  have hs2 : s2 = 1 / n * (z ⬝ᵥ ((cov (maternFormula p) eps (Fin.cons (Real.log 1) (guessLoginvrho x)) x .same)⁻¹ *ᵥ z)) := by
    simp only [initConstantMean, (norms_zero hla hK z).2, bind, Except.bind, pure, Except.pure] at hs
    exact (Prod.ext_iff.mp (Except.ok.inj hs)).2.symm
  have hs0 : 0 < s2 := by rw [hs2]; positivity
  have hinv : (cov (maternFormula p) eps (Fin.cons (Real.log s2) (guessLoginvrho x)) x .same)⁻¹ =
      s2⁻¹ • (cov (maternFormula p) eps (Fin.cons (Real.log 1) (guessLoginvrho x)) x .same)⁻¹ := by
    rw [cov_cons, Real.exp_log hs0]
    have := Matrix.inv_smul' (cov (maternFormula p) eps (Fin.cons (Real.log 1) (guessLoginvrho x)) x .same)
      (Units.mk0 s2 hs0.ne') (PosDef.det_unit hK)
    simpa [Units.smul_def] using this
  refine ⟨m, Fin.cons (Real.log s2) (guessLoginvrho x), ?_, guessed_ranges hv _, fun b => ?_, ?_⟩
  · simp only [guessConstantMean, hs, bind, Except.bind, pure, Except.pure]
  · rw [hinv, smul_mulVec, smul_mulVec, dotProduct_smul, dotProduct_smul, smul_eq_mul, smul_eq_mul]
    exact mul_le_mul_of_nonneg_left (hm b) (inv_nonneg.mpr hs0.le)
  · rw [hinv, smul_mulVec, dotProduct_smul, smul_eq_mul, inv_mul_eq_iff_eq_mul₀ hs0.ne', hs2]
    field_simp

/-- **C96** (linear mean) The guess has the scaled ranges as length scales; the unique minimiser of the restricted
likelihood among the parameter vectors with these length scales has a log-variance larger by `log (n / (n - q))`. -/
theorem guessLinear_value (hla : la.Sound be) (p : ℕ) {eps : ℝ} {x : Matrix (Fin (q + r)) (Fin d) ℝ}
    (ha : Admissible eps x) (hv : Varies x) {P : Mat (q + r) q} (hP : FullRank P) (hq : 0 < q) (hr : 0 < r)
    (z : Fin (q + r) → ℝ) (hz : ∀ b, z ≠ P *ᵥ b) :
    ∃ (th : Fin (d + 1) → ℝ) (v : ℝ → ℝ), guessLinear la (maternFormula p) eps x P z = .ok th ∧ GuessedRanges x th ∧
      (∀ a, reml be la (cov (maternFormula p) eps (Function.update th 0 a) x .same) P z = .ok (.finite (v a))) ∧
      ∀ a, a ≠ th 0 + Real.log (((q + r : ℕ) : ℝ) / r) → v (th 0 + Real.log (((q + r : ℕ) : ℝ) / r)) < v a := by
  have hK := matern_Kii p (Fin.cons (Real.log 1) (guessLoginvrho x)) ha
  have hn' : (0 : ℝ) < ((q + r : ℕ) : ℝ) := by exact_mod_cast (by omega : 0 < q + r)
  have hr' : (0 : ℝ) < r := by exact_mod_cast hr
  obtain ⟨B, hB, -, b, hb⟩ := normKSqrd_gls (be := be) hla hK hP z
  have hB0 : 0 < B := hb ▸ PosDef.quad_pos hK.inv (sub_ne_zero.mpr (hz b))
  have hs : initSigma2 la (cov (maternFormula p) eps (Fin.cons (Real.log 1) (guessLoginvrho x)) x .same) P z =
      .ok (1 / ((q + r : ℕ) : ℝ) * B) := by
    simp only [initSigma2, hB, bind, Except.bind, pure, Except.pure]
  have hs0 : 0 < 1 / ((q + r : ℕ) : ℝ) * B := by positivity
  obtain ⟨v, hv1, hv2, -⟩ := initSigma2_reml_false (be := be) hla (CPD.of_posDef hK P) hP z hq hr _ hs hs0
  refine ⟨Fin.cons (Real.log (1 / ((q + r : ℕ) : ℝ) * B)) (guessLoginvrho x), fun a => v (Real.exp a), ?_,
    guessed_ranges hv _, ?_, ?_⟩
  · simp only [guessLinear, hs, bind, Except.bind, pure, Except.pure]
  · intro a
    rw [Fin.update_cons_zero, cov_cons]
    exact hv1 _ (Real.exp_pos a)
  · intro a hne
    simp only [Fin.cons_zero] at hne ⊢
    have hp : 0 < ((q + r : ℕ) : ℝ) / r := by positivity
    rw [Real.exp_add, Real.exp_log hs0, Real.exp_log hp, mul_comm]
    refine hv2 _ (Real.exp_pos a) fun h => hne ?_
    rw [← Real.log_mul hs0.ne' hp.ne', mul_comm, ← h, Real.log_exp]

/-- The hypotheses hold of two points in the plane and data `1, 2`. -/
example : ∃ (th : Fin 3 → ℝ) (v : ℝ → ℝ),
    guessZeroMean (exactLA .numpy) (maternFormula 1) 0 (!![0, 1; 100, 2] : Matrix (Fin 2) (Fin 2) ℝ) ![1, 2] = .ok th ∧
    (∀ a, nllZeroMean .numpy (exactLA .numpy) (cov (maternFormula 1) 0 (Function.update th 0 a)
      (!![0, 1; 100, 2] : Matrix (Fin 2) (Fin 2) ℝ) .same) ![1, 2] = .ok (.finite (v a))) ∧
    ∀ a, a ≠ th 0 → v (th 0) < v a := by
  have hx : Function.Injective (!![0, 1; 100, 2] : Matrix (Fin 2) (Fin 2) ℝ) := by
    intro i j h
    have := congrFun h 1
    fin_cases i <;> fin_cases j <;> simp_all
  have hs : Varies (!![0, 1; 100, 2] : Matrix (Fin 2) (Fin 2) ℝ) := by
    intro j
    refine ⟨0, 1, ?_⟩
    fin_cases j <;> norm_num
  obtain ⟨th, v, h1, -, h3, h2⟩ := guessZeroMean_min (exactLA_contract .numpy).toSound 1 (eps := 0) (Or.inr ⟨le_rfl, hx⟩) hs
    ![1, 2] (fun h => by have := congrFun h 0; simp at this)
  exact ⟨th, v, h1, h3, h2⟩

end Verif.Core
