import Verif.Core.FisherObject
import Verif.Core.PropsObject
import Verif.Core.PropsFisherTorch
import Mathlib.Analysis.SpecialFunctions.Trigonometric.DerivHyp
import Mathlib.Analysis.Complex.ExponentialBounds

/-!
# C283: Fisher information of a `Model`: which parameters are used, and integer arrays
-/

set_option autoImplicit false

namespace Verif.Core.Obj

open Verif Verif.Data Matrix

variable {d q n r p : ℕ} {M : Type} {be : Backend} {la : LA}

/-! ## Which parameters -/

/-- **C283** Without an argument the stored array is used; `None` and lists stored in the model are refused; a list
passed as an argument is the array of the same elements. -/
theorem fisher_argument (g : GP d q (Fin p → ℝ) M) (stored : CovArg p) (xi : Pts (q + r) d) (eps : ℝ) (i : Bool)
    (v : Fin p → ℝ) :
    (fisherInformation la g (.arr i v) xi .none eps = fisherInformation la g stored xi (.arr i v) eps ∧
      fisherInformationCpd la g (.arr i v) xi .none eps = fisherInformationCpd la g stored xi (.arr i v) eps) ∧
    (fisherInformation la g stored xi (.list i v) eps = fisherInformation la g stored xi (.arr i v) eps ∧
      fisherInformationCpd la g stored xi (.list i v) eps = fisherInformationCpd la g stored xi (.arr i v) eps) ∧
    (∀ s, (s = .none ∨ ∃ i v, s = .list i v) →
      fisherInformation la g s xi .none eps = .error .attributeError ∧
      fisherInformationCpd la g s xi .none eps = .error .attributeError ∧
      logPriorReferenceAs la g s xi .none eps = .error .attributeError) := by
  refine ⟨⟨rfl, ?_⟩, ⟨rfl, rfl⟩, ?_⟩
  · simp only [fisherInformationCpd, thetaArr, bind, Except.bind, fisherInformation]
  · rintro s (rfl | ⟨i, v, rfl⟩) <;> exact ⟨rfl, rfl, rfl⟩

/-- **C283** With a floating array the methods are the functions of `core/fisher.py` on the covariance of the model;
the contrasts are used exactly for a linear predictor. -/
theorem fisher_float (g : GP d q (Fin p → ℝ) M) (stored : CovArg p) (xi : Pts (q + r) d) (eps : ℝ) (v : Fin p → ℝ) :
    fisherInformation la g stored xi (.arr false v) eps = fisher la (g.covMat xi xi) v eps ∧
    (g.meantype = "linear_predictor" → fisherInformationCpd la g stored xi (.arr false v) eps =
      fisherCpd la (g.covMat xi xi) (g.mean xi g.meanparam) v eps) ∧
    (g.meantype ≠ "linear_predictor" → fisherInformationCpd la g stored xi (.arr false v) eps =
      fisher la (g.covMat xi xi) v eps) ∧
    logPriorReferenceAs la g stored xi (.arr false v) eps = logPriorReference la (g.covMat xi xi) v eps := by
  refine ⟨rfl, fun h => ?_, fun h => ?_, rfl⟩
  · simp only [fisherInformationCpd, thetaArr, bind, Except.bind, h, if_true]
    rfl
  · simp only [fisherInformationCpd, thetaArr, bind, Except.bind, h, if_false]
    rfl

/-! ## Integer arrays -/

theorem store_int {k : ℤ} {h : ℝ} (h0 : 0 < h) (h1 : h < 1) :
    (0 ≤ k → Backend.storeAs true (k + h) = k) ∧ (1 ≤ k → Backend.storeAs true (k - h) = ((k - 1 : ℤ) : ℝ)) ∧
    (k ≤ 0 → Backend.storeAs true (k - h) = k) ∧ (k ≤ -1 → Backend.storeAs true (k + h) = ((k + 1 : ℤ) : ℝ)) := by
  refine ⟨fun hk => ?_, fun hk => ?_, fun hk => ?_, fun hk => ?_⟩
  · have hk' : (0 : ℝ) ≤ k := by exact_mod_cast hk
    rw [Backend.storeAs, if_pos rfl, if_pos (by linarith)]
    norm_cast
    rw [Int.floor_eq_iff]
    constructor <;> push_cast <;> linarith
  · have hk' : (1 : ℝ) ≤ k := by exact_mod_cast hk
    rw [Backend.storeAs, if_pos rfl, if_pos (by linarith)]
    norm_cast
    rw [Int.floor_eq_iff]
    constructor <;> push_cast <;> linarith
  · have hk' : (k : ℝ) ≤ 0 := by exact_mod_cast hk
    rw [Backend.storeAs, if_pos rfl, if_neg (by linarith)]
    norm_cast
    rw [Int.ceil_eq_iff]
    constructor <;> push_cast <;> linarith
  · have hk' : (k : ℝ) ≤ -1 := by exact_mod_cast hk
    rw [Backend.storeAs, if_pos rfl, if_neg (by linarith)]
    norm_cast
    rw [Int.ceil_eq_iff]
    constructor <;> push_cast <;> linarith

/-- **C283** The "derivatives" computed for an integer array: zero for a parameter equal to zero, otherwise `7/(12 ε)`
times the difference over a unit step towards zero. -/
theorem dCov_int (cov : (Fin p → ℝ) → Mat n n) (k : Fin p → ℤ) {eps : ℝ} (h0 : 0 < eps) (h1 : 2 * eps < 1) (i : Fin p) :
    let theta : Fin p → ℝ := fun j => (k j : ℝ)
    (k i = 0 → dCovAs true cov theta eps i = 0) ∧
    (1 ≤ k i → dCovAs true cov theta eps i =
      (7 / (12 * eps)) • (cov theta - cov (Function.update theta i ((k i - 1 : ℤ) : ℝ)))) ∧
    (k i ≤ -1 → dCovAs true cov theta eps i =
      (7 / (12 * eps)) • (cov (Function.update theta i ((k i + 1 : ℤ) : ℝ)) - cov theta)) := by
  intro theta
  have hself : Function.update theta i ((k i : ℤ) : ℝ) = theta := Function.update_eq_self i theta
  obtain ⟨a1, a2, a3, a4⟩ := store_int (k := k i) h0 (by linarith)
  obtain ⟨b1, b2, b3, b4⟩ := store_int (k := k i) (h := 2 * eps) (by linarith) h1
  have e : dCovAs true cov theta eps i = finiteDiff (fun v => cov (Function.update theta i (Backend.storeAs true v)))
    ((k i : ℤ) : ℝ) eps := rfl
  have hne : (12 * eps) ≠ 0 := by positivity
  refine ⟨fun h => ?_, fun h => ?_, fun h => ?_⟩
  · rw [e, finiteDiff, a1 h.ge, b1 h.ge, a3 h.le, b3 h.le, hself]
    have : -cov theta + (8 : ℝ) • cov theta - (8 : ℝ) • cov theta + cov theta = 0 := by abel
    rw [this, smul_zero]
  · rw [e, finiteDiff, a1 (by omega), b1 (by omega), a2 h, b2 h, hself]
    ext x y
    simp only [Matrix.smul_apply, Matrix.sub_apply, Matrix.add_apply, Matrix.neg_apply, smul_eq_mul]
    field_simp
    ring
  · rw [e, finiteDiff, a3 (by omega), b3 (by omega), a4 h, b4 h, hself]
    ext x y
    simp only [Matrix.smul_apply, Matrix.sub_apply, Matrix.add_apply, Matrix.neg_apply, smul_eq_mul]
    field_simp
    ring

/-- **C283** At an integer array of zeros both information matrices are zero, whatever the covariance, and the
reference prior refuses. -/
theorem fisher_int_zero (hla : la.Sound be) (g : GP d q (Fin p → ℝ) M) (stored : CovArg p) (xi : Pts (q + r) d)
    (hK : (g.covMat xi xi 0).PosDef) (hP : g.meantype = "linear_predictor" → FullRank (g.mean xi g.meanparam))
    {eps : ℝ} (h0 : 0 < eps) (h1 : 2 * eps < 1) :
    fisherInformation la g stored xi (.arr true 0) eps = .ok 0 ∧
    fisherInformationCpd la g stored xi (.arr true 0) eps = .ok 0 ∧
    (0 < p → logPriorReferenceAs la g stored xi (.arr true 0) eps = .error .valueError) := by
  have hd : ∀ i, dCovAs true (g.covMat xi xi) 0 eps i = 0 := fun i => by
    have := (dCov_int (g.covMat xi xi) (fun _ => 0) h0 h1 i).1 rfl
    simpa [Pi.zero_def] using this
  have hinv := hla.inv_ok _ ((Matrix.isUnit_iff_isUnit_det _).mpr (PosDef.det_unit hK))
  have hfill : ∀ f : Fin p → Fin p → ℝ, (∀ i j, f i j = 0) → symFill f = 0 := fun f hf => by
    ext i j
    simp [symFill, hf]
  have hF : fisherInformation la g stored xi (.arr true 0) eps = .ok 0 := by
    simp only [fisherInformation, thetaArr, bind, Except.bind, fisherAs, hinv, hd]
    rw [hfill _ fun i j => by simp]
  refine ⟨hF, ?_, fun hp => ?_⟩
  · by_cases hm : g.meantype = "linear_predictor"
    · have hqr := hla.qr_ok (g.mean xi g.meanparam) (Nat.le_add_right q r)
      have hW : IsContrast _ (contrastMatrix la (g.mean xi g.meanparam)) := hqr.contrast (hP hm)
      have hG := contrast_posDef hW.orth hW.null (CPD.of_posDef hK (g.mean xi g.meanparam))
      obtain ⟨C, hc, hC⟩ := hla.chol_ok _ hG
      have hc' : la.chol (((la.qr (g.mean xi g.meanparam)).1.submatrix id (Fin.natAdd q))ᵀ *
        (g.covMat xi xi 0 * (la.qr (g.mean xi g.meanparam)).1.submatrix id (Fin.natAdd q))) = .ok C := hc
      simp only [fisherInformationCpd, thetaArr, bind, Except.bind, hm, if_true, fisherCpdAs, hc', pure, Except.pure, hd]
      rw [hfill _ fun i j => by simp]
    · simp only [fisherInformationCpd, thetaArr, bind, Except.bind, hm, if_false]
      exact hF
  · have : Nonempty (Fin p) := ⟨⟨0, hp⟩⟩
    simp only [logPriorReferenceAs, hF, bind, Except.bind]
    rw [((logdet_spec (0 : Mat p p)).2.1 det_zero).1]

/-- The difference formula applied to the exponential is positive. -/
theorem fd_exp_pos {eps : ℝ} (h0 : 0 < eps) (h1 : 2 * eps < 1) :
    0 < finiteDiff (fun v : ℝ => Real.exp v) 0 eps := by
  have hs : 0 < Real.sinh eps := Real.sinh_pos_iff.mpr h0
  have hc : Real.cosh eps < 4 := by
    rw [Real.cosh_eq]
    have h2 : Real.exp eps ≤ Real.exp 1 := Real.exp_le_exp.mpr (by linarith)
    have h3 : Real.exp (-eps) ≤ 1 := Real.exp_le_one_iff.mpr (by linarith)
    linarith [Real.exp_one_lt_d9]
  have e1 : Real.exp eps - Real.exp (-eps) = 2 * Real.sinh eps := by
    rw [Real.sinh_eq]
    ring
  have e2 : Real.exp (2 * eps) - Real.exp (-(2 * eps)) = 4 * (Real.sinh eps * Real.cosh eps) := by
    have := Real.sinh_two_mul eps
    rw [Real.sinh_eq] at this
    linarith
  have : finiteDiff (fun v : ℝ => Real.exp v) 0 eps =
      (12 * eps)⁻¹ * (8 * (Real.exp eps - Real.exp (-eps)) - (Real.exp (2 * eps) - Real.exp (-(2 * eps)))) := by
    simp only [finiteDiff, smul_eq_mul, zero_add, zero_sub]
    ring
  rw [this, e1, e2]
  have : 8 * (2 * Real.sinh eps) - 4 * (Real.sinh eps * Real.cosh eps) = 4 * Real.sinh eps * (4 - Real.cosh eps) := by ring
  rw [this]
  exact mul_pos (by positivity) (mul_pos (by positivity) (by linarith))

variable {mean : {n : ℕ} → Pts n d → Option M → Mat n q} {mp : Option M} {mtype : String}

/-- The covariance of a Matérn model as a function of the log variance alone. -/
theorem matern_variance (k : ℝ → ℝ) (eps : ℝ) (x : Pts n d) (th : Fin (d + 1) → ℝ) (v : ℝ) :
    maternMat k eps x x (Function.update th 0 v) = Real.exp (v - th 0) • maternMat k eps x x th := by
  rw [maternMat_self, maternMat_self]
  have h1 : ∀ j : Fin d, Function.update th 0 v j.succ = th j.succ := fun j =>
    Function.update_of_ne (Fin.succ_ne_zero j) _ _
  have he : Real.exp v = Real.exp (v - th 0) * Real.exp (th 0) := by
    rw [← Real.exp_add, sub_add_cancel]
  ext i j
  simp only [Kernel.cov, Kernel.covII, of_apply, Matrix.smul_apply, smul_eq_mul, Function.update_self, h1]
  rw [he]
  ring

/-- **C283** False in general: `fisher_information` at the parameters `0, ..., 0` of a Matérn model with at least one
observation depends on whether the array holds integers.  For integers it is the zero matrix; for floats the entry of
the log variance is positive. -/
theorem fisher_int_false (hla : la.Sound be) (k : ℕ) {nug : ℝ} {xi : Pts (q + r) d} (hx : Admissible nug xi.val)
    (hn : 0 < q + r) (stored : CovArg (d + 1)) {eps : ℝ} (h0 : 0 < eps) (h1 : 2 * eps < 1) :
    let g := matern (Kernel.maternFormula k) nug "zero" mean mp none
    fisherInformation la g stored xi (.arr true 0) eps = .ok 0 ∧
    ∃ I, fisherInformation la g stored xi (.arr false 0) eps = .ok I ∧ 0 < I 0 0 := by
  intro g
  have hg : ∀ t, g.covMat xi xi t = Kernel.cov (Kernel.maternFormula k) nug t xi.val .same := fun t => maternMat_self _ _ _ _
  have hK : ∀ t, (g.covMat xi xi t).PosDef := fun t => by
    rw [hg]
    exact matern_Kii k t hx
  refine ⟨(fisher_int_zero hla g stored xi (hK 0) (fun h => absurd (show "zero" = "linear_predictor" from h) (by decide)) h0 h1).1, ?_⟩
  obtain ⟨I, hI, hps, -, hz⟩ := fisher_psd hla (g.covMat xi xi) (fun t => by
    have := (hK t).1
    rw [IsHermitian, conjTranspose_eq_transpose_of_trivial] at this
    exact this) 0 (hK 0) eps
  refine ⟨I, hI, ?_⟩
  have hI0 : (Pi.single 0 1 : Fin (d + 1) → ℝ) ⬝ᵥ (I *ᵥ Pi.single 0 1) = I 0 0 := by
    simp
  have hq : 0 ≤ I 0 0 := hI0 ▸ PosSemidef.quad_nonneg hps _
  refine lt_of_le_of_ne hq fun hne => ?_
  have hsum := (hz (Pi.single 0 1)).mp (hI0.trans hne.symm)
  have hd : dCov (g.covMat xi xi) 0 eps 0 = finiteDiff (fun v : ℝ => Real.exp v) 0 eps • g.covMat xi xi 0 := by
    have e : ∀ v, g.covMat xi xi (Function.update 0 0 v) = Real.exp v • g.covMat xi xi 0 := fun v => by
      have := matern_variance (Kernel.maternFormula k) nug xi 0 v
      rw [Pi.zero_apply, sub_zero] at this
      exact this
    simp only [dCov, finiteDiff, e, Pi.zero_apply, smul_eq_mul]
    module
  have hs2 : ∑ i, (Pi.single 0 1 : Fin (d + 1) → ℝ) i • dCov (g.covMat xi xi) 0 eps i = dCov (g.covMat xi xi) 0 eps 0 := by
    rw [Finset.sum_eq_single 0]
    · simp
    · intro b _ hb
      simp [Pi.single_eq_of_ne hb]
    · simp
  rw [hs2, hd, smul_eq_zero] at hsum
  rcases hsum with hsum | hsum
  · exact (fd_exp_pos h0 h1).ne' hsum
  · have := (hK 0).diag_pos (i := ⟨0, hn⟩)
    rw [hsum] at this
    exact lt_irrefl _ this

/-- **C283** And at an integer log variance of at least one, the entry of the log variance is `n/2` times
`(7 (1 - 1/e)/(12 ε))²` instead of about `n/2`: some 136000 times as large with the default step. -/
theorem fisher_int_variance (hla : la.Sound be) (k : ℕ) {nug : ℝ} {xi : Pts (q + r) d} (hx : Admissible nug xi.val)
    (stored : CovArg (d + 1)) {eps : ℝ} (h0 : 0 < eps) (h1 : 2 * eps < 1) (t : Fin (d + 1) → ℤ) (ht : 1 ≤ t 0) :
    ∃ I, fisherInformation la (matern (Kernel.maternFormula k) nug mtype mean mp none) stored xi
        (.arr true fun j => (t j : ℝ)) eps = .ok I ∧
      I 0 0 = (q + r : ℕ) / 2 * (7 * (1 - Real.exp (-1)) / (12 * eps)) ^ 2 := by
  set th : Fin (d + 1) → ℝ := fun j => (t j : ℝ) with hth
  set K := maternMat (Kernel.maternFormula k) nug xi xi th with hKd
  have hK : K.PosDef := by
    rw [hKd, maternMat_self]
    exact matern_Kii k th hx
  have hu := PosDef.det_unit hK
  have hinv := hla.inv_ok K ((Matrix.isUnit_iff_isUnit_det _).mpr hu)
  have hd : dCovAs true (maternMat (Kernel.maternFormula k) nug xi xi) th eps 0 =
      (7 * (1 - Real.exp (-1)) / (12 * eps)) • K := by
    have := (dCov_int (maternMat (Kernel.maternFormula k) nug xi xi) t h0 h1 0).2.1 ht
    rw [← hth] at this
    rw [this, matern_variance]
    have e : (((t 0 - 1 : ℤ) : ℝ) - th 0) = -1 := by
      rw [hth]
      push_cast
      ring
    rw [e, ← hKd, ← one_smul ℝ K, smul_smul, mul_one, ← sub_smul, smul_smul, one_smul]
    congr 1
    ring
  have hF : fisherInformation la (matern (Kernel.maternFormula k) nug mtype mean mp none) stored xi (.arr true th) eps =
      fisherAs la true (maternMat (Kernel.maternFormula k) nug xi xi) th eps := rfl
  refine ⟨_, by rw [hF]; simp only [fisherAs, ← hKd, hinv]; rfl, ?_⟩
  simp only [symFill, of_apply, le_refl, if_true, hd]
  simp only [Matrix.mul_smul, Matrix.smul_mul, Matrix.nonsing_inv_mul _ hu, Matrix.one_mul, Matrix.trace_smul,
    Matrix.trace_one, Fintype.card_fin, smul_eq_mul]
  push_cast
  ring

/-- Admissible case: two points on a line, no mean functions, the default step: the information matrix for
`[0, 0]` is zero, for `[0., 0.]` it is not, and for `[1, 0]` the first entry is `(7 (1 - 1/e)/0.012)²`. -/
example (hla : la.Sound be) (k : ℕ) (mean : {n : ℕ} → Pts n 1 → Option Unit → Mat n 0) :
    let xi : Pts (0 + 2) 1 := ⟨1, .nd .working, !![0; 1]⟩
    let g := matern (Kernel.maternFormula k) 0 "zero" mean none none
    fisherInformation la g .none xi (.arr true 0) (1 / 1000) = .ok 0 ∧
    (∃ I, fisherInformation la g .none xi (.arr false 0) (1 / 1000) = .ok I ∧ 0 < I 0 0) ∧
    (∃ I, fisherInformation la g .none xi (.arr true fun j => ((![1, 0] : Fin 2 → ℤ) j : ℝ)) (1 / 1000) = .ok I ∧
      I 0 0 = ((0 + 2 : ℕ) : ℝ) / 2 * (7 * (1 - Real.exp (-1)) / (12 * (1 / 1000))) ^ 2) := by
  intro xi g
  have hx : Admissible 0 xi.val := Or.inr ⟨le_refl _, fun a b h => by
    fin_cases a <;> fin_cases b <;> first | rfl | (exfalso; have := congrFun h 0; simp [xi] at this)⟩
  exact ⟨(fisher_int_false hla k hx (by norm_num) .none (by norm_num) (by norm_num)).1,
    (fisher_int_false hla k hx (by norm_num) .none (by norm_num) (by norm_num)).2,
    fisher_int_variance hla k hx .none (by norm_num) (by norm_num) ![1, 0] (by simp)⟩

/-- **C80** `Model.k_inverses`: the squared norm of the data, and the inverse covariance matrix times ones and times the data, at the
given parameters. -/
theorem inverses_value (hla : la.Sound be) (g : GP d q (Fin p → ℝ) M) (xi : Pts n d) (z : Fin n → ℝ) (θ : Fin p → ℝ)
    (hK : (g.covMat xi xi θ).PosDef) :
    inverses la g xi z θ = .ok (z ⬝ᵥ ((g.covMat xi xi θ)⁻¹ *ᵥ z), (g.covMat xi xi θ)⁻¹ *ᵥ (fun _ => 1), (g.covMat xi xi θ)⁻¹ *ᵥ z) :=
  (norms_zero hla hK z).2

/-- Two points on a line. -/
example (hla : la.Sound be) (k : ℕ) (mean : {n : ℕ} → Pts n 1 → Option Unit → Mat n 0) (z : Fin 2 → ℝ) (θ : Fin (1 + 1) → ℝ) :
    let xi : Pts 2 1 := ⟨1, .nd .working, !![0; 1]⟩
    let g := matern (Kernel.maternFormula k) 0 "zero" mean none none
    ∃ v a b, inverses la g xi z θ = .ok (v, a, b) ∧ v = z ⬝ᵥ b := by
  intro xi g
  have hx : Admissible 0 xi.val := Or.inr ⟨le_refl _, fun a b h => by
    fin_cases a <;> fin_cases b <;> first | rfl | (exfalso; have := congrFun h 0; simp [xi] at this)⟩
  have hg : g.covMat xi xi θ = Kernel.cov (Kernel.maternFormula k) 0 θ xi.val .same := maternMat_self (Kernel.maternFormula k) 0 xi θ
  exact ⟨_, _, _, inverses_value hla g xi z θ (by rw [hg]; exact matern_Kii k θ hx), rfl⟩

end Verif.Core.Obj
