import Verif.Core.PropsSmooth
import Verif.Core.PropsGuess

/-!
# C270: is the choice of covariance parameters a well-posed problem?

On bounded closed sets of length scales, with any variance, a best parameter exists unless the data lie in the span of
the mean functions.  Over all parameters it may not exist, and it may not be unique.
-/

set_option autoImplicit false

namespace Verif.Core

open Verif Verif.Data Matrix
open Verif.Kernel (cov covII maternFormula scaledDistance)

variable {n q d r : ℕ} {be : Backend} {la : LA}

/-- The criterion as a function of the log of the variance. -/
theorem density_scale {A : Mat n n} (hA : A.PosDef) (z : Fin n → ℝ) (a : ℝ) :
    -Real.log (gaussDensity (Real.exp a • A) 0 z) = 1 / 2 * (n * Real.log (2 * Real.pi) + Real.log A.det) +
      (n / 2 * a + (z ⬝ᵥ (A⁻¹ *ᵥ z)) / (2 * Real.exp a)) := by
  have ht := Real.exp_pos a
  have hp : (0 : ℝ) < 2 * Real.pi := by have := Real.pi_pos; positivity
  have hinv : (Real.exp a • A)⁻¹ = (Real.exp a)⁻¹ • A⁻¹ := by
    have := Matrix.inv_smul' A (Units.mk0 (Real.exp a) ht.ne') (PosDef.det_unit hA)
    simpa [Units.smul_def] using this
  have hd := hA.det_pos
  have hd' : 0 < (2 * Real.pi) ^ n * (Real.exp a • A).det := mul_pos (pow_pos hp n) (hA.smul ht).det_pos
  unfold gaussDensity
  rw [Real.log_mul (inv_pos.mpr (Real.sqrt_pos.mpr hd')).ne' (Real.exp_pos _).ne', Real.log_inv, Real.log_exp,
    Real.log_sqrt hd'.le, Real.log_mul (pow_pos hp n).ne' (hA.smul ht).det_pos.ne', det_smul, Fintype.card_fin,
    Real.log_mul (pow_pos ht n).ne' hd.ne', Real.log_pow, Real.log_pow, Real.log_exp, hinv, sub_zero, smul_mulVec,
    dotProduct_smul, smul_eq_mul]
  field_simp
  ring

/-- A family of covariances, times a variance: a minimum over all variances and a bounded closed set of the rest. -/
theorem density_min_variance {A : (Fin d → ℝ) → Mat n n} (hA : ∀ l, (A l).PosDef)
    (hs : ∀ i j, Continuous fun l => A l i j) {z : Fin n → ℝ} (hz : z ≠ 0) {S : Set (Fin d → ℝ)} (hS : IsCompact S)
    (hne : S.Nonempty) :
    ∃ a, ∃ l ∈ S, ∀ b, ∀ k ∈ S, -Real.log (gaussDensity (Real.exp a • A l) 0 z) ≤
      -Real.log (gaussDensity (Real.exp b • A k) 0 z) := by
  have hn : 0 < n := by
    rcases Nat.eq_zero_or_pos n with rfl | h
    · exact absurd (Subsingleton.elim z 0) hz
    · exact h
  have hn' : (0 : ℝ) < n := by exact_mod_cast hn
  have hB : ∀ l, 0 < z ⬝ᵥ ((A l)⁻¹ *ᵥ z) := fun l => PosDef.quad_pos (hA l).inv hz
  have hs0 : ∀ i j, ContDiff ℝ 0 fun l => A l i j := fun i j => contDiff_zero.mpr (hs i j)
  have hq : Continuous fun l => z ⬝ᵥ ((A l)⁻¹ *ᵥ z) :=
    (quad_smooth (N := 0) (inv_smooth hs0 fun l => (hA l).det_pos.ne') z).continuous
  have hdet : Continuous fun l => (A l).det := (det_smooth (N := 0) hs0).continuous
  -- the profile
  set B : (Fin d → ℝ) → ℝ := fun l => z ⬝ᵥ ((A l)⁻¹ *ᵥ z) with hBdef
  set f : (Fin d → ℝ) → ℝ := fun l => 1 / 2 * (n * Real.log (2 * Real.pi) + Real.log (A l).det) +
    (n / 2 * Real.log (B l / n) + n / 2) with hf
  have hfc : Continuous f := by
    have h1 : Continuous fun l => Real.log (A l).det := hdet.log fun l => (hA l).det_pos.ne'
    have h2 : Continuous fun l => Real.log (B l / n) := (hq.div_const _).log fun l => (div_pos (hB l) hn').ne'
    fun_prop
  have hopt : ∀ l, -Real.log (gaussDensity (Real.exp (Real.log (B l / n)) • A l) 0 z) = f l := fun l => by
    have := hB l
    rw [density_scale (hA l), Real.exp_log (div_pos this hn'), hf]
    have : B l / (2 * (B l / n)) = n / 2 := by
      have h0 : B l ≠ 0 := (hB l).ne'
      field_simp
    simp only [hBdef] at this ⊢
    rw [this]
  have hle : ∀ b l, f l ≤ -Real.log (gaussDensity (Real.exp b • A l) 0 z) := fun b l => by
    have h0 := hB l
    rw [density_scale (hA l), hf]
    have h1 := Real.log_le_sub_one_of_pos (div_pos (div_pos h0 hn') (Real.exp_pos b))
    rw [Real.log_div (div_pos h0 hn').ne' (Real.exp_pos b).ne', Real.log_exp] at h1
    have e : B l / n / Real.exp b = B l / (2 * Real.exp b) * (2 / n) := by field_simp
    simp only [hBdef] at h1 e ⊢
    rw [e] at h1
    have h2 := mul_le_mul_of_nonneg_left h1 (half_pos hn').le
    have e2 : (n : ℝ) / 2 * (z ⬝ᵥ ((A l)⁻¹ *ᵥ z) / (2 * Real.exp b) * (2 / n) - 1) =
        z ⬝ᵥ ((A l)⁻¹ *ᵥ z) / (2 * Real.exp b) - n / 2 := by field_simp
    rw [e2] at h2
    linarith
  obtain ⟨l, hl, hmin⟩ := hS.exists_isMinOn hne hfc.continuousOn
  exact ⟨_, l, hl, fun b k hk => (hopt l).le.trans ((hmin hk).trans (hle b k))⟩

theorem cov_shape_continuous (p : ℕ) (eps : ℝ) (x : Matrix (Fin n) (Fin d) ℝ) (i j : Fin n) :
    Continuous fun l : Fin d → ℝ => cov (maternFormula p) eps (Fin.cons (Real.log 1) l) x .same i j := by
  have h := ((cov_smooth (N := 0) (m := n) p eps x x).1 i j).continuous
  refine h.comp (continuous_pi fun k => ?_)
  refine Fin.cases ?_ (fun k => ?_) k
  · simp only [Fin.cons_zero]
    exact continuous_const
  · simp only [Fin.cons_succ]
    exact continuous_apply k

/-- **C270** With any variance and length scales in a bounded closed set, the likelihood criteria have a minimum, for data
outside the span of the mean functions. -/
theorem selection_min (hla : la.Sound be) (p : ℕ) {eps : ℝ} {S : Set (Fin d → ℝ)} (hS : IsCompact S) (hne : S.Nonempty) :
    (∀ {x : Matrix (Fin n) (Fin d) ℝ} (_ : Admissible eps x) {z : Fin n → ℝ} (_ : z ≠ 0),
      ∃ L : (Fin (d + 1) → ℝ) → ℝ, (∀ th, nllZeroMean be la (cov (maternFormula p) eps th x .same) z = .ok (.finite (L th))) ∧
        ∃ th, (fun j => th (Fin.succ j)) ∈ S ∧ ∀ th', (fun j => th' (Fin.succ j)) ∈ S → L th ≤ L th') ∧
    ∀ {x : Matrix (Fin (q + r)) (Fin d) ℝ} (_ : Admissible eps x) {P : Mat (q + r) q} (_ : FullRank P)
      {z : Fin (q + r) → ℝ} (_ : ∀ b, z ≠ P *ᵥ b),
      ∃ L : (Fin (d + 1) → ℝ) → ℝ, (∀ th, reml be la (cov (maternFormula p) eps th x .same) P z = .ok (.finite (L th))) ∧
        ∃ th, (fun j => th (Fin.succ j)) ∈ S ∧ ∀ th', (fun j => th' (Fin.succ j)) ∈ S → L th ≤ L th' := by
  constructor
  · intro x hx z hz
    have hK : ∀ th, (cov (maternFormula p) eps th x .same).PosDef := fun th => matern_Kii p th hx
    refine ⟨_, fun th => (nll_eq hla (hK th) 0 z).2, ?_⟩
    obtain ⟨a, l, hl, h⟩ := density_min_variance (fun l => hK (Fin.cons (Real.log 1) l))
      (cov_shape_continuous p eps x) hz hS hne
    refine ⟨Fin.cons a l, by simpa only [Fin.cons_succ] using hl, fun th' ht' => ?_⟩
    rw [← Fin.cons_self_tail th', cov_cons _ _ a, cov_cons _ _ (th' 0)]
    exact h _ _ ht'
  · intro x hx P hP z hz
    have hK : ∀ th, (cov (maternFormula p) eps th x .same).PosDef := fun th => matern_Kii p th hx
    have hW : IsContrast P (contrastMatrix la P) := (hla.qr_ok P (Nat.le_add_right q r)).contrast hP
    set W := contrastMatrix la P with hWdef
    have hC : ∀ th, (Wᵀ * (cov (maternFormula p) eps th x .same * W)).PosDef := fun th =>
      contrast_posDef hW.orth hW.null (CPD.of_posDef (hK th) P)
    have hz' : Wᵀ *ᵥ z ≠ 0 := fun h0 => by
      have hPP : (Pᵀ * P).PosDef := by
        have := posDef_gls (K := (1 : Mat (q + r) (q + r))) Matrix.PosDef.one hP
        rwa [inv_one, Matrix.one_mul] at this
      set b := (Pᵀ * P)⁻¹ *ᵥ (Pᵀ *ᵥ z) with hb
      have h1 : Pᵀ *ᵥ (z - P *ᵥ b) = 0 := by
        rw [mulVec_sub, mulVec_mulVec, hb, mulVec_mulVec, Matrix.mul_nonsing_inv _ (PosDef.det_unit hPP), one_mulVec, sub_self]
      obtain ⟨c, hc⟩ := hW.span _ h1
      have h2 : Wᵀ * P = 0 := by
        rw [← Matrix.transpose_transpose (Wᵀ * P), Matrix.transpose_mul, Matrix.transpose_transpose, hW.null,
          Matrix.transpose_zero]
      have h3 : c = 0 := by
        have := congrArg (Wᵀ *ᵥ ·) hc
        simp only [mulVec_sub, mulVec_mulVec, h2, hW.orth, h0, zero_mulVec, one_mulVec, sub_zero] at this
        exact this.symm
      rw [h3, mulVec_zero, sub_eq_zero] at hc
      exact hz b hc
    refine ⟨_, fun th => reml_eq hla (CPD.of_posDef (hK th) P) hP z hW, ?_⟩
    obtain ⟨a, l, hl, h⟩ := density_min_variance (fun l => hC (Fin.cons (Real.log 1) l))
      (fun i j => by
        simp only [Matrix.mul_apply]
        exact continuous_finsetSum _ fun k _ => continuous_const.mul (continuous_finsetSum _ fun m _ =>
          (cov_shape_continuous p eps x k m).mul continuous_const)) hz' hS hne
    refine ⟨Fin.cons a l, by simpa only [Fin.cons_succ] using hl, fun th' ht' => ?_⟩
    rw [← Fin.cons_self_tail th', cov_cons _ _ a, cov_cons _ _ (th' 0), Matrix.smul_mul, Matrix.mul_smul,
      Matrix.smul_mul, Matrix.mul_smul]
    exact h _ _ ht'

/-! ## Two observations -/

/-- Two points on a line. -/
def twoX : Matrix (Fin 2) (Fin 1) ℝ := !![0; 1]

/-- Opposite observations. -/
def twoZ : Fin 2 → ℝ := ![1, -1]

/-- A constant mean. -/
def twoP : Mat (1 + 1) 1 := !![1; 1]

theorem two_admissible {eps : ℝ} (he : 0 ≤ eps) : Admissible eps twoX := by
  refine Or.inr ⟨he, fun i j h => ?_⟩
  have := congrFun h 0
  fin_cases i <;> fin_cases j <;> simp [twoX] at this ⊢

theorem two_cov (p : ℕ) (eps : ℝ) (th : Fin 2 → ℝ) :
    cov (maternFormula p) eps th twoX .same = Real.exp (th 0) • !![1 + 10 * eps, maternFormula p (Real.exp (th 1));
      maternFormula p (Real.exp (th 1)), 1 + 10 * eps] := by
  have h0 := (Kernel.maternFormula_shape_props p).1
  have e1 : scaledDistance (fun j : Fin 1 => th j.succ) (twoX 0) (twoX 1) = Real.exp (th 1) := by
    simp [scaledDistance, Kernel.cdistNumpy, Kernel.scaleRow, twoX, Real.sqrt_sq (Real.exp_pos _).le]
  have e2 : scaledDistance (fun j : Fin 1 => th j.succ) (twoX 1) (twoX 0) = Real.exp (th 1) := by
    simp [scaledDistance, Kernel.cdistNumpy, Kernel.scaleRow, twoX, Real.sqrt_sq (Real.exp_pos _).le]
  ext i j
  simp only [cov, covII, of_apply, Matrix.smul_apply, smul_eq_mul]
  fin_cases i <;> fin_cases j
  · simp only [Fin.zero_eta, Kernel.scaledDistance_self, h0]
    simp
    ring
  · simp only [Fin.zero_eta, Fin.mk_one, e1]
    simp
  · simp only [Fin.zero_eta, Fin.mk_one, e2]
    simp
  · simp only [Fin.mk_one, Kernel.scaledDistance_self, h0]
    simp
    ring

theorem corr_range (p : ℕ) (t : ℝ) : 0 < maternFormula p (Real.exp t) ∧ maternFormula p (Real.exp t) < 1 :=
  ⟨(Kernel.maternFormula_shape_props p).2.1 _ (Real.exp_pos t).le, (Kernel.maternFormula_shape_props p).2.2.2 _ (Real.exp_pos t)⟩

theorem corr_decreasing (p : ℕ) {t u : ℝ} (h : t < u) : maternFormula p (Real.exp u) < maternFormula p (Real.exp t) :=
  (Kernel.maternFormula_shape_props p).2.2.1 (Real.exp_pos t).le (Real.exp_pos u).le (Real.exp_lt_exp.mpr h)

theorem two_quad {g c : ℝ} (h : 0 < g - c) (h' : 0 < g + c) :
    (!![g, c; c, g] : Mat 2 2).det = (g - c) * (g + c) ∧
      twoZ ⬝ᵥ ((!![g, c; c, g] : Mat 2 2)⁻¹ *ᵥ twoZ) = 2 / (g - c) := by
  have hd : (!![g, c; c, g] : Mat 2 2).det = (g - c) * (g + c) := by
    rw [Matrix.det_fin_two_of]
    ring
  refine ⟨hd, ?_⟩
  have e : (!![g, c; c, g] : Mat 2 2) *ᵥ ((g - c)⁻¹ • twoZ) = twoZ := by
    funext i
    fin_cases i <;> simp [twoZ, Matrix.mulVec, dotProduct] <;> field_simp <;> ring
  have e2 : (!![g, c; c, g] : Mat 2 2)⁻¹ *ᵥ twoZ = (g - c)⁻¹ • twoZ := by
    have hu : IsUnit (!![g, c; c, g] : Mat 2 2).det := by
      rw [hd]
      exact (mul_pos h h').ne'.isUnit
    conv_lhs => rw [← e]
    rw [mulVec_mulVec, Matrix.nonsing_inv_mul _ hu, one_mulVec]
  rw [e2, dotProduct_smul]
  simp [twoZ, dotProduct]
  field_simp
  norm_num

/-- **C270** "The likelihood has a maximum over all covariance parameters" is false: for two opposite observations the
criterion is bounded below, and every parameter can be improved. -/
theorem ml_attained_false (hla : la.Sound be) (p : ℕ) {eps : ℝ} (he : 0 ≤ eps) :
    ∃ L : (Fin 2 → ℝ) → ℝ,
      (∀ th, nllZeroMean be la (cov (maternFormula p) eps th twoX .same) twoZ = .ok (.finite (L th))) ∧
      (∀ th, Real.log (2 * Real.pi) + 1 ≤ L th) ∧ ∀ th, ∃ th', L th' < L th := by
  have hK : ∀ th, (cov (maternFormula p) eps th twoX .same).PosDef := fun th => matern_Kii p th (two_admissible he)
  set g := 1 + 10 * eps with hg
  set c : (Fin 2 → ℝ) → ℝ := fun th => maternFormula p (Real.exp (th 1)) with hc
  have hm : ∀ th, 0 < g - c th ∧ 0 < c th := fun th => by
    have := corr_range p (th 1)
    exact ⟨by simp only [hc, hg]; linarith [this.2], this.1⟩
  have hval : ∀ th, -Real.log (gaussDensity (cov (maternFormula p) eps th twoX .same) 0 twoZ) =
      Real.log (2 * Real.pi) + 1 / 2 * (Real.log (g - c th) + Real.log (g + c th)) + (th 0 + 1 / ((g - c th) * Real.exp (th 0))) :=
    fun th => by
      obtain ⟨h1, h2⟩ := hm th
      have h3 : 0 < g + c th := by linarith
      have hA : (!![g, c th; c th, g] : Mat 2 2).PosDef := by
        have := (hK th).smul (inv_pos.mpr (Real.exp_pos (th 0)))
        rwa [two_cov, smul_smul, inv_mul_cancel₀ (Real.exp_pos _).ne', one_smul] at this
      rw [two_cov, density_scale hA, (two_quad h1 h3).1, (two_quad h1 h3).2, Real.log_mul h1.ne' h3.ne']
      have := Real.exp_pos (th 0)
      field_simp
      ring
  refine ⟨_, fun th => (nll_eq hla (hK th) 0 twoZ).2, fun th => ?_, fun th => ?_⟩
  · obtain ⟨h1, h2⟩ := hm th
    rw [hval]
    have h3 : Real.log (g - c th) ≤ Real.log (g + c th) := Real.log_le_log h1 (by linarith)
    have h4 := Real.log_le_sub_one_of_pos (inv_pos.mpr (mul_pos h1 (Real.exp_pos (th 0))))
    rw [Real.log_inv, Real.log_mul h1.ne' (Real.exp_pos _).ne', Real.log_exp, ← one_div] at h4
    linarith
  · -- a shorter length scale, and the variance that keeps the quadratic form
    obtain ⟨h1, h2⟩ := hm th
    set c' := maternFormula p (Real.exp (th 1 + 1)) with hc'
    have hlt : c' < c th := corr_decreasing p (by linarith)
    have h0' : 0 < c' := (corr_range p _).1
    have h1' : 0 < g - c' := by linarith
    refine ⟨![th 0 + Real.log (g - c th) - Real.log (g - c'), th 1 + 1], ?_⟩
    rw [hval, hval]
    simp only [Matrix.cons_val_zero]
    have e1 : c ![th 0 + Real.log (g - c th) - Real.log (g - c'), th 1 + 1] = c' := by simp [hc, hc']
    rw [e1, Real.exp_sub, Real.exp_add, Real.exp_log h1, Real.exp_log h1']
    have e2 : (g - c') * (Real.exp (th 0) * (g - c th) / (g - c')) = (g - c th) * Real.exp (th 0) := by
      field_simp
    rw [e2]
    have h5 : Real.log (g + c') < Real.log (g + c th) := Real.log_lt_log (by linarith) (by linarith)
    have h6 : Real.log (g - c th) < Real.log (g - c') := Real.log_lt_log h1 (by linarith)
    linarith

/-- A contrast for the constant mean. -/
noncomputable def twoW : Mat (1 + 1) 1 := !![1 / √2; -(1 / √2)]

theorem twoP_rank : FullRank twoP := fun b hb => by
  have := congrFun hb 0
  simp [twoP, Matrix.mulVec, dotProduct] at this
  funext i
  fin_cases i
  exact this

theorem twoW_contrast : IsContrast twoP twoW := by
  have h2 : √2 * √2 = (2 : ℝ) := Real.mul_self_sqrt (by norm_num)
  have h0 : (0 : ℝ) < √2 := by positivity
  refine ⟨?_, ?_, fun z hz => ?_⟩
  · ext i j
    fin_cases i
    fin_cases j
    simp [twoW, Matrix.mul_apply]
    field_simp
    nlinarith
  · ext i j
    fin_cases i
    fin_cases j
    simp [twoW, twoP, Matrix.mul_apply]
  · have := congrFun hz 0
    simp [twoP, Matrix.mulVec, dotProduct] at this
    refine ⟨fun _ => √2 * z 0, funext fun i => ?_⟩
    fin_cases i
    · simp [twoW, Matrix.mulVec, dotProduct]
    · simp [twoW, Matrix.mulVec, dotProduct]
      linarith

/-- The restricted likelihood of the two observations, a function of one combination of the two parameters. -/
theorem two_reml_value (hla : la.Sound be) (p : ℕ) {eps : ℝ} (he : 0 ≤ eps) (th : Fin 2 → ℝ) :
    0 < 1 + 10 * eps - maternFormula p (Real.exp (th 1)) ∧
    reml be la (cov (maternFormula p) eps th twoX .same) twoP twoZ = .ok (.finite (1 / 2 * Real.log (2 * Real.pi) +
      (1 / 2 * (th 0 + Real.log (1 + 10 * eps - maternFormula p (Real.exp (th 1)))) +
        1 / Real.exp (th 0 + Real.log (1 + 10 * eps - maternFormula p (Real.exp (th 1))))))) := by
  have hK : (cov (maternFormula p) eps th twoX .same).PosDef := matern_Kii p th (two_admissible he)
  have hm : 0 < 1 + 10 * eps - maternFormula p (Real.exp (th 1)) := by
    have := corr_range p (th 1)
    linarith [this.2]
  have h2 : √2 * √2 = (2 : ℝ) := Real.mul_self_sqrt (by norm_num)
  have h0 : (0 : ℝ) < √2 := by positivity
  have hA : twoWᵀ * (cov (maternFormula p) eps th twoX .same * twoW) =
      Real.exp (th 0 + Real.log (1 + 10 * eps - maternFormula p (Real.exp (th 1)))) • (1 : Mat 1 1) := by
    rw [two_cov, Real.exp_add, Real.exp_log hm]
    ext i j
    fin_cases i
    fin_cases j
    simp [twoW, Matrix.mul_apply, Fin.sum_univ_two]
    field_simp
    rw [pow_two, h2]
    ring
  have hz : twoWᵀ *ᵥ twoZ = fun _ => √2 := by
    funext i
    fin_cases i
    simp [twoW, twoZ, Matrix.mulVec, dotProduct, Fin.sum_univ_two]
    field_simp
    nlinarith
  refine ⟨hm, ?_⟩
  rw [reml_eq hla (CPD.of_posDef hK twoP) twoP_rank twoZ twoW_contrast, hA, density_scale Matrix.PosDef.one, hz]
  simp [dotProduct, h2]
  field_simp

theorem half_log_min (b : ℝ) : 1 / 2 * Real.log 2 + 1 / 2 ≤ 1 / 2 * b + 1 / Real.exp b ∧
    (b ≠ Real.log 2 → 1 / 2 * Real.log 2 + 1 / 2 < 1 / 2 * b + 1 / Real.exp b) := by
  have hp : (0 : ℝ) < 2 / Real.exp b := div_pos two_pos (Real.exp_pos b)
  have e2 : 1 / Real.exp b = 1 / 2 * (2 / Real.exp b) := by field_simp
  have h1 := Real.log_le_sub_one_of_pos hp
  rw [Real.log_div (by norm_num) (Real.exp_pos b).ne', Real.log_exp] at h1
  rw [e2]
  refine ⟨by linarith, fun hb => ?_⟩
  have h2 := Real.log_lt_sub_one_of_pos hp fun h => hb (by
    rw [div_eq_one_iff_eq (Real.exp_pos b).ne'] at h
    rw [h, Real.log_exp])
  rw [Real.log_div (by norm_num) (Real.exp_pos b).ne', Real.log_exp] at h2
  linarith

/-- **C270** "The best parameter is unique" is false: with a constant mean and two different observations, the restricted
likelihood has a maximum, reached by different parameters. -/
theorem reml_unique_false (hla : la.Sound be) (p : ℕ) {eps : ℝ} (he : 0 ≤ eps) :
    ∃ L : (Fin 2 → ℝ) → ℝ,
      (∀ th, reml be la (cov (maternFormula p) eps th twoX .same) twoP twoZ = .ok (.finite (L th))) ∧
      ∀ t, ∃ th, th 1 = t ∧ ∀ th', L th ≤ L th' := by
  refine ⟨_, fun th => (two_reml_value hla p he th).2, fun t =>
    ⟨![Real.log 2 - Real.log (1 + 10 * eps - maternFormula p (Real.exp t)), t], rfl, fun th' => ?_⟩⟩
  have h := (half_log_min (th' 0 + Real.log (1 + 10 * eps - maternFormula p (Real.exp (th' 1))))).1
  simp only [Matrix.cons_val_zero, Matrix.cons_val_one, sub_add_cancel, Real.exp_log (show (0 : ℝ) < 2 by norm_num)]
  linarith

/-- **C270** "The criterion is bounded below" is false: for data in the span of the mean functions (such as constant
data with a constant mean) it has no lower bound, whatever the length scales. -/
theorem reml_bounded_false (hla : la.Sound be) (p : ℕ) {eps : ℝ} {x : Matrix (Fin (q + r)) (Fin d) ℝ} (hx : Admissible eps x)
    {P : Mat (q + r) q} (hP : FullRank P) (hr : 0 < r) (b : Fin q → ℝ) (l : Fin d → ℝ) :
    ∃ L : (Fin (d + 1) → ℝ) → ℝ,
      (∀ th, reml be la (cov (maternFormula p) eps th x .same) P (P *ᵥ b) = .ok (.finite (L th))) ∧
      ∀ B, ∃ a, L (Fin.cons a l) < B := by
  have hK : ∀ th, (cov (maternFormula p) eps th x .same).PosDef := fun th => matern_Kii p th hx
  have hW : IsContrast P (contrastMatrix la P) := (hla.qr_ok P (Nat.le_add_right q r)).contrast hP
  set W := contrastMatrix la P with hWdef
  have hC : ∀ th, (Wᵀ * (cov (maternFormula p) eps th x .same * W)).PosDef := fun th =>
    contrast_posDef hW.orth hW.null (CPD.of_posDef (hK th) P)
  refine ⟨_, fun th => reml_eq hla (CPD.of_posDef (hK th) P) hP _ hW, fun B => ?_⟩
  have h2 : Wᵀ * P = 0 := by
    rw [← Matrix.transpose_transpose (Wᵀ * P), Matrix.transpose_mul, Matrix.transpose_transpose, hW.null,
      Matrix.transpose_zero]
  have hr' : (0 : ℝ) < r := by exact_mod_cast hr
  set D := 1 / 2 * (r * Real.log (2 * Real.pi) +
    Real.log (Wᵀ * (cov (maternFormula p) eps (Fin.cons (Real.log 1) l) x .same * W)).det) with hD
  refine ⟨(B - D - 1) * (2 / r), ?_⟩
  rw [cov_cons, Matrix.smul_mul, Matrix.mul_smul, density_scale (hC _), mulVec_mulVec, h2, zero_mulVec, zero_dotProduct,
    zero_div, ← hD]
  have : (r : ℝ) / 2 * ((B - D - 1) * (2 / r)) = B - D - 1 := by field_simp
  rw [this]
  linarith

/-- Two equal observations and a constant mean. -/
example (hla : la.Sound be) : ∃ L : (Fin 2 → ℝ) → ℝ,
    (∀ th, reml be la (cov (maternFormula 1) 0 th twoX .same) twoP (twoP *ᵥ fun _ => 3) = .ok (.finite (L th))) ∧
      ∀ B, ∃ a, L (Fin.cons a fun _ => 0) < B :=
  reml_bounded_false hla 1 (two_admissible le_rfl) twoP_rank one_pos _ _

example (hla : la.Sound be) : ∃ L : (Fin 2 → ℝ) → ℝ,
    (∀ th, nllZeroMean be la (cov (maternFormula 1) 0 th twoX .same) twoZ = .ok (.finite (L th))) ∧
      ∃ th, (fun j => th (Fin.succ j)) ∈ Set.Icc (fun _ : Fin 1 => (-3 : ℝ)) (fun _ => 3) ∧
        ∀ th', (fun j => th' (Fin.succ j)) ∈ Set.Icc (fun _ : Fin 1 => (-3 : ℝ)) (fun _ => 3) → L th ≤ L th' :=
  (selection_min (q := 1) (r := 1) hla 1 isCompact_Icc ⟨0, fun _ => by norm_num, fun _ => by norm_num⟩).1
    (two_admissible le_rfl) fun h => by simpa [twoZ] using congrFun h 0

end Verif.Core
