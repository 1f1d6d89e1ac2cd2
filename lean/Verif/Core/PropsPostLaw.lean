import Verif.Core.PropsRemapExists
import Mathlib.Analysis.SpecialFunctions.Gaussian.GaussianIntegral
import Mathlib.MeasureTheory.Integral.Pi
import Mathlib.Analysis.SpecialFunctions.Log.ERealExp
import Verif.Mcmc.Posterior

/-!
# C277: which criteria define a posterior law
-/

set_option autoImplicit false

namespace Verif.Core

open Verif Verif.Data Matrix MeasureTheory
open Verif.Kernel (cov covII maternFormula Regular postBoth postGauss postBarrier tau pen penSum Above Defaults XArr)
open scoped ENNReal

variable {n q d r k : ℕ} {be : Backend} {la : LA}

/-! ## Specification -/

/-- The unnormalised density that the samplers make of a criterion `J`: `exp(-J)`, zero where `J` is infinite or fails. -/
noncomputable def weight (f : (Fin k → ℝ) → Py Flt) (th : Fin k → ℝ) : ℝ≥0∞ :=
  match f th with
  | .ok (.num v) => EReal.exp (-v)
  | _ => 0

/-- The exponential of a log-density. -/
noncomputable def expOf : Py Flt → ℝ≥0∞
  | .ok (.num v) => EReal.exp v
  | _ => 0

/-- The total mass. -/
noncomputable def mass (f : (Fin k → ℝ) → Py Flt) : ℝ≥0∞ := ∫⁻ th, weight f th

/-- **C277** `exp(-J)` in the sampling box and zero outside is the density that the MH and NUTS samplers are given. -/
theorem weight_logProb (f : Posterior.Crit) (box : Option (Posterior.Pt d × Posterior.Pt d)) :
    ∃ lp, Posterior.logProb f box 1 = .ok lp ∧ ∀ th : Fin d → ℝ,
      ((∀ b ∈ box, ∀ j, b.1 j ≤ th j ∧ th j ≤ b.2 j) → expOf (lp th) = weight (f d) th) ∧
      ((¬ ∀ b ∈ box, ∀ j, b.1 j ≤ th j ∧ th j ≤ b.2 j) → expOf (lp th) = 0) := by
  unfold Posterior.logProb
  rw [if_neg (by norm_num)]
  refine ⟨_, rfl, fun th => ⟨fun h => ?_, fun h => ?_⟩⟩
  · rw [if_neg]
    · unfold weight
      rcases hf : f d th with e | v
      · simp [expOf]
      · cases v with
        | nan => rfl
        | num v =>
          have : (Flt.num (-v)).div (.fin 1) = .num (-v) := by
            simp only [Flt.div, Flt.fin]
            rw [if_neg (by simp), if_neg fun h => h.2.elim (EReal.coe_ne_top 1) (EReal.coe_ne_bot 1)]
            simp
          simp only [Flt.neg, this, expOf]
    · rintro ⟨b, hb, ⟨j, hj⟩ | ⟨j, hj⟩⟩
      · exact absurd (h b hb j).1 (not_le.mpr hj)
      · exact absurd (h b hb j).2 (not_le.mpr hj)
  · rw [if_pos]
    · simp [expOf]
    · push Not at h
      obtain ⟨b, hb, j, hj⟩ := h
      by_cases h1 : b.1 j ≤ th j
      · exact ⟨b, hb, Or.inr ⟨j, hj h1⟩⟩
      · exact ⟨b, hb, Or.inl ⟨j, not_le.mp h1⟩⟩

/-! ## Integrals -/

theorem weight_fin {f : (Fin k → ℝ) → Py Flt} {th : Fin k → ℝ} {v : ℝ} (h : f th = .ok (.fin v)) :
    weight f th = ENNReal.ofReal (Real.exp (-v)) := by
  unfold weight
  rw [h]
  change EReal.exp (-((v : ℝ) : EReal)) = _
  rw [← EReal.coe_neg, EReal.exp_coe]

theorem weight_top {f : (Fin k → ℝ) → Py Flt} {th : Fin k → ℝ} (h : f th = .ok (.num ⊤)) : weight f th = 0 := by
  unfold weight
  rw [h]
  simp

/-- Two-sided exponential tails are integrable. -/
theorem integrable_abs {c : ℝ} (hc : 0 < c) : Integrable fun t : ℝ => Real.exp (-(c * |t|)) := by
  rw [← integrableOn_univ, ← Set.Iic_union_Ioi (a := (0 : ℝ))]
  refine IntegrableOn.union ?_ ?_
  · refine (integrableOn_exp_mul_Iic hc 0).congr_fun (fun t ht => ?_) measurableSet_Iic
    rw [abs_of_nonpos ht]
    ring_nf
  · refine (exp_neg_integrableOn_Ioi 0 hc).congr_fun (fun t ht => ?_) measurableSet_Ioi
    rw [abs_of_pos ht]
    ring_nf

/-- The barrier term as a density of the log of the inverse range, with an exponential moment. -/
theorem integrable_barrier {a w : ℝ} (m : ℝ) (ha : 0 < a) (hw : 0 < w) :
    Integrable fun t : ℝ => Set.indicator {t : ℝ | m < -t} (fun t => Real.exp (a / 2 * |t|) *
      Real.exp (-(a * ((-t - m) - w * Real.log (-t - m))))) t := by
  have h1 := integrableOn_rpow_mul_exp_neg_mul_rpow (p := 1) (s := a * w) (b := a / 2) (by nlinarith [mul_pos ha hw])
    one_pos (by positivity)
  have h2 : Integrable fun u : ℝ => Set.indicator (Set.Ioi 0) (fun u => u ^ (a * w) * Real.exp (-(a / 2) * u ^ (1 : ℝ))) u :=
    (integrable_indicator_iff measurableSet_Ioi).mpr h1
  have h3 := ((h2.comp_sub_right m).comp_neg).const_mul (Real.exp (a / 2 * |m|))
  refine h3.mono' ?_ ?_
  · refine Measurable.aestronglyMeasurable ?_
    refine Measurable.indicator ?_ (measurableSet_lt measurable_const measurable_neg)
    fun_prop
  · refine Filter.Eventually.of_forall fun t => ?_
    by_cases ht : m < -t
    · have hu : 0 < -t - m := sub_pos.mpr ht
      rw [Set.indicator_of_mem (show t ∈ {t : ℝ | m < -t} from ht),
        Set.indicator_of_mem (show -t - m ∈ Set.Ioi (0 : ℝ) from hu), Real.norm_of_nonneg (by positivity), Real.rpow_one,
        Real.rpow_def_of_pos hu, ← Real.exp_add, ← Real.exp_add, ← Real.exp_add]
      refine Real.exp_le_exp.mpr ?_
      have hab : |t| ≤ (-t - m) + |m| := by
        have e : t = -(-t - m) - m := by ring
        calc |t| = |-(-t - m) - m| := by rw [← e]
          _ ≤ |-(-t - m)| + |m| := abs_sub _ _
          _ = _ := by rw [abs_neg, abs_of_pos hu]
      nlinarith [mul_le_mul_of_nonneg_left hab (half_pos ha).le]
    · rw [Set.indicator_of_notMem (show t ∉ {t : ℝ | m < -t} from ht),
        Set.indicator_of_notMem (show -t - m ∉ Set.Ioi (0 : ℝ) from fun h => ht (sub_pos.mp h))]
      simp

/-- A density below a product of integrable factors has a finite integral. -/
theorem lintegral_lt_top_of_prod {f : (Fin k → ℝ) → ℝ≥0∞} {g : Fin k → ℝ → ℝ} (hg : ∀ i, Integrable (g i))
    {C : ℝ} (h : ∀ th, f th ≤ ENNReal.ofReal (C * ∏ i, g i (th i))) : ∫⁻ th, f th < ⊤ := by
  have hI : Integrable fun th : Fin k → ℝ => C * ∏ i, g i (th i) := (Integrable.fintype_prod hg).const_mul C
  refine (lintegral_mono h).trans_lt ?_
  exact hI.lintegral_lt_top

/-! ## The restricted likelihood between two functions of the variance -/

theorem dot_self_nonneg (v : Fin n → ℝ) : 0 ≤ v ⬝ᵥ v := Finset.sum_nonneg fun i _ => mul_self_nonneg (v i)

theorem det_upper {A : Mat n n} (hA : A.PosDef) {t : ℝ} (h : ∀ v, v ⬝ᵥ (A *ᵥ v) ≤ t * (v ⬝ᵥ v)) : A.det ≤ t ^ n := by
  rw [hA.1.det_eq_prod_eigenvalues]
  have h : ∀ i, hA.1.eigenvalues i ≤ t := fun i => by
    rw [hA.1.eigenvalues_eq]
    set v := (hA.1.eigenvectorBasis i).ofLp with hv
    have hv1 : v ⬝ᵥ v = 1 := by
      have h1 := hA.1.eigenvectorBasis.orthonormal.1 i
      have h2 : ‖hA.1.eigenvectorBasis i‖ ^ 2 = 1 := by rw [h1]; norm_num
      rw [EuclideanSpace.norm_sq_eq] at h2
      rw [← h2]
      simp only [dotProduct, hv, Real.norm_eq_abs, sq_abs]
      exact Finset.sum_congr rfl fun i _ => (pow_two _).symm
    have := h v
    rw [hv1, mul_one] at this
    simpa using this
  calc ∏ i, ((hA.1.eigenvalues i : ℝ)) ≤ ∏ _i : Fin n, t :=
      Finset.prod_le_prod (fun i _ => (hA.eigenvalues_pos i).le) fun i _ => h i
    _ = t ^ n := by simp

theorem quad_inv_bounds {A : Mat n n} (hA : A.PosDef) {s t : ℝ} (hs : 0 < s) (ht : 0 < t)
    (h1 : ∀ v, s * (v ⬝ᵥ v) ≤ v ⬝ᵥ (A *ᵥ v)) (h2 : ∀ v, v ⬝ᵥ (A *ᵥ v) ≤ t * (v ⬝ᵥ v)) (y : Fin n → ℝ) :
    y ⬝ᵥ y / t ≤ y ⬝ᵥ (A⁻¹ *ᵥ y) ∧ y ⬝ᵥ (A⁻¹ *ᵥ y) ≤ y ⬝ᵥ y / s := by
  have hd : IsUnit A.det := hA.det_pos.ne'.isUnit
  set u := A⁻¹ *ᵥ y with hu
  have hAu : A *ᵥ u = y := by rw [hu, mulVec_mulVec, Matrix.mul_nonsing_inv _ hd, one_mulVec]
  have hsym : u ⬝ᵥ (A *ᵥ y) = y ⬝ᵥ y := by
    have hT : Aᵀ = A := by
      have := hA.1
      rwa [Matrix.IsHermitian, conjTranspose_eq_transpose_of_trivial] at this
    rw [dotProduct_mulVec, ← mulVec_transpose, hT, hAu]
  have huu : u ⬝ᵥ (A *ᵥ u) = y ⬝ᵥ u := by rw [hAu, dotProduct_comm]
  constructor
  · have h0 := hA.posSemidef.dotProduct_mulVec_nonneg (u - (1 / t) • y)
    rw [star_trivial, mulVec_sub, mulVec_smul, sub_dotProduct, dotProduct_sub, dotProduct_sub, hAu, smul_dotProduct,
      smul_dotProduct, dotProduct_smul, dotProduct_smul, hsym, dotProduct_comm u y] at h0
    simp only [smul_eq_mul] at h0
    have h3 := mul_le_mul_of_nonneg_left (h2 y) (by positivity : 0 ≤ 1 / t * (1 / t))
    have e : 1 / t * (1 / t) * (t * (y ⬝ᵥ y)) = 1 / t * (y ⬝ᵥ y) := by field_simp
    rw [e] at h3
    have e2 : y ⬝ᵥ y / t = 1 / t * (y ⬝ᵥ y) := by ring
    rw [e2]
    linarith
  · have h0 : 0 ≤ (u - (1 / s) • y) ⬝ᵥ (u - (1 / s) • y) := dot_self_nonneg _
    rw [sub_dotProduct, dotProduct_sub, dotProduct_sub, smul_dotProduct, smul_dotProduct, dotProduct_smul, dotProduct_smul,
      dotProduct_comm u y] at h0
    simp only [smul_eq_mul] at h0
    have h3 := h1 u
    rw [huu] at h3
    have e2 : y ⬝ᵥ y / s = 1 / s * (y ⬝ᵥ y) := by ring
    rw [e2]
    have h4 : u ⬝ᵥ u ≤ 1 / s * (y ⬝ᵥ u) := by
      rw [one_div, ← div_eq_inv_mul, le_div_iff₀ hs]
      linarith
    have h5 : 0 ≤ 1 / s * (1 / s * (y ⬝ᵥ y) - y ⬝ᵥ u) := by linarith
    have h6 := (mul_nonneg_iff_of_pos_left (by positivity : (0 : ℝ) < 1 / s)).mp h5
    linarith

/-- Quadratic forms of matrices with bounded entries. -/
theorem quad_entries {A : Mat n n} {b : ℝ} (hb : ∀ i j, |A i j| ≤ b) (v : Fin n → ℝ) :
    v ⬝ᵥ (A *ᵥ v) ≤ b * n * (v ⬝ᵥ v) := by
  have h : ∀ i j, v i * (A i j * v j) ≤ b / 2 * (v i * v i) + b / 2 * (v j * v j) := fun i j => by
    have h1 : v i * (A i j * v j) ≤ |A i j| * (|v i| * |v j|) := by
      refine (le_abs_self _).trans (le_of_eq ?_)
      rw [abs_mul, abs_mul]; ring
    have h2 : |A i j| * (|v i| * |v j|) ≤ b * (|v i| * |v j|) := mul_le_mul_of_nonneg_right (hb i j) (by positivity)
    have hb0 : 0 ≤ b := (abs_nonneg _).trans (hb i j)
    have h3 : |v i| * |v j| ≤ 1 / 2 * (v i * v i) + 1 / 2 * (v j * v j) := by
      nlinarith [sq_nonneg (|v i| - |v j|), sq_abs (v i), sq_abs (v j)]
    nlinarith [mul_le_mul_of_nonneg_left h3 hb0]
  calc v ⬝ᵥ (A *ᵥ v) = ∑ i, ∑ j, v i * (A i j * v j) := by
        simp only [dotProduct, mulVec, Finset.mul_sum]
    _ ≤ ∑ i, ∑ j, (b / 2 * (v i * v i) + b / 2 * (v j * v j)) := Finset.sum_le_sum fun i _ => Finset.sum_le_sum fun j _ => h i j
    _ = b * n * (v ⬝ᵥ v) := by
        simp only [Finset.sum_add_distrib, Finset.sum_const, Finset.card_univ, Fintype.card_fin, nsmul_eq_mul, dotProduct,
          ← Finset.mul_sum]
        ring

/-- Uniformly in the ranges, the restricted likelihood lies between two functions of the log of the variance. -/
theorem reml_envelope (hla : la.Sound be) (p : ℕ) {eps : ℝ} (he : 0 < eps) (x : Matrix (Fin (q + r)) (Fin d) ℝ)
    {P : Mat (q + r) q} (hP : FullRank P) (z : Fin (q + r) → ℝ) :
    ∃ (R : (Fin (d + 1) → ℝ) → ℝ) (c0 c1 k0 k1 : ℝ), Continuous R ∧
      (∀ th, reml be la (cov (maternFormula p) eps th x .same) P z = .ok (.finite (R th))) ∧
      0 ≤ k0 ∧ ((∀ b, z ≠ P *ᵥ b) → 0 < k0) ∧ 0 ≤ k1 ∧ ((∃ b, z = P *ᵥ b) → k1 = 0) ∧
      ∀ th, c0 + r / 2 * th 0 + k0 * Real.exp (-th 0) ≤ R th ∧ R th ≤ c1 + r / 2 * th 0 + k1 * Real.exp (-th 0) := by
  obtain ⟨-, R, hR, hRv⟩ := criteria_smooth (N := 0) hla p (eps := eps) (x := x) (Or.inl he) hP 0 z
  set W := contrastMatrix la P with hWd
  have hW : IsContrast P W := (hla.qr_ok P (Nat.le_add_right q r)).contrast hP
  have hK : ∀ th, (cov (maternFormula p) eps th x .same).PosDef := fun th => matern_Kii p th (Or.inl he)
  set y := Wᵀ *ᵥ z with hy
  have hy0 : 0 ≤ y ⬝ᵥ y := dot_self_nonneg _
  set t := (1 + 10 * eps) * ((q + r : ℕ) : ℝ) + 1 with ht
  have ht0 : 0 < t := by positivity
  set s := 10 * eps with hs
  have hs0 : 0 < s := by positivity
  refine ⟨R, 1 / 2 * (r * Real.log (2 * Real.pi) + r * Real.log s), 1 / 2 * (r * Real.log (2 * Real.pi) + r * Real.log t),
    y ⬝ᵥ y / t / 2, y ⬝ᵥ y / s / 2, hR.continuous, hRv, by positivity, fun hz => ?_, by positivity, fun ⟨b, hb⟩ => ?_,
    fun th => ?_⟩
  · have : y ≠ 0 := fun h0 => by
      have hPP : (Pᵀ * P).PosDef := by
        have := posDef_gls (K := (1 : Mat (q + r) (q + r))) Matrix.PosDef.one hP
        rwa [inv_one, Matrix.one_mul] at this
      set b := (Pᵀ * P)⁻¹ *ᵥ (Pᵀ *ᵥ z) with hb
      have g1 : Pᵀ *ᵥ (z - P *ᵥ b) = 0 := by
        rw [mulVec_sub, mulVec_mulVec, hb, mulVec_mulVec, Matrix.mul_nonsing_inv _ (PosDef.det_unit hPP), one_mulVec, sub_self]
      obtain ⟨c, hc⟩ := hW.span _ g1
      have g2 : Wᵀ * P = 0 := by
        rw [← Matrix.transpose_transpose (Wᵀ * P), Matrix.transpose_mul, Matrix.transpose_transpose, hW.null,
          Matrix.transpose_zero]
      have g3 : c = 0 := by
        have := congrArg (Wᵀ *ᵥ ·) hc
        rw [hy] at h0
        simp only [mulVec_sub, mulVec_mulVec, g2, hW.orth, h0, zero_mulVec, one_mulVec, sub_zero] at this
        exact this.symm
      rw [g3, mulVec_zero, sub_eq_zero] at hc
      exact hz b hc
    have h1 : 0 < y ⬝ᵥ y := lt_of_le_of_ne hy0 fun h => this (dotProduct_self_eq_zero.mp h.symm)
    positivity
  · have : y = 0 := by
      have e : Wᵀ * P = 0 := by
        rw [← Matrix.transpose_transpose (Wᵀ * P), Matrix.transpose_mul, Matrix.transpose_transpose, hW.null, Matrix.transpose_zero]
      rw [hy, hb, mulVec_mulVec, e, zero_mulVec]
    rw [this]
    simp
  · set K1 := cov (maternFormula p) eps (Fin.cons (Real.log 1) fun j => th j.succ) x .same with hK1
    set A := Wᵀ * (K1 * W) with hA
    have hApd : A.PosDef := contrast_posDef hW.orth hW.null (CPD.of_posDef (hK _) P)
    have e3 : K1 = Kernel.kernelMat p (fun j => th j.succ) x + s • (1 : Mat (q + r) (q + r)) := by
      have := Kernel.covII_eq p eps (Fin.cons (Real.log 1) fun j => th j.succ) x
      simp only [Fin.cons_zero, Fin.cons_succ, Real.log_one, Real.exp_zero, mul_one, one_smul] at this
      rw [hK1, Real.log_one]
      exact this
    have hquad : ∀ v, v ⬝ᵥ (A *ᵥ v) = (W *ᵥ v) ⬝ᵥ (K1 *ᵥ (W *ᵥ v)) := fun v => by
      rw [hA, ← mulVec_mulVec, ← mulVec_mulVec, dotProduct_mulVec, vecMul_transpose]
    have hnorm : ∀ v : Fin r → ℝ, (W *ᵥ v) ⬝ᵥ (W *ᵥ v) = v ⬝ᵥ v := fun v => by
      rw [dotProduct_mulVec, vecMul_mulVec, ← dotProduct_mulVec, hW.orth, one_mulVec]
    have h1 : ∀ v, s * (v ⬝ᵥ v) ≤ v ⬝ᵥ (A *ᵥ v) := fun v => by
      rw [hquad, e3, add_mulVec, dotProduct_add, smul_mulVec, one_mulVec, dotProduct_smul, hnorm]
      have := (Kernel.matern_posSemidef p (fun j => th j.succ) x).dotProduct_mulVec_nonneg (W *ᵥ v)
      rw [star_trivial] at this
      simp only [smul_eq_mul]
      linarith
    have h2 : ∀ v, v ⬝ᵥ (A *ᵥ v) ≤ t * (v ⬝ᵥ v) := fun v => by
      rw [hquad]
      have hb : ∀ i j, |K1 i j| ≤ 1 + s := fun i j => by
        rw [e3]
        simp only [Matrix.add_apply, Matrix.smul_apply, Matrix.one_apply, Kernel.kernelMat, Matrix.of_apply, smul_eq_mul]
        have hd := Kernel.scaledDistance_nonneg (fun j => th j.succ) (x i) (x j)
        have hk0 := (Kernel.maternFormula_shape_props p).2.1 _ hd
        have hk1 : maternFormula p (Kernel.scaledDistance (fun j => th j.succ) (x i) (x j)) ≤ 1 := by
          rcases hd.eq_or_lt with h | h
          · rw [← h, (Kernel.maternFormula_shape_props p).1]
          · exact ((Kernel.maternFormula_shape_props p).2.2.2 _ h).le
        rw [abs_of_nonneg (by split_ifs <;> positivity)]
        split_ifs <;> linarith
      have := quad_entries hb (W *ᵥ v)
      rw [hnorm] at this
      have h0 : 0 ≤ v ⬝ᵥ v := dot_self_nonneg _
      rw [ht]
      nlinarith
    obtain ⟨b1, b2⟩ := quad_inv_bounds hApd hs0 ht0 h1 h2 y
    have hdl : s ^ r ≤ A.det := by
      have e2 : A = Wᵀ * (Kernel.kernelMat p (fun j => th j.succ) x * W) + s • (1 : Mat r r) := by
        rw [hA, e3, Matrix.add_mul, Matrix.mul_add, Matrix.smul_mul, Matrix.one_mul, Matrix.mul_smul, hW.orth]
      rw [e2]
      refine det_lower ?_ hs0
      have := (Kernel.matern_posSemidef p (fun j => th j.succ) x).conjTranspose_mul_mul_same W
      rw [Matrix.conjTranspose_eq_transpose_of_trivial] at this
      rwa [← Matrix.mul_assoc]
    have hdu : A.det ≤ t ^ r := det_upper hApd h2
    have hval := reml_eq hla (CPD.of_posDef (hK th) P) hP z hW
    rw [hRv th] at hval
    have h3 : R th = -Real.log (gaussDensity (Wᵀ * (cov (maternFormula p) eps th x .same * W)) 0 y) := by
      injection hval with hval
      injection hval
    have e1 : cov (maternFormula p) eps th x .same = Real.exp (th 0) • K1 := by
      rw [hK1, ← cov_cons]
      congr 1
      exact (Fin.cons_self_tail th).symm
    rw [e1, Matrix.smul_mul, Matrix.mul_smul, ← hA, density_scale hApd] at h3
    have l1 := Real.log_le_log (by positivity) hdl
    have l2 := Real.log_le_log hApd.det_pos hdu
    rw [Real.log_pow] at l1 l2
    have e4 : (y ⬝ᵥ (A⁻¹ *ᵥ y)) / (2 * Real.exp (th 0)) = (y ⬝ᵥ (A⁻¹ *ᵥ y)) / 2 * Real.exp (-th 0) := by
      rw [Real.exp_neg]; field_simp
    rw [e4] at h3
    have hE := (Real.exp_pos (-th 0)).le
    have m1 := mul_le_mul_of_nonneg_right (div_le_div_of_nonneg_right b1 (by norm_num : (0 : ℝ) ≤ 2)) hE
    have m2 := mul_le_mul_of_nonneg_right (div_le_div_of_nonneg_right b2 (by norm_num : (0 : ℝ) ≤ 2)) hE
    rw [h3]
    constructor <;> linarith

/-! ## Values of the criteria -/

/-- **C277** The criterion with the prior on the ranges alone. -/
theorem postBarrier_value {a : ℝ} (ha : 0 < a) (s : Defaults) (nlrl : List ℝ → Py Flt) (th : Fin (d + 1) → ℝ)
    {m r0 : Fin d → ℝ} (hm : ∀ j, m j < r0 j) {L : ℝ} (hL : nlrl (List.ofFn th) = .ok (.fin L)) :
    ((∀ j, m j < -th j.succ) → postBarrier s nlrl (List.ofFn th) ((List.ofFn m).map Flt.fin) ((List.ofFn r0).map Flt.fin)
        (some (.fin a)) = .ok (.fin (L + ∑ j, pen a (-th j.succ) (m j) (r0 j)))) ∧
    ((¬ ∀ j, m j < -th j.succ) → postBarrier s nlrl (List.ofFn th) ((List.ofFn m).map Flt.fin) ((List.ofFn r0).map Flt.fin)
        (some (.fin a)) = .ok (.num ⊤)) := by
  have hb := Kernel.barrier_fin ha s (th 0) (List.ofFn fun j => th j.succ) (List.ofFn m) (List.ofFn r0) (by simp) (by simp)
    (forall₂_ofFn hm)
  rw [← List.ofFn_succ, above_ofFn, penSum_ofFn] at hb
  constructor
  · intro h
    simp only [postBarrier, hL, hb.1 h, bind, Except.bind, pure, Except.pure, Flt.sub_fin]
    congr 2; ring
  · intro h
    simp only [postBarrier, hL, hb.2 h, bind, Except.bind, pure, Except.pure]
    rw [Kernel.sub_bot_fin]

theorem postGauss_value {invCdf : ℝ → ℝ} {g c a : ℝ} (h : Regular invCdf g c a) (s : Defaults) (nlrl : List ℝ → Py Flt)
    (th : Fin (d + 1) → ℝ) (x0 : ℝ) {L : ℝ} (hL : nlrl (List.ofFn th) = .ok (.fin L)) :
    postGauss invCdf s nlrl (List.ofFn th) (.fin x0) (some (.fin g)) (some (.fin c)) =
      .ok (.fin (L + 1 / 2 * ((th 0 - x0) / tau invCdf g c) ^ 2)) := by
  rw [List.ofFn_succ] at hL ⊢
  have h2 := Kernel.gaussF_fin h s (th 0) (List.ofFn fun i : Fin d => th i.succ) x0
  simp only [postGauss, hL, h2, bind, Except.bind, pure, Except.pure, Flt.sub_fin]
  congr 2; ring

/-! ## Masses -/

/-- Where the criterion is bounded by `B` on a set of volume `v`, the mass is at least `exp(-B) v`. -/
theorem mass_ge {f : (Fin k → ℝ) → Py Flt} {S : Set (Fin k → ℝ)} (hS : MeasurableSet S) {B : ℝ}
    (h : ∀ th ∈ S, ∃ v ≤ B, f th = .ok (.fin v)) : ENNReal.ofReal (Real.exp (-B)) * volume S ≤ mass f := by
  rw [← setLIntegral_const]
  refine (setLIntegral_mono' hS fun th hth => ?_).trans (setLIntegral_le_lintegral S _)
  obtain ⟨v, hv, e⟩ := h th hth
  rw [weight_fin e]
  exact ENNReal.ofReal_le_ofReal (Real.exp_le_exp.mpr (by linarith))

/-- A slab: the variance in `I`, each range in `J`. -/
def slab (I : Set ℝ) (J : Fin d → Set ℝ) : Set (Fin (d + 1) → ℝ) := {th | th 0 ∈ I ∧ ∀ j : Fin d, th j.succ ∈ J j}

theorem slab_eq (I : Set ℝ) (J : Fin d → Set ℝ) : slab I J = Set.univ.pi (Fin.cons I J : Fin (d + 1) → Set ℝ) := by
  ext th
  simp [slab, Set.mem_pi, Fin.forall_fin_succ]

theorem slab_measurable {I : Set ℝ} {J : Fin d → Set ℝ} (hI : MeasurableSet I) (hJ : ∀ j, MeasurableSet (J j)) :
    MeasurableSet (slab I J) := by
  rw [slab_eq]
  exact MeasurableSet.univ_pi fun i => Fin.cases hI hJ i

theorem slab_volume (I : Set ℝ) (J : Fin d → Set ℝ) : volume (slab I J) = volume I * ∏ j, volume (J j) := by
  rw [slab_eq, volume_pi_pi, Fin.prod_univ_succ]
  simp

theorem pen_le {a m r0 t : ℝ} (ha : 0 < a) (hm : m < r0) (ht : -t - m ∈ Set.Icc (1 : ℝ) 2) : pen a (-t) m r0 ≤ a * 2 := by
  unfold pen
  refine mul_le_mul_of_nonneg_left ?_ ha.le
  have := mul_nonneg (sub_pos.mpr hm).le (Real.log_nonneg ht.1)
  linarith [ht.2]

/-- The interval of log inverse ranges at a distance between one and two of the minimum. -/
def near (m : Fin d → ℝ) (j : Fin d) : Set ℝ := Set.Icc (-m j - 2) (-m j - 1)

theorem near_measurable (m : Fin d → ℝ) (j : Fin d) : MeasurableSet (near m j) := measurableSet_Icc

theorem near_pos (m : Fin d → ℝ) : ∏ j, volume (near m j) = 1 := by
  refine Finset.prod_eq_one fun j _ => ?_
  rw [near, Real.volume_Icc]
  norm_num

theorem near_mem {m : Fin d → ℝ} {j : Fin d} {t : ℝ} (h : t ∈ near m j) : -t - m j ∈ Set.Icc (1 : ℝ) 2 ∧ m j < -t :=
  ⟨⟨by linarith [h.2], by linarith [h.1]⟩, by linarith [h.2]⟩

/-- Exponential moments of a density from factors. -/
theorem moment_lt_top {f : (Fin (d + 1) → ℝ) → Py Flt} {a l C : ℝ} (ha : 0 < a) (hl : 0 < l) {m r0 : Fin d → ℝ}
    (hm : ∀ j, m j < r0 j)
    (hin : ∀ th, (∀ j, m j < -th j.succ) → ∃ v, f th = .ok (.fin v) ∧
      2 * l * |th 0| - C + ∑ j, pen a (-th j.succ) (m j) (r0 j) ≤ v)
    (hout : ∀ th, (¬ ∀ j, m j < -th j.succ) → f th = .ok (.num ⊤)) :
    ∫⁻ th, ENNReal.ofReal (Real.exp (min l (a / 2) * ∑ i, |th i|)) * weight f th < ⊤ := by
  refine lintegral_lt_top_of_prod (g := Fin.cons (fun t => Real.exp (-(l * |t|))) fun j t =>
    Set.indicator {t : ℝ | m j < -t} (fun t => Real.exp (a / 2 * |t|) *
      Real.exp (-(a * ((-t - m j) - (r0 j - m j) * Real.log (-t - m j))))) t) (C := Real.exp C) ?_ fun th => ?_
  · exact fun i => Fin.cases (integrable_abs hl) (fun j => integrable_barrier (m j) ha (sub_pos.mpr (hm j))) i
  · by_cases hA : ∀ j, m j < -th j.succ
    · obtain ⟨v, e, hv⟩ := hin th hA
      rw [weight_fin e, ← ENNReal.ofReal_mul (Real.exp_pos _).le]
      refine ENNReal.ofReal_le_ofReal ?_
      rw [Fin.prod_univ_succ]
      simp only [Fin.cons_zero, Fin.cons_succ]
      have e1 : ∏ j : Fin d, Set.indicator {t : ℝ | m j < -t} (fun t => Real.exp (a / 2 * |t|) *
          Real.exp (-(a * ((-t - m j) - (r0 j - m j) * Real.log (-t - m j))))) (th j.succ) =
          Real.exp (∑ j : Fin d, (a / 2 * |th j.succ| - pen a (-th j.succ) (m j) (r0 j))) := by
        rw [Real.exp_sum]
        refine Finset.prod_congr rfl fun j _ => ?_
        rw [Set.indicator_of_mem (show th j.succ ∈ {t : ℝ | m j < -t} from hA j), ← Real.exp_add, pen, sub_eq_add_neg (a / 2 * |th j.succ|)]
      rw [e1, ← Real.exp_add, ← Real.exp_add, ← Real.exp_add]
      refine Real.exp_le_exp.mpr ?_
      rw [Fin.sum_univ_succ, Finset.sum_sub_distrib, ← Finset.mul_sum]
      have h1 := mul_le_mul_of_nonneg_right (min_le_left l (a / 2)) (abs_nonneg (th 0))
      have h2 := mul_le_mul_of_nonneg_right (min_le_right l (a / 2))
        (Finset.sum_nonneg fun (j : Fin d) (_ : j ∈ Finset.univ) => abs_nonneg (th j.succ))
      linarith
    · rw [weight_top (hout th hA), mul_zero]
      exact bot_le

theorem exp_coercive {c k0 : ℝ} (hc : 0 < c) (hk : 0 < k0) : ∃ C, ∀ t : ℝ, c * |t| - C ≤ c * t + k0 * Real.exp (-t) := by
  refine ⟨2 * c ^ 2 / k0, fun t => ?_⟩
  have h0 : 0 ≤ 2 * c ^ 2 / k0 := by positivity
  rcases le_total 0 t with ht | ht
  · rw [abs_of_nonneg ht]
    have := mul_pos hk (Real.exp_pos (-t))
    linarith
  · rw [abs_of_nonpos ht]
    have h1 := Real.quadratic_le_exp_of_nonneg (neg_nonneg.mpr ht)
    have h2 : k0 * ((-t) ^ 2 / 2) ≤ k0 * Real.exp (-t) := mul_le_mul_of_nonneg_left (by linarith) hk.le
    have h3 : 0 ≤ k0 / 2 * (-t - 2 * c / k0) ^ 2 := by positivity
    have e : k0 / 2 * (-t - 2 * c / k0) ^ 2 = k0 * ((-t) ^ 2 / 2) - 2 * c * (-t) + 2 * c ^ 2 / k0 := by
      field_simp
      ring
    linarith

/-! ## The theorems -/

section
variable (hla : la.Sound be) (p : ℕ) {eps : ℝ} (he : 0 < eps) (x : Matrix (Fin (q + r)) (Fin d) ℝ) {P : Mat (q + r) q}
  (hP : FullRank P) (z : Fin (q + r) → ℝ) {nlrl : List ℝ → Py Flt}
  (hnl : ∀ (th : Fin (d + 1) → ℝ) (L : ℝ), reml be la (cov (maternFormula p) eps th x .same) P z = .ok (.finite L) →
    nlrl (List.ofFn th) = .ok (.fin L))
include hla he hP hnl

/-- **C277** With both priors, the posterior that the samplers are given is a probability law up to a constant, with
exponential moments, whatever the points, the data and the mean functions. -/
theorem remap_proper {invCdf : ℝ → ℝ} {g c a : ℝ} (hreg : Regular invCdf g c a) (s : Defaults) (xb : Option XArr)
    (hxb : ∀ v, xb = some v → v.ndim = 2) (x0 : ℝ) {m r0 : Fin d → ℝ} (hm : ∀ j, m j < r0 j) :
    let f : (Fin (d + 1) → ℝ) → Py Flt := fun th => postBoth invCdf s nlrl xb (List.ofFn th) (.fin x0) (some (.fin g))
      (some (.fin c)) (some ((List.ofFn m).map Flt.fin)) (some ((List.ofFn r0).map Flt.fin)) (some (.fin a))
    0 < mass f ∧ ∃ l > 0, ∫⁻ th, ENNReal.ofReal (Real.exp (l * ∑ i, |th i|)) * weight f th < ⊤ := by
  intro f
  obtain ⟨R, c0, c1, k0, k1, -, hRv, hk0, -, hk1, -, hb⟩ := reml_envelope hla p he x hP z
  set T := tau invCdf g c with hT
  have hT0 : 0 < T := Kernel.tau_pos hreg
  have hval : ∀ th : Fin (d + 1) → ℝ,
      ((∀ j, m j < -th j.succ) → f th = .ok (.fin (R th + 1 / 2 * ((th 0 - x0) / T) ^ 2 +
        ∑ j, pen a (-th j.succ) (m j) (r0 j)))) ∧ ((¬ ∀ j, m j < -th j.succ) → f th = .ok (.num ⊤)) := fun th => by
    have hv := Kernel.postBoth_value hreg s nlrl xb hxb (th 0) (List.ofFn fun j => th j.succ) x0 (List.ofFn m) (List.ofFn r0)
      (by simp) (by simp) (forall₂_ofFn hm) (R th) (by
        rw [← List.ofFn_succ]
        exact hnl th _ (hRv th))
    rw [← List.ofFn_succ, above_ofFn, penSum_ofFn] at hv
    exact hv
  constructor
  · refine lt_of_lt_of_le ?_ (mass_ge (B := c1 + r / 2 + k1 + 1 / 2 * ((1 + |x0|) / T) ^ 2 + d * (a * 2))
      (slab_measurable (measurableSet_Icc (a := (0 : ℝ)) (b := 1)) (near_measurable m)) ?_)
    · rw [slab_volume, near_pos, Real.volume_Icc]
      simp [Real.exp_pos]
    · intro th hth
      have hA : ∀ j, m j < -th j.succ := fun j => (near_mem (hth.2 j)).2
      refine ⟨_, ?_, (hval th).1 hA⟩
      have h1 := (hb th).2
      have h2 : r / 2 * th 0 ≤ (r : ℝ) / 2 := mul_le_of_le_one_right (by positivity) hth.1.2
      have h3 : k1 * Real.exp (-th 0) ≤ k1 := mul_le_of_le_one_right hk1 (Real.exp_le_one_iff.mpr (by linarith [hth.1.1]))
      have h4 : ∑ j, pen a (-th j.succ) (m j) (r0 j) ≤ d * (a * 2) := by
        refine (Finset.sum_le_card_nsmul Finset.univ _ (a * 2) fun j _ => pen_le hreg.a0 (hm j) (near_mem (hth.2 j)).1).trans ?_
        simp
      have h5 : ((th 0 - x0) / T) ^ 2 ≤ ((1 + |x0|) / T) ^ 2 := by
        refine sq_le_sq' ?_ ?_
        · rw [← neg_div]
          refine div_le_div_of_nonneg_right ?_ hT0.le
          linarith [hth.1.1, le_abs_self x0]
        · refine div_le_div_of_nonneg_right ?_ hT0.le
          linarith [hth.1.2, neg_abs_le x0]
      linarith
  · obtain ⟨C1, h1⟩ := quad_coercive (r / 2) x0 hT0
    refine ⟨min (1 / 2) (a / 2), lt_min (by norm_num) (half_pos hreg.a0),
      moment_lt_top (C := C1 - c0) hreg.a0 (by norm_num) hm (fun th hA => ⟨_, (hval th).1 hA, ?_⟩) fun th => (hval th).2⟩
    have h2 := (hb th).1
    have h3 := h1 (th 0)
    have h4 := mul_nonneg hk0 (Real.exp_pos (-th 0)).le
    linarith

/-- **C277** The prior on the ranges alone is enough for data that the mean functions do not explain. -/
theorem barrier_proper (hr : 0 < r) (hz : ∀ b, z ≠ P *ᵥ b) {a : ℝ} (ha : 0 < a) (s : Defaults) {m r0 : Fin d → ℝ}
    (hm : ∀ j, m j < r0 j) :
    let f : (Fin (d + 1) → ℝ) → Py Flt := fun th => postBarrier s nlrl (List.ofFn th) ((List.ofFn m).map Flt.fin)
      ((List.ofFn r0).map Flt.fin) (some (.fin a))
    0 < mass f ∧ ∃ l > 0, ∫⁻ th, ENNReal.ofReal (Real.exp (l * ∑ i, |th i|)) * weight f th < ⊤ := by
  intro f
  obtain ⟨R, c0, c1, k0, k1, -, hRv, -, hk0, hk1, -, hb⟩ := reml_envelope hla p he x hP z
  have hval := fun th : Fin (d + 1) → ℝ => postBarrier_value ha s nlrl th hm (hnl th _ (hRv th))
  constructor
  · refine lt_of_lt_of_le ?_ (mass_ge (B := c1 + r / 2 + k1 + d * (a * 2))
      (slab_measurable (measurableSet_Icc (a := (0 : ℝ)) (b := 1)) (near_measurable m)) ?_)
    · rw [slab_volume, near_pos, Real.volume_Icc]
      simp [Real.exp_pos]
    · intro th hth
      have hA : ∀ j, m j < -th j.succ := fun j => (near_mem (hth.2 j)).2
      refine ⟨_, ?_, (hval th).1 hA⟩
      have h1 := (hb th).2
      have h2 : r / 2 * th 0 ≤ (r : ℝ) / 2 := mul_le_of_le_one_right (by positivity) hth.1.2
      have h3 : k1 * Real.exp (-th 0) ≤ k1 := mul_le_of_le_one_right hk1 (Real.exp_le_one_iff.mpr (by linarith [hth.1.1]))
      have h4 : ∑ j, pen a (-th j.succ) (m j) (r0 j) ≤ d * (a * 2) := by
        refine (Finset.sum_le_card_nsmul Finset.univ _ (a * 2) fun j _ => pen_le ha (hm j) (near_mem (hth.2 j)).1).trans ?_
        simp
      linarith
  · have hr' : (0 : ℝ) < r := by exact_mod_cast hr
    obtain ⟨C1, h1⟩ := exp_coercive (c := r / 2) (by positivity) (hk0 hz)
    refine ⟨min (r / 4) (a / 2), lt_min (by positivity) (half_pos ha),
      moment_lt_top (C := C1 - c0) ha (by positivity) hm (fun th hA => ⟨_, (hval th).1 hA, ?_⟩) fun th => (hval th).2⟩
    have h2 := (hb th).1
    have h3 := h1 (th 0)
    linarith

/-- **C277** It is not enough for data that the mean functions explain, constant data for instance: the mass is infinite. -/
theorem barrier_proper_false (hr : 0 < r) (hz : ∃ b, z = P *ᵥ b) {a : ℝ} (ha : 0 < a) (s : Defaults) {m r0 : Fin d → ℝ}
    (hm : ∀ j, m j < r0 j) :
    mass (fun th : Fin (d + 1) → ℝ => postBarrier s nlrl (List.ofFn th) ((List.ofFn m).map Flt.fin)
      ((List.ofFn r0).map Flt.fin) (some (.fin a))) = ⊤ := by
  obtain ⟨R, c0, c1, k0, k1, -, hRv, -, -, -, hk1, hb⟩ := reml_envelope hla p he x hP z
  have hval := fun th : Fin (d + 1) → ℝ => postBarrier_value ha s nlrl th hm (hnl th _ (hRv th))
  refine top_le_iff.mp (le_trans (le_of_eq ?_) (mass_ge (B := c1 + d * (a * 2))
    (slab_measurable (measurableSet_Iic (a := (0 : ℝ))) (near_measurable m)) ?_))
  · rw [slab_volume, near_pos, Real.volume_Iic, mul_one, ENNReal.mul_top]
    simp [Real.exp_pos]
  · intro th hth
    have hA : ∀ j, m j < -th j.succ := fun j => (near_mem (hth.2 j)).2
    refine ⟨_, ?_, (hval th).1 hA⟩
    have h1 := (hb th).2
    rw [hk1 hz, zero_mul] at h1
    have h2 : r / 2 * th 0 ≤ 0 := mul_nonpos_of_nonneg_of_nonpos (by positivity) hth.1
    have h4 : ∑ j, pen a (-th j.succ) (m j) (r0 j) ≤ d * (a * 2) := by
      refine (Finset.sum_le_card_nsmul Finset.univ _ (a * 2) fun j _ => pen_le ha (hm j) (near_mem (hth.2 j)).1).trans ?_
      simp
    linarith

/-- **C277** Without a prior on the ranges the mass is infinite, whatever the data, with or without the prior on the
variance. -/
theorem flat_proper_false (hd : 0 < d) {invCdf : ℝ → ℝ} {g c a : ℝ} (hreg : Regular invCdf g c a) (s : Defaults) (x0 : ℝ) :
    mass (fun th : Fin (d + 1) → ℝ => nlrl (List.ofFn th)) = ⊤ ∧
    mass (fun th : Fin (d + 1) → ℝ => postGauss invCdf s nlrl (List.ofFn th) (.fin x0) (some (.fin g)) (some (.fin c))) = ⊤ := by
  obtain ⟨R, c0, c1, k0, k1, -, hRv, -, -, hk1, -, hb⟩ := reml_envelope hla p he x hP z
  set T := tau invCdf g c with hT
  have hT0 : 0 < T := Kernel.tau_pos hreg
  have hvol : ∀ B, (⊤ : ℝ≥0∞) = ENNReal.ofReal (Real.exp (-B)) *
      volume (slab (Set.Icc (0 : ℝ) 1) fun _ : Fin d => (Set.univ : Set ℝ)) := fun B => by
    rw [slab_volume, Real.volume_Icc, Finset.prod_const, Real.volume_univ, Finset.card_univ, Fintype.card_fin,
      ENNReal.top_pow hd.ne']
    simp [Real.exp_pos]
  have hup : ∀ th ∈ slab (Set.Icc (0 : ℝ) 1) fun _ : Fin d => (Set.univ : Set ℝ), R th ≤ c1 + r / 2 + k1 ∧
      ((th 0 - x0) / T) ^ 2 ≤ ((1 + |x0|) / T) ^ 2 := fun th hth => by
    have h1 := (hb th).2
    have h2 : r / 2 * th 0 ≤ (r : ℝ) / 2 := mul_le_of_le_one_right (by positivity) hth.1.2
    have h3 : k1 * Real.exp (-th 0) ≤ k1 := mul_le_of_le_one_right hk1 (Real.exp_le_one_iff.mpr (by linarith [hth.1.1]))
    refine ⟨by linarith, sq_le_sq' ?_ ?_⟩
    · rw [← neg_div]
      refine div_le_div_of_nonneg_right ?_ hT0.le
      linarith [hth.1.1, le_abs_self x0]
    · refine div_le_div_of_nonneg_right ?_ hT0.le
      linarith [hth.1.2, neg_abs_le x0]
  have hS : MeasurableSet (slab (Set.Icc (0 : ℝ) 1) fun _ : Fin d => (Set.univ : Set ℝ)) :=
    slab_measurable measurableSet_Icc fun _ => MeasurableSet.univ
  constructor
  · refine top_le_iff.mp (le_trans (le_of_eq (hvol _)) (mass_ge (B := c1 + r / 2 + k1) hS fun th hth =>
      ⟨_, (hup th hth).1, hnl th _ (hRv th)⟩))
  · refine top_le_iff.mp (le_trans (le_of_eq (hvol _)) (mass_ge (B := c1 + r / 2 + k1 + 1 / 2 * ((1 + |x0|) / T) ^ 2) hS
      fun th hth => ⟨_, ?_, postGauss_value hreg s nlrl th x0 (hnl th _ (hRv th))⟩))
    have := hup th hth
    rw [← hT]
    linarith [this.1, this.2]

/-- **C277** In a bounded sampling box the restricted likelihood alone defines a law. -/
theorem box_proper {lo hi : Fin (d + 1) → ℝ} (h : ∀ i, lo i < hi i) :
    0 < ∫⁻ th in Set.Icc lo hi, weight (fun th : Fin (d + 1) → ℝ => nlrl (List.ofFn th)) th ∧
    ∫⁻ th in Set.Icc lo hi, weight (fun th : Fin (d + 1) → ℝ => nlrl (List.ofFn th)) th < ⊤ := by
  obtain ⟨R, -, -, -, -, hR, hRv, -⟩ := reml_envelope hla p he x hP z
  have hw : ∀ th : Fin (d + 1) → ℝ, weight (fun th : Fin (d + 1) → ℝ => nlrl (List.ofFn th)) th =
      ENNReal.ofReal (Real.exp (-R th)) := fun th => weight_fin (hnl th _ (hRv th))
  have hc : Continuous fun th => Real.exp (-R th) := Real.continuous_exp.comp hR.neg
  simp only [hw]
  constructor
  · refine (setLIntegral_pos_iff (ENNReal.measurable_ofReal.comp hc.measurable)).mpr ?_
    have : Function.support (ENNReal.ofReal ∘ fun th => Real.exp (-R th)) = Set.univ := by
      ext th
      simp [Real.exp_pos]
    rw [this, Set.univ_inter, Real.volume_Icc_pi]
    refine pos_iff_ne_zero.mpr (Finset.prod_ne_zero_iff.mpr fun i _ => ?_)
    simp [h i]
  · exact (hc.integrableOn_Icc).lintegral_lt_top

end

/-! ## Concrete cases -/

/-- A function with the values of the restricted likelihood exists. -/
theorem nlrl_exists (hla : la.Sound be) (p : ℕ) {eps : ℝ} (he : 0 < eps) (x : Matrix (Fin (q + r)) (Fin d) ℝ)
    {P : Mat (q + r) q} (hP : FullRank P) (z : Fin (q + r) → ℝ) :
    ∃ nlrl : List ℝ → Py Flt, ∀ (th : Fin (d + 1) → ℝ) (L : ℝ),
      reml be la (cov (maternFormula p) eps th x .same) P z = .ok (.finite L) → nlrl (List.ofFn th) = .ok (.fin L) := by
  obtain ⟨R, -, -, -, -, -, hR, -⟩ := reml_envelope hla p he x hP z
  refine ⟨fun l => .ok (.fin (R fun i => l.getD i 0)), fun th L h => ?_⟩
  have h' := (hR th).symm.trans h
  injection h' with h'
  injection h' with h'
  have e : (fun i : Fin (d + 1) => (List.ofFn th).getD i 0) = th := by
    funext i
    rw [List.getD_eq_getElem?_getD, List.getElem?_ofFn, dif_pos i.2]
    rfl
  rw [← h']
  show Except.ok (Flt.fin (R fun i : Fin (d + 1) => (List.ofFn th).getD i 0)) = _
  rw [e]

/-- Concrete case of `remap_proper`, `barrier_proper_false` and `flat_proper_false`: two points, constant data. -/
example (hla : la.Sound be) (s : Defaults) : ∃ nlrl : List ℝ → Py Flt,
    (let f : (Fin 2 → ℝ) → Py Flt := fun th => postBoth (fun _ => 1) s nlrl none (List.ofFn th) (.fin 0) (some (.fin 2))
      (some (.fin (1 / 2))) (some ((List.ofFn fun _ : Fin 1 => (-1 : ℝ)).map Flt.fin))
      (some ((List.ofFn fun _ : Fin 1 => (0 : ℝ)).map Flt.fin)) (some (.fin 1))
    0 < mass f ∧ ∃ l > 0, ∫⁻ th : Fin 2 → ℝ, ENNReal.ofReal (Real.exp (l * ∑ i, |th i|)) * weight f th < ⊤) ∧
    mass (fun th : Fin 2 → ℝ => postBarrier s nlrl (List.ofFn th) ((List.ofFn fun _ : Fin 1 => (-1 : ℝ)).map Flt.fin)
      ((List.ofFn fun _ : Fin 1 => (0 : ℝ)).map Flt.fin) (some (.fin 1))) = ⊤ ∧
    mass (fun th : Fin 2 → ℝ => nlrl (List.ofFn th)) = ⊤ := by
  obtain ⟨nlrl, h⟩ := nlrl_exists (d := 1) (q := 1) (r := 1) hla 1 (eps := 1) one_pos twoX twoP_rank (twoP *ᵥ fun _ => 3)
  have hreg : Regular (fun _ => 1) 2 (1 / 2) 1 := ⟨by norm_num, by norm_num, by norm_num, by norm_num, by norm_num⟩
  have hm : ∀ j : Fin 1, (fun _ => -1 : Fin 1 → ℝ) j < (fun _ => 0 : Fin 1 → ℝ) j := fun _ => by norm_num
  exact ⟨nlrl, remap_proper (d := 1) (q := 1) (r := 1) hla 1 one_pos twoX twoP_rank _ h hreg s none (fun v h => by simp at h) 0 hm,
    barrier_proper_false (d := 1) (q := 1) (r := 1) hla 1 one_pos twoX twoP_rank _ h one_pos ⟨_, rfl⟩ one_pos s hm,
    (flat_proper_false (d := 1) (q := 1) (r := 1) hla 1 one_pos twoX twoP_rank _ h one_pos hreg s 0).1⟩

/-- Concrete case of `barrier_proper` and `box_proper`: two opposite observations. -/
example (hla : la.Sound be) (s : Defaults) : ∃ nlrl : List ℝ → Py Flt,
    (let f : (Fin 2 → ℝ) → Py Flt := fun th => postBarrier s nlrl (List.ofFn th)
      ((List.ofFn fun _ : Fin 1 => (-1 : ℝ)).map Flt.fin) ((List.ofFn fun _ : Fin 1 => (0 : ℝ)).map Flt.fin) (some (.fin 1))
    0 < mass f ∧ ∃ l > 0, ∫⁻ th : Fin 2 → ℝ, ENNReal.ofReal (Real.exp (l * ∑ i, |th i|)) * weight f th < ⊤) ∧
    0 < ∫⁻ th in Set.Icc (0 : Fin 2 → ℝ) 1, weight (fun th : Fin 2 → ℝ => nlrl (List.ofFn th)) th := by
  obtain ⟨nlrl, h⟩ := nlrl_exists (d := 1) (q := 1) (r := 1) hla 1 (eps := 1) one_pos twoX twoP_rank twoZ
  have hm : ∀ j : Fin 1, (fun _ => -1 : Fin 1 → ℝ) j < (fun _ => 0 : Fin 1 → ℝ) j := fun _ => by norm_num
  refine ⟨nlrl, barrier_proper (d := 1) (q := 1) (r := 1) hla 1 one_pos twoX twoP_rank _ h one_pos (fun b hb => ?_) one_pos s hm,
    (box_proper (d := 1) (q := 1) (r := 1) hla 1 one_pos twoX twoP_rank _ h fun i => by simp).1⟩
  have h0 := congrFun hb 0
  have h1 := congrFun hb 1
  simp [twoP, twoZ, Matrix.mulVec, dotProduct] at h0 h1
  linarith

end Verif.Core
