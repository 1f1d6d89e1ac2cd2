import Verif.Kernel.PropsMaternPD
import Verif.Core.PropsSmooth
import Verif.Core.PropsMaternGP
import Mathlib.Topology.Instances.Matrix

/-!
# C255: Matérn models of high order approach the model with a Gaussian kernel

Seen from the documented formula, the kernel of order `p` is an average of Gaussian kernels whose scales concentrate
around one as `p` grows, at a rate which does not depend on the distance.
-/

set_option autoImplicit false

namespace Verif.Kernel

open Verif MeasureTheory Set Verif.PD

/-- The Gaussian kernel. -/
noncomputable def gaussK (h : ℝ) : ℝ := Real.exp (-h ^ 2)

/-- Changing the scale of a decaying exponential moves it by at most twice the change. -/
theorem exp_scale {x t : ℝ} (hx : 0 ≤ x) (ht : 0 < t) : |Real.exp (-(x / t)) - Real.exp (-x)| ≤ 2 * |t - 1| := by
  have key : ∀ a : ℝ, 0 ≤ a → Real.exp (-a) * a ≤ 1 := by
    intro a ha
    rw [Real.exp_neg, inv_mul_le_iff₀ (Real.exp_pos _), mul_one]
    linarith [Real.add_one_le_exp a]
  rcases le_or_gt 1 t with h | h
  · set a := x / t with ha
    have hxa : x = a * t := by rw [ha]; field_simp
    have ha0 : 0 ≤ a := by positivity
    have h1 : Real.exp (-x) ≤ Real.exp (-a) := Real.exp_le_exp.mpr (by rw [hxa]; nlinarith)
    have h2 : Real.exp (-x) = Real.exp (-a) * Real.exp (-(a * (t - 1))) := by
      rw [← Real.exp_add, hxa]; congr 1; ring
    rw [abs_of_nonneg (by linarith), abs_of_nonneg (by linarith)]
    have h3 := Real.add_one_le_exp (-(a * (t - 1)))
    have h4 := key a ha0
    have h5 := Real.exp_pos (-a)
    have h6 : Real.exp (-a) * (-(a * (t - 1)) + 1) ≤ Real.exp (-x) := by rw [h2]; gcongr
    nlinarith
  · have h1 : Real.exp (-(x / t)) ≤ Real.exp (-x) := by
      refine Real.exp_le_exp.mpr (neg_le_neg ?_)
      rw [le_div_iff₀ ht]; nlinarith
    rw [abs_of_nonpos (by linarith), abs_of_nonpos (by linarith)]
    rcases le_or_gt t (1 / 2) with h' | h'
    · have h2 : Real.exp (-x) ≤ 1 := Real.exp_le_one_iff.mpr (by linarith)
      have h3 := Real.exp_pos (-(x / t))
      linarith
    · have h2 : Real.exp (-(x / t)) = Real.exp (-x) * Real.exp (-(x * ((1 - t) / t))) := by
        rw [← Real.exp_add]; congr 1; field_simp; ring
      have h3 := Real.add_one_le_exp (-(x * ((1 - t) / t)))
      have h4 := key x hx
      have h5 := Real.exp_pos (-x)
      have h6 : Real.exp (-x) * (-(x * ((1 - t) / t)) + 1) ≤ Real.exp (-(x / t)) := by rw [h2]; gcongr
      have h7 : (1 - t) / t ≤ 2 * (1 - t) := by rw [div_le_iff₀ ht]; nlinarith
      have h8 : 0 ≤ (1 - t) / t := div_nonneg (by linarith) ht.le
      nlinarith

theorem shape_at_zero (p : ℕ) : shape p 0 = 1 := by
  unfold shape
  rw [Finset.sum_range_succ']
  simp [coef_zero]

theorem gauss_moment (p : ℕ) : ∫ s in Ioi (0 : ℝ), s ^ (2 * p) * Real.exp (-s ^ 2) = mixConst p := by
  have h := shape_mixture p 0 le_rfl
  rw [shape_at_zero, mul_one] at h
  rw [h]
  simp [bump]

/-- **C255** The kernel of order `p` is within `2 / √(p + 1/2)` of the Gaussian kernel, at every distance. -/
theorem matern_gauss (p : ℕ) {h : ℝ} (hh : 0 ≤ h) : |maternFormula p h - gaussK h| ≤ 2 / √((p : ℝ) + 1 / 2) := by
  set nu : ℝ := (p : ℝ) + 1 / 2 with hnu
  have hn : 0 < nu := by positivity
  have hr : 0 < √nu := Real.sqrt_pos.mpr hn
  have hr2 : √nu * √nu = nu := Real.mul_self_sqrt hn.le
  have hc := mixConst_pos p
  have e0 := shape_mixture p (2 * √nu * h) (by positivity)
  rw [show 2 * √nu * h / 2 = √nu * h by ring] at e0
  have e1 := gauss_moment p
  have e2 := gauss_moment (p + 1)
  have e3 := gauss_moment (p + 2)
  have i0 := moment_gauss_integrable (2 * p)
  have i1 := moment_gauss_integrable (2 * (p + 1))
  have i2 := moment_gauss_integrable (2 * (p + 2))
  have ib := moment_integrable (√nu * h) (2 * p)
  have ee : ∫ s in Ioi (0 : ℝ), (s ^ (2 * p) * bump (√nu * h) s - gaussK h * (s ^ (2 * p) * Real.exp (-s ^ 2))) =
      mixConst p * (maternFormula p h - gaussK h) := by
    rw [integral_sub ib (i0.const_mul _), integral_const_mul, e1, ← e0, maternFormula_shape]
    ring
  -- the bound integrates to `2 mixConst / √ν`
  set B : ℝ → ℝ := fun s => √nu / nu ^ 2 * (s ^ (2 * (p + 2)) * Real.exp (-s ^ 2)) -
    2 * √nu / nu * (s ^ (2 * (p + 1)) * Real.exp (-s ^ 2)) + (√nu + 1 / √nu) * (s ^ (2 * p) * Real.exp (-s ^ 2)) with hB
  have iB : IntegrableOn B (Ioi 0) := ((i2.const_mul _).sub (i1.const_mul _)).add (i0.const_mul _)
  have eB : ∫ s in Ioi (0 : ℝ), B s = 2 * mixConst p / √nu := by
    have a1 : ∫ s in Ioi (0 : ℝ), B s = √nu / nu ^ 2 * mixConst (p + 2) - 2 * √nu / nu * mixConst (p + 1) +
        (√nu + 1 / √nu) * mixConst p := by
      refine (integral_add ((i2.const_mul _).sub (i1.const_mul _)) (i0.const_mul _)).trans ?_
      rw [integral_const_mul, e1]
      congr 1
      refine (integral_sub (i2.const_mul _) (i1.const_mul _)).trans ?_
      rw [integral_const_mul, integral_const_mul, e2, e3]
    have a2 : mixConst (p + 1) = nu * mixConst p := by simp only [mixConst, hnu]; ring
    have a3 : mixConst (p + 2) = (nu + 1) * (nu * mixConst p) := by
      rw [← a2]; simp only [mixConst, hnu]; push_cast; ring
    rw [a1, a2, a3]
    have := Real.sq_sqrt hn.le
    field_simp
    rw [this]; ring
  have hb : ∀ s ∈ Ioi (0 : ℝ), ‖s ^ (2 * p) * bump (√nu * h) s - gaussK h * (s ^ (2 * p) * Real.exp (-s ^ 2))‖ ≤ B s := by
    intro s hs
    have hs : 0 < s := hs
    set t := s ^ 2 / nu with ht
    have t0 : 0 < t := by positivity
    have f1 : bump (√nu * h) s = Real.exp (-s ^ 2) * Real.exp (-(h ^ 2 / t)) := by
      rw [bump, ← Real.exp_add, ht, mul_pow, Real.sq_sqrt hn.le]
      congr 1
      field_simp
      ring
    have f2 : s ^ (2 * p) * bump (√nu * h) s - gaussK h * (s ^ (2 * p) * Real.exp (-s ^ 2)) =
        (s ^ (2 * p) * Real.exp (-s ^ 2)) * (Real.exp (-(h ^ 2 / t)) - Real.exp (-h ^ 2)) := by
      rw [f1, gaussK]; ring
    have hw : 0 ≤ s ^ (2 * p) * Real.exp (-s ^ 2) := by positivity
    have f3 := exp_scale (sq_nonneg h) t0
    have f4 : 2 * |t - 1| ≤ √nu * (t - 1) ^ 2 + 1 / √nu := by
      have := sq_nonneg (√nu * |t - 1| - 1)
      have h9 : √nu * (2 * |t - 1|) ≤ √nu * (√nu * (t - 1) ^ 2 + 1 / √nu) := by
        rw [mul_add, mul_one_div_cancel hr.ne', ← sq_abs (t - 1)]
        nlinarith
      exact le_of_mul_le_mul_left h9 hr
    rw [f2, norm_mul, Real.norm_of_nonneg hw, Real.norm_eq_abs]
    refine (mul_le_mul_of_nonneg_left (f3.trans f4) hw).trans_eq ?_
    rw [hB, ht]
    simp only [show 2 * (p + 2) = 2 * p + 4 by ring, show 2 * (p + 1) = 2 * p + 2 by ring, pow_add]
    field_simp
    ring
  have h5 := norm_integral_le_of_norm_le iB ((ae_restrict_mem measurableSet_Ioi).mono hb)
  rw [ee, eB, norm_mul, Real.norm_of_nonneg hc.le, Real.norm_eq_abs] at h5
  have h6 : mixConst p * |maternFormula p h - gaussK h| ≤ mixConst p * (2 / √nu) := by
    refine h5.trans_eq ?_; ring
  exact le_of_mul_le_mul_left h6 hc

/-- **C255** The values returned by `maternp_kernel`, after any history of the cache, are within `2 / √(p + 1/2)` of the
Gaussian kernel. -/
theorem maternp_gauss {g : ℕ → ℝ} (hg : IsGammaln g) (bigf : ℝ) (ops : List CacheOp) (p : ℕ) {h : ℝ} (hh : 0 ≤ h) :
    ∃ v, (maternp g bigf p (h : WithTop ℝ) (ops.foldl (cacheStep g) none)).1 = .ok v ∧
      |v - Real.exp (-h ^ 2)| ≤ 2 / √((p : ℝ) + 1 / 2) :=
  ⟨_, maternp_formula hg bigf ops p h, matern_gauss p hh⟩

theorem rate_zero : Filter.Tendsto (fun p : ℕ => 2 / √((p : ℝ) + 1 / 2)) Filter.atTop (nhds 0) := by
  refine Filter.Tendsto.const_div_atTop ?_ 2
  refine (Real.tendsto_sqrt_atTop).comp ?_
  exact Filter.tendsto_atTop_add_const_right _ _ tendsto_natCast_atTop_atTop

theorem matern_tendsto {h : ℝ} (hh : 0 ≤ h) :
    Filter.Tendsto (fun p => maternFormula p h) Filter.atTop (nhds (gaussK h)) := by
  rw [tendsto_iff_norm_sub_tendsto_zero]
  exact squeeze_zero (fun _ => norm_nonneg _) (fun p => matern_gauss p hh) rate_zero

variable {d n m : ℕ}

theorem scaledDistance_nonneg' (l x y : Fin d → ℝ) : 0 ≤ scaledDistance l x y := Real.sqrt_nonneg _

/-- **C255** Every entry of the covariance matrices is within `2 σ² / √(p + 1/2)` of the entry for the Gaussian kernel. -/
theorem cov_gauss (p : ℕ) (eps : ℝ) (param : Fin (d + 1) → ℝ) (x : Matrix (Fin n) (Fin d) ℝ) (y : Matrix (Fin m) (Fin d) ℝ) :
    (∀ i j, |cov (maternFormula p) eps param x .same i j - cov gaussK eps param x .same i j| ≤
      Real.exp (param 0) * (2 / √((p : ℝ) + 1 / 2))) ∧
    ∀ i t, |covIT (maternFormula p) param x y i t - covIT gaussK param x y i t| ≤
      Real.exp (param 0) * (2 / √((p : ℝ) + 1 / 2)) := by
  constructor
  · intro i j
    simp only [cov, covII, Matrix.of_apply]
    rw [add_sub_add_right_eq_sub, ← mul_sub, abs_mul, abs_of_pos (Real.exp_pos _)]
    exact mul_le_mul_of_nonneg_left (matern_gauss p (scaledDistance_nonneg' _ _ _)) (Real.exp_pos _).le
  · intro i t
    simp only [covIT, Matrix.of_apply]
    rw [← mul_sub, abs_mul, abs_of_pos (Real.exp_pos _)]
    exact mul_le_mul_of_nonneg_left (matern_gauss p (scaledDistance_nonneg' _ _ _)) (Real.exp_pos _).le

/-- A point in the coordinates in which the Gaussian kernel has unit scale. -/
noncomputable def scaled (l x : Fin d → ℝ) : Fin d → ℝ := fun k => Real.exp (l k) * x k

theorem gaussK_dist (l x y : Fin d → ℝ) : gaussK (scaledDistance l x y) = Real.exp (-PD.sq (scaled l x) (scaled l y) / 1) := by
  unfold gaussK scaledDistance cdistNumpy scaleRow PD.sq scaled
  rw [Real.sq_sqrt (Finset.sum_nonneg fun _ _ => sq_nonneg _), div_one]

end Verif.Kernel

namespace Verif.Core

open Verif Verif.Data Matrix Filter Topology
open Verif.Kernel (cov covII covIT covPairwise maternFormula gaussK)

variable {n m q d r : ℕ} {be : Backend} {la : LA}

/-- The Gaussian covariance matrix is positive definite at admissible data. -/
theorem gauss_Kii {eps : ℝ} (param : Fin (d + 1) → ℝ) {x : Matrix (Fin n) (Fin d) ℝ} (hx : Admissible eps x) :
    (cov gaussK eps param x .same).PosDef := by
  set l : Fin d → ℝ := fun k => param k.succ with hl
  set G : Matrix (Fin n) (Fin n) ℝ := Matrix.of fun i j => gaussK (Kernel.scaledDistance l (x i) (x j)) with hG
  have hs : Gᵀ = G := by
    ext i j
    simp only [hG, transpose_apply, of_apply]
    rw [Kernel.scaledDistance_comm]
  have hq : ∀ v : Fin n → ℝ, v ⬝ᵥ (G *ᵥ v) = ∑ i, ∑ j, v i * v j *
      Real.exp (-PD.sq (Kernel.scaled l (x i)) (Kernel.scaled l (x j)) / 1) := by
    intro v
    simp only [dotProduct, mulVec, hG, of_apply, Finset.mul_sum, Kernel.gaussK_dist]
    refine Finset.sum_congr rfl fun i _ => Finset.sum_congr rfl fun j _ => ?_
    ring
  have hc : cov gaussK eps param x .same = Real.exp (param 0) • G + (10 * Real.exp (param 0) * eps) • (1 : Matrix (Fin n) (Fin n) ℝ) := by
    ext i j
    simp only [cov, covII, hG, of_apply, Matrix.add_apply, Matrix.smul_apply, Matrix.one_apply, smul_eq_mul]
    rfl
  have hG0 : G.PosSemidef := posSemidef_of_quad hs fun v => by
    rw [hq]; exact PD.gauss_quad_nonneg _ one_pos v
  rw [hc]
  rcases hx with he | ⟨he, hi⟩
  · refine Matrix.PosDef.posSemidef_add (hG0.smul (Real.exp_pos _).le) ?_
    exact Matrix.PosDef.one.smul (by positivity)
  · have hG1 : G.PosDef := posDef_of_quad hs fun v hv => by
      rw [hq]
      refine PD.gauss_quad_pos _ ?_ one_pos hv
      intro i j hij
      refine hi (funext fun k => ?_)
      exact mul_left_cancel₀ (Real.exp_pos _).ne' (congrFun hij k)
    refine (hG1.smul (Real.exp_pos _)).add_posSemidef ?_
    exact Matrix.PosSemidef.one.smul (by positivity)

theorem inv_tendsto {ι : Type} [Fintype ι] [DecidableEq ι] {A : ℕ → Matrix ι ι ℝ} {B : Matrix ι ι ℝ}
    (h : ∀ i j, Tendsto (fun p => A p i j) atTop (𝓝 (B i j))) (hB : B.det ≠ 0) (i j : ι) :
    Tendsto (fun p => (A p)⁻¹ i j) atTop (𝓝 (B⁻¹ i j)) := by
  have hA : Tendsto A atTop (𝓝 B) := tendsto_pi_nhds.mpr fun i => tendsto_pi_nhds.mpr fun j => h i j
  have hd : Tendsto (fun p => (A p).det) atTop (𝓝 B.det) := ((continuous_id.matrix_det).tendsto B).comp hA
  have ha : Tendsto (fun p => (A p).adjugate i j) atTop (𝓝 (B.adjugate i j)) :=
    ((Continuous.matrix_elem (continuous_id.matrix_adjugate) i j).tendsto B).comp hA
  simp only [Matrix.inv_def, Matrix.smul_apply, Ring.inverse_eq_inv', smul_eq_mul]
  exact (hd.inv₀ hB).mul ha

theorem mul_tendsto {ι κ μ : Type} [Fintype κ] {A : ℕ → Matrix ι κ ℝ} {B : Matrix ι κ ℝ} {C : ℕ → Matrix κ μ ℝ} {D : Matrix κ μ ℝ}
    (hA : ∀ i j, Tendsto (fun p => A p i j) atTop (𝓝 (B i j))) (hC : ∀ i j, Tendsto (fun p => C p i j) atTop (𝓝 (D i j)))
    (i : ι) (j : μ) : Tendsto (fun p => (A p * C p) i j) atTop (𝓝 ((B * D) i j)) := by
  simp only [Matrix.mul_apply]
  exact tendsto_finsetSum _ fun k _ => (hA i k).mul (hC k j)

theorem density_tendsto {A : ℕ → Mat n n} {B : Mat n n} (h : ∀ i j, Tendsto (fun p => A p i j) atTop (𝓝 (B i j)))
    (hB : B.PosDef) (mi z : Fin n → ℝ) :
    Tendsto (fun p => -Real.log (gaussDensity (A p) mi z)) atTop (𝓝 (-Real.log (gaussDensity B mi z))) := by
  have hA : Tendsto A atTop (𝓝 B) := tendsto_pi_nhds.mpr fun i => tendsto_pi_nhds.mpr fun j => h i j
  have hd : Tendsto (fun p => (A p).det) atTop (𝓝 B.det) := ((continuous_id.matrix_det).tendsto B).comp hA
  have hp : (0 : ℝ) < (2 * Real.pi) ^ n * B.det := mul_pos (by have := Real.pi_pos; positivity) hB.det_pos
  refine (Tendsto.log ?_ (gaussDensity_pos hB mi z).ne').neg
  unfold gaussDensity
  refine Tendsto.mul (Tendsto.inv₀ (Tendsto.sqrt (hd.const_mul _)) (Real.sqrt_pos.mpr hp).ne') (Tendsto.rexp (Tendsto.const_mul _ ?_))
  simp only [dotProduct, mulVec]
  exact tendsto_finsetSum _ fun i _ => (tendsto_finsetSum _ fun j _ =>
    (inv_tendsto h hB.det_pos.ne' i j).mul_const _).const_mul _

/-- The arrays of a model with covariance built from the kernel `k`, for targets `y` held in another array
(kriging.py 59-60, 95-101 and 193-196, with the covariance of `maternp_covariance`, covariance.py, for the kernel `k`). -/
noncomputable def kernelArrays (k : ℝ → ℝ) (eps : ℝ) (param : Fin (d + 1) → ℝ)
    (x : Matrix (Fin n) (Fin d) ℝ) (y : Matrix (Fin m) (Fin d) ℝ) (P : Mat n q) (Pt : Mat m q) : Arrays n m q where
  Kii := cov k eps param x .same
  Kit := covIT k param x y
  vt := covPairwise k param y .none
  Ktt := cov k eps param y .none
  Pi := P
  Pt := Pt

theorem cov_tendsto (eps : ℝ) (param : Fin (d + 1) → ℝ) (x : Matrix (Fin n) (Fin d) ℝ) (y : Matrix (Fin m) (Fin d) ℝ) :
    (∀ i j, Tendsto (fun p => cov (maternFormula p) eps param x .same i j) atTop (𝓝 (cov gaussK eps param x .same i j))) ∧
    ∀ i t, Tendsto (fun p => covIT (maternFormula p) param x y i t) atTop (𝓝 (covIT gaussK param x y i t)) := by
  have h0 : Tendsto (fun p : ℕ => Real.exp (param 0) * (2 / √((p : ℝ) + 1 / 2))) atTop (𝓝 0) := by
    simpa using Kernel.rate_zero.const_mul (Real.exp (param 0))
  refine ⟨fun i j => ?_, fun i t => ?_⟩
  · rw [tendsto_iff_norm_sub_tendsto_zero]
    exact squeeze_zero (fun _ => norm_nonneg _) (fun p => (Kernel.cov_gauss p eps param x y).1 i j) h0
  · rw [tendsto_iff_norm_sub_tendsto_zero]
    exact squeeze_zero (fun _ => norm_nonneg _) (fun p => (Kernel.cov_gauss p eps param x y).2 i t) h0

/-- **C255** As the order grows, the predictive means and variances tend to those the same code returns for the Gaussian
kernel: for a zero mean and for an unknown linear mean. -/
theorem predict_gauss (hla : la.Contract be) {eps : ℝ} (param : Fin (d + 1) → ℝ) {x : Matrix (Fin (q + r)) (Fin d) ℝ}
    (hx : Admissible eps x) (y : Matrix (Fin m) (Fin d) ℝ) {P : Mat (q + r) q} (hP : FullRank P) (Pt : Mat m q)
    (zi : Fin (q + r) → ℝ) {mt : MeanType (q + r) m} (hm : mt = .zero ∨ mt = .linearPredictor) :
    ∃ mean var lam, predict la mt (kernelArrays gaussK eps param x y P Pt) zi false = .ok (mean, var, lam) ∧
      ∃ (mp vp : ℕ → Fin m → ℝ) (lp : ℕ → Mat (q + r) m),
        (∀ p, predict la mt (maternOther p eps param x y P Pt) zi false = .ok (mp p, vp p, lp p)) ∧
        ∀ t, Tendsto (fun p => mp p t) atTop (𝓝 (mean t)) ∧ Tendsto (fun p => vp p t) atTop (𝓝 (var t)) ∧
          ∀ i, Tendsto (fun p => lp p i t) atTop (𝓝 (lam i t)) := by
  have hG : (kernelArrays gaussK eps param x y P Pt).Kii.PosDef := gauss_Kii param hx
  have hK : ∀ p, (maternOther p eps param x y P Pt).Kii.PosDef := fun p => matern_Kii p param hx
  obtain ⟨s1, s2⟩ := cov_tendsto eps param x y
  rcases hm with rfl | rfl
  · refine ⟨_, _, _, predict_zero hla _ hG zi false, _, _, _, fun p => predict_zero hla _ (hK p) zi false, fun t => ?_⟩
    have hw : ∀ i t, Tendsto (fun p => ((maternOther p eps param x y P Pt).Kii⁻¹ * (maternOther p eps param x y P Pt).Kit) i t) atTop
        (𝓝 (((kernelArrays gaussK eps param x y P Pt).Kii⁻¹ * (kernelArrays gaussK eps param x y P Pt).Kit) i t)) :=
      mul_tendsto (inv_tendsto s1 hG.det_pos.ne') s2
    simp only [Bool.false_eq_true, if_false]
    refine ⟨(tendsto_finsetSum _ fun i _ => (hw i t).mul_const _).add_const _, ?_, fun i => hw i t⟩
    exact Tendsto.sub tendsto_const_nhds (tendsto_finsetSum _ fun i _ => (hw i t).mul (s2 i t))
  · obtain ⟨X, hX, g0⟩ := predict_linear hla (kernelArrays gaussK eps param x y P Pt) (CPD.of_posDef hG _) hP zi false
    choose Y hY g1 using fun p => predict_linear hla (maternOther p eps param x y P Pt) (CPD.of_posDef (hK p) _) hP zi false
    have hL : ∀ i j, Tendsto (fun p => ukLHS (maternOther p eps param x y P Pt) i j) atTop
        (𝓝 (ukLHS (kernelArrays gaussK eps param x y P Pt) i j)) := by
      intro i j
      rcases i with i | i <;> rcases j with j | j
      · exact s1 i j
      · exact tendsto_const_nhds
      · exact tendsto_const_nhds
      · exact tendsto_const_nhds
    have hR : ∀ i t, Tendsto (fun p => ukRHS (maternOther p eps param x y P Pt) i t) atTop
        (𝓝 (ukRHS (kernelArrays gaussK eps param x y P Pt) i t)) := by
      intro i t
      rcases i with i | i
      · exact s2 i t
      · exact tendsto_const_nhds
    have hu : IsUnit (ukLHS (kernelArrays gaussK eps param x y P Pt)).det :=
      (Matrix.isUnit_iff_isUnit_det _).mp (ukLHS_unit _ (CPD.of_posDef hG _) hP)
    have hu' : ∀ p, IsUnit (ukLHS (maternOther p eps param x y P Pt)).det := fun p =>
      (Matrix.isUnit_iff_isUnit_det _).mp (ukLHS_unit _ (CPD.of_posDef (hK p) _) hP)
    have eX : X = (ukLHS (kernelArrays gaussK eps param x y P Pt))⁻¹ * ukRHS (kernelArrays gaussK eps param x y P Pt) := by
      rw [← hX, ← Matrix.mul_assoc, Matrix.nonsing_inv_mul _ hu, Matrix.one_mul]
    have eY : ∀ p, Y p = (ukLHS (maternOther p eps param x y P Pt))⁻¹ * ukRHS (maternOther p eps param x y P Pt) := fun p => by
      rw [← hY, ← Matrix.mul_assoc, Matrix.nonsing_inv_mul _ (hu' p), Matrix.one_mul]
    have hw : ∀ i t, Tendsto (fun p => Y p i t) atTop (𝓝 (X i t)) := by
      intro i t
      simp only [eY]
      rw [eX]
      exact mul_tendsto (inv_tendsto hL hu.ne_zero) hR i t
    refine ⟨_, _, _, g0, _, _, _, g1, fun t => ?_⟩
    simp only [Bool.false_eq_true, if_false]
    refine ⟨(tendsto_finsetSum _ fun i _ => (hw (Sum.inl i) t).mul_const _).add_const _, ?_, fun i => hw (Sum.inl i) t⟩
    exact Tendsto.sub tendsto_const_nhds (tendsto_finsetSum _ fun i _ => (hw i t).mul (hR i t))

/-- **C255** The likelihood criteria tend to their values for the Gaussian kernel. -/
theorem criteria_gauss (hla : la.Sound be) {eps : ℝ} (param : Fin (d + 1) → ℝ) {x : Matrix (Fin (q + r)) (Fin d) ℝ}
    (hx : Admissible eps x) {P : Mat (q + r) q} (hP : FullRank P) (mi zi : Fin (q + r) → ℝ) :
    (∃ v, nll be la (cov gaussK eps param x .same) mi zi = .ok (.finite v) ∧ ∃ w : ℕ → ℝ,
      (∀ p, nll be la (cov (maternFormula p) eps param x .same) mi zi = .ok (.finite (w p))) ∧ Tendsto w atTop (𝓝 v)) ∧
    ∃ v, reml be la (cov gaussK eps param x .same) P zi = .ok (.finite v) ∧ ∃ w : ℕ → ℝ,
      (∀ p, reml be la (cov (maternFormula p) eps param x .same) P zi = .ok (.finite (w p))) ∧ Tendsto w atTop (𝓝 v) := by
  have hG : (cov gaussK eps param x .same).PosDef := gauss_Kii param hx
  have hK : ∀ p, (cov (maternFormula p) eps param x .same).PosDef := fun p => matern_Kii p param hx
  have s1 := (cov_tendsto eps param x x).1
  refine ⟨⟨_, (nll_eq hla hG mi zi).1, _, fun p => (nll_eq hla (hK p) mi zi).1, density_tendsto s1 hG mi zi⟩, ?_⟩
  have hW : IsContrast P (contrastMatrix la P) := (hla.qr_ok P (Nat.le_add_right q r)).contrast hP
  refine ⟨_, reml_eq hla (CPD.of_posDef hG P) hP zi hW, _, fun p => reml_eq hla (CPD.of_posDef (hK p) P) hP zi hW,
    density_tendsto ?_ (contrast_posDef hW.orth hW.null (CPD.of_posDef hG P)) _ _⟩
  exact mul_tendsto (fun _ _ => tendsto_const_nhds) (mul_tendsto s1 fun _ _ => tendsto_const_nhds)

/-- At distance one the kernel of order 99 is within 0.21 of the Gaussian kernel. -/
example : |maternFormula 99 1 - Real.exp (-1)| ≤ 0.21 := by
  have h := Kernel.matern_gauss 99 (h := 1) zero_le_one
  have e : Kernel.gaussK 1 = Real.exp (-1) := by unfold Kernel.gaussK; norm_num
  rw [e] at h
  refine h.trans ?_
  have h9 : (9.95 : ℝ) ≤ √(((99 : ℕ) : ℝ) + 1 / 2) := Real.le_sqrt_of_sq_le (by norm_num)
  rw [div_le_iff₀ (by linarith)]
  linarith

/-- Two observations on a line, a constant mean. -/
example : ∃ mean var lam, predict (q := 1) (r := 1) (exactLA .numpy) .linearPredictor (kernelArrays gaussK 0 ![0, 0] (!![0; 1] : Matrix (Fin (1 + 1)) (Fin 1) ℝ)
    (!![0.5] : Matrix (Fin 1) (Fin 1) ℝ) (fun _ _ => 1) (fun _ _ => (1 : ℝ))) (![1, 2] : Fin (1 + 1) → ℝ) false = .ok (mean, var, lam) := by
  have hx : Function.Injective (!![0; 1] : Matrix (Fin 2) (Fin 1) ℝ) := by
    intro i j h
    have := congrFun h 0
    fin_cases i <;> fin_cases j <;> simp_all
  have hP : FullRank (fun _ _ => 1 : Mat 2 1) := by
    intro b hb
    have := congrFun hb 0
    funext j
    fin_cases j
    simpa [mulVec, dotProduct] using this
  obtain ⟨a, b, c, h, -⟩ := predict_gauss (exactLA_contract .numpy) (q := 1) (r := 1) ![0, 0] (Or.inr ⟨le_rfl, hx⟩) !![0.5] hP
    (fun _ _ => (1 : ℝ)) ![1, 2] (Or.inr rfl)
  exact ⟨a, b, c, h⟩

end Verif.Core
