import Verif.Core.PropsWellPosed
import Verif.Core.PropsTarget
import Verif.Kernel.PropsRemap
import Mathlib.Analysis.Matrix.PosDef

/-!
# C271: with both priors a best parameter exists among all parameters
-/

set_option autoImplicit false

namespace Verif.Core

open Verif Verif.Data Matrix
open Verif.Kernel (cov covII maternFormula Regular postBoth tau pen penSum Above Defaults XArr)

variable {n q d r : ℕ} {be : Backend} {la : LA}

theorem det_lower {M : Mat n n} (hM : M.PosSemidef) {e : ℝ} (he : 0 < e) : e ^ n ≤ (M + e • (1 : Mat n n)).det := by
  have hA : (M + e • (1 : Mat n n)).IsHermitian := hM.1.add ((Matrix.PosDef.one.smul he).1)
  rw [hA.det_eq_prod_eigenvalues]
  have h : ∀ i, e ≤ hA.eigenvalues i := fun i => by
    rw [hA.eigenvalues_eq]
    set v := (hA.eigenvectorBasis i).ofLp with hv
    have hv1 : star v ⬝ᵥ v = 1 := by
      have h1 := hA.eigenvectorBasis.orthonormal.1 i
      have h2 : ‖hA.eigenvectorBasis i‖ ^ 2 = 1 := by rw [h1]; norm_num
      rw [EuclideanSpace.norm_sq_eq] at h2
      rw [← h2]
      simp only [dotProduct, hv, Pi.star_apply, star_trivial, Real.norm_eq_abs, sq_abs]
      exact Finset.sum_congr rfl fun i _ => (pow_two _).symm
    have hp := hM.dotProduct_mulVec_nonneg v
    rw [add_mulVec, dotProduct_add, smul_mulVec, one_mulVec, dotProduct_smul, hv1]
    simp only [smul_eq_mul, mul_one]
    show e ≤ star v ⬝ᵥ M *ᵥ v + e
    linarith
  calc e ^ n = ∏ _i : Fin n, e := by simp
    _ ≤ _ := Finset.prod_le_prod (fun _ _ => he.le) fun i _ => h i

/-- The restricted likelihood decreases at most linearly with the log of the variance, whatever the ranges. -/
theorem reml_lower (p : ℕ) {eps : ℝ} (he : 0 < eps) (x : Matrix (Fin (q + r)) (Fin d) ℝ) {W : Mat (q + r) r}
    (hW : Wᵀ * W = 1) (z : Fin (q + r) → ℝ) (th : Fin (d + 1) → ℝ)
    (hC : (Wᵀ * (cov (maternFormula p) eps (Fin.cons (Real.log 1) fun j => th j.succ) x .same * W)).PosDef) :
    1 / 2 * (r * Real.log (2 * Real.pi) + r * Real.log (10 * eps)) + r / 2 * th 0 ≤
      -Real.log (gaussDensity (Wᵀ * (cov (maternFormula p) eps th x .same * W)) 0 (Wᵀ *ᵥ z)) := by
  have e1 : cov (maternFormula p) eps th x .same =
      Real.exp (th 0) • cov (maternFormula p) eps (Fin.cons (Real.log 1) fun j => th j.succ) x .same := by
    rw [← cov_cons]
    congr 1
    exact (Fin.cons_self_tail th).symm
  rw [e1, Matrix.smul_mul, Matrix.mul_smul, density_scale hC]
  have h1 : 0 ≤ (Wᵀ *ᵥ z) ⬝ᵥ ((Wᵀ * (cov (maternFormula p) eps (Fin.cons (Real.log 1) fun j => th j.succ) x .same * W))⁻¹ *ᵥ
      (Wᵀ *ᵥ z)) / (2 * Real.exp (th 0)) := by
    have h2 := hC.inv.posSemidef.dotProduct_mulVec_nonneg (Wᵀ *ᵥ z)
    rw [star_trivial] at h2
    have := Real.exp_pos (th 0)
    positivity
  have h3 : Real.log ((10 * eps) ^ r) ≤
      Real.log (Wᵀ * (cov (maternFormula p) eps (Fin.cons (Real.log 1) fun j => th j.succ) x .same * W)).det := by
    refine Real.log_le_log (by positivity) ?_
    have e2 : Wᵀ * (cov (maternFormula p) eps (Fin.cons (Real.log 1) fun j => th j.succ) x .same * W) =
        Wᵀ * ((Real.exp (Real.log 1) • Kernel.kernelMat p (fun j => th j.succ) x) * W) + (10 * eps) • (1 : Mat r r) := by
      have e3 : cov (maternFormula p) eps (Fin.cons (Real.log 1) fun j => th j.succ) x .same =
          Real.exp (Real.log 1) • Kernel.kernelMat p (fun j => th j.succ) x + (10 * eps) • (1 : Mat (q + r) (q + r)) := by
        have := Kernel.covII_eq p eps (Fin.cons (Real.log 1) fun j => th j.succ) x
        simp only [Fin.cons_zero, Fin.cons_succ, Real.log_one, Real.exp_zero, mul_one] at this
        rw [Real.log_one, Real.exp_zero]
        exact this
      have e4 : Wᵀ * ((10 * eps) • (1 : Mat (q + r) (q + r)) * W) = (10 * eps) • (1 : Mat r r) := by
        rw [Matrix.smul_mul, Matrix.one_mul, Matrix.mul_smul, hW]
      rw [e3, Matrix.add_mul, Matrix.mul_add, e4]
    rw [e2]
    refine det_lower ?_ (by positivity)
    rw [Real.log_one, Real.exp_zero, one_smul]
    have := (Kernel.matern_posSemidef p (fun j => th j.succ) x).conjTranspose_mul_mul_same W
    rw [Matrix.conjTranspose_eq_transpose_of_trivial] at this
    rwa [← Matrix.mul_assoc]
  rw [Real.log_pow] at h3
  linarith

theorem above_ofFn {d : ℕ} (t m : Fin d → ℝ) : Above (List.ofFn t) (List.ofFn m) ↔ ∀ j, m j < -t j := by
  unfold Above
  induction d with
  | zero => simp
  | succ d ih =>
    rw [List.ofFn_succ, List.ofFn_succ, List.forall₂_cons, ih, Fin.forall_fin_succ]

theorem penSum_ofFn {d : ℕ} (a : ℝ) (t m r : Fin d → ℝ) :
    penSum a (List.ofFn t) (List.ofFn m) (List.ofFn r) = ∑ j, pen a (-t j) (m j) (r j) := by
  induction d with
  | zero => simp [penSum]
  | succ d ih => rw [List.ofFn_succ, List.ofFn_succ, List.ofFn_succ, penSum, ih, Fin.sum_univ_succ]

theorem forall₂_ofFn {d : ℕ} {m r : Fin d → ℝ} (h : ∀ j, m j < r j) :
    List.Forall₂ (fun m r => m < r) (List.ofFn m) (List.ofFn r) := by
  induction d with
  | zero => simp
  | succ d ih =>
    rw [List.ofFn_succ, List.ofFn_succ, List.forall₂_cons]
    exact ⟨h 0, ih fun j => h j.succ⟩

/-- The penalty in terms of the log of the distance to the minimum. -/
theorem pen_coercive {a w : ℝ} (ha : 0 < a) :
    ∃ C, ∀ u, a * min w 1 * |u| - C ≤ a * (Real.exp u - w * u) := by
  refine ⟨a * (w + 1) ^ 2, fun u => ?_⟩
  rcases le_total 0 u with hu | hu
  · rw [abs_of_nonneg hu]
    have h1 := Real.quadratic_le_exp_of_nonneg hu
    have h2 : min w 1 ≤ 1 := min_le_right _ _
    have h3 : min w 1 * u - (w + 1) ^ 2 ≤ Real.exp u - w * u := by
      nlinarith [mul_le_mul_of_nonneg_right h2 hu, sq_nonneg (u - (w + 1))]
    nlinarith [mul_le_mul_of_nonneg_left h3 ha.le]
  · rw [abs_of_nonpos hu]
    have h2 : min w 1 ≤ w := min_le_left _ _
    have h3 : min w 1 * (-u) - (w + 1) ^ 2 ≤ Real.exp u - w * u := by
      nlinarith [mul_le_mul_of_nonneg_right h2 (neg_nonneg.mpr hu), Real.exp_pos u, sq_nonneg (w + 1)]
    nlinarith [mul_le_mul_of_nonneg_left h3 ha.le]

theorem quad_coercive (b x0 : ℝ) {t : ℝ} (ht : 0 < t) :
    ∃ C, ∀ x : ℝ, |x| - C ≤ b * x + 1 / 2 * ((x - x0) / t) ^ 2 := by
  have h0 : 0 < t ^ 2 := by positivity
  refine ⟨(1 + |b|) * |x0| + (1 + |b|) ^ 2 * t ^ 2, fun x => ?_⟩
  set y := x - x0 with hy
  have hx : x = y + x0 := by rw [hy]; ring
  have h1 : |x| ≤ |y| + |x0| := hx ▸ abs_add_le y x0
  have h2 : -(|b| * |x|) ≤ b * x := by
    rw [← abs_mul]
    exact neg_abs_le _
  have h3 : (1 + |b|) * |y| - (1 + |b|) ^ 2 * t ^ 2 ≤ 1 / 2 * (y / t) ^ 2 := by
    have e : (1 + |b|) * |y| = ((1 + |b|) * t) * (|y| / t) := by field_simp
    have e2 : (y / t) ^ 2 = (|y| / t) ^ 2 := by rw [div_pow, div_pow, sq_abs]
    rw [e, e2, ← mul_pow]
    nlinarith [sq_nonneg (|y| / t - (1 + |b|) * t), sq_nonneg ((1 + |b|) * t)]
  have hb := abs_nonneg b
  nlinarith [mul_le_mul_of_nonneg_left h1 hb]

/-- A continuous function on vectors that grows with each entry has a minimum. -/
theorem min_of_coercive {k : ℕ} {f : (Fin k → ℝ) → ℝ} (hf : Continuous f) {κ : Fin k → ℝ} {C : ℝ} (hκ : ∀ i, 0 < κ i)
    (h : ∀ y, ∀ i, κ i * |y i| - C ≤ f y) : ∃ y, ∀ y', f y ≤ f y' := by
  refine hf.exists_forall_le' 0 ?_
  have hc : IsCompact (Set.Icc (fun i : Fin k => -((f 0 + C) / κ i)) fun i => (f 0 + C) / κ i) := isCompact_Icc
  filter_upwards [hc.compl_mem_cocompact] with y hy
  by_contra hlt
  have h2 : ∀ i, |y i| ≤ (f 0 + C) / κ i := fun i => by
    rw [le_div_iff₀ (hκ i)]
    linarith [not_le.mp hlt, h y i]
  exact hy ⟨fun i => (abs_le.mp (h2 i)).1, fun i => (abs_le.mp (h2 i)).2⟩

/-- **C271** With a positive nugget, the criterion of `select_parameters_with_remap` with both priors has a minimum over
all covariance parameters, whatever the data. -/
theorem remap_attained (hla : la.Sound be) (p : ℕ) {eps : ℝ} (he : 0 < eps) (x : Matrix (Fin (q + r)) (Fin d) ℝ)
    {P : Mat (q + r) q} (hP : FullRank P) (z : Fin (q + r) → ℝ) {nlrl : List ℝ → Py Flt}
    (hnl : ∀ (th : Fin (d + 1) → ℝ) (L : ℝ), reml be la (cov (maternFormula p) eps th x .same) P z = .ok (.finite L) →
      nlrl (List.ofFn th) = .ok (.fin L))
    {invCdf : ℝ → ℝ} {g c a : ℝ} (hreg : Regular invCdf g c a) (s : Defaults) (xb : Option XArr)
    (hxb : ∀ v, xb = some v → v.ndim = 2) (x0 : ℝ) {m r0 : Fin d → ℝ} (hm : ∀ j, m j < r0 j) :
    ∃ (th : Fin (d + 1) → ℝ) (v : ℝ), (∀ j, m j < -th j.succ) ∧
      postBoth invCdf s nlrl xb (List.ofFn th) (.fin x0) (some (.fin g)) (some (.fin c)) (some ((List.ofFn m).map Flt.fin))
        (some ((List.ofFn r0).map Flt.fin)) (some (.fin a)) = .ok (.fin v) ∧
      ∀ th' : Fin (d + 1) → ℝ, ∃ w, postBoth invCdf s nlrl xb (List.ofFn th') (.fin x0) (some (.fin g)) (some (.fin c))
        (some ((List.ofFn m).map Flt.fin)) (some ((List.ofFn r0).map Flt.fin)) (some (.fin a)) = .ok w ∧ Flt.le (.fin v) w := by
  obtain ⟨-, R, hR, hRv⟩ := criteria_smooth (N := 0) hla p (eps := eps) (x := x) (Or.inl he) hP 0 z
  have hW : IsContrast P (contrastMatrix la P) := (hla.qr_ok P (Nat.le_add_right q r)).contrast hP
  have hK : ∀ th, (cov (maternFormula p) eps th x .same).PosDef := fun th => matern_Kii p th (Or.inl he)
  set c0 := 1 / 2 * (r * Real.log (2 * Real.pi) + r * Real.log (10 * eps)) with hc0
  have hlow : ∀ th, c0 + r / 2 * th 0 ≤ R th := fun th => by
    have h1 := reml_lower p he x hW.orth z th (contrast_posDef hW.orth hW.null (CPD.of_posDef (hK _) P))
    have h2 := reml_eq hla (CPD.of_posDef (hK th) P) hP z hW
    rw [hRv th] at h2
    have h3 : R th = -Real.log (gaussDensity ((contrastMatrix la P)ᵀ * (cov (maternFormula p) eps th x .same *
        contrastMatrix la P)) 0 ((contrastMatrix la P)ᵀ *ᵥ z)) := by
      injection h2 with h2
      injection h2
    rw [h3]
    exact h1
  -- the criterion
  set T := tau invCdf g c with hT
  have hT0 : 0 < T := Kernel.tau_pos hreg
  set F : (Fin (d + 1) → ℝ) → ℝ := fun th => R th + 1 / 2 * ((th 0 - x0) / T) ^ 2 + ∑ j, pen a (-th j.succ) (m j) (r0 j)
    with hF
  have hval : ∀ th : Fin (d + 1) → ℝ,
      ((∀ j, m j < -th j.succ) → postBoth invCdf s nlrl xb (List.ofFn th) (.fin x0) (some (.fin g)) (some (.fin c))
        (some ((List.ofFn m).map Flt.fin)) (some ((List.ofFn r0).map Flt.fin)) (some (.fin a)) = .ok (.fin (F th))) ∧
      ((¬ ∀ j, m j < -th j.succ) → postBoth invCdf s nlrl xb (List.ofFn th) (.fin x0) (some (.fin g)) (some (.fin c))
        (some ((List.ofFn m).map Flt.fin)) (some ((List.ofFn r0).map Flt.fin)) (some (.fin a)) = .ok (.num ⊤)) := fun th => by
    have hv := Kernel.postBoth_value hreg s nlrl xb hxb (th 0) (List.ofFn fun j => th j.succ) x0 (List.ofFn m) (List.ofFn r0)
      (by simp) (by simp) (forall₂_ofFn hm) (R th) (by
        rw [← List.ofFn_succ]
        exact hnl th _ (hRv th))
    rw [← List.ofFn_succ, above_ofFn, penSum_ofFn] at hv
    exact hv
  -- in terms of the log of the distance of the ranges to their minima
  set th : (Fin (d + 1) → ℝ) → Fin (d + 1) → ℝ := fun y => Fin.cons (y 0) fun j => -(m j + Real.exp (y j.succ)) with hth
  have hth0 : ∀ y, th y 0 = y 0 := fun y => rfl
  have hthj : ∀ y j, th y j.succ = -(m j + Real.exp (y j.succ)) := fun y j => rfl
  have hthc : Continuous th := by
    refine continuous_pi fun k => ?_
    refine Fin.cases ?_ (fun j => ?_) k
    · exact continuous_apply 0
    · show Continuous fun y : Fin (d + 1) → ℝ => -(m j + Real.exp (y j.succ))
      fun_prop
  have hpen : ∀ y j, pen a (-th y j.succ) (m j) (r0 j) = a * (Real.exp (y j.succ) - (r0 j - m j) * y j.succ) := fun y j => by
    rw [hthj, pen, neg_neg, add_sub_cancel_left, Real.log_exp]
  have hfc : Continuous fun y => F (th y) := by
    simp only [hF, hpen]
    refine ((hR.continuous.comp hthc).add ?_).add (continuous_finsetSum _ fun j _ => by fun_prop)
    simp only [hth0]
    fun_prop
  obtain ⟨C1, h1⟩ := quad_coercive (r / 2) x0 hT0
  have h2 := fun j => pen_coercive (w := r0 j - m j) hreg.a0
  choose C2 h2 using h2
  have hκ : ∀ j, 0 < a * min (r0 j - m j) 1 := fun j => mul_pos hreg.a0 (lt_min (sub_pos.mpr (hm j)) one_pos)
  obtain ⟨y, hy⟩ := min_of_coercive (f := fun y => F (th y)) hfc
    (κ := Fin.cons 1 fun j => a * min (r0 j - m j) 1) (C := C1 + ∑ j, C2 j - c0)
    (fun i => Fin.cases one_pos hκ i) (fun y i => by
      have hA := hlow (th y)
      rw [hth0] at hA
      have hB := h1 (y 0)
      have hS : ∑ j, (a * min (r0 j - m j) 1 * |y j.succ|) - ∑ j, C2 j ≤ ∑ j, pen a (-th y j.succ) (m j) (r0 j) := by
        rw [← Finset.sum_sub_distrib]
        refine Finset.sum_le_sum fun j _ => ?_
        rw [hpen]
        exact h2 j _
      have hpos : ∀ j, 0 ≤ a * min (r0 j - m j) 1 * |y j.succ| := fun j => mul_nonneg (hκ j).le (abs_nonneg _)
      have h0 := abs_nonneg (y 0)
      have hs0 : 0 ≤ ∑ j, (a * min (r0 j - m j) 1 * |y j.succ|) := Finset.sum_nonneg fun j _ => hpos j
      simp only [hF, hth0]
      refine Fin.cases ?_ (fun j => ?_) i
      · simp only [Fin.cons_zero]
        linarith
      · simp only [Fin.cons_succ]
        have := Finset.single_le_sum (fun j _ => hpos j) (Finset.mem_univ j)
        linarith)
  refine ⟨th y, F (th y), fun j => ?_, ?_, fun th' => ?_⟩
  · rw [hthj, neg_neg]
    linarith [Real.exp_pos (y j.succ)]
  · refine (hval _).1 fun j => ?_
    rw [hthj, neg_neg]
    linarith [Real.exp_pos (y j.succ)]
  · by_cases hab : ∀ j, m j < -th' j.succ
    · refine ⟨_, (hval th').1 hab, ?_⟩
      rw [Flt.fin_le]
      have e : th (Fin.cons (th' 0) fun j => Real.log (-th' j.succ - m j)) = th' := by
        funext k
        refine Fin.cases rfl (fun j => ?_) k
        rw [hthj]
        simp only [Fin.cons_succ]
        rw [Real.exp_log (sub_pos.mpr (hab j))]
        ring
      have := hy (Fin.cons (th' 0) fun j => Real.log (-th' j.succ - m j))
      simp only [e] at this
      exact this
    · exact ⟨_, (hval th').2 hab, le_top⟩

/-- Two points, constant data: the criterion without priors has no lower bound (`reml_bounded_false`), with priors it has
a minimum. -/
theorem remap_attained_two (hla : la.Sound be) (s : Defaults) {nlrl : List ℝ → Py Flt}
    (hnl : ∀ (th : Fin 2 → ℝ) (L : ℝ),
      reml be la (cov (maternFormula 1) 1 th twoX .same) twoP (twoP *ᵥ fun _ => 3) = .ok (.finite L) →
      nlrl (List.ofFn th) = .ok (.fin L)) :
    ∃ (th : Fin 2 → ℝ) (v : ℝ),
      postBoth (fun _ => 1) s nlrl none (List.ofFn th) (.fin 0) (some (.fin 2)) (some (.fin (1 / 2)))
        (some ((List.ofFn fun _ : Fin 1 => (-1 : ℝ)).map Flt.fin)) (some ((List.ofFn fun _ : Fin 1 => (0 : ℝ)).map Flt.fin))
        (some (.fin 1)) = .ok (.fin v) := by
  have hreg : Regular (fun _ => 1) 2 (1 / 2) 1 := ⟨by norm_num, by norm_num, by norm_num, by norm_num, by norm_num⟩
  have hm : ∀ j : Fin 1, (fun _ => -1 : Fin 1 → ℝ) j < (fun _ => 0 : Fin 1 → ℝ) j := fun _ => by norm_num
  have hx : ∀ v : XArr, none = some v → v.ndim = 2 := fun v h => by simp at h
  obtain ⟨th, v, -, h, -⟩ := remap_attained (q := 1) (r := 1) (d := 1) hla 1 (eps := 1) one_pos twoX twoP_rank
    (twoP *ᵥ fun _ => 3) hnl hreg s none hx 0 hm
  exact ⟨th, v, h⟩

/-- Such a criterion exists. -/
example (hla : la.Sound be) : ∃ nlrl : List ℝ → Py Flt, ∀ (th : Fin 2 → ℝ) (L : ℝ),
    reml be la (cov (maternFormula 1) 1 th twoX .same) twoP (twoP *ᵥ fun _ => 3) = .ok (.finite L) →
      nlrl (List.ofFn th) = .ok (.fin L) := by
  obtain ⟨-, R, -, hR⟩ := criteria_smooth (N := 0) (be := be) (la := la) hla 1 (x := twoX)
    (two_admissible (eps := 1) zero_le_one) twoP_rank 0 (twoP *ᵥ fun _ => 3)
  refine ⟨fun l => .ok (.fin (R ![l.getD 0 0, l.getD 1 0])), fun th L h => ?_⟩
  have h' := (hR th).symm.trans h
  injection h' with h'
  injection h' with h'
  have e : (![(List.ofFn th).getD 0 0, (List.ofFn th).getD 1 0] : Fin 2 → ℝ) = th := by
    funext i
    fin_cases i <;> simp [List.ofFn_succ]
  rw [← h']
  show Except.ok (Flt.fin (R ![(List.ofFn th).getD 0 0, (List.ofFn th).getD 1 0])) = _
  rw [e]

/-- **C271** "The prior on the variance alone is enough" is false: for two observations and a constant mean, and an anchor
for the variance such that the best length scale is zero, every parameter can be improved. -/
theorem remap_variance_prior_false (hla : la.Sound be) (p : ℕ) {eps : ℝ} (he : 0 ≤ eps) {nlrl : List ℝ → Py Flt}
    (hnl : ∀ (th : Fin 2 → ℝ) (L : ℝ), reml be la (cov (maternFormula p) eps th twoX .same) twoP twoZ = .ok (.finite L) →
      nlrl (List.ofFn th) = .ok (.fin L))
    {invCdf : ℝ → ℝ} {g c : ℝ} (hreg : Regular invCdf g c 1) (s : Defaults) :
    ∃ F : (Fin 2 → ℝ) → ℝ, (∀ th, Kernel.postGauss invCdf s nlrl (List.ofFn th)
        (.fin (Real.log 2 - Real.log (1 + 10 * eps))) (some (.fin g)) (some (.fin c)) = .ok (.fin (F th))) ∧
      (∀ th, 1 / 2 * Real.log (2 * Real.pi) + 1 / 2 * Real.log 2 + 1 / 2 < F th) ∧ ∀ th, ∃ th', F th' < F th := by
  set G := 1 + 10 * eps with hG
  have hG0 : 0 < G := by linarith
  set x0 := Real.log 2 - Real.log G with hx0
  set T := tau invCdf g c with hT
  have hT0 : 0 < T := Kernel.tau_pos hreg
  set b : (Fin 2 → ℝ) → ℝ := fun th => th 0 + Real.log (G - maternFormula p (Real.exp (th 1))) with hb
  set F : (Fin 2 → ℝ) → ℝ := fun th => 1 / 2 * Real.log (2 * Real.pi) + (1 / 2 * b th + 1 / Real.exp (b th)) +
    1 / 2 * ((th 0 - x0) / T) ^ 2 with hF
  have hlow : ∀ th, 1 / 2 * Real.log (2 * Real.pi) + 1 / 2 * Real.log 2 + 1 / 2 < F th := fun th => by
    have hsq : 0 ≤ 1 / 2 * ((th 0 - x0) / T) ^ 2 := by positivity
    by_cases hbe : b th = Real.log 2
    · have hne : th 0 - x0 ≠ 0 := fun h0 => by
        have hc := (corr_range p (th 1)).1
        have h1 : Real.log (G - maternFormula p (Real.exp (th 1))) = Real.log G := by
          simp only [hb] at hbe
          linarith
        have h2 := Real.log_lt_log (two_reml_value hla p he th).1
          (show G - maternFormula p (Real.exp (th 1)) < G by linarith)
        exact absurd h1 h2.ne
      have : 0 < 1 / 2 * ((th 0 - x0) / T) ^ 2 := by
        have := div_ne_zero hne hT0.ne'
        positivity
      have := (half_log_min (b th)).1
      simp only [hF]
      linarith
    · have := (half_log_min (b th)).2 hbe
      simp only [hF]
      linarith
  refine ⟨F, fun th => ?_, hlow, fun th => ?_⟩
  · have h1 := hnl th _ (two_reml_value hla p he th).2
    rw [List.ofFn_succ] at h1 ⊢
    have h2 := Kernel.gaussF_fin hreg s (th 0) (List.ofFn fun i : Fin 1 => th i.succ) x0
    simp only [Kernel.postGauss, h1, h2, bind, Except.bind, pure, Except.pure, Flt.sub_fin]
    congr 2
    simp only [hF, hb, hT, hG]
    ring
  · -- shorter and shorter length scales
    have hlim : Filter.Tendsto (fun t : ℝ => F ![x0, t]) Filter.atTop
        (nhds (1 / 2 * Real.log (2 * Real.pi) + 1 / 2 * Real.log 2 + 1 / 2)) := by
      have h1 : Filter.Tendsto (fun t : ℝ => x0 + Real.log (G - maternFormula p (Real.exp t))) Filter.atTop
          (nhds (Real.log 2)) := by
        have h2 := (Kernel.maternFormula_tendsto p).comp Real.tendsto_exp_atTop
        have h3 : Filter.Tendsto (fun t : ℝ => G - maternFormula p (Real.exp t)) Filter.atTop (nhds (G - 0)) :=
          tendsto_const_nhds.sub h2
        rw [sub_zero] at h3
        have h4 := (h3.log hG0.ne').const_add x0
        rwa [show x0 + Real.log G = Real.log 2 by rw [hx0]; ring] at h4
      have h5 : Filter.Tendsto (fun t : ℝ => 1 / 2 * Real.log (2 * Real.pi) + (1 / 2 * b ![x0, t] + 1 / Real.exp (b ![x0, t])))
          Filter.atTop (nhds (1 / 2 * Real.log (2 * Real.pi) + (1 / 2 * Real.log 2 + 1 / Real.exp (Real.log 2)))) := by
        refine (Filter.Tendsto.add (h1.const_mul _) ?_).const_add _
        exact tendsto_const_nhds.div ((Real.continuous_exp.tendsto _).comp h1) (Real.exp_pos _).ne'
      rw [Real.exp_log two_pos, ← add_assoc] at h5
      refine h5.congr fun t => ?_
      simp [hF]
    obtain ⟨t, ht⟩ := (hlim.eventually (gt_mem_nhds (hlow th))).exists
    exact ⟨_, ht⟩

end Verif.Core
