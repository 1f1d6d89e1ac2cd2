import Verif.Core.PropsMaternGP
import Verif.Core.PropsGls
import Mathlib.Analysis.SpecialFunctions.Exp
import Mathlib.Analysis.Normed.Group.Bounded
import Mathlib.Topology.MetricSpace.ProperSpace
import Mathlib.Topology.Algebra.Order.LiminfLimsup

/-!
# C237: predictions of a Matérn model as functions of the target
-/

set_option autoImplicit false

namespace Verif.Kernel

open Filter Topology

variable {d : ℕ}

theorem shape_tendsto (p : ℕ) : Tendsto (shape p) atTop (𝓝 0) := by
  have h : ∀ k : ℕ, Tendsto (fun t : ℝ => coef p k * 2 ^ k * (t ^ k * Real.exp (-t))) atTop (𝓝 0) := fun k => by
    simpa using (Real.tendsto_pow_mul_exp_neg_atTop_nhds_zero k).const_mul (coef p k * 2 ^ k)
  have h2 := tendsto_finsetSum (Finset.range (p + 1)) fun k _ => h k
  simp only [Finset.sum_const_zero] at h2
  refine h2.congr fun t => ?_
  unfold shape
  rw [Finset.mul_sum]
  refine Finset.sum_congr rfl fun k _ => ?_
  rw [mul_pow]
  ring

theorem maternFormula_tendsto (p : ℕ) : Tendsto (maternFormula p) atTop (𝓝 0) := by
  have hc : 0 < 2 * Real.sqrt ((p : ℝ) + 1 / 2) := by positivity
  refine ((shape_tendsto p).comp (tendsto_id.const_mul_atTop hc)).congr fun h => ?_
  exact (maternFormula_shape p h).symm

theorem maternFormula_continuous (p : ℕ) : Continuous (maternFormula p) := by
  unfold maternFormula
  fun_prop

theorem scaledDistance_continuous (l x : Fin d → ℝ) : Continuous fun y => scaledDistance l x y := by
  unfold scaledDistance cdistNumpy scaleRow
  fun_prop

/-- The scaled distance to a fixed point grows without bound. -/
theorem scaledDistance_tendsto (l x : Fin d → ℝ) :
    Tendsto (fun y => scaledDistance l x y) (cocompact (Fin d → ℝ)) atTop := by
  set C : ℝ := ∑ k, Real.exp (-l k) with hC
  have hC0 : 0 ≤ C := Finset.sum_nonneg fun k _ => (Real.exp_pos _).le
  have hb : ∀ y, ‖y‖ ≤ ‖x‖ + C * scaledDistance l x y := by
    intro y
    have hsd : 0 ≤ scaledDistance l x y := Real.sqrt_nonneg _
    refine (pi_norm_le_iff_of_nonneg (by positivity)).mpr fun k => ?_
    have h1 : |Real.exp (l k) * x k - Real.exp (l k) * y k| ≤ scaledDistance l x y := by
      refine Real.abs_le_sqrt ?_
      exact Finset.single_le_sum (f := fun k => (scaleRow l x k - scaleRow l y k) ^ 2)
        (fun _ _ => sq_nonneg _) (Finset.mem_univ k)
    rw [← mul_sub, abs_mul, abs_of_pos (Real.exp_pos _)] at h1
    have h2 : |x k - y k| ≤ Real.exp (-l k) * scaledDistance l x y := by
      rw [Real.exp_neg, inv_mul_eq_div, le_div_iff₀ (Real.exp_pos _), mul_comm]
      exact h1
    have h3 : Real.exp (-l k) ≤ C :=
      Finset.single_le_sum (f := fun k => Real.exp (-l k)) (fun _ _ => (Real.exp_pos _).le) (Finset.mem_univ k)
    have h4 := norm_le_pi_norm x k
    rw [Real.norm_eq_abs] at h4 ⊢
    have h5 : |y k| ≤ |x k| + |x k - y k| := by
      have := abs_sub_abs_le_abs_sub (y k) (x k)
      rw [abs_sub_comm] at this
      linarith
    have := mul_le_mul_of_nonneg_right h3 hsd
    linarith
  have h1 : Tendsto (fun y : Fin d → ℝ => (‖y‖ - ‖x‖) / (C + 1)) (cocompact _) atTop := by
    refine Tendsto.atTop_div_const (by linarith) ?_
    exact tendsto_atTop_add_const_right _ (-‖x‖) tendsto_norm_cocompact_atTop
  refine tendsto_atTop_mono (fun y => ?_) h1
  rw [div_le_iff₀ (by linarith)]
  have hsd : 0 ≤ scaledDistance l x y := Real.sqrt_nonneg _
  nlinarith [hb y]

end Verif.Kernel

namespace Verif.Core

open Verif Verif.Data Matrix Filter Topology
open Verif.Kernel (cov covII covIT covPairwise maternFormula YArg scaledDistance)

variable {n m q d r : ℕ} {be : Backend} {la : LA}

/-- Covariances between the observation points and a target. -/
noncomputable def targetCov (p : ℕ) (param : Fin (d + 1) → ℝ) (x : Matrix (Fin n) (Fin d) ℝ) (y : Fin d → ℝ) :
    Fin n → ℝ := fun i => Real.exp (param 0) * maternFormula p (scaledDistance (fun j => param j.succ) (x i) y)

theorem targetCov_continuous (p : ℕ) (param : Fin (d + 1) → ℝ) (x : Matrix (Fin n) (Fin d) ℝ) :
    Continuous (targetCov p param x) := by
  refine continuous_pi fun i => ?_
  exact continuous_const.mul ((Kernel.maternFormula_continuous p).comp (Kernel.scaledDistance_continuous _ _))

theorem targetCov_tendsto (p : ℕ) (param : Fin (d + 1) → ℝ) (x : Matrix (Fin n) (Fin d) ℝ) :
    Tendsto (targetCov p param x) (cocompact _) (𝓝 0) := by
  refine tendsto_pi_nhds.mpr fun i => ?_
  have h := ((Kernel.maternFormula_tendsto p).comp (Kernel.scaledDistance_tendsto (fun j => param j.succ) (x i))).const_mul
    (Real.exp (param 0))
  rw [mul_zero] at h
  exact h

theorem targetCov_ne {p : ℕ} {param : Fin (d + 1) → ℝ} {x : Matrix (Fin n) (Fin d) ℝ} (hn : 0 < n) (y : Fin d → ℝ) :
    targetCov p param x y ≠ 0 := by
  intro h
  have := congrFun h ⟨0, hn⟩
  have h1 := (Kernel.maternFormula_shape_props p).2.1 (scaledDistance (fun j => param j.succ) (x ⟨0, hn⟩) y)
    (Real.sqrt_nonneg _)
  have h2 := mul_pos (Real.exp_pos (param 0)) h1
  exact h2.ne' this

/-- The mean-square error of weights with a nugget on the observations. -/
theorem mse_nugget {K K0 : Mat n n} {c : ℝ} (h : K = K0 + c • (1 : Mat n n)) (k : Fin n → ℝ) (v : ℝ) (w : Fin n → ℝ) :
    mse K k v w = mse K0 k v w + c * (w ⬝ᵥ w) := by
  unfold mse
  rw [h, add_mulVec, smul_mulVec, one_mulVec, dotProduct_add, dotProduct_smul, smul_eq_mul]
  ring

theorem mse_pos {ι : Type} [Fintype ι] [DecidableEq ι] {K : Matrix ι ι ℝ} {k : ι → ℝ} {v : ℝ}
    (hJ : (joint K k v).PosDef) (w : ι → ℝ) : 0 < mse K k v w := by
  have h := PosDef.quad_pos hJ (x := Sum.elim (-w) (fun _ => 1)) (fun h => by
    have := congrFun h (Sum.inr ())
    simp at this)
  have : Sum.elim (-w) (fun _ => 1) ⬝ᵥ (joint K k v *ᵥ Sum.elim (-w) (fun _ => 1)) = mse K k v w := by
    unfold joint mse
    rw [fromBlocks_mulVec]
    simp only [dotProduct, Fintype.sum_sum_type, Sum.elim_inl, Sum.elim_inr, Pi.neg_apply,
      Finset.univ_unique, Finset.sum_singleton, one_mul, Pi.add_apply]
    have e1 : ((Sum.elim (-w) fun _ : Unit => (1 : ℝ)) ∘ Sum.inl) = -w := by ext; simp
    have e2 : ((Sum.elim (-w) fun _ : Unit => (1 : ℝ)) ∘ Sum.inr) = fun _ => 1 := by ext; simp
    rw [e1, e2]
    simp only [mulVec_neg, Pi.neg_apply]
    simp only [mulVec, dotProduct, of_apply, Finset.univ_unique, Finset.sum_singleton, mul_one]
    have e3 : ∑ x, -w x * (-(∑ j, K x j * w j) + k x) =
        (∑ x, w x * ∑ j, K x j * w j) - ∑ x, w x * k x := by
      rw [← Finset.sum_sub_distrib]
      exact Finset.sum_congr rfl fun x _ => by ring
    rw [e3]
    have e4 : ∑ x, k x * w x = ∑ x, w x * k x := Finset.sum_congr rfl fun x _ => mul_comm _ _
    rw [e4]
    ring
  rwa [this] at h

/-- Weights, prediction and variance at a target. -/
noncomputable def targetWeights (K : Mat n n) (p : ℕ) (param : Fin (d + 1) → ℝ) (x : Matrix (Fin n) (Fin d) ℝ)
    (y : Fin d → ℝ) : Fin n → ℝ := K⁻¹ *ᵥ targetCov p param x y

noncomputable def targetVar (K : Mat n n) (p : ℕ) (param : Fin (d + 1) → ℝ) (x : Matrix (Fin n) (Fin d) ℝ)
    (y : Fin d → ℝ) : ℝ := Real.exp (param 0) - targetWeights K p param x y ⬝ᵥ targetCov p param x y

theorem targetWeights_continuous (K : Mat n n) (p : ℕ) (param : Fin (d + 1) → ℝ) (x : Matrix (Fin n) (Fin d) ℝ) :
    Continuous (targetWeights K p param x) :=
  continuous_const.matrix_mulVec (targetCov_continuous p param x)

theorem targetWeights_tendsto (K : Mat n n) (p : ℕ) (param : Fin (d + 1) → ℝ) (x : Matrix (Fin n) (Fin d) ℝ) :
    Tendsto (targetWeights K p param x) (cocompact _) (𝓝 0) := by
  have hc : Continuous fun v : Fin n → ℝ => K⁻¹ *ᵥ v := continuous_const.matrix_mulVec continuous_id
  have := (hc.tendsto 0).comp (targetCov_tendsto p param x)
  rw [mulVec_zero] at this
  exact this

theorem dot_tendsto {α : Type} {l : Filter α} {f g : α → Fin n → ℝ} {a b : Fin n → ℝ} (hf : Tendsto f l (𝓝 a))
    (hg : Tendsto g l (𝓝 b)) : Tendsto (fun t => f t ⬝ᵥ g t) l (𝓝 (a ⬝ᵥ b)) :=
  tendsto_finsetSum _ fun i _ => (tendsto_pi_nhds.mp hf i).mul (tendsto_pi_nhds.mp hg i)

theorem targetVar_continuous (K : Mat n n) (p : ℕ) (param : Fin (d + 1) → ℝ) (x : Matrix (Fin n) (Fin d) ℝ) :
    Continuous (targetVar K p param x) :=
  continuous_const.sub ((targetWeights_continuous K p param x).dotProduct (targetCov_continuous p param x))

theorem targetVar_tendsto (K : Mat n n) (p : ℕ) (param : Fin (d + 1) → ℝ) (x : Matrix (Fin n) (Fin d) ℝ) :
    Tendsto (targetVar K p param x) (cocompact _) (𝓝 (Real.exp (param 0))) := by
  have := (tendsto_const_nhds (x := Real.exp (param 0))).sub
    (dot_tendsto (targetWeights_tendsto K p param x) (targetCov_tendsto p param x))
  rw [zero_dotProduct, sub_zero] at this
  exact this

/-- The variance is the error of the weights. -/
theorem targetVar_mse {K : Mat n n} (hK : K.PosDef) (p : ℕ) (param : Fin (d + 1) → ℝ)
    (x : Matrix (Fin n) (Fin d) ℝ) (y : Fin d → ℝ) :
    targetVar K p param x y = mse K (targetCov p param x y) (Real.exp (param 0)) (targetWeights K p param x y) := by
  unfold mse targetVar
  have : K *ᵥ targetWeights K p param x y = targetCov p param x y := by
    rw [targetWeights, mulVec_mulVec, Matrix.mul_nonsing_inv _ (PosDef.det_unit hK), one_mulVec]
  rw [this]
  ring

theorem target_joint (p : ℕ) {eps : ℝ} (he : 0 ≤ eps) (param : Fin (d + 1) → ℝ) (x : Matrix (Fin n) (Fin d) ℝ)
    (y : Fin d → ℝ) :
    (joint (covII (maternFormula p) eps param x) (targetCov p param x y) (Real.exp (param 0))).PosSemidef := by
  have h := matern_joint p he param x (fun _ : Fin 1 => y) 0
  have e : covPairwise (maternFormula p) param (n := 1) (fun _ => y) .none 0 = Real.exp (param 0) := by
    simp [covPairwise, Kernel.covIIPairwise]
  rw [e] at h
  exact h

theorem target_joint_pos (p : ℕ) (param : Fin (d + 1) → ℝ) {x : Matrix (Fin n) (Fin d) ℝ}
    (hx : Function.Injective x) {y : Fin d → ℝ} (hy : ∀ i, y ≠ x i) :
    (joint (covII (maternFormula p) 0 param x) (targetCov p param x y) (Real.exp (param 0))).PosDef := by
  have hinj : Function.Injective (Sum.elim x fun _ : Unit => y) := by
    rintro (i | i) (j | j) h
    · exact congrArg _ (hx h)
    · exact absurd h.symm (hy i)
    · exact absurd h (hy j)
    · rfl
  have h := (Kernel.matern_posDef p (fun k => param k.succ) _ hinj).smul (Real.exp_pos (param 0))
  have e : joint (covII (maternFormula p) 0 param x) (targetCov p param x y) (Real.exp (param 0)) =
      Real.exp (param 0) • Kernel.kernelMat p (fun k => param k.succ) (Sum.elim x fun _ : Unit => y) := by
    ext i j
    rcases i with i | i <;> rcases j with j | j
    · simp [joint, covII, Kernel.kernelMat]
      rfl
    · simp [joint, Kernel.kernelMat, targetCov]
      rfl
    · simp [joint, Kernel.kernelMat, targetCov]
      exact congrArg _ (Kernel.scaledDistance_comm _ _ _)
    · simp [joint, Kernel.kernelMat, Kernel.scaledDistance_self, (Kernel.maternFormula_shape_props p).1]
  rw [e]
  exact h

theorem targetVar_zero_iff (p : ℕ) {eps : ℝ} (param : Fin (d + 1) → ℝ) {x : Matrix (Fin n) (Fin d) ℝ}
    (hx : Admissible eps x) (hn : 0 < n) (y : Fin d → ℝ) :
    targetVar (covII (maternFormula p) eps param x) p param x y = 0 ↔ eps = 0 ∧ ∃ i, y = x i := by
  have hK : (covII (maternFormula p) eps param x).PosDef := matern_Kii p param hx
  constructor
  · intro h
    rw [targetVar_mse hK] at h
    have he : eps = 0 := by
      by_contra hne
      have hpos : 0 < eps := lt_of_le_of_ne hx.nonneg (Ne.symm hne)
      rw [mse_nugget (K0 := covII (maternFormula p) 0 param x) (c := 10 * Real.exp (param 0) * eps)
        (by rw [Kernel.covII_eq, Kernel.covII_eq]; simp)] at h
      have h1 := mse_nonneg (target_joint p le_rfl param x y)
        (targetWeights (covII (maternFormula p) eps param x) p param x y)
      have h2 : 0 < targetWeights (covII (maternFormula p) eps param x) p param x y ⬝ᵥ
          targetWeights (covII (maternFormula p) eps param x) p param x y := by
        have hnn : 0 ≤ targetWeights (covII (maternFormula p) eps param x) p param x y ⬝ᵥ
            targetWeights (covII (maternFormula p) eps param x) p param x y :=
          Finset.sum_nonneg fun i _ => mul_self_nonneg _
        rcases hnn.eq_or_lt with h0 | h0
        · exfalso
          have hw := dotProduct_self_eq_zero.mp h0.symm
          refine targetCov_ne (p := p) (param := param) (x := x) hn y ?_
          have : covII (maternFormula p) eps param x *ᵥ
              targetWeights (covII (maternFormula p) eps param x) p param x y = targetCov p param x y := by
            rw [targetWeights, mulVec_mulVec, Matrix.mul_nonsing_inv _ (PosDef.det_unit hK), one_mulVec]
          rw [← this, hw, mulVec_zero]
        · exact h0
      have h3 : 0 < 10 * Real.exp (param 0) * eps := by positivity
      nlinarith [mul_pos h3 h2]
    refine ⟨he, ?_⟩
    subst he
    by_contra hne
    push Not at hne
    have hi : Function.Injective x := by
      rcases hx with hx | hx
      · exact absurd hx (lt_irrefl _)
      · exact hx.2
    exact (mse_pos (target_joint_pos p param hi hne) _).ne' h
  · rintro ⟨rfl, i, rfl⟩
    have hc : targetCov p param x (x i) = covII (maternFormula p) 0 param x *ᵥ Pi.single i 1 := by
      ext j
      simp [targetCov, covII]
    have hw : targetWeights (covII (maternFormula p) 0 param x) p param x (x i) = Pi.single i 1 := by
      rw [targetWeights, hc, mulVec_mulVec, Matrix.nonsing_inv_mul _ (PosDef.det_unit hK), one_mulVec]
    rw [targetVar, hw]
    simp [targetCov, Kernel.scaledDistance_self, (Kernel.maternFormula_shape_props p).1]

theorem targetVar_bounds (p : ℕ) {eps : ℝ} (param : Fin (d + 1) → ℝ) {x : Matrix (Fin n) (Fin d) ℝ}
    (hx : Admissible eps x) (y : Fin d → ℝ) :
    0 ≤ targetVar (covII (maternFormula p) eps param x) p param x y ∧
      (0 < n → targetVar (covII (maternFormula p) eps param x) p param x y < Real.exp (param 0)) := by
  have hK : (covII (maternFormula p) eps param x).PosDef := matern_Kii p param hx
  refine ⟨?_, fun hn => ?_⟩
  · rw [targetVar_mse hK]
    exact mse_nonneg (target_joint p hx.nonneg param x y) _
  · have := PosDef.quad_pos hK.inv (targetCov_ne (p := p) (param := param) (x := x) hn y)
    rw [targetVar, targetWeights, dotProduct_comm]
    linarith

/-- What a prediction is at an observation point without nugget. -/
theorem targetWeights_at (p : ℕ) (param : Fin (d + 1) → ℝ) {x : Matrix (Fin n) (Fin d) ℝ}
    (hx : Admissible 0 x) (i : Fin n) :
    targetWeights (covII (maternFormula p) 0 param x) p param x (x i) = Pi.single i 1 := by
  have hK : (covII (maternFormula p) 0 param x).PosDef := matern_Kii p param hx
  have hc : targetCov p param x (x i) = covII (maternFormula p) 0 param x *ᵥ Pi.single i 1 := by
    ext j
    simp [targetCov, covII]
  rw [targetWeights, hc, mulVec_mulVec, Matrix.nonsing_inv_mul _ (PosDef.det_unit hK), one_mulVec]

/-- What `predict` says of the points of the space: it is a fixed pair of functions evaluated at the
targets, whatever their number and order. -/
def PredictsBy (la : LA) (mt : ∀ m, Matrix (Fin m) (Fin d) ℝ → MeanType (q + r) m) (p : ℕ) (eps : ℝ)
    (param : Fin (d + 1) → ℝ) (x : Matrix (Fin (q + r)) (Fin d) ℝ) (h : (Fin d → ℝ) → Fin q → ℝ)
    (zi : Fin (q + r) → ℝ) (mean var : (Fin d → ℝ) → ℝ) : Prop :=
  ∀ (m : ℕ) (y : Matrix (Fin m) (Fin d) ℝ), ∃ lam,
    predict la (mt m y) (maternOther p eps param x y (fun i => h (x i)) (fun t => h (y t))) zi false =
      .ok (fun t => mean (y t), fun t => var (y t), lam)

/-- **C237** The predictions of a Matérn model with known mean function `mu`: continuous functions of
the target, with variance in `[0, sigma²)`, zero exactly at the observation points and then only without
nugget (where the prediction is the observation); far from the data they return to the prior. -/
theorem target_known (hla : la.Contract be) (p : ℕ) {eps : ℝ} (param : Fin (d + 1) → ℝ)
    {x : Matrix (Fin (q + r)) (Fin d) ℝ} (hx : Admissible eps x) (hn : 0 < q + r) (mu : (Fin d → ℝ) → ℝ)
    (h : (Fin d → ℝ) → Fin q → ℝ) (zi : Fin (q + r) → ℝ) :
    ∃ mean var : (Fin d → ℝ) → ℝ,
      PredictsBy la (fun _ y => .parameterized (fun i => mu (x i)) (fun t => mu (y t))) p eps param x h zi mean var ∧
      (∀ y, 0 ≤ var y ∧ var y < Real.exp (param 0)) ∧
      (∀ y, var y = 0 ↔ eps = 0 ∧ ∃ i, y = x i) ∧
      (eps = 0 → ∀ i, mean (x i) = zi i) ∧
      (Continuous fun y => mean y - mu y) ∧ Continuous var ∧
      Tendsto (fun y => mean y - mu y) (cocompact _) (𝓝 0) ∧
      Tendsto var (cocompact _) (𝓝 (Real.exp (param 0))) := by
  set K := covII (maternFormula p) eps param x with hKd
  have hK : K.PosDef := matern_Kii p param hx
  have hsub : ∀ y, (targetWeights K p param x y ⬝ᵥ (zi - fun i => mu (x i)) + mu y) - mu y =
      targetWeights K p param x y ⬝ᵥ (zi - fun i => mu (x i)) := fun y => by ring
  refine ⟨fun y => targetWeights K p param x y ⬝ᵥ (zi - fun i => mu (x i)) + mu y, targetVar K p param x,
    fun m y => ?_, fun y => ⟨(targetVar_bounds p param hx y).1, (targetVar_bounds p param hx y).2 hn⟩,
    fun y => targetVar_zero_iff p param hx hn y, fun he i => ?_, ?_, targetVar_continuous K p param x, ?_,
    targetVar_tendsto K p param x⟩
  · have := predict_param hla (maternOther p eps param x y (fun i => h (x i)) (fun t => h (y t))) hK
      (fun i => mu (x i)) (fun t => mu (y t)) zi false
    simp only [Bool.false_eq_true, if_false] at this
    refine ⟨(maternOther p eps param x y (fun i => h (x i)) (fun t => h (y t))).Kii⁻¹ *
      (maternOther p eps param x y (fun i => h (x i)) (fun t => h (y t))).Kit, this.trans ?_⟩
    congr 1
    refine Prod.ext (funext fun t => rfl) (Prod.ext (funext fun t => ?_) rfl)
    change Real.exp (param 0) * 1 - _ = Real.exp (param 0) - _
    rw [mul_one]
    rfl
  · subst he
    simp only
    rw [targetWeights_at p param hx i]
    simp
  · simp only [hsub]
    exact (targetWeights_continuous K p param x).dotProduct continuous_const
  · simp only [hsub]
    have := dot_tendsto (targetWeights_tendsto K p param x) (tendsto_const_nhds (x := zi - fun i => mu (x i)))
    rw [zero_dotProduct] at this
    exact this

/-- **C237** The same with mean zero. -/
theorem target_zero (hla : la.Contract be) (p : ℕ) {eps : ℝ} (param : Fin (d + 1) → ℝ)
    {x : Matrix (Fin (q + r)) (Fin d) ℝ} (hx : Admissible eps x) (hn : 0 < q + r)
    (h : (Fin d → ℝ) → Fin q → ℝ) (zi : Fin (q + r) → ℝ) :
    ∃ mean var : (Fin d → ℝ) → ℝ,
      PredictsBy la (fun _ _ => .zero) p eps param x h zi mean var ∧
      (∀ y, 0 ≤ var y ∧ var y < Real.exp (param 0)) ∧
      (∀ y, var y = 0 ↔ eps = 0 ∧ ∃ i, y = x i) ∧
      (eps = 0 → ∀ i, mean (x i) = zi i) ∧ Continuous mean ∧ Continuous var ∧
      Tendsto mean (cocompact _) (𝓝 0) ∧ Tendsto var (cocompact _) (𝓝 (Real.exp (param 0))) := by
  obtain ⟨mean, var, h1, h2⟩ := target_known hla p param hx hn (fun _ => 0) h zi
  simp only [sub_zero] at h2
  refine ⟨mean, var, fun m y => ?_, h2⟩
  obtain ⟨lam, hl⟩ := h1 m y
  refine ⟨lam, ?_⟩
  have hK : (maternOther p eps param x y (fun i => h (x i)) (fun t => h (y t))).Kii.PosDef := matern_Kii p param hx
  rw [predict_param hla _ hK] at hl
  rw [predict_zero hla _ hK, ← hl]
  congr 1
  refine Prod.ext (funext fun t => ?_) rfl
  simp

/-- **C237** With an unknown linear mean: the prediction approaches the estimated mean function far
from the data, and the excess of the variance over the prior one approaches the variance of the
estimated mean function. -/
theorem target_linear (hla : la.Contract be) (p : ℕ) {eps : ℝ} (param : Fin (d + 1) → ℝ)
    {x : Matrix (Fin (q + r)) (Fin d) ℝ} (hx : Admissible eps x) (h : (Fin d → ℝ) → Fin q → ℝ)
    (hh : Continuous h) (hP : FullRank (Matrix.of fun i => h (x i))) (zi : Fin (q + r) → ℝ) :
    ∃ (beta : Fin q → ℝ) (mean var : (Fin d → ℝ) → ℝ),
      IsGLS (cov (maternFormula p) eps param x .same) (Matrix.of fun i => h (x i)) zi beta ∧
      PredictsBy la (fun _ _ => .linearPredictor) p eps param x h zi mean var ∧
      (∀ y, 0 ≤ var y) ∧ Continuous mean ∧ Continuous var ∧
      Tendsto (fun y => mean y - h y ⬝ᵥ beta) (cocompact _) (𝓝 0) ∧
      (eps = 0 → ∀ i, mean (x i) = zi i ∧ var (x i) = 0) ∧
      ((∃ C, ∀ y j, |h y j| ≤ C) → Tendsto (fun y => var y - h y ⬝ᵥ
          (((Matrix.of fun i => h (x i))ᵀ * ((cov (maternFormula p) eps param x .same)⁻¹ *
            Matrix.of fun i => h (x i)))⁻¹ *ᵥ h y)) (cocompact _) (𝓝 (Real.exp (param 0)))) := by
  set K := covII (maternFormula p) eps param x with hKd
  have hK : K.PosDef := matern_Kii p param hx
  set P : Mat (q + r) q := Matrix.of fun i => h (x i) with hPd
  set F := (Pᵀ * (K⁻¹ * P))⁻¹ with hF
  have hFp : F.PosDef := (posDef_gls hK hP).inv
  have hFs : Fᵀ = F := PosDef.symm hFp
  set w := targetWeights K p param x with hw
  set beta := glsBeta K P zi with hb
  set u : (Fin d → ℝ) → Fin q → ℝ := fun y => Pᵀ *ᵥ w y - h y with hu
  have hwc : Continuous w := targetWeights_continuous K p param x
  have hwt : Tendsto w (cocompact _) (𝓝 0) := targetWeights_tendsto K p param x
  have huc : Continuous u := (continuous_const.matrix_mulVec hwc).sub hh
  refine ⟨beta, fun y => w y ⬝ᵥ (zi - P *ᵥ beta) + h y ⬝ᵥ beta,
    fun y => targetVar K p param x y + u y ⬝ᵥ (F *ᵥ u y), (glsBeta_spec hK hP zi).1, fun m y => ?_, fun y => ?_,
    ?_, ?_, ?_, fun he i => ?_, fun hC => ?_⟩
  · obtain ⟨b, mean, v, v', lam, lam', hb1, g1, g2, g3⟩ := predict_gls hla
      (maternOther p eps param x y (fun i => h (x i)) (fun t => h (y t))) hK hP zi
    have hbb : b = beta := (glsBeta_spec hK hP zi).2 b hb1
    subst hbb
    refine ⟨lam, g1.trans ?_⟩
    rw [predict_param hla _ hK] at g2
    simp only [Bool.false_eq_true, if_false] at g2
    obtain ⟨e1, e2⟩ := Prod.mk.inj (Except.ok.inj g2)
    obtain ⟨e2, e3⟩ := Prod.mk.inj e2
    congr 1
    refine Prod.ext (funext fun t => ?_) (Prod.ext (funext fun t => ?_) rfl)
    · rw [← e1]
      rfl
    · simp only
      rw [(g3 t).1, ← e2, ← e3]
      change Real.exp (param 0) * 1 - _ + _ = Real.exp (param 0) - _ + _
      rw [mul_one]
      rfl
  · have h1 := (targetVar_bounds p param hx y).1
    have h2 := PosSemidef.quad_nonneg hFp.posSemidef (u y)
    exact add_nonneg h1 h2
  · exact (hwc.dotProduct continuous_const).add (hh.dotProduct continuous_const)
  · exact (targetVar_continuous K p param x).add (huc.dotProduct (continuous_const.matrix_mulVec huc))
  · have := dot_tendsto hwt (tendsto_const_nhds (x := zi - P *ᵥ beta))
    rw [zero_dotProduct] at this
    refine this.congr fun y => ?_
    ring
  · subst he
    have e : w (x i) = Pi.single i 1 := targetWeights_at p param hx i
    have e2 : u (x i) = 0 := by
      rw [hu]
      simp only [e]
      ext j
      simp [hPd]
    constructor
    · simp only [e]
      simp [hPd, mulVec]
    · simp only [e2]
      have hn : 0 < q + r := Fin.pos i
      rw [(targetVar_zero_iff p param hx hn (x i)).mpr ⟨rfl, i, rfl⟩]
      simp
  · obtain ⟨C, hC⟩ := hC
    have h1 : Tendsto (fun y => Pᵀ *ᵥ w y) (cocompact _) (𝓝 0) := by
      have hc : Continuous fun v : Fin (q + r) → ℝ => Pᵀ *ᵥ v := continuous_const.matrix_mulVec continuous_id
      have := (hc.tendsto 0).comp hwt
      rw [mulVec_zero] at this
      exact this
    have h2 : Tendsto (fun y => F *ᵥ (Pᵀ *ᵥ w y)) (cocompact _) (𝓝 0) := by
      have hc : Continuous fun v : Fin q → ℝ => F *ᵥ v := continuous_const.matrix_mulVec continuous_id
      have := (hc.tendsto 0).comp h1
      rw [mulVec_zero] at this
      exact this
    have h3 := dot_tendsto h1 h2
    have h4 : Tendsto (fun y => h y ⬝ᵥ (F *ᵥ (Pᵀ *ᵥ w y))) (cocompact _) (𝓝 0) := by
      have : (0 : ℝ) = ∑ _j : Fin q, (0 : ℝ) := by simp
      rw [this]
      refine tendsto_finsetSum _ fun j _ => ?_
      have h5 := (tendsto_pi_nhds.mp h2 j)
      refine squeeze_zero_norm (a := fun y => C * ‖(F *ᵥ (Pᵀ *ᵥ w y)) j‖) (fun y => ?_) ?_
      · rw [norm_mul]
        exact mul_le_mul_of_nonneg_right (hC y j) (norm_nonneg _)
      · have := (h5.norm).const_mul C
        simpa using this
    have h6 := (targetVar_tendsto K p param x).add (h3.sub (h4.const_mul 2))
    simp only [zero_dotProduct, mul_zero, sub_zero, add_zero] at h6
    refine h6.congr fun y => ?_
    have e : u y ⬝ᵥ (F *ᵥ u y) = (Pᵀ *ᵥ w y) ⬝ᵥ (F *ᵥ (Pᵀ *ᵥ w y)) - 2 * (h y ⬝ᵥ (F *ᵥ (Pᵀ *ᵥ w y))) +
        h y ⬝ᵥ (F *ᵥ h y) := by
      rw [hu]
      simp only [mulVec_sub, dotProduct_sub, sub_dotProduct]
      rw [dot_mulVec_comm hFs (Pᵀ *ᵥ w y) (h y)]
      ring
    change _ = targetVar K p param x y + u y ⬝ᵥ (F *ᵥ u y) - h y ⬝ᵥ (F *ᵥ h y)
    rw [e]
    ring

/-- Two distinct points of the line without nugget and a constant mean: the hypotheses are met. -/
example : Admissible 0 (![![0], ![1]] : Matrix (Fin (1 + 1)) (Fin 1) ℝ) ∧
    FullRank (Matrix.of fun i : Fin (1 + 1) => (fun _ : Fin 1 → ℝ => fun _ : Fin 1 => (1 : ℝ))
      ((![![0], ![1]] : Matrix (Fin (1 + 1)) (Fin 1) ℝ) i)) := by
  refine ⟨Or.inr ⟨le_rfl, fun i j h => ?_⟩, fun v h => ?_⟩
  · have h0 := congrFun h 0
    fin_cases i <;> fin_cases j <;> simp_all
  · have h0 := congrFun h 0
    funext j
    fin_cases j
    simpa [mulVec, dotProduct] using h0

end Verif.Core
