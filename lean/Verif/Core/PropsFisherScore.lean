import Verif.Core.PropsFisher
import Mathlib.MeasureTheory.Integral.IntegralEqImproper
import Mathlib.Analysis.SpecialFunctions.Gaussian.GaussianIntegral
import Mathlib.Topology.Instances.Matrix
import Mathlib.LinearAlgebra.Matrix.Adjugate

/-!
# C230: the Fisher information is the covariance of the score
-/

set_option autoImplicit false

namespace Verif.Core

open Verif Verif.Data Matrix MeasureTheory Filter Topology

variable {n q r p : ℕ} {be : Backend} {la : LA}

/-! ## Moments of independent standard normals -/

/-- The unnormalised standard normal density. -/
noncomputable def bell (x : ℝ) : ℝ := Real.exp (-(1 / 2) * x ^ 2)

theorem bell_pow_integrable (k : ℕ) : Integrable fun x : ℝ => x ^ k * bell x := by
  have h := integrable_rpow_mul_exp_neg_mul_sq (b := 1 / 2) (by norm_num) (s := (k : ℝ))
    (by have : (0 : ℝ) ≤ k := Nat.cast_nonneg k
        linarith)
  simpa [bell] using h

/-- Moments, as multiples of the total mass. -/
noncomputable def mom (k : ℕ) : ℝ := ∫ x : ℝ, x ^ k * bell x

theorem bell_deriv (x : ℝ) : HasDerivAt bell (-x * bell x) x := by
  unfold bell
  have h : HasDerivAt (fun x : ℝ => -(1 / 2) * x ^ 2) (-x) x := by
    exact ((hasDerivAt_pow 2 x).const_mul (-(1 / 2) : ℝ)).congr_deriv (by push_cast; ring)
  convert h.exp using 1
  ring

theorem mom_zero : mom 0 = Real.sqrt (2 * Real.pi) := by
  simp only [mom, pow_zero, one_mul, bell, integral_gaussian]
  congr 1
  ring

theorem mom_one : mom 1 = 0 := by
  have h := integral_eq_zero_of_hasDerivAt_of_integrable (f := bell)
    (f' := fun x => -x * bell x) bell_deriv
    (by simpa using (bell_pow_integrable 1).neg) (by simpa using bell_pow_integrable 0)
  simp only [mom, pow_one]
  simpa [integral_neg] using h

theorem mom_add_two (k : ℕ) : mom (k + 2) = (k + 1) * mom k := by
  have hd : ∀ x : ℝ, HasDerivAt (fun x => x ^ (k + 1) * bell x)
      ((k + 1) * (x ^ k * bell x) - x ^ (k + 2) * bell x) x := by
    intro x
    refine ((hasDerivAt_pow (k + 1) x).mul (bell_deriv x)).congr_deriv ?_
    push_cast
    ring
  have h := integral_eq_zero_of_hasDerivAt_of_integrable hd
    (((bell_pow_integrable k).const_mul _).sub (bell_pow_integrable (k + 2)))
    (bell_pow_integrable (k + 1))
  rw [integral_sub ((bell_pow_integrable k).const_mul _) (bell_pow_integrable (k + 2)),
    integral_const_mul] at h
  simp only [mom]
  linarith

/-- Joint density of `n` of them, unnormalised. -/
noncomputable def bells (y : Fin n → ℝ) : ℝ := ∏ i, bell (y i)

theorem mono_eq (k : Fin n → ℕ) (y : Fin n → ℝ) :
    (∏ i, y i ^ k i) * bells y = ∏ i, (y i ^ k i * bell (y i)) := by
  rw [bells, Finset.prod_mul_distrib]

theorem mono_integrable (k : Fin n → ℕ) :
    Integrable fun y : Fin n → ℝ => (∏ i, y i ^ k i) * bells y := by
  simp only [mono_eq]
  rw [volume_pi]
  exact Integrable.fintype_prod (f := fun i (x : ℝ) => x ^ k i * bell x)
    fun i => bell_pow_integrable (k i)

theorem mono_integral (k : Fin n → ℕ) :
    ∫ y : Fin n → ℝ, (∏ i, y i ^ k i) * bells y = ∏ i, mom (k i) := by
  simp only [mono_eq]
  exact integral_fintype_prod_volume_eq_prod fun i (x : ℝ) => x ^ k i * bell x

/-- Normalised moments. -/
noncomputable def nmom (k : ℕ) : ℝ := mom k / mom 0

theorem mom_zero_pos : 0 < mom 0 := by
  rw [mom_zero]
  have := Real.pi_pos
  positivity

theorem nmom_0 : nmom 0 = 1 := div_self mom_zero_pos.ne'
theorem nmom_1 : nmom 1 = 0 := by rw [nmom, mom_one, zero_div]
theorem nmom_2 : nmom 2 = 1 := by
  rw [nmom, mom_add_two 0]
  have := mom_zero_pos
  field_simp
  simp
theorem nmom_3 : nmom 3 = 0 := by rw [nmom, mom_add_two 1, mom_one]; simp
theorem nmom_4 : nmom 4 = 3 := by
  rw [nmom, mom_add_two 2, mom_add_two 0]
  have := mom_zero_pos
  field_simp
  norm_num

theorem mono_integral' (k : Fin n → ℕ) :
    ∫ y : Fin n → ℝ, (∏ i, y i ^ k i) * bells y = mom 0 ^ n * ∏ i, nmom (k i) := by
  have h := mom_zero_pos.ne'
  simp only [mono_integral, nmom]
  rw [Finset.prod_div_distrib, Finset.prod_const, Finset.card_univ, Fintype.card_fin]
  field_simp

/-- Exponents of a product of coordinates. -/
def ct (a i : Fin n) : ℕ := if i = a then 1 else 0

theorem prod_ct (a : Fin n) (y : Fin n → ℝ) : ∏ i, y i ^ ct a i = y a := by
  simp only [ct, pow_ite, pow_one, pow_zero]
  rw [Finset.prod_ite_eq' Finset.univ a]
  simp

theorem prod_ct2 (a b : Fin n) (y : Fin n → ℝ) : ∏ i, y i ^ (ct a i + ct b i) = y a * y b := by
  simp only [pow_add, Finset.prod_mul_distrib, prod_ct]

theorem prod_ct4 (a b c d : Fin n) (y : Fin n → ℝ) :
    ∏ i, y i ^ (ct a i + ct b i + (ct c i + ct d i)) = y a * y b * (y c * y d) := by
  simp only [pow_add, Finset.prod_mul_distrib, prod_ct]

/-- Kronecker symbol. -/
noncomputable def kron (a b : Fin n) : ℝ := (1 : Mat n n) a b

theorem nmom2 (a b : Fin n) : ∏ i, nmom (ct a i + ct b i) = kron a b := by
  rw [← Finset.prod_subset (Finset.subset_univ {a, b})]
  · by_cases hab : a = b
    · subst hab
      simp [ct, nmom_2, kron]
    · have hba : ¬ b = a := fun h => hab h.symm
      rw [Finset.prod_insert (by simp [hab])]
      simp [ct, hab, hba, nmom_1, kron, Matrix.one_apply]
  · intro i _ hi
    simp only [Finset.mem_insert, Finset.mem_singleton, not_or] at hi
    simp [ct, hi.1, hi.2, nmom_0]

theorem nmom4 (a b c d : Fin n) : ∏ i, nmom (ct a i + ct b i + (ct c i + ct d i)) =
    kron a b * kron c d + kron a c * kron b d + kron a d * kron b c := by
  rw [← Finset.prod_subset (Finset.subset_univ {a, b, c, d})]
  · by_cases hab : a = b
    · subst hab
      by_cases hac : a = c
      · subst hac
        by_cases had : a = d
        · subst had
          simp [ct, nmom_4, kron]; norm_num
        · have h := Ne.symm had
          simp [ct, nmom_1, nmom_3, nmom_2, kron, had, h, Matrix.one_apply, Finset.prod_pair]
      · have h := Ne.symm hac
        by_cases had : a = d
        · subst had
          simp [ct, nmom_1, nmom_3, nmom_2, kron, hac, h, Matrix.one_apply, Finset.prod_pair]
        · have h' := Ne.symm had
          by_cases hcd : c = d
          · subst hcd
            simp [ct, nmom_1, nmom_3, nmom_2, kron, hac, h, Matrix.one_apply, Finset.prod_pair]
          · have h'' := Ne.symm hcd
            simp [ct, nmom_1, nmom_3, nmom_2, kron, hac, had, hcd, h, h', h'', Matrix.one_apply,
              Finset.prod_insert]
    · have hba := Ne.symm hab
      by_cases hac : a = c
      · subst hac
        by_cases had : a = d
        · subst had
          simp [ct, nmom_1, nmom_3, nmom_2, kron, hab, hba, Matrix.one_apply, Finset.prod_pair]
        · have h' := Ne.symm had
          by_cases hbd : b = d
          · subst hbd
            simp [ct, nmom_1, nmom_3, nmom_2, kron, hab, hba, Matrix.one_apply, Finset.prod_pair]
          · have h'' := Ne.symm hbd
            simp [ct, nmom_1, nmom_3, nmom_2, kron, hab, had, hbd, hba, h', h'', Matrix.one_apply,
              Finset.prod_insert]
      · have hca := Ne.symm hac
        by_cases had : a = d
        · subst had
          by_cases hbc : b = c
          · subst hbc
            simp [ct, nmom_1, nmom_3, nmom_2, kron, hab, hba, Matrix.one_apply, Finset.prod_pair]
          · have h'' := Ne.symm hbc
            simp [ct, nmom_1, nmom_3, nmom_2, kron, hab, hac, hbc, hba, hca, h'', Matrix.one_apply,
              Finset.prod_insert]
        · have hda := Ne.symm had
          rw [Finset.prod_insert (by simp [hab, hac, had])]
          simp [ct, hab, hac, had, kron, Matrix.one_apply, nmom_1]
  · intro i _ hi
    simp only [Finset.mem_insert, Finset.mem_singleton, not_or] at hi
    simp [ct, hi.1, hi.2.1, hi.2.2.1, hi.2.2.2, nmom_0]

/-- Second moments. -/
theorem pair_integral (a b : Fin n) :
    Integrable (fun y : Fin n → ℝ => y a * y b * bells y) ∧
    ∫ y : Fin n → ℝ, y a * y b * bells y = mom 0 ^ n * kron a b := by
  have h1 := mono_integrable (n := n) fun i => ct a i + ct b i
  have h2 := mono_integral' (n := n) fun i => ct a i + ct b i
  simp only [prod_ct2] at h1 h2
  rw [nmom2] at h2
  exact ⟨h1, h2⟩

/-- Fourth moments. -/
theorem quad_integral (a b c d : Fin n) :
    Integrable (fun y : Fin n → ℝ => y a * y b * (y c * y d) * bells y) ∧
    ∫ y : Fin n → ℝ, y a * y b * (y c * y d) * bells y =
      mom 0 ^ n * (kron a b * kron c d + kron a c * kron b d + kron a d * kron b c) := by
  have h1 := mono_integrable (n := n) fun i => ct a i + ct b i + (ct c i + ct d i)
  have h2 := mono_integral' (n := n) fun i => ct a i + ct b i + (ct c i + ct d i)
  simp only [prod_ct4] at h1 h2
  rw [nmom4] at h2
  exact ⟨h1, h2⟩

theorem bells_integral : Integrable (fun y : Fin n → ℝ => bells y) ∧
    ∫ y : Fin n → ℝ, bells y = mom 0 ^ n := by
  have h1 := mono_integrable (n := n) fun _ => 0
  have h2 := mono_integral' (n := n) fun _ => 0
  simp only [pow_zero, Finset.prod_const_one, one_mul, nmom_0, mul_one] at h1 h2
  exact ⟨h1, h2⟩

theorem form_sum (A : Mat n n) (y : Fin n → ℝ) :
    y ⬝ᵥ (A *ᵥ y) = ∑ a, ∑ b, A a b * (y a * y b) := by
  simp only [dotProduct, mulVec, Finset.mul_sum]
  exact Finset.sum_congr rfl fun a _ => Finset.sum_congr rfl fun b _ => by ring

theorem form_integral (A : Mat n n) :
    Integrable (fun y : Fin n → ℝ => y ⬝ᵥ (A *ᵥ y) * bells y) ∧
    ∫ y : Fin n → ℝ, y ⬝ᵥ (A *ᵥ y) * bells y = mom 0 ^ n * A.trace := by
  have e : ∀ y : Fin n → ℝ, y ⬝ᵥ (A *ᵥ y) * bells y = ∑ a, ∑ b, A a b * (y a * y b * bells y) := by
    intro y
    rw [form_sum, Finset.sum_mul]
    refine Finset.sum_congr rfl fun a _ => ?_
    rw [Finset.sum_mul]
    exact Finset.sum_congr rfl fun b _ => by ring
  simp only [e]
  have hi : ∀ a b, Integrable fun y : Fin n → ℝ => A a b * (y a * y b * bells y) :=
    fun a b => (pair_integral a b).1.const_mul _
  refine ⟨integrable_finsetSum _ fun a _ => integrable_finsetSum _ fun b _ => hi a b, ?_⟩
  rw [integral_finsetSum _ fun a _ => integrable_finsetSum _ fun b _ => hi a b]
  simp only [Matrix.trace, Matrix.diag_apply, Finset.mul_sum]
  refine Finset.sum_congr rfl fun a _ => ?_
  rw [integral_finsetSum _ fun b _ => hi a b]
  simp only [integral_const_mul, (pair_integral a _).2, kron, Matrix.one_apply]
  simp [mul_comm]

theorem form2_integral (A B : Mat n n) (hB : Bᵀ = B) :
    Integrable (fun y : Fin n → ℝ => y ⬝ᵥ (A *ᵥ y) * (y ⬝ᵥ (B *ᵥ y)) * bells y) ∧
    ∫ y : Fin n → ℝ, y ⬝ᵥ (A *ᵥ y) * (y ⬝ᵥ (B *ᵥ y)) * bells y =
      mom 0 ^ n * (A.trace * B.trace + 2 * (A * B).trace) := by
  have e : ∀ y : Fin n → ℝ, y ⬝ᵥ (A *ᵥ y) * (y ⬝ᵥ (B *ᵥ y)) * bells y =
      ∑ a, ∑ b, ∑ c, ∑ d, A a b * B c d * (y a * y b * (y c * y d) * bells y) := by
    intro y
    rw [form_sum, form_sum, Finset.sum_mul, Finset.sum_mul]
    refine Finset.sum_congr rfl fun a _ => ?_
    rw [Finset.sum_mul, Finset.sum_mul]
    refine Finset.sum_congr rfl fun b _ => ?_
    rw [Finset.mul_sum, Finset.sum_mul]
    refine Finset.sum_congr rfl fun c _ => ?_
    rw [Finset.mul_sum, Finset.sum_mul]
    exact Finset.sum_congr rfl fun d _ => by ring
  simp only [e]
  have hi : ∀ a b c d, Integrable fun y : Fin n → ℝ =>
      A a b * B c d * (y a * y b * (y c * y d) * bells y) :=
    fun a b c d => (quad_integral a b c d).1.const_mul _
  have hi3 : ∀ a b c, Integrable fun y : Fin n → ℝ =>
      ∑ d, A a b * B c d * (y a * y b * (y c * y d) * bells y) :=
    fun a b c => integrable_finsetSum _ fun d _ => hi a b c d
  have hi2 : ∀ a b, Integrable fun y : Fin n → ℝ =>
      ∑ c, ∑ d, A a b * B c d * (y a * y b * (y c * y d) * bells y) :=
    fun a b => integrable_finsetSum _ fun c _ => hi3 a b c
  have hi1 : ∀ a, Integrable fun y : Fin n → ℝ =>
      ∑ b, ∑ c, ∑ d, A a b * B c d * (y a * y b * (y c * y d) * bells y) :=
    fun a => integrable_finsetSum _ fun b _ => hi2 a b
  refine ⟨integrable_finsetSum _ fun a _ => hi1 a, ?_⟩
  rw [integral_finsetSum _ fun a _ => hi1 a]
  have h2 : ∀ a, ∫ y : Fin n → ℝ, ∑ b, ∑ c, ∑ d, A a b * B c d *
      (y a * y b * (y c * y d) * bells y) = ∑ b, ∑ c, ∑ d, A a b * B c d * (mom 0 ^ n *
        (kron a b * kron c d + kron a c * kron b d + kron a d * kron b c)) := by
    intro a
    rw [integral_finsetSum _ fun b _ => hi2 a b]
    refine Finset.sum_congr rfl fun b _ => ?_
    rw [integral_finsetSum _ fun c _ => hi3 a b c]
    refine Finset.sum_congr rfl fun c _ => ?_
    rw [integral_finsetSum _ fun d _ => hi a b c d]
    refine Finset.sum_congr rfl fun d _ => ?_
    rw [integral_const_mul, (quad_integral a b c d).2]
  simp only [h2]
  have hBs : ∀ a b, B a b = B b a := fun a b => congrFun (congrFun hB b) a
  have s1 : ∑ a, ∑ b, ∑ c, ∑ d, A a b * B c d * (kron a b * kron c d) = A.trace * B.trace := by
    simp only [kron, Matrix.one_apply, Matrix.trace, Matrix.diag_apply, Finset.sum_mul_sum]
    simp
  have s2 : ∑ a, ∑ b, ∑ c, ∑ d, A a b * B c d * (kron a c * kron b d) = (A * B).trace := by
    simp only [kron, Matrix.one_apply, Matrix.trace, Matrix.diag_apply, Matrix.mul_apply]
    refine Finset.sum_congr rfl fun a _ => Finset.sum_congr rfl fun b _ => ?_
    simp [hBs a b]
  have s3 : ∑ a, ∑ b, ∑ c, ∑ d, A a b * B c d * (kron a d * kron b c) = (A * B).trace := by
    simp only [kron, Matrix.one_apply, Matrix.trace, Matrix.diag_apply, Matrix.mul_apply]
    refine Finset.sum_congr rfl fun a _ => Finset.sum_congr rfl fun b _ => ?_
    simp
  have s : ∀ a b c d : Fin n, A a b * B c d * (mom 0 ^ n *
        (kron a b * kron c d + kron a c * kron b d + kron a d * kron b c)) =
      mom 0 ^ n * (A a b * B c d * (kron a b * kron c d) + A a b * B c d * (kron a c * kron b d) +
        A a b * B c d * (kron a d * kron b c)) := by
    intros; ring
  simp only [s, ← Finset.mul_sum, Finset.sum_add_distrib, s1, s2, s3]
  ring

/-! ## Expectations under `N(0, K)` -/

/-- Integrals against the `N(0, K)` density, in whitened coordinates. -/
theorem gauss_whiten {K C : Mat n n} (hK : K.PosDef) (hC : IsChol K C) (f : (Fin n → ℝ) → ℝ) :
    ∫ z, f z * gaussDensity K 0 z = (mom 0 ^ n)⁻¹ * ∫ y, f (C *ᵥ y) * bells y := by
  have hCu := hC.det_unit
  have hC0 : C.det ≠ 0 := hCu.ne_zero
  have hquad : ∀ y : Fin n → ℝ, (C *ᵥ y) ⬝ᵥ (K⁻¹ *ᵥ (C *ᵥ y)) = y ⬝ᵥ y := by
    intro y
    rw [← hC.inv, mulVec_mulVec, Matrix.mul_assoc, Matrix.nonsing_inv_mul _ hCu, Matrix.mul_one,
      dot_mulVec_transpose, ← transpose_nonsing_inv, transpose_transpose, mulVec_mulVec,
      Matrix.nonsing_inv_mul _ hCu, one_mulVec]
  have hmap := Real.map_matrix_volume_pi_eq_smul_volume_pi hC0
  have h2 : ∫ y, f (C *ᵥ y) * gaussDensity K 0 (C *ᵥ y) =
      |C.det|⁻¹ * ∫ z, f z * gaussDensity K 0 z := by
    have hme : MeasurableEmbedding (toLin' C) := by
      have : Function.Injective (toLin' C) := by
        intro x y hxy
        have := congrArg (fun v => C⁻¹ *ᵥ v) hxy
        simpa [toLin'_apply, mulVec_mulVec, Matrix.nonsing_inv_mul _ hCu] using this
      exact (LinearMap.continuous_of_finiteDimensional _).measurableEmbedding this
    have h3 := hme.integral_map (μ := (volume : Measure (Fin n → ℝ)))
      (fun z => f z * gaussDensity K 0 z)
    rw [hmap, integral_smul_measure] at h3
    simp only [toLin'_apply] at h3
    rw [← h3, ENNReal.toReal_ofReal (abs_nonneg _), abs_inv]
    rfl
  have h4 : ∀ y : Fin n → ℝ, f (C *ᵥ y) * gaussDensity K 0 (C *ᵥ y) =
      (Real.sqrt ((2 * Real.pi) ^ n * K.det))⁻¹ * (f (C *ᵥ y) * bells y) := by
    intro y
    unfold gaussDensity bells bell
    rw [sub_zero, hquad, ← Real.exp_sum, ← Finset.mul_sum]
    simp only [dotProduct, sq]
    ring
  simp only [h4] at h2
  rw [integral_const_mul] at h2
  have hdet : Real.sqrt ((2 * Real.pi) ^ n * K.det) = mom 0 ^ n * |C.det| := by
    have hKd : K.det = C.det ^ 2 := by rw [← hC.mul, det_mul, det_transpose, sq]
    rw [Real.sqrt_mul (by positivity), hKd, Real.sqrt_sq_eq_abs, mom_zero]
    congr 1
    have h2p : (0 : ℝ) ≤ 2 * Real.pi := by have := Real.pi_pos; positivity
    rw [← Real.sqrt_sq (pow_nonneg (Real.sqrt_nonneg (2 * Real.pi)) n), ← pow_mul, mul_comm n 2,
      pow_mul, Real.sq_sqrt h2p]
  rw [hdet] at h2
  have hp : mom 0 ^ n ≠ 0 := pow_ne_zero _ mom_zero_pos.ne'
  have ha : |C.det| ≠ 0 := abs_ne_zero.mpr hC0
  field_simp at h2 ⊢
  linarith

/-- The score of the `N(0, K)` log density in a direction in which `K` has derivative
`D`, at data `z`: `½ (zᵀ K⁻¹ D K⁻¹ z - tr(K⁻¹ D))`. -/
noncomputable def gaussScore (K D : Mat n n) (z : Fin n → ℝ) : ℝ :=
  1 / 2 * (z ⬝ᵥ ((K⁻¹ * D * K⁻¹) *ᵥ z) - (K⁻¹ * D).trace)

theorem gaussScore_frame {K C : Mat n n} (hC : IsChol K C) (D : Mat n n) (y : Fin n → ℝ) :
    gaussScore K D (C *ᵥ y) = 1 / 2 * (y ⬝ᵥ ((C⁻¹ * D * (Cᵀ)⁻¹) *ᵥ y) -
      (C⁻¹ * D * (Cᵀ)⁻¹).trace) := by
  have hCu := hC.det_unit
  have hCt : IsUnit (Cᵀ).det := by rwa [det_transpose]
  have e1 : Cᵀ * (K⁻¹ * D * K⁻¹) * C = C⁻¹ * D * (Cᵀ)⁻¹ := by
    rw [← hC.inv]
    calc Cᵀ * ((Cᵀ)⁻¹ * C⁻¹ * D * ((Cᵀ)⁻¹ * C⁻¹)) * C
        = (Cᵀ * (Cᵀ)⁻¹) * C⁻¹ * D * (Cᵀ)⁻¹ * (C⁻¹ * C) := by simp only [Matrix.mul_assoc]
      _ = C⁻¹ * D * (Cᵀ)⁻¹ := by
        rw [Matrix.mul_nonsing_inv _ hCt, Matrix.nonsing_inv_mul _ hCu, Matrix.one_mul,
          Matrix.mul_one]
  have e2 : (K⁻¹ * D).trace = (C⁻¹ * D * (Cᵀ)⁻¹).trace := by
    rw [← hC.inv, Matrix.mul_assoc, Matrix.trace_mul_comm]
  rw [gaussScore, e2, ← e1]
  congr 2
  simp only [← mulVec_mulVec]
  rw [dot_mulVec_transpose Cᵀ, transpose_transpose]

/-- The score has mean zero. -/
theorem gaussScore_mean {K : Mat n n} (hK : K.PosDef) (D : Mat n n) :
    ∫ z, gaussScore K D z * gaussDensity K 0 z = 0 := by
  obtain ⟨C, hC⟩ := exists_chol K hK
  rw [gauss_whiten hK hC]
  simp only [gaussScore_frame hC]
  set A := C⁻¹ * D * (Cᵀ)⁻¹
  have e : ∀ y : Fin n → ℝ, 1 / 2 * (y ⬝ᵥ (A *ᵥ y) - A.trace) * bells y =
      1 / 2 * (y ⬝ᵥ (A *ᵥ y) * bells y - A.trace * bells y) := by intro y; ring
  simp only [e]
  rw [integral_const_mul, integral_sub (form_integral A).1 (bells_integral.1.const_mul _),
    integral_const_mul, (form_integral A).2, bells_integral.2]
  ring

/-- The covariance of the scores in two directions is the trace formula. -/
theorem gaussScore_cov {K : Mat n n} (hK : K.PosDef) (D E : Mat n n) (hE : E.IsSymm) :
    ∫ z, gaussScore K D z * gaussScore K E z * gaussDensity K 0 z =
      1 / 2 * (K⁻¹ * D * K⁻¹ * E).trace := by
  obtain ⟨C, hC⟩ := exists_chol K hK
  rw [gauss_whiten hK hC (fun z => gaussScore K D z * gaussScore K E z), trace_frame hC]
  simp only [gaussScore_frame hC]
  have hBs : (C⁻¹ * E * (Cᵀ)⁻¹)ᵀ = C⁻¹ * E * (Cᵀ)⁻¹ := by
    simp only [transpose_mul, transpose_nonsing_inv, transpose_transpose, hE.eq,
      Matrix.mul_assoc]
  set A := C⁻¹ * D * (Cᵀ)⁻¹
  set B := C⁻¹ * E * (Cᵀ)⁻¹
  have e : ∀ y : Fin n → ℝ, 1 / 2 * (y ⬝ᵥ (A *ᵥ y) - A.trace) *
        (1 / 2 * (y ⬝ᵥ (B *ᵥ y) - B.trace)) * bells y =
      1 / 4 * (y ⬝ᵥ (A *ᵥ y) * (y ⬝ᵥ (B *ᵥ y)) * bells y - B.trace * (y ⬝ᵥ (A *ᵥ y) * bells y) -
        A.trace * (y ⬝ᵥ (B *ᵥ y) * bells y) + A.trace * B.trace * bells y) := by intro y; ring
  have i1 := (form2_integral A B hBs).1
  have i2 := (form_integral A).1.const_mul B.trace
  have i3 := (form_integral B).1.const_mul A.trace
  have i4 := (bells_integral (n := n)).1.const_mul (A.trace * B.trace)
  simp only [e]
  rw [integral_const_mul]
  have e1 := integral_add ((i1.sub i2).sub i3) i4
  have e2 := integral_sub (i1.sub i2) i3
  have e3 := integral_sub i1 i2
  simp only [Pi.sub_apply] at e1 e2
  rw [e1, e2, e3, integral_const_mul, integral_const_mul, integral_const_mul,
    (form2_integral A B hBs).2, (form_integral A).2, (form_integral B).2, bells_integral.2]
  have hp : mom 0 ^ n ≠ 0 := pow_ne_zero _ mom_zero_pos.ne'
  field_simp
  ring

/-! ## The score is the derivative of the criterion -/

/-- Jacobi's formula. -/
theorem det_deriv {F : ℝ → Mat n n} {D : Mat n n} {t : ℝ}
    (hF : ∀ a b, HasDerivAt (fun v => F v a b) (D a b) t) :
    HasDerivAt (fun v => (F v).det) ((F t).adjugate * D).trace t := by
  simp only [det_apply']
  have h1 : ∀ s : Equiv.Perm (Fin n), HasDerivAt
      (fun v => ((Equiv.Perm.sign s : ℤ) : ℝ) * ∏ i, F v (s i) i)
      (((Equiv.Perm.sign s : ℤ) : ℝ) * ∑ i, (∏ j ∈ Finset.univ.erase i, F t (s j) j) * D (s i) i)
      t := by
    intro s
    have h := HasDerivAt.fun_finsetProd (u := Finset.univ) (f := fun i v => F v (s i) i)
      (f' := fun i => D (s i) i) (x := t) fun i _ => hF (s i) i
    simpa only [smul_eq_mul] using h.const_mul _
  refine (HasDerivAt.fun_sum fun s (_ : s ∈ Finset.univ) => h1 s).congr_deriv ?_
  have h2 : ((F t).adjugate * D).trace = ∑ i, ((F t).updateCol i fun a => D a i).det := by
    rw [Matrix.trace]
    refine Finset.sum_congr rfl fun i _ => ?_
    rw [← cramer_apply, cramer_eq_adjugate_mulVec]
    rfl
  rw [h2]
  simp only [det_apply', Finset.mul_sum]
  rw [Finset.sum_comm]
  refine Finset.sum_congr rfl fun i _ => Finset.sum_congr rfl fun s _ => ?_
  congr 1
  rw [← Finset.mul_prod_erase Finset.univ _ (Finset.mem_univ i), mul_comm]
  congr 1
  · simp
  · refine Finset.prod_congr rfl fun j hj => ?_
    rw [updateCol_ne (Finset.ne_of_mem_erase hj)]

/-- Derivative of the inverse. -/
theorem inv_deriv {F : ℝ → Mat n n} {D : Mat n n} {t : ℝ} (hu : IsUnit (F t).det)
    (hF : ∀ a b, HasDerivAt (fun v => F v a b) (D a b) t) (a b : Fin n) :
    HasDerivAt (fun v => (F v)⁻¹ a b) ((-((F t)⁻¹ * D * (F t)⁻¹)) a b) t := by
  have hFc : ContinuousAt F t :=
    continuousAt_pi.mpr fun a => continuousAt_pi.mpr fun b => (hF a b).continuousAt
  have hdc : ContinuousAt (fun v => (F v).det) t := (det_deriv hF).continuousAt
  have hinvc : ContinuousAt (fun v => (F v)⁻¹) t := by
    have h1 : ContinuousAt (fun v => ((F v).det)⁻¹) t := hdc.inv₀ hu.ne_zero
    have h2 : ContinuousAt (fun v => (F v).adjugate) t :=
      (Continuous.matrix_adjugate continuous_id).continuousAt.comp hFc
    have h3 : ContinuousAt (fun v => ((F v).det)⁻¹ • (F v).adjugate) t := h1.smul h2
    simpa only [Matrix.inv_def, Ring.inverse_eq_inv'] using h3
  have hne : ∀ᶠ v in 𝓝 t, IsUnit (F v).det := by
    filter_upwards [hdc.eventually_ne hu.ne_zero] with v hv
    exact isUnit_iff_ne_zero.mpr hv
  rw [hasDerivAt_iff_tendsto_slope]
  have hsl : Tendsto (fun v => (Matrix.of fun a b => slope (fun v => F v a b) t v : Mat n n))
      (𝓝[≠] t) (𝓝 D) :=
    tendsto_pi_nhds.mpr fun a => tendsto_pi_nhds.mpr fun b =>
      hasDerivAt_iff_tendsto_slope.mp (hF a b)
  have hprod : Tendsto (fun v => -((F v)⁻¹ * (Matrix.of fun a b => slope (fun v => F v a b) t v) *
      (F t)⁻¹)) (𝓝[≠] t) (𝓝 (-((F t)⁻¹ * D * (F t)⁻¹))) :=
    (((hinvc.tendsto.mono_left nhdsWithin_le_nhds).mul hsl).mul_const _).neg
  have hab := (tendsto_pi_nhds.mp ((tendsto_pi_nhds.mp hprod) a)) b
  refine hab.congr' ?_
  filter_upwards [hne.filter_mono nhdsWithin_le_nhds, self_mem_nhdsWithin] with v hv hvt
  have hs : (Matrix.of fun a b => slope (fun v => F v a b) t v : Mat n n) =
      (v - t)⁻¹ • (F v - F t) := by
    ext a b
    simp [slope, vsub_eq_sub]
  rw [hs, Matrix.mul_smul, Matrix.smul_mul, Matrix.mul_sub, Matrix.sub_mul,
    Matrix.nonsing_inv_mul _ hv, Matrix.one_mul, Matrix.mul_assoc, Matrix.mul_nonsing_inv _ hu,
    Matrix.mul_one, ← smul_neg, neg_sub]
  simp [slope, vsub_eq_sub]

/-- The derivative of the log density along a family of covariances. -/
theorem logDensity_deriv {F : ℝ → Mat n n} {D : Mat n n} {t : ℝ} (hp : ∀ v, (F v).PosDef)
    (hF : ∀ a b, HasDerivAt (fun v => F v a b) (D a b) t) (z : Fin n → ℝ) :
    HasDerivAt (fun v => Real.log (gaussDensity (F v) 0 z)) (gaussScore (F t) D z) t := by
  have hu := PosDef.det_unit (hp t)
  have e : ∀ v, Real.log (gaussDensity (F v) 0 z) = -(1 / 2) * (n * Real.log (2 * Real.pi) +
      Real.log (F v).det + z ⬝ᵥ ((F v)⁻¹ *ᵥ z)) := by
    intro v
    have hd := (hp v).det_pos
    have hp2 : (0 : ℝ) < (2 * Real.pi) ^ n := by have := Real.pi_pos; positivity
    unfold gaussDensity
    rw [Real.log_mul (by positivity) (Real.exp_pos _).ne', Real.log_exp, Real.log_inv,
      Real.log_sqrt (by positivity), Real.log_mul hp2.ne' hd.ne', Real.log_pow, sub_zero]
    ring
  simp only [e]
  have h1 : HasDerivAt (fun v => Real.log (F v).det) ((F t)⁻¹ * D).trace t := by
    refine ((det_deriv hF).log hu.ne_zero).congr_deriv ?_
    rw [Matrix.inv_def, Ring.inverse_eq_inv', Matrix.smul_mul, Matrix.trace_smul, smul_eq_mul]
    ring
  have h2 : HasDerivAt (fun v => z ⬝ᵥ ((F v)⁻¹ *ᵥ z))
      (z ⬝ᵥ ((-((F t)⁻¹ * D * (F t)⁻¹)) *ᵥ z)) t := by
    simp only [dotProduct, mulVec]
    refine HasDerivAt.fun_sum fun a _ => HasDerivAt.const_mul _ ?_
    exact HasDerivAt.fun_sum fun b _ => (inv_deriv hu hF a b).mul_const _
  have h3 := ((h1.const_add (n * Real.log (2 * Real.pi))).add h2).const_mul (-(1 / 2) : ℝ)
  refine h3.congr_deriv ?_
  rw [gaussScore, neg_mulVec, dotProduct_neg]
  ring

/-! ## C230 -/

/-- Entries of the information converge when the finite differences do. -/
theorem info_tendsto (Ki : Mat n n) (A : Fin p → ℝ → Mat n n) (D : Fin p → Mat n n)
    (h : ∀ i a b, Tendsto (fun e => A i e a b) (𝓝[≠] 0) (𝓝 (D i a b))) (i j : Fin p) :
    Tendsto (fun e => 1 / 2 * (Ki * A i e * Ki * A j e).trace) (𝓝[≠] 0)
      (𝓝 (1 / 2 * (Ki * D i * Ki * D j).trace)) := by
  have hm : ∀ i, Tendsto (A i) (𝓝[≠] 0) (𝓝 (D i)) := fun i =>
    tendsto_pi_nhds.mpr fun a => tendsto_pi_nhds.mpr fun b => h i a b
  have h1 := (((hm i).const_mul Ki).mul_const Ki).mul (hm j)
  have h2 := ((continuous_id.matrix_trace (R := ℝ) (n := Fin n)).tendsto _).comp h1
  exact h2.const_mul _

/-- **C230** Let the covariance be positive definite for every parameter, with partial
derivatives `D i` at `theta`. The negative log-likelihood then has a gradient `s` with
respect to the parameters, at every data vector; over data drawn from the model at
`theta`, each component of the gradient has mean zero, and the matrix returned by
`fisher_information` is the covariance matrix of the gradient: exactly when the finite
differences are exact, and otherwise in the limit of small steps. -/
theorem fisher_score (hla : la.Sound be) (cov : (Fin p → ℝ) → Mat n n)
    (hp : ∀ t, (cov t).PosDef) (m : Fin n → ℝ) (theta : Fin p → ℝ) (D : Fin p → Mat n n)
    (hD : ∀ i a b, HasDerivAt (fun v => cov (Function.update theta i v) a b) (D i a b) (theta i)) :
    ∃ (L : (Fin p → ℝ) → (Fin n → ℝ) → ℝ) (s : Fin p → (Fin n → ℝ) → ℝ) (I : ℝ → Mat p p),
      (∀ t z, nll be la (cov t) m z = .ok (.finite (L t z))) ∧
      (∀ i z, HasDerivAt (fun v => L (Function.update theta i v) z) (s i z) (theta i)) ∧
      (∀ i, ∫ z, s i z * gaussDensity (cov theta) m z = 0) ∧
      (∀ eps, fisher la cov theta eps = .ok (I eps)) ∧
      (∀ eps, (∀ i, dCov cov theta eps i = D i) → ∀ i j,
        I eps i j = ∫ z, s i z * s j z * gaussDensity (cov theta) m z) ∧
      (∀ i j, Tendsto (fun eps => I eps i j) (𝓝[≠] 0)
        (𝓝 (∫ z, s i z * s j z * gaussDensity (cov theta) m z))) := by
  have hs : ∀ t, (cov t).IsSymm := fun t => PosDef.symm (hp t)
  have hK := hp theta
  choose I hI hIp hIe _ using fun eps => fisher_psd hla cov hs theta hK eps
  have hDs : ∀ i, (D i).IsSymm := by
    intro i
    ext a b
    have h1 := hD i b a
    have e : (fun v => cov (Function.update theta i v) b a) =
        fun v => cov (Function.update theta i v) a b := by
      funext v
      exact congrFun (congrFun (hs (Function.update theta i v)) a) b
    rw [e] at h1
    exact h1.unique (hD i a b)
  have hshift : ∀ z, gaussDensity (cov theta) m z = gaussDensity (cov theta) 0 (z - m) := by
    intro z
    simp [gaussDensity]
  have hcov : ∀ i j, ∫ z, -gaussScore (cov theta) (D i) (z - m) *
      -gaussScore (cov theta) (D j) (z - m) * gaussDensity (cov theta) m z =
      1 / 2 * ((cov theta)⁻¹ * D i * (cov theta)⁻¹ * D j).trace := by
    intro i j
    simp only [hshift, neg_mul_neg]
    rw [integral_sub_right_eq_self (fun z => gaussScore (cov theta) (D i) z *
      gaussScore (cov theta) (D j) z * gaussDensity (cov theta) 0 z) m]
    exact gaussScore_cov hK _ _ (hDs j)
  refine ⟨fun t z => -Real.log (gaussDensity (cov t) m z),
    fun i z => -gaussScore (cov theta) (D i) (z - m), I,
    fun t z => (nll_eq hla (hp t) m z).1, ?_, ?_, hI, ?_, ?_⟩
  · intro i z
    have e : ∀ v, gaussDensity (cov (Function.update theta i v)) m z =
        gaussDensity (cov (Function.update theta i v)) 0 (z - m) := by
      intro v
      simp [gaussDensity]
    simp only [e]
    have h := (logDensity_deriv (F := fun v => cov (Function.update theta i v))
      (fun v => hp _) (hD i) (z - m)).neg
    rw [Function.update_eq_self] at h
    exact h
  · intro i
    simp only [hshift]
    rw [integral_sub_right_eq_self (fun z => -gaussScore (cov theta) (D i) z *
      gaussDensity (cov theta) 0 z) m]
    simp only [neg_mul]
    rw [integral_neg, gaussScore_mean hK, neg_zero]
  · intro eps he i j
    rw [hcov, hIe, he, he]
  · intro i j
    simp only [hIe, hcov]
    exact info_tendsto _ (fun i e => dCov cov theta e i) D
      (fun i a b => dCov_tendsto cov theta i a b _ (hD i a b)) i j

/-- Two contrast matrices differ by an orthogonal factor. -/
theorem contrast_orth {P : Mat (q + r) q} {W V : Mat (q + r) r} (hW : IsContrast P W)
    (hV : IsContrast P V) : ∃ O : Mat r r, V = W * O ∧ Oᵀ * O = 1 ∧ O * Oᵀ = 1 := by
  have hcol : ∀ b : Fin r, ∃ c, V.col b = W *ᵥ c := by
    intro b
    refine hW.span _ ?_
    funext a
    have := congrFun (congrFun hV.null a) b
    simpa [Matrix.mul_apply, mulVec, dotProduct] using this
  choose c hc using hcol
  have hVW : V = W * Matrix.of fun a b => c b a := by
    ext a b
    have := congrFun (hc b) a
    simpa [Matrix.mul_apply, mulVec, dotProduct] using this
  have h1 : (Matrix.of fun a b => c b a : Mat r r)ᵀ * (Matrix.of fun a b => c b a) = 1 := by
    have := hV.orth
    rw [hVW, transpose_mul, Matrix.mul_assoc, ← Matrix.mul_assoc Wᵀ, hW.orth, Matrix.one_mul] at this
    exact this
  exact ⟨_, hVW, h1, mul_eq_one_comm.mp h1⟩

/-- The trace formula in contrast space does not depend on the contrasts. -/
theorem trace_contrast {P : Mat (q + r) q} {W V : Mat (q + r) r} (hW : IsContrast P W)
    (hV : IsContrast P V) {K : Mat (q + r) (q + r)} (hK : CPD K P) (A B : Mat (q + r) (q + r)) :
    ((Vᵀ * (K * V))⁻¹ * (Vᵀ * (A * V)) * (Vᵀ * (K * V))⁻¹ * (Vᵀ * (B * V))).trace =
      ((Wᵀ * (K * W))⁻¹ * (Wᵀ * (A * W)) * (Wᵀ * (K * W))⁻¹ * (Wᵀ * (B * W))).trace := by
  obtain ⟨O, rfl, h1, h2⟩ := contrast_orth hW hV
  have hG : (Wᵀ * (K * W)).PosDef := contrast_posDef hW.orth hW.null hK
  have e : ∀ M : Mat (q + r) (q + r), (W * O)ᵀ * (M * (W * O)) = Oᵀ * (Wᵀ * (M * W)) * O := by
    intro M
    rw [transpose_mul]
    simp only [Matrix.mul_assoc]
  have hinv : (Oᵀ * (Wᵀ * (K * W)) * O)⁻¹ = Oᵀ * (Wᵀ * (K * W))⁻¹ * O := by
    refine Matrix.inv_eq_right_inv ?_
    calc Oᵀ * (Wᵀ * (K * W)) * O * (Oᵀ * (Wᵀ * (K * W))⁻¹ * O)
        = Oᵀ * (Wᵀ * (K * W)) * (O * Oᵀ) * (Wᵀ * (K * W))⁻¹ * O := by simp only [Matrix.mul_assoc]
      _ = Oᵀ * ((Wᵀ * (K * W)) * (Wᵀ * (K * W))⁻¹) * O := by
        rw [h2, Matrix.mul_one, Matrix.mul_assoc Oᵀ]
      _ = 1 := by
        rw [Matrix.mul_nonsing_inv _ (PosDef.det_unit hG), Matrix.mul_one, h1]
  rw [e, e, e, hinv]
  set Gi := (Wᵀ * (K * W))⁻¹
  set A' := Wᵀ * (A * W)
  set B' := Wᵀ * (B * W)
  have e2 : Oᵀ * Gi * O * (Oᵀ * A' * O) * (Oᵀ * Gi * O) * (Oᵀ * B' * O) =
      Oᵀ * (Gi * A' * Gi * B' * O) := by
    calc _ = Oᵀ * Gi * (O * Oᵀ) * A' * (O * Oᵀ) * Gi * (O * Oᵀ) * B' * O := by
          simp only [Matrix.mul_assoc]
      _ = _ := by rw [h2]; simp only [Matrix.mul_one, Matrix.mul_assoc]
  rw [e2, Matrix.trace_mul_comm, Matrix.mul_assoc, h2, Matrix.mul_one]

theorem fisherCpd_entries (hla : la.Sound be) (cov : (Fin p → ℝ) → Mat (q + r) (q + r))
    (hs : ∀ t, (cov t).IsSymm) (P : Mat (q + r) q) (hP : FullRank P) (theta : Fin p → ℝ)
    (hK : CPD (cov theta) P) (eps : ℝ) {V : Mat (q + r) r} (hV : IsContrast P V) :
    ∃ I, fisherCpd la cov P theta eps = .ok I ∧ ∀ i j, I i j = 1 / 2 *
      ((Vᵀ * (cov theta * V))⁻¹ * (Vᵀ * (dCov cov theta eps i * V)) *
        (Vᵀ * (cov theta * V))⁻¹ * (Vᵀ * (dCov cov theta eps j * V))).trace := by
  have hqr := hla.qr_ok P (Nat.le_add_right q r)
  have hW : IsContrast P (contrastMatrix la P) := hqr.contrast hP
  simp only [trace_contrast hW hV hK]
  set W := contrastMatrix la P with hWd
  have hG : (Wᵀ * (cov theta * W)).PosDef := contrast_posDef hW.orth hW.null hK
  obtain ⟨C, hc, hC⟩ := hla.chol_ok _ hG
  have hA : ∀ i, (dCov cov theta eps i).IsSymm := fun i => finiteDiff_symm (fun t => hs _) _ _
  have hdG : ∀ i, (Wᵀ * (dCov cov theta eps i * W)).IsSymm := by
    intro i
    unfold Matrix.IsSymm
    rw [transpose_mul, transpose_mul, transpose_transpose, (hA i).eq, Matrix.mul_assoc]
  obtain ⟨h1, h2, h3, h4⟩ := traceGram hG (fun i => Wᵀ * (dCov cov theta eps i * W)) hdG _ rfl
  refine ⟨_, ?_, h2⟩
  have hc' : la.chol (((la.qr P).1.submatrix id (Fin.natAdd q))ᵀ *
      (cov theta * (la.qr P).1.submatrix id (Fin.natAdd q))) = .ok C := hc
  simp only [fisherCpd, hc', Bind.bind, Except.bind, pure, Except.pure]
  congr 2
  funext i j
  have : ∀ A : Mat r r, (Cᵀ)⁻¹ * (C⁻¹ * A) = (Wᵀ * (cov theta * W))⁻¹ * A := by
    intro A
    rw [← Matrix.mul_assoc, hC.inv]
  rw [this, this]
  simp only [Matrix.mul_assoc]
  rfl

/-- **C230** With a linear predictor and a conditionally positive definite covariance,
the same holds of the restricted likelihood and `fisher_information_cpd`: its gradient
`s` does not see the trend, has mean zero and has the returned matrix as covariance,
under the law `N(0, Vᵀ K V)` of the contrasts of the data (whatever orthonormal
contrasts `V` are used; data `V w` have contrasts `w`). -/
theorem fisherCpd_score (hla : la.Sound be) (cov : (Fin p → ℝ) → Mat (q + r) (q + r))
    (P : Mat (q + r) q) (hP : FullRank P) (hp : ∀ t, CPD (cov t) P) (theta : Fin p → ℝ)
    (D : Fin p → Mat (q + r) (q + r))
    (hD : ∀ i a b, HasDerivAt (fun v => cov (Function.update theta i v) a b) (D i a b) (theta i)) :
    ∃ (L : (Fin p → ℝ) → (Fin (q + r) → ℝ) → ℝ) (s : Fin p → (Fin (q + r) → ℝ) → ℝ)
      (I : ℝ → Mat p p),
      (∀ t z, reml be la (cov t) P z = .ok (.finite (L t z))) ∧
      (∀ i z, HasDerivAt (fun v => L (Function.update theta i v) z) (s i z) (theta i)) ∧
      (∀ i z b, s i (z + P *ᵥ b) = s i z) ∧
      (∀ eps, fisherCpd la cov P theta eps = .ok (I eps)) ∧
      ∀ V, IsContrast P V →
        (∀ i, ∫ w, s i (V *ᵥ w) * gaussDensity (Vᵀ * (cov theta * V)) 0 w = 0) ∧
        (∀ eps, (∀ i, dCov cov theta eps i = D i) → ∀ i j, I eps i j =
          ∫ w, s i (V *ᵥ w) * s j (V *ᵥ w) * gaussDensity (Vᵀ * (cov theta * V)) 0 w) ∧
        (∀ i j, Tendsto (fun eps => I eps i j) (𝓝[≠] 0)
          (𝓝 (∫ w, s i (V *ᵥ w) * s j (V *ᵥ w) * gaussDensity (Vᵀ * (cov theta * V)) 0 w))) := by
  have hs : ∀ t, (cov t).IsSymm := fun t => (hp t).symm
  have hqr := hla.qr_ok P (Nat.le_add_right q r)
  have hW : IsContrast P (contrastMatrix la P) := hqr.contrast hP
  set W := contrastMatrix la P with hWd
  have hDs : ∀ i, (D i).IsSymm := by
    intro i
    ext a b
    have h1 := hD i b a
    have e : (fun v => cov (Function.update theta i v) b a) =
        fun v => cov (Function.update theta i v) a b := by
      funext v
      exact congrFun (congrFun (hs (Function.update theta i v)) a) b
    rw [e] at h1
    exact h1.unique (hD i a b)
  have hL : ∀ (V : Mat (q + r) r), IsContrast P V → ∀ t z, reml be la (cov t) P z =
      .ok (.finite (-Real.log (gaussDensity (Vᵀ * (cov t * V)) 0 (Vᵀ *ᵥ z)))) :=
    fun V hV t z => reml_eq hla (hp t) hP z hV
  have hder : ∀ (V : Mat (q + r) r), IsContrast P V → ∀ i z, HasDerivAt
      (fun v => -Real.log (gaussDensity (Vᵀ * (cov (Function.update theta i v) * V)) 0 (Vᵀ *ᵥ z)))
      (-gaussScore (Vᵀ * (cov theta * V)) (Vᵀ * (D i * V)) (Vᵀ *ᵥ z)) (theta i) := by
    intro V hV i z
    have h := (logDensity_deriv (F := fun v => Vᵀ * (cov (Function.update theta i v) * V))
      (D := Vᵀ * (D i * V)) (t := theta i)
      (fun v => contrast_posDef hV.orth hV.null (hp _)) (fun a b => ?_) (Vᵀ *ᵥ z)).neg
    · rw [Function.update_eq_self] at h
      exact h
    · simp only [Matrix.mul_apply]
      refine HasDerivAt.fun_sum fun c _ => HasDerivAt.const_mul _ ?_
      exact HasDerivAt.fun_sum fun d _ => (hD i c d).mul_const _
  -- the gradient is the same for all contrasts
  have hsame : ∀ (V : Mat (q + r) r), IsContrast P V → ∀ i z,
      -gaussScore (Wᵀ * (cov theta * W)) (Wᵀ * (D i * W)) (Wᵀ *ᵥ z) =
      -gaussScore (Vᵀ * (cov theta * V)) (Vᵀ * (D i * V)) (Vᵀ *ᵥ z) := by
    intro V hV i z
    refine (hder W hW i z).unique ?_
    refine (hder V hV i z).congr_of_eventuallyEq (Eventually.of_forall fun v => ?_)
    have h := (hL W hW (Function.update theta i v) z).symm.trans
      (hL V hV (Function.update theta i v) z)
    simp only [Except.ok.injEq, Crit.finite.injEq] at h
    exact h
  choose I hI hIe using fun eps => fisherCpd_entries hla cov hs P hP theta (hp theta) eps hW
  refine ⟨fun t z => -Real.log (gaussDensity (Wᵀ * (cov t * W)) 0 (Wᵀ *ᵥ z)),
    fun i z => -gaussScore (Wᵀ * (cov theta * W)) (Wᵀ * (D i * W)) (Wᵀ *ᵥ z), I,
    hL W hW, hder W hW, ?_, hI, ?_⟩
  · intro i z b
    have h0 : Wᵀ * P = 0 := by
      have := congrArg transpose hW.null
      rwa [transpose_mul, transpose_transpose, transpose_zero] at this
    simp only [mulVec_add, mulVec_mulVec, h0, zero_mulVec, add_zero]
  · intro V hV
    have hG : (Vᵀ * (cov theta * V)).PosDef := contrast_posDef hV.orth hV.null (hp theta)
    have hVD : ∀ i, (Vᵀ * (D i * V)).IsSymm := by
      intro i
      unfold Matrix.IsSymm
      rw [transpose_mul, transpose_mul, transpose_transpose, (hDs i).eq, Matrix.mul_assoc]
    have hVw : ∀ i w, -gaussScore (Wᵀ * (cov theta * W)) (Wᵀ * (D i * W)) (Wᵀ *ᵥ (V *ᵥ w)) =
        -gaussScore (Vᵀ * (cov theta * V)) (Vᵀ * (D i * V)) w := by
      intro i w
      rw [hsame V hV, mulVec_mulVec, hV.orth, one_mulVec]
    simp only [hVw, neg_mul_neg]
    have hcov : ∀ i j, ∫ w, gaussScore (Vᵀ * (cov theta * V)) (Vᵀ * (D i * V)) w *
        gaussScore (Vᵀ * (cov theta * V)) (Vᵀ * (D j * V)) w *
          gaussDensity (Vᵀ * (cov theta * V)) 0 w =
        1 / 2 * ((Vᵀ * (cov theta * V))⁻¹ * (Vᵀ * (D i * V)) * (Vᵀ * (cov theta * V))⁻¹ *
          (Vᵀ * (D j * V))).trace := fun i j => gaussScore_cov hG _ _ (hVD j)
    refine ⟨fun i => ?_, fun eps he i j => ?_, fun i j => ?_⟩
    · simp only [neg_mul]
      rw [integral_neg, gaussScore_mean hG, neg_zero]
    · rw [hcov, hIe, he, he, trace_contrast hW hV (hp theta)]
    · rw [hcov]
      simp only [hIe, ← trace_contrast hW hV (hp theta)]
      refine info_tendsto _ (fun i e => Vᵀ * (dCov cov theta e i * V)) (fun i => Vᵀ * (D i * V))
        (fun i a b => ?_) i j
      simp only [Matrix.mul_apply]
      refine tendsto_finsetSum _ fun c _ => Tendsto.const_mul _ ?_
      exact tendsto_finsetSum _ fun d _ =>
        (dCov_tendsto cov theta i c d _ (hD i c d)).mul_const _

/-! ## Concrete case -/

/-- A variance on a logarithmic scale: `exp θ · I`. -/
example (theta : Fin 1 → ℝ) : (∀ t : Fin 1 → ℝ, (Real.exp (t 0) • (1 : Mat 2 2)).PosDef) ∧
    ∀ (i : Fin 1) (a b : Fin 2), HasDerivAt
      (fun v => (Real.exp (Function.update theta i v 0) • (1 : Mat 2 2)) a b)
      ((Real.exp (theta 0) • (1 : Mat 2 2)) a b) (theta i) := by
  refine ⟨fun t => Matrix.PosDef.one.smul (Real.exp_pos _), fun i a b => ?_⟩
  rw [Subsingleton.elim i 0]
  simp only [Function.update_self, Matrix.smul_apply, smul_eq_mul]
  exact (Real.hasDerivAt_exp (theta 0)).mul_const _

end Verif.Core
