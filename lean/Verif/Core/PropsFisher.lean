import Verif.Core.PropsLikelihood
import Mathlib.Algebra.Polynomial.Derivative
import Mathlib.Analysis.Calculus.Deriv.Slope
import Mathlib.Algebra.Polynomial.Eval.Degree
import Mathlib.Algebra.Polynomial.Eval.Defs

/-!
# C36, C37: Fisher information and finite differences
-/

set_option autoImplicit false

namespace Verif.Core

open Verif Verif.Data Matrix

variable {n q r p : ℕ} {be : Backend} {la : LA}

/-! ## C36 -/

/-- The bilinear form of the trace formula, in a Cholesky frame. -/
theorem trace_frame {K C : Mat n n} (hC : IsChol K C) (A B : Mat n n) :
    Matrix.trace (K⁻¹ * A * K⁻¹ * B) =
      Matrix.trace ((C⁻¹ * A * (Cᵀ)⁻¹) * (C⁻¹ * B * (Cᵀ)⁻¹)) := by
  rw [← hC.inv]
  rw [show (Cᵀ)⁻¹ * C⁻¹ * A * ((Cᵀ)⁻¹ * C⁻¹) * B = (Cᵀ)⁻¹ * (C⁻¹ * A * (Cᵀ)⁻¹ * (C⁻¹ * B)) by
    simp only [Matrix.mul_assoc]]
  rw [Matrix.trace_mul_comm]
  simp only [Matrix.mul_assoc]

/-- The sum of squares of the entries of a symmetric matrix. -/
theorem trace_sq {M : Mat n n} (hM : Mᵀ = M) : Matrix.trace (M * M) = ∑ i, ∑ j, M i j ^ 2 := by
  rw [Matrix.trace]
  refine Finset.sum_congr rfl fun i _ => ?_
  rw [Matrix.diag_apply, Matrix.mul_apply]
  refine Finset.sum_congr rfl fun j _ => ?_
  have : M j i = M i j := congrFun (congrFun hM i) j
  rw [this, sq]

/-- General statement for `½ tr(K⁻¹ Aᵢ K⁻¹ Aⱼ)` filled symmetrically: symmetric,
positive semidefinite, with kernel exactly the null combinations of the `Aᵢ`. -/
theorem traceGram {K : Mat n n} (hK : K.PosDef) (A : Fin p → Mat n n) (hA : ∀ i, (A i).IsSymm)
    (I : Mat p p)
    (hI : I = symFill fun i j => 0.5 * Matrix.trace (K⁻¹ * A i * K⁻¹ * A j)) :
    I.IsSymm ∧ (∀ i j, I i j = 1 / 2 * Matrix.trace (K⁻¹ * A i * K⁻¹ * A j)) ∧
    (∀ x, 0 ≤ x ⬝ᵥ (I *ᵥ x)) ∧
    (∀ x, x ⬝ᵥ (I *ᵥ x) = 0 ↔ ∑ i, x i • A i = 0) := by
  obtain ⟨C, hC⟩ := exists_chol K hK
  have hCu := hC.det_unit
  set B : Fin p → Mat n n := fun i => C⁻¹ * A i * (Cᵀ)⁻¹ with hB
  have hBs : ∀ i, (B i)ᵀ = B i := by
    intro i
    simp only [hB, transpose_mul, transpose_nonsing_inv, transpose_transpose, (hA i).eq,
      Matrix.mul_assoc]
  have hcomm : ∀ i j, Matrix.trace (K⁻¹ * A i * K⁻¹ * A j) = Matrix.trace (B i * B j) :=
    fun i j => trace_frame hC _ _
  have hent : ∀ i j, I i j = 1 / 2 * Matrix.trace (B i * B j) := by
    intro i j
    rw [hI]
    simp only [symFill, Matrix.of_apply]
    split
    · rw [hcomm]; norm_num
    · rw [hcomm, Matrix.trace_mul_comm]; norm_num
  set S : (Fin p → ℝ) → Mat n n := fun x => ∑ i, x i • B i with hS
  have hSs : ∀ x, (S x)ᵀ = S x := by
    intro x
    simp only [hS, transpose_sum, transpose_smul, hBs]
  have hquad : ∀ x, x ⬝ᵥ (I *ᵥ x) = 1 / 2 * Matrix.trace (S x * S x) := by
    intro x
    simp only [hS, Matrix.sum_mul, Matrix.mul_sum, Matrix.trace_sum, Matrix.smul_mul,
      Matrix.mul_smul, Matrix.trace_smul, smul_eq_mul, dotProduct, mulVec, hent, Finset.mul_sum]
    rw [Finset.sum_comm]
    refine Finset.sum_congr rfl fun i _ => Finset.sum_congr rfl fun j _ => ?_
    rw [Matrix.trace_mul_comm]
    ring
  have hSx : ∀ x, S x = C⁻¹ * (∑ i, x i • A i) * (Cᵀ)⁻¹ := by
    intro x
    simp only [hS, hB, Matrix.mul_sum, Matrix.sum_mul, Matrix.mul_smul, Matrix.smul_mul]
  refine ⟨?_, fun i j => by rw [hent, hcomm], fun x => ?_, fun x => ?_⟩
  · ext i j
    rw [transpose_apply, hent, hent, Matrix.trace_mul_comm]
  · rw [hquad, trace_sq (hSs x)]
    have : 0 ≤ ∑ i, ∑ j, S x i j ^ 2 :=
      Finset.sum_nonneg fun i _ => Finset.sum_nonneg fun j _ => sq_nonneg _
    linarith
  · rw [hquad, trace_sq (hSs x)]
    constructor
    · intro h
      have h0 : ∑ i, ∑ j, S x i j ^ 2 = 0 := by linarith
      have hz : S x = 0 := by
        ext i j
        have hle : S x i j ^ 2 ≤ ∑ i, ∑ j, S x i j ^ 2 :=
          (Finset.single_le_sum (f := fun j => S x i j ^ 2) (fun _ _ => sq_nonneg _)
            (Finset.mem_univ j)).trans
          (Finset.single_le_sum (f := fun i => ∑ j, S x i j ^ 2)
            (fun _ _ => Finset.sum_nonneg fun _ _ => sq_nonneg _) (Finset.mem_univ i))
        have h2 : S x i j ^ 2 = 0 := le_antisymm (hle.trans h0.le) (sq_nonneg _)
        simpa using h2
      have hCt : IsUnit (Cᵀ).det := by rwa [det_transpose]
      have h3 : C * (C⁻¹ * (∑ i, x i • A i) * (Cᵀ)⁻¹) * Cᵀ = ∑ i, x i • A i := by
        rw [← Matrix.mul_assoc, ← Matrix.mul_assoc, Matrix.mul_nonsing_inv _ hCu, Matrix.one_mul,
          Matrix.mul_assoc, Matrix.nonsing_inv_mul _ hCt, Matrix.mul_one]
      rw [← h3, ← hSx, hz, Matrix.mul_zero, Matrix.zero_mul]
    · intro h
      have hz : S x = 0 := by rw [hSx, h, Matrix.mul_zero, Matrix.zero_mul]
      simp [hz]

theorem finiteDiff_symm {f : ℝ → Mat n n} (hf : ∀ t, (f t).IsSymm) (x h : ℝ) :
    (finiteDiff f x h).IsSymm := by
  unfold finiteDiff Matrix.IsSymm
  simp only [transpose_smul, transpose_add, transpose_sub, transpose_neg, (hf _).eq]

/-- **C36** For every symmetric covariance function that is positive definite at the
current parameter, `fisher_information` returns a symmetric positive semidefinite
matrix with entries `½ tr(K⁻¹ Dᵢ K⁻¹ Dⱼ)`; it is degenerate exactly along the
parameter directions that do not change the (finite-difference) covariance. -/
theorem fisher_psd (hla : la.Sound be) (cov : (Fin p → ℝ) → Mat n n)
    (hs : ∀ t, (cov t).IsSymm) (theta : Fin p → ℝ) (hK : (cov theta).PosDef) (eps : ℝ) :
    ∃ I, fisher la cov theta eps = .ok I ∧ I.PosSemidef ∧
      (∀ i j, I i j = 1 / 2 * Matrix.trace ((cov theta)⁻¹ * dCov cov theta eps i *
        (cov theta)⁻¹ * dCov cov theta eps j)) ∧
      (∀ x, x ⬝ᵥ (I *ᵥ x) = 0 ↔ ∑ i, x i • dCov cov theta eps i = 0) := by
  have hinv := hla.inv_ok _ ((Matrix.isUnit_iff_isUnit_det _).mpr (PosDef.det_unit hK))
  have hA : ∀ i, (dCov cov theta eps i).IsSymm := fun i => finiteDiff_symm (fun t => hs _) _ _
  obtain ⟨h1, h2, h3, h4⟩ := traceGram hK (dCov cov theta eps) hA _ rfl
  exact ⟨_, by simp only [fisher, hinv], posSemidef_of_quad h1 h3, h2, h4⟩

/-- **C36** An uninvertible covariance raises `RuntimeError`. -/
theorem fisher_error (hla : la.Sound be) (cov : (Fin p → ℝ) → Mat n n) (theta : Fin p → ℝ)
    (hK : ¬ IsUnit (cov theta)) (eps : ℝ) : fisher la cov theta eps = .error .runtimeError := by
  simp only [fisher, hla.inv_err _ hK]

/-- **C36** The contrast-space version, for conditionally positive definite
covariances. -/
theorem fisherCpd_psd (hla : la.Sound be) (cov : (Fin p → ℝ) → Mat (q + r) (q + r))
    (hs : ∀ t, (cov t).IsSymm) (P : Mat (q + r) q) (hP : FullRank P) (theta : Fin p → ℝ)
    (hK : CPD (cov theta) P) (eps : ℝ) :
    ∃ I, fisherCpd la cov P theta eps = .ok I ∧ I.PosSemidef ∧
      ∀ x, x ⬝ᵥ (I *ᵥ x) = 0 ↔
        ∀ u v : Fin (q + r) → ℝ, Pᵀ *ᵥ u = 0 → Pᵀ *ᵥ v = 0 →
          u ⬝ᵥ ((∑ i, x i • dCov cov theta eps i) *ᵥ v) = 0 := by
  have hqr := hla.qr_ok P (Nat.le_add_right q r)
  have hW : IsContrast P (contrastMatrix la P) := hqr.contrast hP
  set W := contrastMatrix la P with hWd
  have hG : (Wᵀ * (cov theta * W)).PosDef := contrast_posDef hW.orth hW.null hK
  obtain ⟨C, hc, hC⟩ := hla.chol_ok _ hG
  have hA : ∀ i, (dCov cov theta eps i).IsSymm := fun i => finiteDiff_symm (fun t => hs _) _ _
  have hdG : ∀ i, (Wᵀ * (dCov cov theta eps i * W)).IsSymm := by
    intro i
    unfold Matrix.IsSymm
    rw [transpose_mul, transpose_mul, transpose_transpose, (hA i).eq, Matrix.mul_assoc]
  obtain ⟨h1, h2, h3, h4⟩ := traceGram hG (fun i => Wᵀ * (dCov cov theta eps i * W)) hdG _ rfl
  refine ⟨_, ?_, posSemidef_of_quad h1 h3, ?_⟩
  · have hc' : la.chol (((la.qr P).1.submatrix id (Fin.natAdd q))ᵀ *
        (cov theta * (la.qr P).1.submatrix id (Fin.natAdd q))) = .ok C := hc
    simp only [fisherCpd, hc', bind, Except.bind, pure, Except.pure]
    congr 2
    funext i j
    have : ∀ A : Mat r r, (Cᵀ)⁻¹ * (C⁻¹ * A) = (Wᵀ * (cov theta * W))⁻¹ * A := by
      intro A
      rw [← Matrix.mul_assoc, hC.inv]
    rw [this, this]
    simp only [Matrix.mul_assoc]
    rfl
  · intro x
    rw [h4 x]
    have hsum : ∑ i, x i • (Wᵀ * (dCov cov theta eps i * W)) =
        Wᵀ * ((∑ i, x i • dCov cov theta eps i) * W) := by
      simp only [Matrix.sum_mul, Matrix.mul_sum, Matrix.smul_mul, Matrix.mul_smul]
    rw [hsum]
    set D := ∑ i, x i • dCov cov theta eps i
    constructor
    · intro h0 u v hu hv
      obtain ⟨a, rfl⟩ := hW.span u hu
      obtain ⟨b, rfl⟩ := hW.span v hv
      have : (W *ᵥ a) ⬝ᵥ (D *ᵥ (W *ᵥ b)) = a ⬝ᵥ ((Wᵀ * (D * W)) *ᵥ b) := by
        rw [← mulVec_mulVec, ← mulVec_mulVec, dot_mulVec_transpose Wᵀ, transpose_transpose]
      rw [this, h0, zero_mulVec, dotProduct_zero]
    · intro h0
      ext a b
      have hu : ∀ c : Fin r → ℝ, Pᵀ *ᵥ (W *ᵥ c) = 0 := by
        intro c; rw [mulVec_mulVec, hW.null, zero_mulVec]
      have := h0 _ _ (hu (Pi.single a 1)) (hu (Pi.single b 1))
      have h5 : (W *ᵥ Pi.single a 1) ⬝ᵥ (D *ᵥ (W *ᵥ Pi.single b 1)) =
          (Pi.single a 1 : Fin r → ℝ) ⬝ᵥ ((Wᵀ * (D * W)) *ᵥ Pi.single b 1) := by
        rw [← mulVec_mulVec, ← mulVec_mulVec, dot_mulVec_transpose Wᵀ, transpose_transpose]
      rw [h5, Matrix.mulVec_single_one] at this
      simpa using this

/-! ## C37 -/

/-- **C37** Exact on polynomials of degree at most four. -/
theorem finiteDiff_exact (P : Polynomial ℝ) (hP : P.natDegree ≤ 4) (x h : ℝ) (hh : h ≠ 0) :
    finiteDiff (fun t => P.eval t) x h = P.derivative.eval x := by
  have e : ∀ t, P.eval t = P.coeff 0 + P.coeff 1 * t + P.coeff 2 * t ^ 2 + P.coeff 3 * t ^ 3 +
      P.coeff 4 * t ^ 4 := by
    intro t
    rw [Polynomial.eval_eq_sum_range' (n := 5) (by omega)]
    simp [Finset.sum_range_succ]
  have d : P.derivative.eval x = P.coeff 1 + 2 * P.coeff 2 * x + 3 * P.coeff 3 * x ^ 2 +
      4 * P.coeff 4 * x ^ 3 := by
    rw [Polynomial.eval_eq_sum_range' (n := 4) (by
      have := Polynomial.natDegree_derivative_le P; omega)]
    simp [Finset.sum_range_succ, Polynomial.coeff_derivative]
    ring
  unfold finiteDiff
  rw [d]
  simp only [e, smul_eq_mul]
  field_simp
  ring

/-- **C37** Four is the exact order: on `t ^ 5` the error is `-4 h⁴`. -/
theorem finiteDiff_degree_five (x h : ℝ) (hh : h ≠ 0) :
    finiteDiff (fun t : ℝ => t ^ 5) x h = 5 * x ^ 4 - 4 * h ^ 4 := by
  unfold finiteDiff
  simp only [smul_eq_mul]
  field_simp
  ring

/-- **C37** Linear in `f` and entrywise for matrix-valued functions. -/
theorem finiteDiff_entry {m : ℕ} (f : ℝ → Mat n m) (x h : ℝ) (i : Fin n) (j : Fin m) :
    finiteDiff f x h i j = finiteDiff (fun t => f t i j) x h := by
  simp [finiteDiff]

/-- **C37** The difference quotient converges to the derivative at `x`. -/
theorem finiteDiff_tendsto {f : ℝ → ℝ} {f' x : ℝ} (hf : HasDerivAt f f' x) :
    Filter.Tendsto (fun h => finiteDiff f x h) (nhdsWithin 0 {0}ᶜ) (nhds f') := by
  have hs : ∀ c : ℝ, c ≠ 0 → Filter.Tendsto (fun h : ℝ => (c * h)⁻¹ * (f (x + c * h) - f x))
      (nhdsWithin 0 {0}ᶜ) (nhds f') := by
    intro c hc
    have h1 := hasDerivAt_iff_tendsto_slope_zero.mp hf
    have h2 : Filter.Tendsto (fun h : ℝ => c * h) (nhdsWithin 0 {0}ᶜ) (nhdsWithin 0 {0}ᶜ) := by
      refine tendsto_nhdsWithin_iff.mpr ⟨?_, ?_⟩
      · have : Filter.Tendsto (fun h : ℝ => c * h) (nhds 0) (nhds (c * 0)) :=
          (continuous_const.mul continuous_id).tendsto 0
        rw [mul_zero] at this
        exact this.mono_left nhdsWithin_le_nhds
      · filter_upwards [self_mem_nhdsWithin] with h hh
        exact mul_ne_zero hc hh
    exact h1.comp h2
  have key := ((((hs 1 one_ne_zero).const_mul (8 / 12)).add
    ((hs (-1) (by norm_num)).const_mul (8 / 12))).sub ((hs 2 two_ne_zero).const_mul (2 / 12))).sub
    ((hs (-2) (by norm_num)).const_mul (2 / 12))
  have e : 8 / 12 * f' + 8 / 12 * f' - 2 / 12 * f' - 2 / 12 * f' = f' := by ring
  rw [e] at key
  refine key.congr' ?_
  filter_upwards [self_mem_nhdsWithin] with h hh
  have hh' : h ≠ 0 := hh
  unfold finiteDiff
  simp only [smul_eq_mul, one_mul, neg_mul, ← sub_eq_add_neg]
  field_simp
  ring

/-- **C36, C37** The matrices used by `fisher_information` are partial derivatives at
the given parameter: exact, for any step, when the covariance entries are polynomials
of degree at most four along the coordinate. -/
theorem dCov_exact (cov : (Fin p → ℝ) → Mat n n) (theta : Fin p → ℝ) (i : Fin p) (eps : ℝ)
    (heps : eps ≠ 0) (a b : Fin n) (P : Polynomial ℝ)
    (hP : P.natDegree ≤ 4) (h : ∀ v, cov (Function.update theta i v) a b = P.eval v) :
    dCov cov theta eps i a b = P.derivative.eval (theta i) := by
  unfold dCov
  rw [finiteDiff_entry]
  simp only [h]
  exact finiteDiff_exact P hP _ _ heps

/-- **C36, C37** In general they converge to the partial derivative at the given
parameter as the step goes to zero. -/
theorem dCov_tendsto (cov : (Fin p → ℝ) → Mat n n) (theta : Fin p → ℝ) (i : Fin p)
    (a b : Fin n) (D : ℝ)
    (h : HasDerivAt (fun v => cov (Function.update theta i v) a b) D (theta i)) :
    Filter.Tendsto (fun eps => dCov cov theta eps i a b) (nhdsWithin 0 {0}ᶜ) (nhds D) := by
  unfold dCov
  simp only [finiteDiff_entry]
  exact finiteDiff_tendsto h

/-- **C36** The information on a variance parameter `θ` of `K = θ K₀` is the textbook
`n / (2 θ²)`, whatever `K₀` and the step. -/
theorem fisher_scale (hla : la.Sound be) {K0 : Mat n n} (hK : K0.PosDef) (theta : Fin 1 → ℝ)
    (ht : 0 < theta 0) (eps : ℝ) (heps : eps ≠ 0) :
    fisher la (fun t => t 0 • K0) theta eps = .ok fun _ _ => n / (2 * theta 0 ^ 2) := by
  obtain ⟨I, h, _, hI, _⟩ := fisher_psd hla (fun t : Fin 1 → ℝ => t 0 • K0)
    (fun t => by unfold Matrix.IsSymm; rw [transpose_smul, PosDef.symm hK]) theta (hK.smul ht) eps
  have hd : dCov (fun t : Fin 1 → ℝ => t 0 • K0) theta eps 0 = K0 := by
    unfold dCov finiteDiff
    simp only [Function.update_self]
    ext a b
    simp only [Matrix.smul_apply, Matrix.add_apply, Matrix.sub_apply, Matrix.neg_apply, smul_eq_mul]
    field_simp
    ring
  rw [h]
  congr 1
  funext i j
  rw [hI, Subsingleton.elim i 0, Subsingleton.elim j 0, hd]
  have hu := PosDef.det_unit hK
  have hinv : (theta 0 • K0)⁻¹ * K0 = (theta 0)⁻¹ • (1 : Mat n n) := by
    have := Matrix.inv_smul' (A := K0) (Units.mk0 (theta 0) ht.ne') hu
    rw [Units.smul_def, Units.val_mk0] at this
    rw [this, Units.smul_def, Matrix.smul_mul, Matrix.nonsing_inv_mul _ hu]
    simp
  rw [hinv, Matrix.mul_assoc, hinv]
  simp only [Matrix.smul_mul, Matrix.one_mul, Matrix.trace_smul, Matrix.trace_one,
    Fintype.card_fin, smul_eq_mul]
  field_simp

/-! ## Concrete cases -/

/-- A covariance linear in its parameter: `θ · I`. -/
example : ∃ I, fisher (n := 2) (p := 1) (exactLA .numpy) (fun t => t 0 • 1) ![3] 0.001 = .ok I ∧
    I.PosSemidef := by
  obtain ⟨I, h, hp, _⟩ := fisher_psd (n := 2) (p := 1) (exactLA_contract .numpy).toSound
    (fun t => t 0 • 1) (fun t => by simp [Matrix.IsSymm]) ![3]
    (Matrix.PosDef.one.smul (by norm_num)) 0.001
  exact ⟨I, h, hp⟩

example : finiteDiff (fun t : ℝ => (Polynomial.X ^ 4 : Polynomial ℝ).eval t) 2 (1 / 10) = 32 := by
  rw [finiteDiff_exact _ (by simp) _ _ (by norm_num)]
  simp
  norm_num

end Verif.Core
