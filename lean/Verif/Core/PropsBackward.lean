import Verif.Core.Backward
import Verif.Core.PropsSmooth
import Verif.Core.PropsFisherScore
import Verif.Backend.PropsAutograd
import Mathlib.Analysis.Calculus.LineDeriv.Basic

/-!
# C279: gradients of the likelihood criteria computed by torch are the derivatives
-/

set_option autoImplicit false

namespace Verif.Core.Rev

open Verif Verif.Data Matrix
open Verif.Kernel (cov covII maternFormula YArg IsGammaln)
open Verif.Torch (Ex val back ev Ok)

variable {n m q d r : ℕ} {la : LA}

/-! ## The backward pass in closed form -/

theorem tril_upper_mul {U M : Mat n n} (hU : ∀ i j, j < i → U i j = 0) (i j : Fin n) (h : j ≤ i) :
    (U * tril M) i j = (U * M) i j := by
  rw [Matrix.mul_apply, Matrix.mul_apply]
  refine Finset.sum_congr rfl fun k _ => ?_
  by_cases hk : k < i
  · rw [hU i k hk, zero_mul, zero_mul]
  · rw [tril, of_apply, if_pos (h.trans (not_lt.1 hk))]

theorem triu_transpose (M : Mat n n) : (triu M)ᵀ = tril Mᵀ := by
  ext i j
  simp [triu, tril]

/-- The symmetric matrix recovered from a lower triangle. -/
theorem fold_symm {M N : Mat n n} (hN : N.IsSymm) (h : ∀ i j, j ≤ i → M i j = N i j) :
    tril M + (trilStrict M)ᵀ = N := by
  ext i j
  simp only [tril, trilStrict, Matrix.add_apply, Matrix.transpose_apply, of_apply]
  rcases lt_trichotomy i j with hij | rfl | hij
  · rw [if_neg (not_le.2 hij), if_pos hij, zero_add, h j i hij.le, hN.apply]
  · rw [if_pos le_rfl, if_neg (lt_irrefl _), add_zero, h i i le_rfl]
  · rw [if_pos hij.le, if_neg (not_lt.2 hij.le), add_zero, h i j hij.le]

theorem cholSolveBack_eq {K C : Mat n n} (hC : IsChol K C) (z : Mat n 1) (s : ℝ) :
    cholSolveBack C (C⁻¹ * z) ((Cᵀ)⁻¹ * (C⁻¹ * z)) (s • z) (Matrix.diagonal fun i => s * 2 / C i i) =
      (s • (K⁻¹ - (K⁻¹ * z) * (K⁻¹ * z)ᵀ), s • (K⁻¹ * z)) := by
  have hu := hC.det_unit
  have hut : IsUnit (Cᵀ).det := by rwa [det_transpose]
  have hx : (Cᵀ)⁻¹ * (C⁻¹ * z) = K⁻¹ * z := by rw [← Matrix.mul_assoc, hC.inv]
  set y := C⁻¹ * z with hy
  set x := K⁻¹ * z with hxd
  have hCx : Cᵀ * x = y := by rw [← hx, ← Matrix.mul_assoc, Matrix.mul_nonsing_inv _ hut, Matrix.one_mul]
  rw [hx]
  have e1 : ((Cᵀ)ᵀ)⁻¹ * (s • z) = s • y := by rw [transpose_transpose, Matrix.mul_smul]
  have e2 : (Cᵀ)⁻¹ * (s • y) = s • x := by rw [Matrix.mul_smul, hx]
  have e3 : (triu (-(s • y * xᵀ)))ᵀ = tril (-(s • (x * yᵀ))) := by
    rw [triu_transpose, transpose_neg, transpose_mul, transpose_transpose, transpose_smul, Matrix.mul_smul]
  have e4 : -(s • x * yᵀ) = -(s • (x * yᵀ)) := by rw [Matrix.smul_mul]
  simp only [cholSolveBack, solveBack, e1, e2, if_true, Bool.false_eq_true, if_false, e3, e4]
  refine Prod.ext ?_ rfl
  show cholBack C _ = _
  have hS : tril (Cᵀ * (Matrix.diagonal (fun i => s * 2 / C i i) + tril (-(s • (x * yᵀ))) + tril (-(s • (x * yᵀ))))) +
      (trilStrict (Cᵀ * (Matrix.diagonal (fun i => s * 2 / C i i) + tril (-(s • (x * yᵀ))) +
        tril (-(s • (x * yᵀ))))))ᵀ = (2 * s) • ((1 : Mat n n) - y * yᵀ) := by
    refine fold_symm ?_ fun i j hij => ?_
    · rw [Matrix.IsSymm, transpose_smul, transpose_sub, transpose_one, transpose_mul, transpose_transpose]
    · have hU : ∀ i j, j < i → Cᵀ i j = 0 := fun i j h => hC.lower j i h
      have e5 : Cᵀ * -(s • (x * yᵀ)) = -(s • (y * yᵀ)) := by
        rw [Matrix.mul_neg, Matrix.mul_smul, ← Matrix.mul_assoc, hCx]
      rw [Matrix.mul_add, Matrix.mul_add, Matrix.add_apply, Matrix.add_apply, tril_upper_mul hU i j hij, e5,
        Matrix.mul_diagonal, transpose_apply, Matrix.smul_apply, Matrix.sub_apply, Matrix.neg_apply, Matrix.smul_apply,
        smul_eq_mul, smul_eq_mul]
      rcases hij.lt_or_eq with h | rfl
      · rw [hC.lower j i h, one_apply_ne h.ne']
        ring
      · have := (hC.diag_pos j).ne'
        rw [one_apply_eq]
        field_simp
        ring
  have hyy : (Cᵀ)⁻¹ * (y * yᵀ) * C⁻¹ = x * xᵀ := by
    have h1 : yᵀ * C⁻¹ = xᵀ := by
      have h0 := congrArg Matrix.transpose hx
      rw [Matrix.transpose_mul (Cᵀ)⁻¹ y, transpose_nonsing_inv, transpose_transpose] at h0
      exact h0
    rw [Matrix.mul_assoc, Matrix.mul_assoc, h1, ← Matrix.mul_assoc, hx]
  rw [cholBack, hS]
  simp only [Matrix.mul_smul, Matrix.smul_mul]
  rw [Matrix.mul_sub, Matrix.sub_mul, Matrix.mul_one, hC.inv, hyy, smul_smul]
  congr 1
  ring

/-- **C279** The gradient of the criterion with respect to the covariance matrix is `(K⁻¹ - K⁻¹ z zᵀ K⁻¹) / 2`, with
respect to the data `K⁻¹ z`. -/
theorem nllBack_eq {be : Backend} (hla : la.Sound be) {K : Mat n n} (hK : K.PosDef) (z : Fin n → ℝ) (g : ℝ) :
    nllBack la K z g = .ok ((g / 2) • (K⁻¹ - vecMulVec (K⁻¹ *ᵥ z) (K⁻¹ *ᵥ z)), g • (K⁻¹ *ᵥ z)) := by
  obtain ⟨C, hc, hC⟩ := hla.chol_ok K hK
  have e1 : (colVec fun i => g * 0.5 * z i) = (g * 0.5) • colVec z := by ext i j; rfl
  have e2 : K⁻¹ * colVec z = colVec (K⁻¹ *ᵥ z) := by
    ext i j
    simp [Matrix.mul_apply, colVec, mulVec, dotProduct]
  have e3 : colVec (K⁻¹ *ᵥ z) * (colVec (K⁻¹ *ᵥ z))ᵀ = vecMulVec (K⁻¹ *ᵥ z) (K⁻¹ *ᵥ z) := by
    ext i j
    simp [Matrix.mul_apply, colVec, vecMulVec_apply]
  have e4 : (Cᵀ)⁻¹ * (C⁻¹ * colVec z) = colVec (K⁻¹ *ᵥ z) := by rw [← Matrix.mul_assoc, hC.inv, e2]
  have h := cholSolveBack_eq hC (colVec z) (g * 0.5)
  rw [e2, e3] at h
  simp only [nllBack, hc, e1, h]
  rw [e4]
  refine congrArg Except.ok (Prod.ext ?_ ?_)
  · show (g * 0.5) • _ = (g / 2) • _
    congr 1
    norm_num
    ring
  · funext i
    simp only [colVec, of_apply, Matrix.smul_apply, Pi.smul_apply, smul_eq_mul]
    ring

/-- **C279** A covariance that is not positive definite has no gradient: the error of Cholesky. -/
theorem nllBack_err {be : Backend} (hla : la.Sound be) {K : Mat n n} (hs : K.IsSymm) (hK : ¬ K.PosDef) (z : Fin n → ℝ)
    (g : ℝ) : nllBack la K z g = .error .linAlgError := by
  simp only [nllBack, hla.chol_err K hs hK]

/-! ## It is the derivative -/

theorem score_sum {K : Mat n n} (hK : K.PosDef) (D : Mat n n) (z : Fin n → ℝ) :
    ∑ i, ∑ j, ((1 / 2 : ℝ) • (K⁻¹ - vecMulVec (K⁻¹ *ᵥ z) (K⁻¹ *ᵥ z))) i j * D i j = -gaussScore K D z := by
  have hs : (K⁻¹)ᵀ = K⁻¹ := PosDef.symm hK.inv
  have h1 : ∑ i, ∑ j, K⁻¹ i j * D i j = (K⁻¹ * D).trace := by
    rw [Matrix.trace, Finset.sum_comm]
    refine Finset.sum_congr rfl fun j _ => ?_
    rw [Matrix.diag_apply, Matrix.mul_apply]
    refine Finset.sum_congr rfl fun i _ => ?_
    rw [← transpose_apply K⁻¹ j i, hs]
  have h2 : ∑ i, ∑ j, (K⁻¹ *ᵥ z) i * (K⁻¹ *ᵥ z) j * D i j = z ⬝ᵥ ((K⁻¹ * D * K⁻¹) *ᵥ z) := by
    rw [← Matrix.mulVec_mulVec, ← Matrix.mulVec_mulVec, Matrix.dotProduct_mulVec, ← Matrix.mulVec_transpose, hs]
    simp only [dotProduct, Matrix.mulVec]
    refine Finset.sum_congr rfl fun i _ => ?_
    rw [Finset.mul_sum]
    refine Finset.sum_congr rfl fun j _ => ?_
    ring
  rw [gaussScore, ← h1, ← h2, ← Finset.sum_sub_distrib, Finset.mul_sum, ← Finset.sum_neg_distrib]
  refine Finset.sum_congr rfl fun i _ => ?_
  rw [← Finset.sum_sub_distrib, Finset.mul_sum, ← Finset.sum_neg_distrib]
  refine Finset.sum_congr rfl fun j _ => ?_
  simp only [Matrix.smul_apply, Matrix.sub_apply, vecMulVec_apply, smul_eq_mul]
  ring

theorem leaf_eq {κ : Type} [Fintype κ] [DecidableEq κ] {E : Fin n → Fin n → Ex κ} {v : κ → ℝ}
    {L : Fin n → Fin n → (κ → ℝ) →L[ℝ] ℝ} (h : ∀ i j g k, back v (E i j) (Flt.fin g) k = Flt.fin (g * L i j (Pi.single k 1)))
    (gK : Mat n n) (k : κ) : leaf E v gK k = Flt.fin (∑ i, ∑ j, gK i j * L i j (Pi.single k 1)) := by
  have hsum : ∀ (l : List (Fin n)) (f : Fin n → ℝ), l.foldr (fun j s => (Flt.fin (f j)).add s) (Flt.fin 0) =
      Flt.fin ((l.map f).sum) := by
    intro l f
    induction l with
    | nil => rfl
    | cons a l ih => rw [List.foldr_cons, ih, Flt.add_fin, List.map_cons, List.sum_cons]
  have hfr : ∀ f : Fin n → ℝ, ((List.finRange n).map f).sum = ∑ i, f i := by
    intro f
    rw [← List.ofFn_eq_map, List.sum_ofFn]
  simp only [leaf, h, hsum, hfr]

theorem recorded_ok {g : ℕ → ℝ} (bigf eps : ℝ) (p : ℕ) (x : Matrix (Fin n) (Fin d) ℝ) (i j : Fin n)
    (th : Fin (d + 1) → ℝ) : Ok (recorded g bigf eps p x i j) th :=
  ⟨⟨trivial, Torch.ok_maternE (Torch.ok_dist_param _ (x i) (x j) th)⟩, ⟨⟨trivial, trivial⟩, trivial⟩, trivial⟩

theorem recorded_back {g : ℕ → ℝ} (hg : IsGammaln g) (bigf eps : ℝ) (p : ℕ) (x : Matrix (Fin n) (Fin d) ℝ) (i j : Fin n)
    (th : Fin (d + 1) → ℝ) :
    val th (recorded g bigf eps p x i j) = Flt.fin (cov (maternFormula p) eps th x .same i j) ∧
    HasFDerivAt (fun th => cov (maternFormula p) eps th x .same i j)
      (fderiv ℝ (fun th => cov (maternFormula p) eps th x .same i j) th) th ∧
    ∀ a k, back th (recorded g bigf eps p x i j) (Flt.fin a) k =
      Flt.fin (a * fderiv ℝ (fun th => cov (maternFormula p) eps th x .same i j) th (Pi.single k 1)) := by
  obtain ⟨h1, h2, h3⟩ := Torch.cov_grad_same hg bigf eps p x i j th
  have hok := recorded_ok (g := g) bigf eps p x i j th
  obtain ⟨_, L, hL, hb⟩ := Torch.back_sound _ th hok
  refine ⟨h1, h2.hasFDerivAt, fun a k => ?_⟩
  have h4 := hb 1 k
  have h5 : back th (recorded g bigf eps p x i j) (Flt.fin 1) k = _ := h3 k
  rw [h5] at h4
  have h6 : fderiv ℝ (fun th => cov (maternFormula p) eps th x .same i j) th (Pi.single k 1) = 1 * L (Pi.single k 1) := by
    exact Flt.fin_inj.mp h4
  rw [hb, h6, one_mul]

theorem forward_recorded {g : ℕ → ℝ} (hg : IsGammaln g) (bigf eps : ℝ) (p : ℕ) (x : Matrix (Fin n) (Fin d) ℝ)
    (th : Fin (d + 1) → ℝ) : forward (recorded g bigf eps p x) th = cov (maternFormula p) eps th x .same := by
  ext i j
  rw [forward, of_apply, (recorded_back hg bigf eps p x i j th).1]
  rfl

/-- The derivative along a line of parameters, from the gradient with respect to the matrix. -/
theorem density_line {E : Type} [NormedAddCommGroup E] [NormedSpace ℝ E] {A : E → Mat n n} (hA : ∀ e, (A e).PosDef)
    {e : E} {D : Fin n → Fin n → E →L[ℝ] ℝ} (hD : ∀ i j, HasFDerivAt (fun e => A e i j) (D i j) e) (mi z : Fin n → ℝ)
    {L : E →L[ℝ] ℝ} (hL : HasFDerivAt (fun e => -Real.log (gaussDensity (A e) mi z)) L e) (w : E) :
    L w = ∑ i, ∑ j, ((1 / 2 : ℝ) • ((A e)⁻¹ - vecMulVec ((A e)⁻¹ *ᵥ (z - mi)) ((A e)⁻¹ *ᵥ (z - mi)))) i j * D i j w := by
  have h0 : ∀ K : Mat n n, gaussDensity K mi z = gaussDensity K 0 (z - mi) := fun K => by simp [gaussDensity]
  have h1 : HasDerivAt (fun t : ℝ => Real.log (gaussDensity (A (e + t • w)) 0 (z - mi)))
      (gaussScore (A (e + (0 : ℝ) • w)) (Matrix.of fun i j => D i j w) (z - mi)) 0 := by
    refine logDensity_deriv (fun v => hA _) (fun a b => ?_) _
    exact (hD a b).hasLineDerivAt w
  have h2 : HasDerivAt (fun t : ℝ => -Real.log (gaussDensity (A (e + t • w)) mi z)) (L w) 0 := hL.hasLineDerivAt w
  simp only [h0] at h2
  have h3 := h2.unique h1.neg
  rw [h3, zero_smul, add_zero, ← score_sum (hA e)]
  rfl

theorem mean_deriv {K : Mat n n} (hK : K.PosDef) (mi z : Fin n → ℝ) :
    HasFDerivAt (fun mi => -Real.log (gaussDensity K mi z))
      (-∑ i, (K⁻¹ *ᵥ (z - mi)) i • ContinuousLinearMap.proj (R := ℝ) (φ := fun _ => ℝ) i) mi := by
  have hdet := hK.det_pos
  have hf : (fun mi => -Real.log (gaussDensity K mi z)) = fun mi =>
      -Real.log (gaussDensity K 0 0) + 1 / 2 * ∑ i, ∑ j, (z i - mi i) * (K⁻¹ i j * (z j - mi j)) := by
    funext mi
    have h2 : ∑ i, ∑ j, (z i - mi i) * (K⁻¹ i j * (z j - mi j)) = (z - mi) ⬝ᵥ (K⁻¹ *ᵥ (z - mi)) := by
      simp only [dotProduct, mulVec, Finset.mul_sum, Pi.sub_apply]
    have hc : (Real.sqrt ((2 * Real.pi) ^ n * K.det))⁻¹ ≠ 0 := by positivity
    rw [h2, gaussDensity, gaussDensity, Real.log_mul hc (Real.exp_ne_zero _), Real.log_mul hc (Real.exp_ne_zero _),
      Real.log_exp, Real.log_exp, sub_zero, zero_dotProduct]
    ring
  rw [hf]
  have hs : ∀ i j, K⁻¹ i j = K⁻¹ j i := fun i j => by
    have := hK.inv.1.apply j i
    simpa using this
  have hc : ∀ i, HasFDerivAt (fun mi : Fin n → ℝ => z i - mi i) (-ContinuousLinearMap.proj (R := ℝ) (φ := fun _ => ℝ) i) mi :=
    fun i => (hasFDerivAt_apply i mi).const_sub (z i)
  have hd := ((HasFDerivAt.fun_sum (u := Finset.univ) fun i _ => HasFDerivAt.fun_sum (u := Finset.univ) fun j _ =>
    (hc i).mul ((hc j).const_mul (K⁻¹ i j))).const_mul (1 / 2)).const_add (-Real.log (gaussDensity K 0 0))
  refine hd.congr_fderiv ?_
  ext h
  simp only [_root_.smul_apply, _root_.sum_apply, _root_.add_apply,
    _root_.neg_apply, ContinuousLinearMap.proj_apply, smul_eq_mul, mulVec, dotProduct, Pi.sub_apply]
  have e1 : ∑ i, ∑ j, (z i - mi i) * (K⁻¹ i j * -h j) = -∑ i, (∑ j, K⁻¹ i j * (z j - mi j)) * h i := by
    rw [Finset.sum_comm, ← Finset.sum_neg_distrib]
    refine Finset.sum_congr rfl fun i _ => ?_
    rw [Finset.sum_mul, ← Finset.sum_neg_distrib]
    refine Finset.sum_congr rfl fun j _ => ?_
    rw [hs j i]
    ring
  have e2 : ∑ i, ∑ j, K⁻¹ i j * (z j - mi j) * -h i = -∑ i, (∑ j, K⁻¹ i j * (z j - mi j)) * h i := by
    rw [← Finset.sum_neg_distrib]
    refine Finset.sum_congr rfl fun i _ => ?_
    rw [Finset.sum_mul, ← Finset.sum_neg_distrib]
    exact Finset.sum_congr rfl fun j _ => by ring
  simp only [Finset.sum_add_distrib, e1, e2]
  ring

/-- **C279** The gradient of `negative_log_likelihood` that torch computes for a Matérn covariance consists of the partial
derivatives of the criterion, with respect to the covariance parameters and to the mean values. -/
theorem nll_grad (hla : la.Sound .torch) {g : ℕ → ℝ} (hg : IsGammaln g) (bigf : ℝ) (p : ℕ) {eps : ℝ}
    {x : Matrix (Fin n) (Fin d) ℝ} (hx : Admissible eps x) (z : Fin n → ℝ) :
    ∃ L : (Fin (d + 1) → ℝ) → (Fin n → ℝ) → ℝ,
      (∀ th mi, nll .torch la (cov (maternFormula p) eps th x .same) mi z = .ok (.finite (L th mi))) ∧
      ∀ th mi, DifferentiableAt ℝ (fun th => L th mi) th ∧ DifferentiableAt ℝ (L th) mi ∧
        nllGrad la (recorded g bigf eps p x) mi z th =
          .ok (fun k => Flt.fin (fderiv ℝ (fun th => L th mi) th (Pi.single k 1)),
            fun i => fderiv ℝ (L th) mi (Pi.single i 1)) := by
  have hK : ∀ th, (cov (maternFormula p) eps th x .same).PosDef := fun th => matern_Kii p th hx
  refine ⟨fun th mi => -Real.log (gaussDensity (cov (maternFormula p) eps th x .same) mi z),
    fun th mi => (nll_eq hla (hK th) mi z).1, fun th mi => ?_⟩
  have hd : DifferentiableAt ℝ (fun th => -Real.log (gaussDensity (cov (maternFormula p) eps th x .same) mi z)) th :=
    (density_smooth (N := 1) (cov_smooth p eps x x).1 hK mi z).differentiable one_ne_zero |>.differentiableAt
  have hm : HasFDerivAt (fun mi => -Real.log (gaussDensity (cov (maternFormula p) eps th x .same) mi z))
      (-∑ i, ((cov (maternFormula p) eps th x .same)⁻¹ *ᵥ (z - mi)) i • ContinuousLinearMap.proj (R := ℝ) (φ := fun _ => ℝ) i)
      mi := mean_deriv (hK th) mi z
  refine ⟨hd, hm.differentiableAt, ?_⟩
  rw [hm.fderiv]
  simp only [nllGrad, nllMeanBack, forward_recorded hg, nllBack_eq hla (hK th), bind, Except.bind, pure, Except.pure]
  refine congrArg Except.ok (Prod.ext ?_ ?_)
  · funext k
    show leaf _ _ _ _ = _
    rw [leaf_eq (fun i j => (recorded_back hg bigf eps p x i j th).2.2)]
    exact congrArg Flt.fin (density_line hK (fun i j => (recorded_back hg bigf eps p x i j th).2.1) mi z hd.hasFDerivAt _).symm
  · funext i
    simp [Pi.single_apply]

theorem sum_congr_quad {k : ℕ} (W : Mat n k) (G : Mat k k) (D : Mat n n) :
    ∑ i, ∑ j, (W * G * Wᵀ) i j * D i j = ∑ a, ∑ b, G a b * (Wᵀ * (D * W)) a b := by
  have ht : ∀ {l : ℕ} (A B : Mat l l), ∑ i, ∑ j, A i j * B i j = (Aᵀ * B).trace := by
    intro l A B
    rw [Matrix.trace, Finset.sum_comm]
    refine Finset.sum_congr rfl fun j _ => ?_
    rw [Matrix.diag_apply, Matrix.mul_apply]
    rfl
  rw [ht, ht, transpose_mul, transpose_mul, transpose_transpose, Matrix.mul_assoc, Matrix.trace_mul_comm, Matrix.mul_assoc,
    Matrix.mul_assoc]

/-- **C279** The same for `negative_log_restricted_likelihood`. -/
theorem reml_grad (hla : la.Sound .torch) {g : ℕ → ℝ} (hg : IsGammaln g) (bigf : ℝ) (p : ℕ) {eps : ℝ}
    {x : Matrix (Fin (q + r)) (Fin d) ℝ} (hx : Admissible eps x) {P : Mat (q + r) q} (hP : FullRank P)
    (z : Fin (q + r) → ℝ) :
    ∃ L : (Fin (d + 1) → ℝ) → ℝ,
      (∀ th, reml .torch la (cov (maternFormula p) eps th x .same) P z = .ok (.finite (L th))) ∧
      ∀ th, DifferentiableAt ℝ L th ∧
        remlGrad la (recorded g bigf eps p x) P z th = .ok fun k => Flt.fin (fderiv ℝ L th (Pi.single k 1)) := by
  have hK : ∀ th, (cov (maternFormula p) eps th x .same).PosDef := fun th => matern_Kii p th hx
  have hW : IsContrast P (contrastMatrix la P) := (hla.qr_ok P (Nat.le_add_right q r)).contrast hP
  set W := contrastMatrix la P with hWd
  have hG : ∀ th, (Wᵀ * (cov (maternFormula p) eps th x .same * W)).PosDef := fun th =>
    contrast_posDef hW.orth hW.null (CPD.of_posDef (hK th) P)
  have hs := (cov_smooth (N := 1) p eps x x).1
  refine ⟨fun th => -Real.log (gaussDensity (Wᵀ * (cov (maternFormula p) eps th x .same * W)) 0 (Wᵀ *ᵥ z)),
    fun th => reml_eq hla (CPD.of_posDef (hK th) P) hP z hW, fun th => ?_⟩
  have hsG : ∀ i j, ContDiff ℝ 1 fun th => (Wᵀ * (cov (maternFormula p) eps th x .same * W)) i j := fun i j => by
    simp only [Matrix.mul_apply]
    exact ContDiff.sum fun k _ => contDiff_const.mul (ContDiff.sum fun l _ => (hs k l).mul contDiff_const)
  have hd : DifferentiableAt ℝ
      (fun th => -Real.log (gaussDensity (Wᵀ * (cov (maternFormula p) eps th x .same * W)) 0 (Wᵀ *ᵥ z))) th :=
    (density_smooth (N := 1) hsG hG 0 (Wᵀ *ᵥ z)).differentiable one_ne_zero |>.differentiableAt
  refine ⟨hd, ?_⟩
  simp only [remlGrad, remlBack, forward_recorded hg, contrastCov, ← hWd, nllBack_eq hla (hG th), bind, Except.bind, pure,
    Except.pure]
  refine congrArg Except.ok (funext fun k => ?_)
  show leaf _ _ _ _ = _
  rw [leaf_eq (fun i j => (recorded_back hg bigf eps p x i j th).2.2)]
  have hD : ∀ i j, HasFDerivAt (fun th => (Wᵀ * (cov (maternFormula p) eps th x .same * W)) i j)
      (∑ a, Wᵀ i a • ∑ b, W b j • fderiv ℝ (fun th => cov (maternFormula p) eps th x .same a b) th) th := by
    intro i j
    simp only [Matrix.mul_apply]
    refine HasFDerivAt.fun_sum fun a _ => HasFDerivAt.const_mul ?_ _
    refine HasFDerivAt.fun_sum fun b _ => HasFDerivAt.mul_const ?_ _
    exact (recorded_back hg bigf eps p x a b th).2.1
  rw [density_line hG hD 0 (Wᵀ *ᵥ z) hd.hasFDerivAt, sub_zero]
  refine congrArg Flt.fin ((sum_congr_quad W _
    (Matrix.of fun i j => fderiv ℝ (fun th => cov (maternFormula p) eps th x .same i j) th (Pi.single k 1))).trans ?_)
  refine Finset.sum_congr rfl fun i _ => Finset.sum_congr rfl fun j _ => ?_
  congr 1
  simp only [Matrix.mul_apply, _root_.sum_apply, _root_.smul_apply, smul_eq_mul, of_apply]
  refine Finset.sum_congr rfl fun a _ => ?_
  congr 1
  exact Finset.sum_congr rfl fun b _ => mul_comm _ _

/-! ## Examples -/

theorem ex_points : Admissible 0 (!![0; 1] : Matrix (Fin 2) (Fin 1) ℝ) := by
  refine Or.inr ⟨le_rfl, fun i j h => ?_⟩
  have := congrFun h 0
  fin_cases i <;> fin_cases j <;> simp_all

/-- Two observations on a line with `p = 1`. -/
example : ∃ g : ℕ → ℝ, ∃ L : (Fin 2 → ℝ) → (Fin 2 → ℝ) → ℝ,
    (∀ th mi, nll .torch (exactLA .torch) (cov (maternFormula 1) 0 th (!![0; 1] : Matrix (Fin 2) (Fin 1) ℝ) .same) mi ![1, 2] =
      .ok (.finite (L th mi))) ∧
    nllGrad (exactLA .torch) (recorded g 1 0 1 (!![0; 1] : Matrix (Fin 2) (Fin 1) ℝ)) 0 ![1, 2] 0 =
      .ok (fun k => Flt.fin (fderiv ℝ (fun th => L th 0) 0 (Pi.single k 1)), fun i => fderiv ℝ (L 0) 0 (Pi.single i 1)) := by
  obtain ⟨L, h1, h2⟩ := nll_grad (exactLA_contract .torch).toSound (g := fun k => Real.log (Real.Gamma k)) (fun _ _ => rfl) 1 1
    ex_points ![1, 2]
  exact ⟨_, L, h1, (h2 0 0).2.2⟩

/-- The same with a constant mean. -/
example : ∃ g : ℕ → ℝ, ∃ L : (Fin 2 → ℝ) → ℝ,
    (∀ th, reml (q := 1) (r := 1) .torch (exactLA .torch)
      (cov (maternFormula 1) 0 th (!![0; 1] : Matrix (Fin 2) (Fin 1) ℝ) .same) (fun _ _ => 1) ![1, 2] = .ok (.finite (L th))) ∧
    remlGrad (q := 1) (r := 1) (exactLA .torch) (recorded g 1 0 1 (!![0; 1] : Matrix (Fin 2) (Fin 1) ℝ)) (fun _ _ => 1)
      ![1, 2] 0 = .ok fun k => Flt.fin (fderiv ℝ L 0 (Pi.single k 1)) := by
  have hP : FullRank (fun _ _ => 1 : Mat 2 1) := by
    intro b hb
    have := congrFun hb 0
    funext j
    fin_cases j
    simpa [mulVec, dotProduct] using this
  obtain ⟨L, h1, h2⟩ := reml_grad (q := 1) (r := 1) (exactLA_contract .torch).toSound
    (g := fun k => Real.log (Real.Gamma k)) (fun _ _ => rfl) 1 1 ex_points hP ![1, 2]
  exact ⟨_, L, h1, (h2 0).2⟩

/-- One observation `z` with variance one: the gradients are `(1 - z²)/2` and `z`. -/
example (z : ℝ) : nllBack (exactLA .torch) (1 : Mat 1 1) ![z] 1 = .ok (!![(1 - z * z) / 2], ![z]) := by
  rw [nllBack_eq (exactLA_contract .torch).toSound PosDef.one]
  refine congrArg Except.ok (Prod.ext ?_ ?_)
  · ext i j
    fin_cases i; fin_cases j
    simp [vecMulVec_apply]
    ring
  · ext i
    fin_cases i
    simp

end Verif.Core.Rev
