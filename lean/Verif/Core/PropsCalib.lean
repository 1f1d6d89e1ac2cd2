import Verif.Core.PropsLaw
import Verif.Core.PropsLoo
import Verif.Core.PropsLikelihood
import Verif.Misc.GaussCdf

/-!
# C240: predictions, conditioned paths and leave-one-out errors are calibrated
-/

set_option autoImplicit false

namespace Verif.Core

open Verif Verif.Data Matrix MeasureTheory ProbabilityTheory WithLp

variable {ι κ : Type} [Fintype ι] [DecidableEq ι] [Fintype κ] [DecidableEq κ]
variable {n m q r N np : ℕ} {be : Backend} {la : LA}

/-- Independent normal vectors, stacked. -/
theorem normalLaw_stack {A : Matrix ι ι ℝ} {B : Matrix κ κ ℝ} (hA : A.PosSemidef) (hB : B.PosSemidef)
    (hAB : (fromBlocks A 0 0 B).PosSemidef) (a : ι → ℝ) (b : κ → ℝ) :
    ((normalLaw a A).prod (normalLaw b B)).map (fun p => Sum.elim p.1 p.2) =
      normalLaw (Sum.elim a b) (fromBlocks A 0 0 B) := by
  have hm : Measurable fun p : (ι → ℝ) × (κ → ℝ) => (Sum.elim p.1 p.2 : ι ⊕ κ → ℝ) := by
    rw [measurable_pi_iff]
    rintro (i | j)
    · exact (measurable_pi_apply i).comp measurable_fst
    · exact (measurable_pi_apply j).comp measurable_snd
  have : IsProbabilityMeasure (((normalLaw a A).prod (normalLaw b B)).map fun p => (Sum.elim p.1 p.2 : ι ⊕ κ → ℝ)) :=
    Measure.isProbabilityMeasure_map hm.aemeasurable
  refine ext_of_char fun t => ?_
  rw [charFun_normal hAB, integral_map hm.aemeasurable (by fun_prop)]
  have e : ∀ p : (ι → ℝ) × (κ → ℝ), Complex.exp (((Sum.elim p.1 p.2 ⬝ᵥ t : ℝ) : ℂ) * Complex.I) =
      Complex.exp (((p.1 ⬝ᵥ (t ∘ Sum.inl) : ℝ) : ℂ) * Complex.I) *
        Complex.exp (((p.2 ⬝ᵥ (t ∘ Sum.inr) : ℝ) : ℂ) * Complex.I) := by
    intro p
    rw [← Complex.exp_add]
    congr 1
    simp only [dotProduct, Fintype.sum_sum_type, Sum.elim_inl, Sum.elim_inr, Function.comp]
    push_cast
    ring
  simp only [e]
  rw [integral_prod_mul (μ := normalLaw a A) (ν := normalLaw b B)
    (fun x : ι → ℝ => Complex.exp (((x ⬝ᵥ (t ∘ Sum.inl) : ℝ) : ℂ) * Complex.I))
    (fun x : κ → ℝ => Complex.exp (((x ⬝ᵥ (t ∘ Sum.inr) : ℝ) : ℂ) * Complex.I)),
    charFun_normal hA, charFun_normal hB, ← Complex.exp_add]
  congr 1
  have h1 : t ⬝ᵥ Sum.elim a b = (t ∘ Sum.inl) ⬝ᵥ a + (t ∘ Sum.inr) ⬝ᵥ b := by
    simp only [dotProduct, Fintype.sum_sum_type, Sum.elim_inl, Sum.elim_inr, Function.comp]
  have h2 : t ⬝ᵥ (fromBlocks A 0 0 B *ᵥ t) = (t ∘ Sum.inl) ⬝ᵥ (A *ᵥ (t ∘ Sum.inl)) +
      (t ∘ Sum.inr) ⬝ᵥ (B *ᵥ (t ∘ Sum.inr)) := by
    rw [fromBlocks_mulVec]
    simp only [dotProduct, Fintype.sum_sum_type, Sum.elim_inl, Sum.elim_inr, Function.comp, zero_mulVec, add_zero,
      zero_add]
  rw [h1, h2]
  push_cast
  ring

omit [DecidableEq ι] [DecidableEq κ] [Fintype ι] [Fintype κ] in
theorem measurable_split : Measurable fun x : ι ⊕ κ → ℝ => (x ∘ Sum.inl, x ∘ Sum.inr) :=
  (measurable_pi_iff.mpr fun i => measurable_pi_apply (Sum.inl i)).prodMk
    (measurable_pi_iff.mpr fun i => measurable_pi_apply (Sum.inr i))

theorem normalLaw_split {A : Matrix ι ι ℝ} {B : Matrix κ κ ℝ} (hA : A.PosSemidef) (hB : B.PosSemidef)
    (hAB : (fromBlocks A 0 0 B).PosSemidef) (a : ι → ℝ) (b : κ → ℝ) :
    (normalLaw (Sum.elim a b) (fromBlocks A 0 0 B)).map (fun x => (x ∘ Sum.inl, x ∘ Sum.inr)) =
      (normalLaw a A).prod (normalLaw b B) := by
  rw [← normalLaw_stack hA hB hAB, Measure.map_map measurable_split]
  · exact Measure.map_id
  · rw [measurable_pi_iff]
    rintro (i | j)
    · exact (measurable_pi_apply i).comp measurable_fst
    · exact (measurable_pi_apply j).comp measurable_snd

/-- Selection of points. -/
def sel (xi : Fin n → Fin N) : Mat n N := Matrix.of fun i a => if xi i = a then 1 else 0

theorem sel_mulVec (xi : Fin n → Fin N) (x : Fin N → ℝ) : sel xi *ᵥ x = x ∘ xi := by
  funext i
  simp [sel, mulVec, dotProduct]

theorem sel_cov (xi : Fin n → Fin N) (xt : Fin m → Fin N) (S : Mat N N) :
    sel xi * S * (sel xt)ᵀ = S.submatrix xi xt := by
  ext i j
  simp [sel, Matrix.mul_apply]

theorem condOp_sel (xi : Fin n → Fin N) (xt : Fin m → Fin N) (lam : Mat n m) :
    condOp xi xt lam = sel xt - lamᵀ * sel xi := by
  ext i j
  simp [condOp, sel, Matrix.mul_apply]

/-- The covariance arrays the code builds from points `xi` and `xt` of a finite set with covariance
`S` and mean functions `P`. -/
def arraysAt (S : Mat N N) (P : Mat N q) (xi : Fin n → Fin N) (xt : Fin m → Fin N) : Arrays n m q where
  Kii := S.submatrix xi xi
  Kit := S.submatrix xi xt
  vt := fun t => S (xt t) (xt t)
  Ktt := S.submatrix xt xt
  Pi := P.submatrix xi id
  Pt := P.submatrix xt id

/-- Errors of a linear predictor are independent of the data when the weights solve the normal
equations; the covariance of the errors. -/
theorem errors_indep {S : Mat N N} (hS : S.PosSemidef) (xi : Fin n → Fin N) (xt : Fin m → Fin N) {lam : Mat n m}
    (hl : S.submatrix xi xi * lam = S.submatrix xi xt) (mu : Fin N → ℝ) :
    (normalLaw mu S).map (fun z => (z ∘ xi, condOp xi xt lam *ᵥ (z - mu))) =
      (normalLaw (mu ∘ xi) (S.submatrix xi xi)).prod
        (normalLaw 0 (condOp xi xt lam * S * (condOp xi xt lam)ᵀ)) := by
  set D := condOp xi xt lam with hD
  have hA : (S.submatrix xi xi).PosSemidef := hS.submatrix xi
  have hB : (D * S * Dᵀ).PosSemidef := by
    have := hS.mul_mul_conjTranspose_same D
    rwa [conjTranspose_eq_transpose_of_trivial] at this
  have hSs : Sᵀ = S := PosSemidef.symm hS
  have h0 : sel xi * S * Dᵀ = 0 := by
    rw [hD, condOp_sel, transpose_sub, Matrix.mul_sub, transpose_mul, transpose_transpose, ← Matrix.mul_assoc,
      sel_cov, sel_cov, hl, sub_self]
  have h0' : D * S * (sel xi)ᵀ = 0 := by
    have := congrArg Matrix.transpose h0
    rwa [transpose_mul, transpose_mul, transpose_transpose, transpose_zero, hSs, ← Matrix.mul_assoc] at this
  have hblock : fromRows (sel xi) D * S * (fromRows (sel xi) D)ᵀ = fromBlocks (S.submatrix xi xi) 0 0 (D * S * Dᵀ) := by
    rw [transpose_fromRows, fromRows_mul, fromRows_mul_fromCols, sel_cov, h0, h0']
  have hAB : (fromBlocks (S.submatrix xi xi) 0 0 (D * S * Dᵀ)).PosSemidef := by
    have := hS.mul_mul_conjTranspose_same (fromRows (sel xi) D)
    rwa [conjTranspose_eq_transpose_of_trivial, hblock] at this
  rw [← normalLaw_split hA hB hAB]
  have h := normalLaw_map hS mu (fromRows (sel xi) D) (Sum.elim (0 : Fin n → ℝ) (-(D *ᵥ mu)))
  have hmean : fromRows (sel xi) D *ᵥ mu + Sum.elim (0 : Fin n → ℝ) (-(D *ᵥ mu)) = Sum.elim (mu ∘ xi) 0 := by
    rw [fromRows_mulVec, sel_mulVec]
    funext x
    rcases x with x | x <;> simp
  rw [hblock, hmean] at h
  rw [← h, Measure.map_map measurable_split]
  · congr 1
    funext z
    simp only [Function.comp_def, fromRows_mulVec, sel_mulVec, mulVec_sub, Pi.add_apply, Sum.elim_inl, Sum.elim_inr,
      Pi.zero_apply, add_zero, Pi.neg_apply, Prod.mk.injEq, true_and]
    funext j
    simp only [Pi.sub_apply]
    ring
  · apply Continuous.measurable
    fun_prop

theorem condOp_apply (xi : Fin n → Fin N) (xt : Fin m → Fin N) (lam : Mat n m) (z : Fin N → ℝ) (t : Fin m) :
    (condOp xi xt lam *ᵥ z) t = z (xt t) - ∑ i, lam i t * z (xi i) := by
  rw [condOp_sel, sub_mulVec, ← mulVec_mulVec, sel_mulVec, sel_mulVec]
  simp [mulVec, dotProduct]

theorem zero_weights {S : Mat N N} {xi : Fin n → Fin N} (xt : Fin m → Fin N) (hK : (S.submatrix xi xi).PosDef) :
    S.submatrix xi xi * ((S.submatrix xi xi)⁻¹ * S.submatrix xi xt) = S.submatrix xi xt := by
  rw [← Matrix.mul_assoc, Matrix.mul_nonsing_inv _ (PosDef.det_unit hK), Matrix.one_mul]

/-- Posterior covariance for weights that solve the normal equations. -/
theorem condOp_cov_zero {S : Mat N N} (hS : S.PosSemidef) {xi : Fin n → Fin N} (xt : Fin m → Fin N)
    (hK : (S.submatrix xi xi).PosDef) (t : Fin m) :
    (condOp xi xt ((S.submatrix xi xi)⁻¹ * S.submatrix xi xt) * S *
      (condOp xi xt ((S.submatrix xi xi)⁻¹ * S.submatrix xi xt))ᵀ) t t =
      S (xt t) (xt t) - ∑ i, ((S.submatrix xi xi)⁻¹ * S.submatrix xi xt) i t * S (xi i) (xt t) := by
  rw [condOp_cov S (PosSemidef.symm hS), Matrix.mul_assoc _ (S.submatrix xi xi), zero_weights xt hK]
  simp only [Matrix.add_apply, Matrix.sub_apply, submatrix_apply]
  rw [Matrix.mul_apply, Matrix.mul_apply]
  simp only [transpose_apply, submatrix_apply]
  have : ∑ i, S (xi i) (xt t) * ((S.submatrix xi xi)⁻¹ * S.submatrix xi xt) i t =
      ∑ i, ((S.submatrix xi xi)⁻¹ * S.submatrix xi xt) i t * S (xi i) (xt t) :=
    Finset.sum_congr rfl fun i _ => mul_comm _ _
  rw [this]
  ring

/-- **C240** The prediction with a known mean is the conditional law of the process: for a Gaussian
vector with mean `mu` and covariance `S`, the errors of the predicted means are normal, centred, with
the returned variances on the diagonal of their covariance, and independent of the observations. -/
theorem predict_law (hla : la.Contract be) {S : Mat N N} (hS : S.PosSemidef) (P : Mat N q) {xi : Fin (q + r) → Fin N}
    (xt : Fin m → Fin N) (hK : (S.submatrix xi xi).PosDef) (mu : Fin N → ℝ) :
    ∃ (pred : (Fin (q + r) → ℝ) → Fin m → ℝ) (lam : Mat (q + r) m) (V : Mat m m),
      (∀ zi, predict la (.parameterized (mu ∘ xi) (mu ∘ xt)) (arraysAt S P xi xt) zi false =
        .ok (pred zi, fun t => V t t, lam)) ∧
      (mu = 0 → ∀ zi, predict la .zero (arraysAt S P xi xt) zi false = .ok (pred zi, fun t => V t t, lam)) ∧
      krigingZeroMean la (arraysAt S P xi xt) 1 = .ok (lam, .cov V) ∧
      V.PosSemidef ∧ Continuous pred ∧
      (normalLaw mu S).map (fun z => (z ∘ xi, z ∘ xt - pred (z ∘ xi))) =
        (normalLaw (mu ∘ xi) (S.submatrix xi xi)).prod (normalLaw 0 V) := by
  set lam := (S.submatrix xi xi)⁻¹ * S.submatrix xi xt with hlam
  set D := condOp xi xt lam with hD
  have hV : (fun t => (D * S * Dᵀ) t t) = fun t => S (xt t) (xt t) - ∑ i, lam i t * S (xi i) (xt t) := by
    funext t
    exact condOp_cov_zero hS xt hK t
  refine ⟨fun zi t => ∑ i, lam i t * (zi - mu ∘ xi) i + mu (xt t), lam, D * S * Dᵀ, fun zi => ?_, fun h0 zi => ?_, ?_, ?_, by fun_prop, ?_⟩
  · rw [predict_param hla (arraysAt S P xi xt) hK, hV]
    rfl
  · rw [predict_zero hla (arraysAt S P xi xt) hK, hV, h0]
    simp only [Bool.false_eq_true, if_false, Pi.sub_apply, Function.comp, Pi.zero_apply, sub_zero]
    rfl
  · obtain ⟨l, V, h1, h2⟩ := condPaths_posterior hla S (PosSemidef.symm hS) xi xt (P.submatrix xi id) (P.submatrix xt id) hK
    have h3 := (krigingZeroMean_ok hla (arraysAt S P xi xt) hK).2.1
    rw [show krigingZeroMean la (arraysAt S P xi xt) 1 = _ from h1] at h3
    have hl : l = lam := (Prod.mk.inj (Except.ok.inj h3)).1
    rw [hl] at h1 h2
    rw [h2]
    exact h1
  · have := hS.mul_mul_conjTranspose_same D
    rwa [conjTranspose_eq_transpose_of_trivial] at this
  · rw [← errors_indep hS xi xt (zero_weights xt hK) mu]
    congr 1
    funext z
    simp only [Prod.mk.injEq, true_and]
    funext t
    rw [← hlam, condOp_apply]
    simp only [Pi.sub_apply, Function.comp, mul_sub, Finset.sum_sub_distrib]
    ring

/-- **C240** With the linear predictor the errors are normal, centred and with the returned variances,
for every mean function of the linear space. -/
theorem predict_linear_law (hla : la.Contract be) {S : Mat N N} (hS : S.PosSemidef) {P : Mat N q}
    {xi : Fin (q + r) → Fin N} (xt : Fin m → Fin N) (hK : CPD (S.submatrix xi xi) (P.submatrix xi id))
    (hP : FullRank (P.submatrix xi id)) :
    ∃ (pred : (Fin (q + r) → ℝ) → Fin m → ℝ) (lam : Mat (q + r) m) (V : Mat m m), V.PosSemidef ∧ Continuous pred ∧
      (∀ zi, predict la .linearPredictor (arraysAt S P xi xt) zi false = .ok (pred zi, fun t => V t t, lam)) ∧
      ∀ beta : Fin q → ℝ, (normalLaw (P *ᵥ beta) S).map (fun z => z ∘ xt - pred (z ∘ xi)) = normalLaw 0 V := by
  obtain ⟨X, hX, -⟩ := predict_linear hla (arraysAt S P xi xt) hK hP 0 false
  have huniq : ∀ zi, predict la .linearPredictor (arraysAt S P xi xt) zi false = .ok
      (fun t => ∑ i, X.toRows₁ i t * zi i + 0, fun t => S (xt t) (xt t) - ∑ i, X i t * ukRHS (arraysAt S P xi xt) i t,
        X.toRows₁) := by
    intro zi
    obtain ⟨X', hX', h'⟩ := predict_linear hla (arraysAt S P xi xt) hK hP zi false
    have hu := ukLHS_unit (arraysAt S P xi xt) hK hP
    have : X' = X := by
      have e := hX'.trans hX.symm
      have hd := (Matrix.isUnit_iff_isUnit_det _).mp hu
      have := congrArg (fun Y => (ukLHS (arraysAt S P xi xt))⁻¹ * Y) e
      simpa only [← Matrix.mul_assoc, Matrix.nonsing_inv_mul _ hd, Matrix.one_mul] using this
    rw [h', this]
    rfl
  set lam := X.toRows₁ with hlam
  set D := condOp xi xt lam with hD
  have e1 : S.submatrix xi xi * lam + P.submatrix xi id * X.toRows₂ = S.submatrix xi xt := by
    have := congrArg Matrix.toRows₁ hX
    have hx : X = fromRows X.toRows₁ X.toRows₂ := (fromRows_toRows X).symm
    rw [hx] at this
    rw [ukLHS, fromBlocks_mul_fromRows, toRows₁_fromRows] at this
    exact this
  have e2 : (P.submatrix xi id)ᵀ * lam = (P.submatrix xt id)ᵀ := by
    have := congrArg Matrix.toRows₂ hX
    have hx : X = fromRows X.toRows₁ X.toRows₂ := (fromRows_toRows X).symm
    rw [hx] at this
    rw [ukLHS, fromBlocks_mul_fromRows, toRows₂_fromRows, Matrix.zero_mul, add_zero] at this
    exact this
  have hV : (fun t => (D * S * Dᵀ) t t) = fun t => S (xt t) (xt t) - ∑ i, X i t * ukRHS (arraysAt S P xi xt) i t := by
    funext t
    have hm := mse_at_universal (K := S.submatrix xi xi) (P := P.submatrix xi id) (k := fun i => S (xi i) (xt t))
      (v := S (xt t) (xt t)) (l := fun i => lam i t) (mu := fun j => X.toRows₂ j t) (p := P (xt t))
      (by funext i; exact congrFun (congrFun e1 i) t) (by funext j; exact congrFun (congrFun e2 j) t)
    rw [hD, condOp_cov S (PosSemidef.symm hS)]
    simp only [Matrix.add_apply, Matrix.sub_apply, submatrix_apply]
    have s1 : (lamᵀ * S.submatrix xi xt) t t = (fun i => lam i t) ⬝ᵥ fun i => S (xi i) (xt t) := rfl
    have s2 : ((S.submatrix xi xt)ᵀ * lam) t t = (fun i => lam i t) ⬝ᵥ fun i => S (xi i) (xt t) := by
      rw [dotProduct_comm]
      rfl
    have s3 : (lamᵀ * S.submatrix xi xi * lam) t t = (fun i => lam i t) ⬝ᵥ (S.submatrix xi xi *ᵥ fun i => lam i t) := by
      rw [Matrix.mul_assoc]
      rfl
    have s4 : ∑ i, X i t * ukRHS (arraysAt S P xi xt) i t =
        (fun i => lam i t) ⬝ᵥ (fun i => S (xi i) (xt t)) + (fun j => X.toRows₂ j t) ⬝ᵥ P (xt t) := by
      rw [Fintype.sum_sum_type]
      rfl
    rw [s1, s2, s3, s4, ← hm, mse]
    ring
  refine ⟨fun zi t => ∑ i, lam i t * zi i + 0, lam, D * S * Dᵀ, ?_, by fun_prop, fun zi => by rw [huniq, hV], fun beta => ?_⟩
  · have := hS.mul_mul_conjTranspose_same D
    rwa [conjTranspose_eq_transpose_of_trivial] at this
  · have h := normalLaw_map hS (P *ᵥ beta) D 0
    have h0 : D *ᵥ (P *ᵥ beta) + 0 = 0 := by
      funext t
      rw [Pi.add_apply, hD, condOp_apply]
      have : (P *ᵥ beta) (xt t) = ∑ i, lam i t * (P *ᵥ beta) (xi i) := by
        have e2' : ∀ j, ∑ i, P (xi i) j * lam i t = P (xt t) j := fun j => congrFun (congrFun e2 j) t
        simp only [mulVec, dotProduct, ← e2', Finset.mul_sum, Finset.sum_mul]
        rw [Finset.sum_comm]
        refine Finset.sum_congr rfl fun i _ => Finset.sum_congr rfl fun j _ => by ring
      rw [this]
      simp
    rw [h0] at h
    rw [← h]
    congr 1
    funext z t
    simp [hD, condOp_apply, Function.comp]

/-- **C240** `conditional_sample_paths` turns independent unconditional paths into independent draws
from the predictive law: the predicted means and the posterior covariance. -/
theorem conditional_law (hla : la.Contract be) {S : Mat N N} (hS : S.PosSemidef) (P : Mat N q)
    {xi : Fin (q + r) → Fin N} (xt : Fin m → Fin N) (hK : (S.submatrix xi xi).PosDef) (zi : Fin (q + r) → ℝ) :
    ∃ (mean : Fin m → ℝ) (lam : Mat (q + r) m) (V : Mat m m),
      predict la .zero (arraysAt S P xi xt) zi false = .ok (mean, fun t => V t t, lam) ∧
      krigingZeroMean la (arraysAt S P xi xt) 1 = .ok (lam, .cov V) ∧
      (Measure.pi fun _ : Fin np => normalLaw 0 S).map
          (fun zs k j => condPaths (Matrix.of fun a k => zs k a) xi zi xt lam j k) =
        Measure.pi fun _ : Fin np => normalLaw mean V := by
  obtain ⟨pred, lam, V, -, h2, h3, -, -, -⟩ := predict_law hla hS P xt hK 0
  refine ⟨_, lam, V, h2 rfl zi, h3, ?_⟩
  obtain ⟨l, V', g1, g2⟩ := condPaths_posterior hla S (PosSemidef.symm hS) xi xt (P.submatrix xi id) (P.submatrix xt id) hK
  rw [show krigingZeroMean la (arraysAt S P xi xt) 1 = _ from g1] at h3
  obtain ⟨rfl, hV⟩ := Prod.mk.inj (Except.ok.inj h3)
  injection hV with hV
  subst hV
  have hm : pred zi = fun t => ∑ i, l i t * zi i := by
    have := h2 rfl zi
    rw [predict_zero hla (arraysAt S P xi xt) hK] at this
    obtain ⟨e1, e2⟩ := Prod.mk.inj (Except.ok.inj this)
    obtain ⟨-, e3⟩ := Prod.mk.inj e2
    rw [← e1, e3]
    simp
  have hmap := normalLaw_map hS 0 (condOp xi xt l) (fun t => ∑ i, l i t * zi i)
  rw [mulVec_zero, zero_add, g2] at hmap
  rw [hm, ← hmap]
  have hmeas : Measurable fun x : Fin N → ℝ => condOp xi xt l *ᵥ x + fun t => ∑ i, l i t * zi i := by
    apply Continuous.measurable
    fun_prop
  rw [← Measure.pi_map_pi (μ := fun _ : Fin np => normalLaw 0 S)
    (f := fun _ x => condOp xi xt l *ᵥ x + fun t => ∑ i, l i t * zi i) (fun _ => hmeas.aemeasurable)]
  congr 1
  funext zs k j
  rw [condPaths_affine, add_comm]
  rfl

/-- **C240** `conditional_sample_paths_parameterized_mean`: draws from the predictive law with the
given mean. -/
theorem conditional_law_mean (hla : la.Contract be) {S : Mat N N} (hS : S.PosSemidef) (P : Mat N q)
    {xi : Fin (q + r) → Fin N} (xt : Fin m → Fin N) (hK : (S.submatrix xi xi).PosDef) (mi : Fin (q + r) → ℝ)
    (mt : Fin m → ℝ) (zi : Fin (q + r) → ℝ) :
    ∃ (mean : Fin m → ℝ) (lam : Mat (q + r) m) (V : Mat m m),
      predict la (.parameterized mi mt) (arraysAt S P xi xt) zi false = .ok (mean, fun t => V t t, lam) ∧
      krigingZeroMean la (arraysAt S P xi xt) 1 = .ok (lam, .cov V) ∧
      (Measure.pi fun _ : Fin np => normalLaw 0 S).map
          (fun zs k j => condPathsMean (Matrix.of fun a k => zs k a) mi xi zi mt xt lam j k) =
        Measure.pi fun _ : Fin np => normalLaw mean V := by
  obtain ⟨mean, lam, V, h1, h2, h3⟩ := conditional_law (np := np) hla hS P xt hK (zi - mi)
  have h1' := h1
  rw [predict_zero hla (arraysAt S P xi xt) hK] at h1'
  obtain ⟨e1, e2⟩ := Prod.mk.inj (Except.ok.inj h1')
  obtain ⟨e3, e4⟩ := Prod.mk.inj e2
  refine ⟨mean + mt, lam, V, ?_, h2, ?_⟩
  · rw [predict_param hla (arraysAt S P xi xt) hK, ← e1, ← e3, ← e4]
    simp only [add_zero]
    rfl
  · have hV : V.PosSemidef := by
      obtain ⟨-, lam', V', -, -, g, hp, -, -⟩ := predict_law hla hS P xt hK 0
      rw [h2] at g
      obtain ⟨-, hV⟩ := Prod.mk.inj (Except.ok.inj g)
      injection hV with hV
      rw [hV]
      exact hp
    have hshift : (normalLaw mean V).map (fun x => x + mt) = normalLaw (mean + mt) V := by
      have := normalLaw_map hV mean 1 mt
      simpa using this
    have hadd : Measurable fun x : Fin m → ℝ => x + mt := by fun_prop
    rw [← hshift, ← Measure.pi_map_pi (μ := fun _ : Fin np => normalLaw mean V) (f := fun _ x => x + mt)
      (fun _ => hadd.aemeasurable), ← h3, Measure.map_map (by fun_prop)]
    · congr 1
    · refine measurable_pi_iff.mpr fun k => measurable_pi_iff.mpr fun j => ?_
      simp only [condPaths, Matrix.of_apply]
      fun_prop

/-- The probability that a centred normal number of variance `v > 0` is within `d` standard
deviations. -/
theorem gauss_band {v : ℝ} (hv : 0 < v) (d : ℝ) :
    gaussianReal 0 v.toNNReal {e | |e| ≤ d * √v} = ENNReal.ofReal (2 * Score.Phi d - 1) := by
  have hs := Real.sqrt_pos.mpr hv
  have hvv : v.toNNReal = NNReal.mk (√v ^ 2) (sq_nonneg _) := by
    apply NNReal.eq
    rw [Real.coe_toNNReal _ hv.le]
    exact (Real.sq_sqrt hv.le).symm
  have hne : v.toNNReal ≠ 0 := by
    rw [ne_eq, Real.toNNReal_eq_zero]
    linarith
  have := nullSingletonClass_gaussianReal (μ := 0) hne
  have hset : {e : ℝ | |e| ≤ d * √v} = Set.Icc (-(d * √v)) (d * √v) := by
    ext e
    simp [abs_le]
  rw [hset, ← measure_congr Ioc_ae_eq_Icc, ← measure_cdf (gaussianReal 0 v.toNNReal), StieltjesFunction.measure_Ioc, hvv,
    Score.cdf_gauss 0 hs, Score.cdf_gauss 0 hs]
  congr 1
  rw [show (d * √v - 0) / √v = d by field_simp; ring, show (-(d * √v) - 0) / √v = -d by field_simp; ring, Score.Phi_neg]
  ring

/-- **C240** Whenever the errors have the returned variances, the band of `d` standard deviations
around the predicted mean contains the true value with the probability that the standard normal law
gives to `[-d, d]`. -/
theorem coverage {S : Mat N N} {mu : Fin N → ℝ} {xi : Fin n → Fin N} {xt : Fin m → Fin N}
    {pred : (Fin n → ℝ) → Fin m → ℝ} {V : Mat m m} (hV : V.PosSemidef)
    (hm : Measurable fun z : Fin N → ℝ => z ∘ xt - pred (z ∘ xi))
    (h : (normalLaw mu S).map (fun z => z ∘ xt - pred (z ∘ xi)) = normalLaw 0 V) {t : Fin m} (ht : 0 < V t t) (d : ℝ) :
    normalLaw mu S {z | |z (xt t) - pred (z ∘ xi) t| ≤ d * √(V t t)} = ENNReal.ofReal (2 * Score.Phi d - 1) := by
  rw [← gauss_band ht]
  have h1 := normalLaw_dot hV 0 (Pi.single t 1) 0
  simp only [dotProduct_zero, add_zero, single_one_dotProduct, mulVec_single_one, col_apply] at h1
  have hset : MeasurableSet {e : ℝ | |e| ≤ d * √(V t t)} := by
    apply IsClosed.measurableSet
    exact isClosed_le continuous_abs continuous_const
  have ht' : Measurable fun x : Fin m → ℝ => x t := measurable_pi_apply t
  have hc := Measure.map_map (μ := normalLaw mu S) ht' hm
  rw [← h1, ← h, hc, Measure.map_apply (ht'.comp hm) hset]
  rfl

/-- What is assumed of the quantile function of the standard normal law. -/
def Quantile (ppf : ℝ → ℝ) : Prop := ∀ p, 0 < p → p < 1 → Score.Phi (ppf p) = p

/-- **C240** Bands around predictions with a known mean have exactly their nominal level, wherever
the variance is positive. -/
theorem predict_coverage (hla : la.Contract be) {S : Mat N N} (hS : S.PosSemidef) (P : Mat N q)
    {xi : Fin (q + r) → Fin N} (xt : Fin m → Fin N) (hK : (S.submatrix xi xi).PosDef) (mu : Fin N → ℝ)
    {ppf : ℝ → ℝ} (hppf : Quantile ppf) :
    ∃ (pred : (Fin (q + r) → ℝ) → Fin m → ℝ) (v : Fin m → ℝ) (lam : Mat (q + r) m),
      (∀ zi, predict la (.parameterized (mu ∘ xi) (mu ∘ xt)) (arraysAt S P xi xt) zi false = .ok (pred zi, v, lam)) ∧
      ∀ t, 0 < v t → ∀ c, 0 < c → c < 1 →
        normalLaw mu S {z | |z (xt t) - pred (z ∘ xi) t| ≤ ppf ((1 + c) / 2) * √(v t)} = ENNReal.ofReal c := by
  obtain ⟨pred, lam, V, h1, -, -, hV, hc, hlaw⟩ := predict_law hla hS P xt hK mu
  refine ⟨pred, _, lam, h1, fun t ht c c0 c1 => ?_⟩
  have hxi : Measurable fun z : Fin N → ℝ => z ∘ xi := measurable_pi_iff.mpr fun i => measurable_pi_apply (xi i)
  have hxt : Measurable fun z : Fin N → ℝ => z ∘ xt := measurable_pi_iff.mpr fun i => measurable_pi_apply (xt i)
  have hm : Measurable fun z : Fin N → ℝ => z ∘ xt - pred (z ∘ xi) := hxt.sub (hc.measurable.comp hxi)
  have hsnd : (normalLaw mu S).map (fun z => z ∘ xt - pred (z ∘ xi)) = normalLaw 0 V := by
    have := congrArg (fun L => L.map Prod.snd) hlaw
    rw [Measure.map_map measurable_snd (hxi.prodMk hm), Measure.map_snd_prod, measure_univ, one_smul] at this
    exact this
  rw [coverage hV hm hsnd ht, hppf _ (by linarith) (by linarith)]
  congr 1
  ring

/-- **C240** The same with the linear predictor, for every mean function of the linear space. -/
theorem predict_linear_coverage (hla : la.Contract be) {S : Mat N N} (hS : S.PosSemidef) {P : Mat N q}
    {xi : Fin (q + r) → Fin N} (xt : Fin m → Fin N) (hK : CPD (S.submatrix xi xi) (P.submatrix xi id))
    (hP : FullRank (P.submatrix xi id)) {ppf : ℝ → ℝ} (hppf : Quantile ppf) :
    ∃ (pred : (Fin (q + r) → ℝ) → Fin m → ℝ) (v : Fin m → ℝ) (lam : Mat (q + r) m),
      (∀ zi, predict la .linearPredictor (arraysAt S P xi xt) zi false = .ok (pred zi, v, lam)) ∧
      ∀ (beta : Fin q → ℝ) t, 0 < v t → ∀ c, 0 < c → c < 1 →
        normalLaw (P *ᵥ beta) S {z | |z (xt t) - pred (z ∘ xi) t| ≤ ppf ((1 + c) / 2) * √(v t)} = ENNReal.ofReal c := by
  obtain ⟨pred, lam, V, hV, hc, h1, hlaw⟩ := predict_linear_law hla hS xt hK hP
  refine ⟨pred, _, lam, h1, fun beta t ht c c0 c1 => ?_⟩
  have hxi : Measurable fun z : Fin N → ℝ => z ∘ xi := measurable_pi_iff.mpr fun i => measurable_pi_apply (xi i)
  have hxt : Measurable fun z : Fin N → ℝ => z ∘ xt := measurable_pi_iff.mpr fun i => measurable_pi_apply (xt i)
  have hm : Measurable fun z : Fin N → ℝ => z ∘ xt - pred (z ∘ xi) := hxt.sub (hc.measurable.comp hxi)
  rw [coverage hV hm (hlaw beta) ht, hppf _ (by linarith) (by linarith)]
  congr 1
  ring

/-! ## Leave-one-out errors and norms -/

theorem residual_law {K : Mat n n} (hK : K.PosSemidef) {M : Mat n n} (hMs : Mᵀ = M) (hM : M * K * M = M) {mu : Fin n → ℝ}
    (h0 : M *ᵥ mu = 0) {i : Fin n} (hi : M i i ≠ 0) :
    (normalLaw mu K).map (fun z => (M *ᵥ z) i / M i i) = gaussianReal 0 (1 / M i i).toNNReal := by
  have h := normalLaw_dot hK mu ((M i i)⁻¹ • M i) 0
  have e1 : ∀ z, ((M i i)⁻¹ • M i) ⬝ᵥ z + 0 = (M *ᵥ z) i / M i i := by
    intro z
    rw [smul_dotProduct, add_zero, smul_eq_mul, div_eq_inv_mul]
    rfl
  have e2 : ((M i i)⁻¹ • M i) ⬝ᵥ (K *ᵥ ((M i i)⁻¹ • M i)) = 1 / M i i := by
    rw [smul_dotProduct, mulVec_smul, dotProduct_smul]
    have : M i ⬝ᵥ (K *ᵥ M i) = M i i := by
      have : M i ⬝ᵥ (K *ᵥ M i) = (M * (K * Mᵀ)) i i := rfl
      rw [this, hMs, ← Matrix.mul_assoc, hM]
    rw [this]
    simp only [smul_eq_mul]
    field_simp
  simp only [e1] at h
  rw [h, e2, h0]
  simp

/-- **C240** Leave-one-out errors are normal, centred, with the returned variances, when the data have
the law of the model: known mean. -/
theorem loo_law (hla : la.Sound be) {K : Mat (q + r) (q + r)} (hK : K.PosDef) (P : Mat (q + r) q)
    (mi : Fin (q + r) → ℝ) :
    ∃ (e : (Fin (q + r) → ℝ) → Fin (q + r) → ℝ) (s : Fin (q + r) → ℝ),
      (∀ z, loo la (.parameterized mi mi) K P z = .ok (fun i => z i - e z i, s, e z)) ∧
      (mi = 0 → ∀ z, loo la (.zero : MeanType _ 1) K P z = .ok (fun i => z i - e z i, s, e z)) ∧
      ∀ i, 0 < s i ∧ (normalLaw mi K).map (fun z => e z i) = gaussianReal 0 (s i).toNNReal := by
  have hpos : ∀ i, 0 < K⁻¹ i i := fun i => hK.inv.diag_pos
  refine ⟨fun z i => (K⁻¹ *ᵥ (z - mi)) i / K⁻¹ i i, fun i => 1 / K⁻¹ i i, fun z => ?_, fun h0 z => ?_, fun i => ⟨?_, ?_⟩⟩
  · simp only [loo, looParameterized, looZeroMean_ok hla hK, bind, Except.bind, pure, Except.pure]
    congr 2
    funext i
    simp only [Pi.add_apply, Pi.sub_apply]
    ring
  · simp only [loo, looZeroMean_ok hla hK, h0, sub_zero]
  · exact one_div_pos.mpr (hpos i)
  · have hKi : (K⁻¹)ᵀ = K⁻¹ := by rw [transpose_nonsing_inv, PosDef.symm hK]
    have hMM : K⁻¹ * K * K⁻¹ = K⁻¹ := by rw [Matrix.nonsing_inv_mul _ (PosDef.det_unit hK), Matrix.one_mul]
    have hshift : (normalLaw mi K).map (fun z => z - mi) = normalLaw 0 K := by
      have := normalLaw_map hK.posSemidef mi 1 (-mi)
      simpa [sub_eq_add_neg] using this
    have h := residual_law hK.posSemidef hKi hMM (mulVec_zero _) (hpos i).ne'
    rw [← h, ← hshift, Measure.map_map _ (by fun_prop)]
    · rfl
    · apply Continuous.measurable
      fun_prop

/-- **C240** Linear predictor: the same for every mean function of the linear space, at every
observation whose variance is positive. -/
theorem loo_linear_law (hla : la.Sound be) {K : Mat (q + r) (q + r)} {P : Mat (q + r) q} (hK : CPD K P)
    (hKp : K.PosSemidef) (hP : FullRank P) :
    ∃ (e : (Fin (q + r) → ℝ) → Fin (q + r) → ℝ) (s : Fin (q + r) → ℝ),
      (∀ z, loo la (.linearPredictor : MeanType _ 1) K P z = .ok (fun i => z i - e z i, s, e z)) ∧
      ∀ (beta : Fin q → ℝ) (i), 0 < s i →
        (normalLaw (P *ᵥ beta) K).map (fun z => e z i) = gaussianReal 0 (s i).toNNReal := by
  obtain ⟨M, hM, -⟩ := looCpd_ok hla hK hP 0
  refine ⟨fun z i => (M *ᵥ z) i / M i i, fun i => 1 / M i i, fun z => ?_, fun beta i hs => ?_⟩
  · obtain ⟨M', hM', h⟩ := looCpd_ok hla hK hP z
    obtain rfl := IsQinv.unique hK hM hM'
    exact h
  · have hMM : M * K * M = M := by
      ext a b
      have h1 : Pᵀ *ᵥ (M *ᵥ Pi.single b 1) = 0 := by rw [mulVec_mulVec, hM.null, zero_mulVec]
      have h2 := congrFun (hM.id _ h1) a
      rw [mulVec_mulVec, mulVec_mulVec, mulVec_single_one, mulVec_single_one] at h2
      exact h2
    refine residual_law hKp hM.symm hMM ?_ (fun h0 => ?_)
    · rw [mulVec_mulVec, hM.mul_P, zero_mulVec]
    · simp only [h0] at hs
      simp at hs

/-- The law of a sum of `k` squares of independent standard normal numbers. -/
noncomputable def chiSquare (k : ℕ) : Measure ℝ := (stdLaw (Fin k)).map fun y => ∑ i, y i ^ 2

theorem chiSquare_mean (k : ℕ) : ∫ x, x ∂(chiSquare k) = k := by
  have hm : Measurable fun y : Fin k → ℝ => ∑ i, y i ^ 2 := by
    apply Continuous.measurable
    fun_prop
  rw [chiSquare, integral_map hm.aemeasurable (by fun_prop)]
  have h1 : ∫ x, x ^ 2 ∂(gaussianReal 0 1) = 1 := by
    have h := variance_fun_id_gaussianReal (μ := 0) (v := 1)
    rw [variance_eq_integral (by fun_prop)] at h
    simpa using h
  have hi : Integrable (fun x : ℝ => x ^ 2) (gaussianReal 0 1) := by
    have := memLp_id_gaussianReal (μ := 0) (v := 1) 2
    have := this.integrable_sq
    simpa using this
  have he : ∀ i : Fin k, MeasurePreserving (fun y : Fin k → ℝ => y i) (stdLaw (Fin k)) (gaussianReal 0 1) :=
    fun i => measurePreserving_eval _ i
  have hint : ∀ i : Fin k, Integrable (fun y : Fin k → ℝ => y i ^ 2) (stdLaw (Fin k)) :=
    fun i => (he i).integrable_comp_of_integrable hi
  rw [integral_finsetSum _ fun i _ => hint i]
  have : ∀ i : Fin k, ∫ y, y i ^ 2 ∂(stdLaw (Fin k)) = 1 := by
    intro i
    rw [← h1, ← (he i).map_eq, integral_map (he i).measurable.aemeasurable (by fun_prop)]
  simp [this]

theorem norm_whiten {K : Mat n n} (hK : K.PosDef) :
    (normalLaw 0 K).map (fun z => z ⬝ᵥ (K⁻¹ *ᵥ z)) = chiSquare n := by
  obtain ⟨C, hC⟩ := exists_chol K hK
  have hf := normalLaw_factor hC.mul 0
  simp only [add_zero] at hf
  rw [← hf, chiSquare, Measure.map_map]
  · congr 1
    funext y
    have hCu := hC.det_unit
    simp only [Function.comp]
    rw [← hC.inv, mulVec_mulVec, Matrix.mul_assoc, Matrix.nonsing_inv_mul _ hCu, Matrix.mul_one,
      dot_mulVec_transpose, ← transpose_nonsing_inv, transpose_transpose, mulVec_mulVec,
      Matrix.nonsing_inv_mul _ hCu, one_mulVec]
    simp [dotProduct, sq]
  · apply Continuous.measurable
    fun_prop
  · apply Continuous.measurable
    fun_prop

/-- **C240** The squared norms of the data follow chi-square laws: `n` degrees of freedom for a zero
mean, `n - q` for a linear space of dimension `q`, whatever the mean function. -/
theorem norm_law (hla : la.Sound be) {K : Mat (q + r) (q + r)} {P : Mat (q + r) q} (hK : K.PosDef) (hP : FullRank P) :
    ∃ f g : (Fin (q + r) → ℝ) → ℝ,
      (∀ z, normKSqrdZeroMean la K z = .ok (f z)) ∧ (normalLaw 0 K).map f = chiSquare (q + r) ∧
      (∀ z, normKSqrd la K P z = .ok (g z)) ∧
      ∀ beta : Fin q → ℝ, (normalLaw (P *ᵥ beta) K).map g = chiSquare r := by
  have hC := CPD.of_posDef hK P
  have hqr := hla.qr_ok P (Nat.le_add_right q r)
  have hW : IsContrast P (contrastMatrix la P) := hqr.contrast hP
  have hG : (contrastCov (contrastMatrix la P) K).PosDef := contrast_posDef hW.orth hW.null hC
  set W := contrastMatrix la P with hWdef
  refine ⟨fun z => z ⬝ᵥ (K⁻¹ *ᵥ z), fun z => (Wᵀ *ᵥ z) ⬝ᵥ ((contrastCov W K)⁻¹ *ᵥ (Wᵀ *ᵥ z)),
    fun z => (norms_zero hla hK z).1, norm_whiten hK, fun z => ?_, fun beta => ?_⟩
  · obtain ⟨C, _, hc⟩ := choleskySolve_ok hla hG (colVec (Wᵀ *ᵥ z))
    simp only [normKSqrd, ← hWdef, hc, bind, Except.bind, pure, Except.pure, sum_mul_colVec]
  · have h := normalLaw_map hK.posSemidef (P *ᵥ beta) Wᵀ 0
    have h0 : Wᵀ *ᵥ (P *ᵥ beta) + 0 = 0 := by
      have := congrArg Matrix.transpose hW.null
      rw [transpose_mul, transpose_transpose, transpose_zero] at this
      rw [mulVec_mulVec, this, zero_mulVec, add_zero]
    rw [h0, transpose_transpose, Matrix.mul_assoc] at h
    simp only [add_zero] at h
    rw [← norm_whiten hG, show contrastCov W K = Wᵀ * (K * W) from rfl, ← h, Measure.map_map]
    · rfl
    · apply Continuous.measurable
      fun_prop
    · apply Continuous.measurable
      fun_prop

/-- Two of four correlated points observed: the hypotheses are met, and the variances are positive. -/
example : (firstCov exK 4).PosSemidef ∧ ((firstCov exK 4).submatrix (Fin.castLE (by omega) : Fin 2 → Fin 4)
    (Fin.castLE (by omega))).PosDef :=
  ⟨(exK_posDef 4).posSemidef, (exK_posDef 4).submatrix (Fin.castLE_injective _)⟩

example (ppf : ℝ → ℝ) (hppf : Quantile ppf) : ∃ (pred : (Fin 2 → ℝ) → Fin 2 → ℝ) (v : Fin 2 → ℝ) (lam : Mat 2 2),
    (∀ zi, predict (q := 1) (r := 1) (exactLA .numpy) .linearPredictor
      (arraysAt (firstCov exK 4) (Matrix.of fun _ _ => 1) (Fin.castLE (by omega)) (Fin.natAdd 2)) zi false =
        .ok (pred zi, v, lam)) ∧
    ∀ (beta : Fin 1 → ℝ) t, 0 < v t →
      normalLaw ((Matrix.of fun _ _ => 1 : Mat 4 1) *ᵥ beta) (firstCov exK 4)
        {z | |z (Fin.natAdd 2 t) - pred (z ∘ Fin.castLE (by omega)) t| ≤ ppf ((1 + 0.95) / 2) * √(v t)} =
          ENNReal.ofReal 0.95 := by
  have hK : ((firstCov exK 4).submatrix (Fin.castLE (by omega) : Fin 2 → Fin 4) (Fin.castLE (by omega))).PosDef :=
    (exK_posDef 4).submatrix (Fin.castLE_injective _)
  obtain ⟨pred, v, lam, h1, h2⟩ := predict_linear_coverage (q := 1) (r := 1) (exactLA_contract .numpy)
    (exK_posDef 4).posSemidef (P := Matrix.of fun _ _ => 1) (Fin.natAdd 2 : Fin 2 → Fin 4)
    (CPD.of_posDef hK _) (by
      intro b hb
      have := congrFun hb 0
      ext i
      fin_cases i
      simpa [mulVec, dotProduct] using this) hppf
  exact ⟨pred, v, lam, h1, fun beta t ht => h2 beta t ht _ (by norm_num) (by norm_num)⟩

end Verif.Core
