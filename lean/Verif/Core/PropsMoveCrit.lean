import Verif.Core.PropsMove

/-!
# C207, C208: corollaries for one model and for Matérn models; likelihood criteria
-/

set_option autoImplicit false

namespace Verif.Core

open Verif Verif.Data Matrix

variable {n m m' q r : ℕ} {be be' : Backend} {la la' : LA}

/-! ## Criteria -/

theorem inv_moved (π : Equiv.Perm (Fin n)) {c : ℝ} (hc : c ≠ 0) {K K' : Mat n n}
    (hdet : IsUnit K.det) (h : ∀ i j, K' i j = c * K (π i) (π j)) :
    K'⁻¹ = c⁻¹ • (K⁻¹).submatrix π π := by
  have e : K' = c • K.submatrix π π := by
    ext i j
    simp [h]
  apply Matrix.inv_eq_left_inv
  rw [e, Matrix.smul_mul, Matrix.mul_smul, smul_smul, inv_mul_cancel₀ hc, one_smul,
    Matrix.submatrix_mul_equiv, Matrix.nonsing_inv_mul _ hdet]
  exact Matrix.submatrix_one_equiv π

theorem det_moved (π : Equiv.Perm (Fin n)) (c : ℝ) {K K' : Mat n n}
    (h : ∀ i j, K' i j = c * K (π i) (π j)) : K'.det = c ^ n * K.det := by
  have e : K' = c • K.submatrix π π := by
    ext i j
    simp [h]
  rw [e, Matrix.det_smul, Matrix.det_submatrix_equiv_self]
  simp

/-- The density of the multiplied and reordered vector. -/
theorem gaussDensity_moved (π : Equiv.Perm (Fin n)) {s : ℝ} (hs : 0 < s) {K K' : Mat n n}
    (hK : K.PosDef) (h : ∀ i j, K' i j = s ^ 2 * K (π i) (π j)) (mi z : Fin n → ℝ) :
    -Real.log (gaussDensity K' (fun i => s * mi (π i)) fun i => s * z (π i)) =
      -Real.log (gaussDensity K mi z) + n * Real.log s := by
  have hd := hK.det_pos
  have hp : (0 : ℝ) < (2 * Real.pi) ^ n := by have := Real.pi_pos; positivity
  have hq : ((fun i => s * z (π i)) - fun i => s * mi (π i)) ⬝ᵥ
      (K'⁻¹ *ᵥ ((fun i => s * z (π i)) - fun i => s * mi (π i))) =
      (z - mi) ⬝ᵥ (K⁻¹ *ᵥ (z - mi)) := by
    rw [inv_moved π (by positivity) (PosDef.det_unit hK) h]
    simp only [dotProduct, mulVec, Pi.sub_apply, Matrix.smul_apply, submatrix_apply, smul_eq_mul]
    rw [← Equiv.sum_comp π (fun i => (z i - mi i) * ∑ j, K⁻¹ i j * (z j - mi j))]
    refine Finset.sum_congr rfl fun i _ => ?_
    rw [← Equiv.sum_comp π (fun j => K⁻¹ (π i) j * (z j - mi j)), Finset.mul_sum, Finset.mul_sum]
    refine Finset.sum_congr rfl fun j _ => ?_
    field_simp
  unfold gaussDensity
  rw [hq, det_moved π _ h]
  have hsn : (0 : ℝ) < (s ^ 2) ^ n := by positivity
  rw [Real.log_mul (by positivity) (Real.exp_pos _).ne', Real.log_mul (by positivity) (Real.exp_pos _).ne',
    Real.log_inv, Real.log_inv, Real.log_sqrt (by positivity), Real.log_sqrt (by positivity),
    Real.log_mul hp.ne' (by positivity), Real.log_mul hp.ne' hd.ne', Real.log_mul hsn.ne' hd.ne',
    Real.log_pow, Real.log_pow, Real.log_pow]
  push_cast
  ring

/-- **C208** Multiplying the data by `s` and the covariance by `s²`, reordering the observations
and recombining the mean functions change the likelihood and the restricted likelihood by
`n log s` and `(n - q) log s` only, on any backend: their minimisers correspond. -/
theorem criteria_moved (hla : la.Sound be) (hla' : la'.Sound be') (π : Equiv.Perm (Fin (q + r)))
    {s : ℝ} (hs : 0 < s) {K K' : Mat (q + r) (q + r)} (h : ∀ i j, K' i j = s ^ 2 * K (π i) (π j))
    {P P' : Mat (q + r) q} {E : Mat q q} (hE : IsUnit E.det) (hP' : P' = P.submatrix π id * E)
    (mi z : Fin (q + r) → ℝ) :
    (K.PosDef → ∃ v, nll be la K mi z = .ok (.finite v) ∧
      nll be' la' K' (fun i => s * mi (π i)) (fun i => s * z (π i)) =
        .ok (.finite (v + (q + r : ℕ) * Real.log s))) ∧
    (CPD K P → FullRank P → ∃ v, reml be la K P z = .ok (.finite v) ∧
      reml be' la' K' P' (fun i => s * z (π i)) = .ok (.finite (v + r * Real.log s))) := by
  have hs2 : (0 : ℝ) < s ^ 2 := by positivity
  have hmoved : Moved π (id : Fin 0 → Fin 0) (s ^ 2) E
      (⟨K, 0, 0, 0, P, 0⟩ : Arrays (q + r) 0 q) ⟨K', 0, 0, 0, P', 0⟩ :=
    ⟨h, fun _ t => t.elim0, fun t => t.elim0, hP', by ext t; exact t.elim0⟩
  constructor
  · intro hK
    refine ⟨_, (nll_eq hla hK mi z).1, ?_⟩
    rw [(nll_eq hla' (hmoved.posDef hs2 hK) _ _).1, gaussDensity_moved π hs hK h]
  · intro hK hP
    have hW : IsContrast P (contrastMatrix la P) :=
      (hla.qr_ok P (Nat.le_add_right q r)).contrast hP
    set W := contrastMatrix la P
    have hK' := hmoved.cpd hs2 hE hK
    have hPr' := hmoved.fullRank hE hP
    have hW' : IsContrast P' (W.submatrix π id) := by
      refine ⟨?_, ?_, fun x hx => ?_⟩
      · rw [Matrix.transpose_submatrix, Matrix.submatrix_mul_equiv, hW.orth]
        exact Matrix.submatrix_id_id _
      · rw [hP', transpose_mul, Matrix.mul_assoc, Matrix.transpose_submatrix,
          Matrix.submatrix_mul_equiv, hW.null]
        simp
      · rw [hmoved.PiT] at hx
        have hx' := mulVec_inj (by rwa [det_transpose]) hx
        obtain ⟨cc, hcc⟩ := hW.span _ hx'
        refine ⟨cc, ?_⟩
        funext i
        have := congrFun hcc (π i)
        simpa [mulVec, dotProduct] using this
    refine ⟨_, reml_eq hla hK hP z hW, ?_⟩
    rw [reml_eq hla' hK' hPr' _ hW']
    have e1 : ∀ i j, ((W.submatrix π id)ᵀ * (K' * W.submatrix π id)) i j =
        s ^ 2 * (Wᵀ * (K * W)) ((1 : Equiv.Perm (Fin r)) i) ((1 : Equiv.Perm (Fin r)) j) := by
      intro i j
      have eK : K' = s ^ 2 • K.submatrix π π := by
        ext a b
        simp [h]
      rw [eK, Matrix.smul_mul, Matrix.submatrix_mul_equiv, Matrix.mul_smul,
        Matrix.transpose_submatrix, Matrix.submatrix_mul_equiv]
      simp
    have e2 : (W.submatrix π id)ᵀ *ᵥ (fun i => s * z (π i)) =
        fun i => s * (Wᵀ *ᵥ z) ((1 : Equiv.Perm (Fin r)) i) := by
      funext i
      simp only [mulVec, dotProduct, transpose_apply, submatrix_apply, id, Equiv.Perm.one_apply]
      rw [← Equiv.sum_comp π (fun a => W a i * z a), Finset.mul_sum]
      exact Finset.sum_congr rfl fun a _ => by ring
    have e3 := gaussDensity_moved (1 : Equiv.Perm (Fin r)) hs
      (contrast_posDef hW.orth hW.null hK) e1 0 (Wᵀ *ᵥ z)
    rw [e2]
    rw [← e3]
    simp
    rfl

namespace Obj

variable {d : ℕ} {Θ M : Type}

/-! ## One model -/

/-- **C207** With one model: the order of the observations does not matter, and predictions at
some of the targets are the predictions at all targets, restricted — whatever backends and
array types the two calls use (the targets being other objects than the observations). -/
theorem predict_select (hla : la.Contract be) (hla' : la'.Contract be') {g : GP d q Θ M}
    {θ : Θ} {k : (Fin d → ℝ) → (Fin d → ℝ) → ℝ} {nug : ℝ}
    {b : (Fin d → ℝ) → Fin q → ℝ} (hθ : g.covparam = some θ) (hg : Pointwise g θ k nug b)
    (hu : Usable g) (π : Equiv.Perm (Fin (q + r))) (σ : Fin m' → Fin m)
    (xi xi' : Pts (q + r) d) (xt : Pts m d) (xt' : Pts m' d)
    (hxi : ∀ i, xi'.val i = xi.val (π i)) (hxt : ∀ t, xt'.val t = xt.val (σ t))
    (hne : xi.id ≠ xt.id) (hne' : xi'.id ≠ xt'.id) (f f' : ℕ) (hf : xi.id < f ∧ xt.id < f)
    (hf' : xi'.id < f' ∧ xt'.id < f')
    (hK : (g.covMat xi xi θ).PosDef ∨
      (g.meantype = "linear_predictor" ∧ CPD (g.covMat xi xi θ) (g.mean xi g.meanparam)))
    (hP : g.meantype = "linear_predictor" → FullRank (g.mean xi g.meanparam))
    (z : Fin (q + r) → ℝ) (zn c1 c2 : Bool) :
    ∃ mean var lam, predict be la f g xi (.vec z) xt zn c1 = .ok (mean, var, lam) ∧
      predict be' la' f' g xi' (.vec fun i => z (π i)) xt' zn c2 =
        .ok (mean ∘ σ, var ∘ σ, lam.submatrix π σ) := by
  have := predict_units (s := 1) hla hla' hθ hθ hg hg hu hu rfl id one_pos (E := 1) (by simp)
    (by simp) (by simp) (by intro x j; simp [Matrix.one_apply]) (by
      intro hm l j
      have hq : q = 1 := by
        rcases hu with h | h | ⟨_, h, _⟩
        · rw [hm] at h; exact absurd h (by decide)
        · rw [hm] at h; exact absurd h (by decide)
        · exact h
      have : l = j := Fin.ext (by have := l.2; have := j.2; omega)
      rw [this]
      exact Matrix.one_apply_eq j) π σ xi xi' xt xt' hxi hxt hne hne' f f' hf hf' hK hP z zn c1 c2
  simp only [one_mul] at this
  exact this

/-! ## Matérn models -/

/-- A change of units of the inputs: `x_j ↦ a_j x_j + o_j`. -/
def affine (a o : Fin d → ℝ) (x : Fin d → ℝ) : Fin d → ℝ := fun j => a j * x j + o j

/-- The Matérn parameters in the new units: variance multiplied by `c`, ranges by `a_j`. -/
noncomputable def newParams (c : ℝ) (a : Fin d → ℝ) (θ : Fin (d + 1) → ℝ) : Fin (d + 1) → ℝ :=
  Fin.cons (θ 0 + Real.log c) fun j => θ j.succ - Real.log (a j)

theorem maternKernel_units (p : ℕ) (θ : Fin (d + 1) → ℝ) {c : ℝ} (hc : 0 < c) {a : Fin d → ℝ}
    (ha : ∀ j, 0 < a j) (o : Fin d → ℝ) (x y : Fin d → ℝ) :
    maternKernel p (newParams c a θ) (affine a o x) (affine a o y) = c * maternKernel p θ x y := by
  have h1 : Real.exp (newParams c a θ 0) = c * Real.exp (θ 0) := by
    simp only [newParams, Fin.cons_zero]
    rw [Real.exp_add, Real.exp_log hc, mul_comm]
  have h2 : Kernel.scaledDistance (fun j => newParams c a θ j.succ) (affine a o x) (affine a o y) =
      Kernel.scaledDistance (fun j => θ j.succ) x y := by
    simp only [Kernel.scaledDistance, Kernel.cdistNumpy, Kernel.scaleRow, newParams, Fin.cons_succ,
      affine]
    congr 1
    refine Finset.sum_congr rfl fun j _ => ?_
    rw [Real.exp_sub, Real.exp_log (ha j)]
    have := (ha j).ne'
    field_simp
    ring
  rw [maternKernel, maternKernel, h1, h2, mul_assoc]

/-- **C207** Changing the units of the inputs (`x_j ↦ a_j x_j + o_j`, ranges multiplied by
`a_j`), of the variance (`c`) and of the data (`s`), with mean functions that span the same
space in the new units, changes the predictions of a Matérn model accordingly: means times `s`,
variances times `c`. -/
theorem matern_units (hla : la.Contract be) (hla' : la'.Contract be') (p : ℕ) {eps : ℝ}
    (θ : Fin (d + 1) → ℝ) {c s : ℝ} (hc : 0 < c) {a : Fin d → ℝ} (ha : ∀ j, 0 < a j)
    (o : Fin d → ℝ) {mtype : String} {mean mean' : {n : ℕ} → Pts n d → Option M → Mat n q}
    {mp mp' : Option M} {b b' : (Fin d → ℝ) → Fin q → ℝ}
    (hb : ∀ {n : ℕ} (x : Pts n d) (i : Fin n) (j : Fin q), mean x mp i j = b (x.val i) j)
    (hb' : ∀ {n : ℕ} (x : Pts n d) (i : Fin n) (j : Fin q), mean' x mp' i j = b' (x.val i) j)
    {E : Mat q q} (hE : IsUnit E.det) (hbb : ∀ x j, b' (affine a o x) j = ∑ l, b x l * E l j)
    (hs : mtype = "parameterized" → ∀ l j, E l j = s)
    (g g' : GP d q (Fin (d + 1) → ℝ) M)
    (hgm : g = matern (Kernel.maternFormula p) eps mtype mean mp (some θ))
    (hgm' : g' = matern (Kernel.maternFormula p) eps mtype mean' mp' (some (newParams c a θ)))
    (hu : Usable g) (hu' : Usable g')
    (xi xi' : Pts (q + r) d) (hx : Admissible eps xi.val) (xt xt' : Pts m d)
    (hxi : ∀ i, xi'.val i = affine a o (xi.val i)) (hxt : ∀ t, xt'.val t = affine a o (xt.val t))
    (hne : xi.id ≠ xt.id) (hne' : xi'.id ≠ xt'.id) (f f' : ℕ) (hf : xi.id < f ∧ xt.id < f)
    (hf' : xi'.id < f' ∧ xt'.id < f')
    (hP : mtype = "linear_predictor" → FullRank (mean xi mp))
    (z : Fin (q + r) → ℝ) (zn c1 c2 : Bool) :
    ∃ zt var lam, predict be la f g xi (.vec z) xt zn c1 = .ok (zt, var, lam) ∧
      predict be' la' f' g' xi' (.vec fun i => s * z i) xt' zn c2 =
        .ok (fun t => s * zt t, fun t => c * var t, lam) := by
  subst hgm hgm'
  have hn : 10 * Real.exp (newParams c a θ 0) * eps = c * (10 * Real.exp (θ 0) * eps) := by
    have h1 : Real.exp (newParams c a θ 0) = c * Real.exp (θ 0) := by
      simp only [newParams, Fin.cons_zero]
      rw [Real.exp_add, Real.exp_log hc, mul_comm]
    rw [h1]
    ring
  have hKii : (maternMat (Kernel.maternFormula p) eps xi xi θ).PosDef := by
    rw [maternMat_self]
    exact matern_Kii p θ hx
  obtain ⟨zt, var, lam, h1, h2⟩ := predict_units (s := s) hla hla' rfl rfl
    (matern_pointwise p eps θ b hb) (matern_pointwise p eps (newParams c a θ) b' hb') hu hu' rfl
    (affine a o) hc hE (maternKernel_units p θ hc ha o) hn hbb hs (Equiv.refl _) id xi xi' xt xt'
    hxi hxt hne hne' f f' hf hf' (Or.inl hKii) hP z zn c1 c2
  exact ⟨zt, var, lam, h1, h2⟩

/-- The hypotheses of `matern_units` are met: kilometres to metres and an offset, mean functions
`1` and `x` (so `E` is triangular). -/
example : IsUnit (!![1, 7; 0, 1000] : Mat 2 2).det ∧
    ∀ (x : Fin 1 → ℝ) (j : Fin 2),
      (![1, (affine ![1000] ![7] x) 0] : Fin 2 → ℝ) j =
        ∑ l, (![1, x 0] : Fin 2 → ℝ) l * (!![1, 7; 0, 1000] : Mat 2 2) l j := by
  constructor
  · simp [Matrix.det_fin_two]
  · intro x j
    fin_cases j <;> simp [affine]
    ring

end Obj

end Verif.Core
