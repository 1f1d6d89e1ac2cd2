import Verif.Core.PropsChainReml

/-!
# C228: predicting in two stages
-/

set_option autoImplicit false

namespace Verif.Core

open Verif Verif.Data Matrix

variable {n m q r r' s u N : ℕ} {be : Backend} {la : LA}

/-- Elimination in two stages. -/
theorem two_stage {ι κ ω : Type} [Fintype ι] [DecidableEq ι] [Fintype κ] [DecidableEq κ] {A : Matrix ι ι ℝ}
    (hs : Aᵀ = A) {Bs Xs : Matrix ι κ ℝ} {Bu Xu : Matrix ι ω ℝ} {Dss : Matrix κ κ ℝ} {Dsu : Matrix κ ω ℝ} {Duu : Matrix ω ω ℝ}
    (hXs : A * Xs = Bs) (hXu : A * Xu = Bu) {M : Matrix κ ω ℝ} (hM : (Dss - Xsᵀ * Bs) * M = Dsu - Xsᵀ * Bu) :
    fromBlocks A Bs Bsᵀ Dss * fromRows (Xu - Xs * M) M = fromRows Bu Dsu ∧
    Duu - (fromRows (Xu - Xs * M) M)ᵀ * fromRows Bu Dsu = (Duu - Xuᵀ * Bu) - Mᵀ * (Dsu - Xsᵀ * Bu) := by
  have h1 : Bsᵀ * Xs = Xsᵀ * Bs := by rw [← hXs, transpose_mul, hs, Matrix.mul_assoc]
  have h2 : Bsᵀ * Xu = Xsᵀ * Bu := by rw [← hXs, transpose_mul, hs, Matrix.mul_assoc, hXu]
  constructor
  · rw [fromBlocks_mul_fromRows]
    congr 1
    · rw [Matrix.mul_sub, hXu, ← Matrix.mul_assoc, hXs, sub_add_cancel]
    · rw [Matrix.mul_sub, h2, ← Matrix.mul_assoc, h1]
      rw [Matrix.sub_mul] at hM
      have : Dss * M = Dsu - Xsᵀ * Bu + Xsᵀ * Bs * M := by rw [← hM, sub_add_cancel]
      rw [this]
      abel
  · rw [transpose_fromRows, fromCols_mul_fromRows, transpose_sub, transpose_mul, Matrix.sub_mul, Matrix.mul_sub,
      Matrix.mul_assoc]
    abel

/-- `b`: the arrays for predicting the targets `fu` of `a` when its targets `fs` have been observed too. -/
structure Staged (e : Fin n ⊕ Fin s ≃ Fin N) (fs : Fin s → Fin m) (fu : Fin u → Fin m) (a : Arrays n m q)
    (b : Arrays N u q) : Prop where
  obs : b.Kii.submatrix e e = fromBlocks a.Kii (a.Kit.submatrix id fs) (a.Kit.submatrix id fs)ᵀ (a.Ktt.submatrix fs fs)
  cross : b.Kit.submatrix e id = fromRows (a.Kit.submatrix id fu) (a.Ktt.submatrix fs fu)
  targets : b.Ktt = a.Ktt.submatrix fu fu
  meanObs : b.Pi.submatrix e id = fromRows a.Pi (a.Pt.submatrix fs id)
  meanTargets : b.Pt = a.Pt.submatrix fu id

/-- The second stage: the posterior covariance `V` of the first takes the place of the covariance
function. -/
def stage (V : Mat m m) (fs : Fin s → Fin m) (fu : Fin u → Fin m) : Arrays s u 0 where
  Kii := V.submatrix fs fs
  Kit := V.submatrix fs fu
  vt := fun t => V (fu t) (fu t)
  Ktt := V.submatrix fu fu
  Pi := 0
  Pt := 0

variable {e : Fin n ⊕ Fin s ≃ Fin N} {fs : Fin s → Fin m} {fu : Fin u → Fin m} {a : Arrays n m q} {b : Arrays N u q}

/-- The arrays for the targets `fs` only. -/
def Arrays.at (a : Arrays n m q) (fs : Fin s → Fin m) : Arrays n s q where
  Kii := a.Kii
  Kit := a.Kit.submatrix id fs
  vt := fun t => a.Ktt (fs t) (fs t)
  Ktt := a.Ktt.submatrix fs fs
  Pi := a.Pi
  Pt := a.Pt.submatrix fs id

theorem Staged.joined (h : Staged e fs fu a b) : Joined e (a.at fs) b.Kii b.Pi where
  cov := h.obs
  mean := h.meanObs
  var := fun _ => rfl

theorem mul_submatrix_cols {ι κ ω : Type} [Fintype κ] {τ : Type} (A : Matrix ι κ ℝ) (B : Matrix κ ω ℝ) (f : τ → ω) :
    (A * B).submatrix id f = A * B.submatrix id f := rfl

/-- A solution of the system of all observations, reindexed. -/
theorem solve_reindex {ι κ ω : Type} [Fintype ι] [DecidableEq ι] [Fintype κ] [DecidableEq κ] (e : ι ≃ κ)
    {A : Matrix κ κ ℝ} {B X : Matrix κ ω ℝ} {Y : Matrix ι ω ℝ} (hA : IsUnit A) (hX : A * X = B)
    (hY : A.submatrix e e * Y = B.submatrix e id) : X.submatrix e id = Y := by
  have hd := (Matrix.isUnit_iff_isUnit_det _).mp hA
  have h1 : A.submatrix e e * X.submatrix e id = B.submatrix e id := by
    rw [submatrix_mul_equiv, hX]
  have hd' : IsUnit (A.submatrix e e).det := by rwa [det_submatrix_equiv_self]
  calc X.submatrix e id = (A.submatrix e e)⁻¹ * (A.submatrix e e * X.submatrix e id) := by
        rw [← Matrix.mul_assoc, Matrix.nonsing_inv_mul _ hd', Matrix.one_mul]
    _ = (A.submatrix e e)⁻¹ * (A.submatrix e e * Y) := by rw [h1, hY]
    _ = Y := by rw [← Matrix.mul_assoc, Matrix.nonsing_inv_mul _ hd', Matrix.one_mul]

theorem cov_reindex {ι κ ω : Type} [Fintype ι] [Fintype κ] (e : ι ≃ κ) (X B : Matrix κ ω ℝ) :
    Xᵀ * B = (X.submatrix e id)ᵀ * B.submatrix e id := by
  ext i j
  simp only [Matrix.mul_apply, transpose_apply, submatrix_apply, id]
  rw [← e.sum_comp]

/-- Explaining more takes variance away. -/
theorem stage_le {V M : Matrix (Fin s) (Fin u) ℝ} {W : Mat s s} (hW : W.PosDef) (hM : W * M = V) (t : Fin u) :
    0 ≤ (Mᵀ * V) t t := by
  rw [← hM, Matrix.mul_apply]
  have := PosSemidef.quad_nonneg hW.posSemidef (fun i => M i t)
  simpa [dotProduct, mulVec, Matrix.mul_apply] using this

/-- **C228** Zero mean: predicting from all observations is predicting from the first and then
correcting by the errors of the predictions of the others, with the posterior covariance in the role
of the covariance; variances never increase. -/
theorem update_zero (hla : la.Contract be) (h : Staged e fs fu a b) (hb : b.Kii.PosDef) :
    ∃ lamA VA lamB VB mu, krigingZeroMean la a 1 = .ok (lamA, .cov VA) ∧
      krigingZeroMean la b 1 = .ok (lamB, .cov VB) ∧
      krigingZeroMean la (stage VA fs fu) 1 = .ok (mu, .cov VB) ∧
      (∀ (z : Fin N → ℝ) t, ∑ j, lamB j t * z j = ∑ i, lamA i (fu t) * z (e (.inl i)) +
        ∑ k, mu k t * (z (e (.inr k)) - ∑ i, lamA i (fs k) * z (e (.inl i)))) ∧
      ∀ t, VB t t ≤ VA (fu t) (fu t) := by
  have hA : a.Kii.PosDef := h.joined.posDef hb
  have hAd := PosDef.det_unit hA
  have hV : ((a.Ktt - (a.Kii⁻¹ * a.Kit)ᵀ * a.Kit).submatrix fs fs).PosDef := h.joined.posDef_post hb
  have hVd := PosDef.det_unit hV
  have e1 := krigingZeroMean_ok hla a hA
  have e2 := krigingZeroMean_ok hla b hb
  have e3 := krigingZeroMean_ok hla (stage (a.Ktt - (a.Kii⁻¹ * a.Kit)ᵀ * a.Kit) fs fu) hV
  set VA := a.Ktt - (a.Kii⁻¹ * a.Kit)ᵀ * a.Kit with hVA
  set M : Matrix (Fin s) (Fin u) ℝ := (VA.submatrix fs fs)⁻¹ * VA.submatrix fs fu with hMdef
  have hX : a.Kii * (a.Kii⁻¹ * a.Kit) = a.Kit := by
    rw [← Matrix.mul_assoc, Matrix.mul_nonsing_inv _ hAd, Matrix.one_mul]
  have hM : VA.submatrix fs fs * M = VA.submatrix fs fu := by
    rw [hMdef, ← Matrix.mul_assoc, Matrix.mul_nonsing_inv _ hVd, Matrix.one_mul]
  have hXs : a.Kii * (a.Kii⁻¹ * a.Kit).submatrix id fs = a.Kit.submatrix id fs := by
    rw [← mul_submatrix_cols, hX]
  have hXu : a.Kii * (a.Kii⁻¹ * a.Kit).submatrix id fu = a.Kit.submatrix id fu := by
    rw [← mul_submatrix_cols, hX]
  obtain ⟨t1, t2⟩ := two_stage (Dss := a.Ktt.submatrix fs fs) (Dsu := a.Ktt.submatrix fs fu)
    (Duu := a.Ktt.submatrix fu fu) (PosDef.symm hA) hXs hXu (M := M) hM
  have hbX : b.Kii * (b.Kii⁻¹ * b.Kit) = b.Kit := by
    rw [← Matrix.mul_assoc, Matrix.mul_nonsing_inv _ (PosDef.det_unit hb), Matrix.one_mul]
  have hsol := solve_reindex e ((Matrix.isUnit_iff_isUnit_det _).mpr (PosDef.det_unit hb)) hbX
    (Y := fromRows ((a.Kii⁻¹ * a.Kit).submatrix id fu - (a.Kii⁻¹ * a.Kit).submatrix id fs * M) M)
    (by rw [h.obs, h.cross]; exact t1)
  have hcov : b.Ktt - (b.Kii⁻¹ * b.Kit)ᵀ * b.Kit = VA.submatrix fu fu - Mᵀ * VA.submatrix fs fu := by
    rw [cov_reindex e, hsol, h.cross, h.targets]
    exact t2
  refine ⟨_, VA, _, b.Ktt - (b.Kii⁻¹ * b.Kit)ᵀ * b.Kit, M, e1.2.1, e2.2.1, ?_, ?_, ?_⟩
  · rw [hcov]; exact e3.2.1
  · intro z t
    rw [← e.sum_comp, Fintype.sum_sum_type]
    have c1 : ∀ i, (b.Kii⁻¹ * b.Kit) (e (.inl i)) t = (a.Kii⁻¹ * a.Kit) i (fu t) - ∑ k, (a.Kii⁻¹ * a.Kit) i (fs k) * M k t := by
      intro i
      have := congrFun (congrFun hsol (.inl i)) t
      exact this
    have c2 : ∀ k, (b.Kii⁻¹ * b.Kit) (e (.inr k)) t = M k t := fun k => congrFun (congrFun hsol (.inr k)) t
    simp only [c1, c2, sub_mul, mul_sub, Finset.sum_sub_distrib, Finset.sum_mul, Finset.mul_sum]
    rw [Finset.sum_comm]
    have : ∀ k i, (a.Kii⁻¹ * a.Kit) i (fs k) * M k t * z (e (.inl i)) = M k t * ((a.Kii⁻¹ * a.Kit) i (fs k) * z (e (.inl i))) := by
      intro k i; ring
    simp only [this]
    ring
  · intro t
    rw [hcov, Matrix.sub_apply, submatrix_apply]
    have := stage_le hV hM t
    linarith

/-- **C228** The same with an unknown linear mean: the first prediction is by universal kriging, the
correction is by simple kriging. -/
theorem update_universal (hla : la.Contract be) {e : Fin (q + r) ⊕ Fin s ≃ Fin (q + r')} {a : Arrays (q + r) m q}
    {b : Arrays (q + r') u q} (h : Staged e fs fu a b) (hb : b.Kii.PosDef) (hP : FullRank a.Pi) :
    ∃ lamA VA lamB VB mu, krigingUniversal la a 1 = .ok (lamA, .cov VA) ∧
      krigingUniversal la b 1 = .ok (lamB, .cov VB) ∧
      krigingZeroMean la (stage VA fs fu) 1 = .ok (mu, .cov VB) ∧
      (∀ (z : Fin (q + r') → ℝ) t, ∑ j, lamB j t * z j = ∑ i, lamA i (fu t) * z (e (.inl i)) +
        ∑ k, mu k t * (z (e (.inr k)) - ∑ i, lamA i (fs k) * z (e (.inl i)))) ∧
      ∀ t, VB t t ≤ VA (fu t) (fu t) := by
  have hA : a.Kii.PosDef := h.joined.posDef hb
  have hP' : FullRank b.Pi := h.joined.fullRank hP
  obtain ⟨X, hX, -, e1⟩ := ukDirect_ok hla a (CPD.of_posDef hA _) hP
  obtain ⟨Y, hY, -, e2⟩ := ukDirect_ok hla b (CPD.of_posDef hb _) hP'
  have hR : ∀ {w : ℕ} (f : Fin w → Fin m), (ukRHS a).submatrix id f = ukRHS (a.at f) := by
    intro w f
    ext x y
    rcases x with x | x <;> rfl
  have hXs : ukLHS a * X.submatrix id fs = (ukRHS a).submatrix id fs := by rw [← mul_submatrix_cols, hX]
  have hXu : ukLHS a * X.submatrix id fu = (ukRHS a).submatrix id fu := by rw [← mul_submatrix_cols, hX]
  set VA := a.Ktt - Xᵀ * ukRHS a with hVA
  have hV : (VA.submatrix fs fs).PosDef := by
    have := h.joined.posDef_universal hb (X := X.submatrix id fs) (by
      change ukLHS a * X.submatrix id fs = _
      rw [hXs, hR])
    rw [← hR] at this
    exact this
  have hVd := PosDef.det_unit hV
  have e3 := krigingZeroMean_ok hla (stage VA fs fu) hV
  set M : Matrix (Fin s) (Fin u) ℝ := (VA.submatrix fs fs)⁻¹ * VA.submatrix fs fu with hMdef
  have hM : VA.submatrix fs fs * M = VA.submatrix fs fu := by
    rw [hMdef, ← Matrix.mul_assoc, Matrix.mul_nonsing_inv _ hVd, Matrix.one_mul]
  obtain ⟨t1, t2⟩ := two_stage (Dss := a.Ktt.submatrix fs fs) (Dsu := a.Ktt.submatrix fs fu)
    (Duu := a.Ktt.submatrix fu fu) (bordered_symm hA a.Pi) hXs hXu (M := M) hM
  have hrhs : (ukRHS b).submatrix (borderEquiv e) id = fromRows ((ukRHS a).submatrix id fu) (a.Ktt.submatrix fs fu) := by
    have hc : ∀ x y, b.Kit (e x) y = fromRows (a.Kit.submatrix id fu) (a.Ktt.submatrix fs fu) x y :=
      fun x y => congrFun (congrFun h.cross x) y
    ext x y
    rcases x with (x | x) | x
    · simp [borderEquiv, ukRHS, hc]
    · simp [borderEquiv, ukRHS, h.meanTargets]
    · simp [borderEquiv, ukRHS, hc]
  have hlhs : (ukLHS b).submatrix (borderEquiv e) (borderEquiv e) =
      fromBlocks (ukLHS a) ((ukRHS a).submatrix id fs) ((ukRHS a).submatrix id fs)ᵀ (a.Ktt.submatrix fs fs) := by
    have := h.joined.bordered
    rw [← hR] at this
    exact this
  have hsol := solve_reindex (borderEquiv e) (ukLHS_unit b (CPD.of_posDef hb _) hP') hY
    (Y := fromRows (X.submatrix id fu - X.submatrix id fs * M) M)
    (by rw [hlhs, hrhs]; exact t1)
  have hcov : b.Ktt - Yᵀ * ukRHS b = VA.submatrix fu fu - Mᵀ * VA.submatrix fs fu := by
    rw [cov_reindex (borderEquiv e), hsol, hrhs, h.targets]
    exact t2
  refine ⟨X.toRows₁, VA, Y.toRows₁, b.Ktt - Yᵀ * ukRHS b, M, by simp only [krigingUniversal, e1],
    by simp only [krigingUniversal, e2], ?_, ?_, ?_⟩
  · rw [hcov]; exact e3.2.1
  · intro z t
    rw [← e.sum_comp, Fintype.sum_sum_type]
    have c1 : ∀ i, Y.toRows₁ (e (.inl i)) t = X.toRows₁ i (fu t) - ∑ k, X.toRows₁ i (fs k) * M k t := by
      intro i
      exact congrFun (congrFun hsol (.inl (.inl i))) t
    have c2 : ∀ k, Y.toRows₁ (e (.inr k)) t = M k t := fun k => congrFun (congrFun hsol (.inr k)) t
    simp only [c1, c2, sub_mul, mul_sub, Finset.sum_sub_distrib, Finset.sum_mul, Finset.mul_sum]
    rw [Finset.sum_comm]
    have : ∀ k i, X.toRows₁ i (fs k) * M k t * z (e (.inl i)) = M k t * (X.toRows₁ i (fs k) * z (e (.inl i))) := by
      intro k i; ring
    simp only [this]
    ring
  · intro t
    rw [hcov, Matrix.sub_apply, submatrix_apply]
    have := stage_le hV hM t
    linarith

/-- Observations 0 and 1; then 2; the target is 3. -/
theorem ex_staged : Staged (finSumFinEquiv : Fin 2 ⊕ Fin 1 ≃ Fin 3) (fun _ => (0 : Fin 2)) (fun _ : Fin 1 => (1 : Fin 2))
    (pointArrays exK (fun _ => 1) (fun i => i) (fun t => 2 + t))
    (pointArrays exK (fun _ => 1) (fun i => i) (fun _ => 3)) where
  obs := by
    ext x y
    rcases x with x | x <;> rcases y with y | y <;> fin_cases x <;> fin_cases y <;>
      simp [pointArrays, exK, finSumFinEquiv]
  cross := by
    ext x y
    rcases x with x | x <;> fin_cases x <;> fin_cases y <;>
      simp [pointArrays, exK, finSumFinEquiv]
  targets := by
    ext x y
    fin_cases x
    fin_cases y
    simp [pointArrays, exK]
  meanObs := by
    ext x y
    rcases x with x | x <;> rfl
  meanTargets := by
    ext x y
    rfl

example : ∃ lam V, krigingUniversal (q := 1) (r := 2) (exactLA .numpy)
    (pointArrays (n := 3) (m := 1) exK (fun _ => 1) (fun i => i) (fun _ => 3)) 1 = .ok (lam, .cov V) := by
  obtain ⟨_, _, lam, V, _, -, h, -⟩ := update_universal (q := 1) (r := 1) (r' := 2) (exactLA_contract .numpy) ex_staged
    (exK_posDef 3) ex_fullRank
  exact ⟨lam, V, h⟩

end Verif.Core
