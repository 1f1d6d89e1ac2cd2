import Verif.Core.PropsProper
import Verif.Core.PropsMaternGP

/-!
# C252: which covariance parameters the data can tell apart
-/

set_option autoImplicit false

namespace Verif.Core

open Verif Verif.Data Matrix MeasureTheory ProbabilityTheory
open Verif.Kernel (cov covII covIT covPairwise maternFormula YArg)

variable {n m q d r : ℕ} {be : Backend} {la : LA}

/-- The squared differences of the coordinates of the points are rich enough to determine one weight
per coordinate. -/
def Spread (x : Matrix (Fin n) (Fin d) ℝ) : Prop :=
  ∀ c : Fin d → ℝ, (∀ i j, ∑ k, c k * (x i k - x j k) ^ 2 = 0) → c = 0

/-- Squared distance with inverse length scales `exp l`. -/
noncomputable def sqScaled (l x y : Fin d → ℝ) : ℝ := ∑ k, Real.exp (l k) ^ 2 * (x k - y k) ^ 2

theorem scaledDistance_sq (l x y : Fin d → ℝ) : Kernel.scaledDistance l x y = Real.sqrt (sqScaled l x y) := by
  simp only [Kernel.scaledDistance, Kernel.cdistNumpy, Kernel.scaleRow, sqScaled]
  congr 1
  refine Finset.sum_congr rfl fun k _ => by ring

theorem sqScaled_nonneg (l x y : Fin d → ℝ) : 0 ≤ sqScaled l x y :=
  Finset.sum_nonneg fun k _ => by positivity

/-- **C252** Two parameter vectors give the same covariance matrix at the same points exactly when they
have the same variance and the same scaled distances between the points. -/
theorem cov_same_iff (p : ℕ) {eps : ℝ} (he : 0 ≤ eps) (a b : Fin (d + 1) → ℝ) (x : Matrix (Fin (n + 1)) (Fin d) ℝ) :
    cov (maternFormula p) eps a x .same = cov (maternFormula p) eps b x .same ↔
      a 0 = b 0 ∧ ∀ i j, sqScaled (fun k => a k.succ) (x i) (x j) = sqScaled (fun k => b k.succ) (x i) (x j) := by
  obtain ⟨k0, -, kanti, -⟩ := Kernel.maternFormula_shape_props p
  have hent : ∀ (a : Fin (d + 1) → ℝ) i j, cov (maternFormula p) eps a x .same i j = Real.exp (a 0) *
      (maternFormula p (Real.sqrt (sqScaled (fun k => a k.succ) (x i) (x j))) + 10 * eps * (if i = j then 1 else 0)) := by
    intro a i j
    simp only [cov, covII, of_apply, scaledDistance_sq]
    ring
  have hdiag : ∀ (a : Fin (d + 1) → ℝ) i, cov (maternFormula p) eps a x .same i i = Real.exp (a 0) * (1 + 10 * eps) := by
    intro a i
    rw [hent]
    simp [sqScaled, k0]
  constructor
  · intro h
    have h0 : a 0 = b 0 := by
      have h1 := congrFun (congrFun h 0) 0
      rw [hdiag, hdiag] at h1
      exact Real.exp_injective (mul_right_cancel₀ (by positivity) h1)
    refine ⟨h0, fun i j => ?_⟩
    have h1 := congrFun (congrFun h i) j
    rw [hent, hent, h0] at h1
    have h2 := mul_left_cancel₀ (Real.exp_pos (b 0)).ne' h1
    have h3 := kanti.injOn (Real.sqrt_nonneg _) (Real.sqrt_nonneg _) (add_right_cancel h2)
    exact (Real.sqrt_inj (sqScaled_nonneg _ _ _) (sqScaled_nonneg _ _ _)).1 h3
  · rintro ⟨h0, hs⟩
    ext i j
    rw [hent, hent, h0, hs]

/-- **C252** The parameters are determined by the covariance matrix exactly when the points are
spread, whichever parameters they are. -/
theorem cov_identified_iff (p : ℕ) {eps : ℝ} (he : 0 ≤ eps) (a : Fin (d + 1) → ℝ) (x : Matrix (Fin (n + 1)) (Fin d) ℝ) :
    (∀ b, cov (maternFormula p) eps a x .same = cov (maternFormula p) eps b x .same → a = b) ↔ Spread x := by
  constructor
  · intro h c hc
    by_contra hne
    set S := 1 + ∑ k, |c k| with hS
    have hS1 : ∀ k, |c k| < S := fun k => by
      have := Finset.single_le_sum (f := fun k => |c k|) (fun k _ => abs_nonneg _) (Finset.mem_univ k)
      linarith
    have hSp : 0 < S := by
      have : 0 ≤ ∑ k, |c k| := Finset.sum_nonneg fun k _ => abs_nonneg _
      linarith
    set M := Real.exp (-∑ k : Fin d, |2 * a k.succ|) with hM
    have hMk : ∀ k : Fin d, M ≤ Real.exp (a k.succ) ^ 2 := fun k => by
      rw [← Real.exp_nat_mul]
      apply Real.exp_le_exp.2
      have := Finset.single_le_sum (f := fun k : Fin d => |2 * a k.succ|) (fun k _ => abs_nonneg _) (Finset.mem_univ k)
      have := neg_abs_le (2 * a k.succ)
      push_cast
      linarith
    have hMp : 0 < M := Real.exp_pos _
    have hpos : ∀ k : Fin d, 0 < Real.exp (a k.succ) ^ 2 + M / S * c k := fun k => by
      have h1 : -(M / S * c k) < M := by
        rw [← mul_neg, div_mul_eq_mul_div, div_lt_iff₀ hSp]
        exact mul_lt_mul_of_pos_left (lt_of_le_of_lt (neg_le_abs _) (hS1 k)) hMp
      have := hMk k
      linarith
    set b : Fin (d + 1) → ℝ := Fin.cons (a 0) fun k => Real.log (Real.exp (a k.succ) ^ 2 + M / S * c k) / 2 with hb
    have hbk : ∀ k : Fin d, Real.exp (b k.succ) ^ 2 = Real.exp (a k.succ) ^ 2 + M / S * c k := fun k => by
      rw [← Real.exp_nat_mul, hb, Fin.cons_succ]
      push_cast
      rw [mul_div_cancel₀ _ (by norm_num), Real.exp_log (hpos k)]
    have hab := h b ((cov_same_iff p he a b x).2 ⟨by rw [hb, Fin.cons_zero], fun i j => by
      simp only [sqScaled, hbk, add_mul, Finset.sum_add_distrib, mul_assoc, ← Finset.mul_sum, hc]
      ring⟩)
    apply hne
    funext k
    have := hbk k
    rw [← hab] at this
    have h2 : M / S * c k = 0 := by linarith
    exact (mul_eq_zero.1 h2).resolve_left (by positivity)
  · intro h b hab
    obtain ⟨h0, hs⟩ := (cov_same_iff p he a b x).1 hab
    have hc := h (fun k => Real.exp (a k.succ) ^ 2 - Real.exp (b k.succ) ^ 2) fun i j => by
      have := hs i j
      simp only [sqScaled] at this
      simp only [sub_mul, Finset.sum_sub_distrib]
      linarith
    funext k
    refine Fin.cases h0 (fun k => ?_) k
    have h1 := congrFun hc k
    simp only [Pi.zero_apply] at h1
    have h2 : Real.exp (a k.succ) = Real.exp (b k.succ) :=
      (pow_left_inj₀ (Real.exp_pos _).le (Real.exp_pos _).le two_ne_zero).1 (by linarith)
    exact Real.exp_injective h2

/-- **C252** For data drawn from the model with parameters `a`, the average of the likelihood criterion
is smallest at `a`; it is strictly smaller at `a` than at every other parameter vector exactly when the
points are spread. -/
theorem nll_identified (hla : la.Sound be) (p : ℕ) {eps : ℝ} (a : Fin (d + 1) → ℝ)
    {x : Matrix (Fin (n + 1)) (Fin d) ℝ} (hx : Admissible eps x) :
    ∃ f : (Fin (d + 1) → ℝ) → (Fin (n + 1) → ℝ) → ℝ,
      (∀ b z, nllZeroMean be la (cov (maternFormula p) eps b x .same) z = .ok (.finite (f b z))) ∧
      (∀ b, Integrable (f b) (normalLaw 0 (cov (maternFormula p) eps a x .same))) ∧
      (∀ b, ∫ z, f a z ∂(normalLaw 0 (cov (maternFormula p) eps a x .same)) ≤
        ∫ z, f b z ∂(normalLaw 0 (cov (maternFormula p) eps a x .same))) ∧
      ((∀ b, b ≠ a → ∫ z, f a z ∂(normalLaw 0 (cov (maternFormula p) eps a x .same)) <
        ∫ z, f b z ∂(normalLaw 0 (cov (maternFormula p) eps a x .same))) ↔ Spread x) := by
  have hK := fun b => matern_Kii p b hx
  have hP := fun b => gauss_proper (hK a) (hK b) 0 0
  refine ⟨_, fun b z => (nll_eq hla (hK b) 0 z).2, fun b => (hP b).1, fun b => (hP b).2.1, ?_⟩
  rw [← cov_identified_iff p hx.nonneg a x]
  constructor
  · intro h b hab
    by_contra hne
    exact (h b (Ne.symm hne)).ne ((hP b).2.2.2 ⟨hab, rfl⟩)
  · intro h b hba
    refine lt_of_le_of_ne (hP b).2.1 fun he => hba ?_
    exact (h b ((hP b).2.2.1 he).1).symm

/-- In one dimension two distinct points are enough. -/
theorem spread_one {x : Matrix (Fin n) (Fin 1) ℝ} {i j : Fin n} (h : x i 0 ≠ x j 0) : Spread x := by
  intro c hc
  have h1 := hc i j
  rw [Fin.sum_univ_one] at h1
  funext k
  rw [Subsingleton.elim k 0]
  exact (mul_eq_zero.1 h1).resolve_right (pow_ne_zero 2 (sub_ne_zero.2 h))

/-- Points that differ from a common point in one coordinate each, for every coordinate, are enough. -/
theorem spread_star {x : Matrix (Fin n) (Fin d) ℝ} (i : Fin n) (s : Fin d → Fin n) (h : ∀ k, x i k ≠ x (s k) k)
    (h' : ∀ k l, l ≠ k → x i l = x (s k) l) : Spread x := by
  intro c hc
  funext k
  have h1 := hc i (s k)
  rw [Finset.sum_eq_single k (fun l _ hl => by rw [h' k l hl, sub_self]; ring) (by simp)] at h1
  exact (mul_eq_zero.1 h1).resolve_right (pow_ne_zero 2 (sub_ne_zero.2 (h k)))

/-- **C252, negation** Distinct points on a diagonal do not determine two length scales: other
parameters give the same criterion whatever the data. -/
theorem nll_diagonal_false (p : ℕ) (eps : ℝ) (he : 0 ≤ eps) : ∃ a b : Fin 3 → ℝ, a ≠ b ∧
    ∃ x : Matrix (Fin 4) (Fin 2) ℝ, Function.Injective x ∧ ∀ (be : Backend) (la : LA) (z : Fin 4 → ℝ),
      nllZeroMean be la (cov (maternFormula p) eps a x .same) z =
        nllZeroMean be la (cov (maternFormula p) eps b x .same) z := by
  have hnot : ¬ Spread (Matrix.of fun (i : Fin 4) (_ : Fin 2) => (i : ℝ)) := by
    intro h
    have := congrFun (h ![1, -1] fun i j => by simp [Fin.sum_univ_two]) 0
    simp at this
  rw [← cov_identified_iff p he 0] at hnot
  push Not at hnot
  obtain ⟨b, hb, hne⟩ := hnot
  refine ⟨0, b, hne, _, fun i j hij => ?_, fun be la z => by rw [hb]⟩
  have := congrFun hij 0
  simp only [of_apply, Nat.cast_inj] at this
  exact Fin.ext this

/-- A grid in the plane: the hypotheses are met. -/
example : Spread (!![0, 0; 1, 0; 0, 1; 1, 1] : Matrix (Fin 4) (Fin 2) ℝ) :=
  spread_star 0 ![1, 2] (by intro k; fin_cases k <;> simp) (by
    intro k l h
    fin_cases k <;> fin_cases l <;> simp_all)

/-! ## Restricted likelihood with a constant mean -/

/-- Half squared increments: `Var(Z i - Z j)`. -/
def variogram (K : Mat n n) (i j : Fin n) : ℝ := K i i + K j j - 2 * K i j

theorem contrast_variogram {K : Mat n n} (w : Fin n → ℝ) (hw : ∑ i, w i = 0) :
    w ⬝ᵥ (K *ᵥ w) = -(1 / 2) * ∑ i, ∑ j, w i * w j * variogram K i j := by
  have h1 : ∑ i, ∑ j, w i * w j * K i i = 0 := by
    simp_rw [mul_assoc, ← Finset.mul_sum, mul_comm _ (K _ _)]
    simp [← Finset.mul_sum, hw]
  have h2 : ∑ i, ∑ j, w i * w j * K j j = 0 := by
    rw [Finset.sum_comm]
    simp_rw [mul_comm (w _) (w _), mul_assoc, ← Finset.mul_sum, mul_comm _ (K _ _)]
    simp [← Finset.mul_sum, hw]
  have h3 : ∑ i, ∑ j, w i * w j * variogram K i j = ∑ i, ∑ j, w i * w j * K i i + ∑ i, ∑ j, w i * w j * K j j -
      2 * ∑ i, ∑ j, w i * w j * K i j := by
    simp only [variogram, Finset.mul_sum, ← Finset.sum_add_distrib, ← Finset.sum_sub_distrib]
    refine Finset.sum_congr rfl fun i _ => Finset.sum_congr rfl fun j _ => by ring
  rw [h3, h1, h2]
  have : w ⬝ᵥ (K *ᵥ w) = ∑ i, ∑ j, w i * w j * K i j := by
    simp only [dotProduct, mulVec, Finset.mul_sum]
    refine Finset.sum_congr rfl fun i _ => Finset.sum_congr rfl fun j _ => by ring
  rw [this]
  ring

theorem contrasts_variogram {K0 K1 : Mat n n} (h0 : K0ᵀ = K0) (h1 : K1ᵀ = K1) :
    (∀ w, (Matrix.of fun (_ : Fin n) (_ : Fin 1) => (1 : ℝ))ᵀ *ᵥ w = 0 → w ⬝ᵥ (K0 *ᵥ w) = w ⬝ᵥ (K1 *ᵥ w)) ↔
      variogram K0 = variogram K1 := by
  have hs : ∀ w : Fin n → ℝ, (Matrix.of fun (_ : Fin n) (_ : Fin 1) => (1 : ℝ))ᵀ *ᵥ w = 0 ↔ ∑ i, w i = 0 := fun w => by
    rw [funext_iff]
    simp [mulVec, dotProduct]
  constructor
  · intro h
    have hv : ∀ K : Mat n n, Kᵀ = K → ∀ i j, variogram K i j =
        (Pi.single i 1 - Pi.single j 1) ⬝ᵥ (K *ᵥ (Pi.single i 1 - Pi.single j 1)) := fun K hK i j => by
      have : K j i = K i j := congrFun (congrFun hK i) j
      simp only [mulVec_sub, sub_dotProduct, dotProduct_sub, mulVec_single_one, single_dotProduct, col_apply, one_mul,
        variogram, this]
      ring
    funext i j
    rw [hv _ h0, hv _ h1, h]
    rw [hs]
    simp
  · intro h w hw
    rw [hs] at hw
    rw [contrast_variogram w hw, contrast_variogram w hw, h]

/-- **C252** With a constant mean the average of the restricted likelihood criterion is smallest for the
covariance of the data, and as small only for covariances with the same variances of increments. -/
theorem reml_increments (hla : la.Sound be) {K0 K1 : Mat (1 + r) (1 + r)} (h0 : K0.PosDef) (h1 : K1.PosDef) (mu : ℝ) :
    ∃ f0 f1 : (Fin (1 + r) → ℝ) → ℝ,
      (∀ z, reml be la K0 (Matrix.of fun (_ : Fin (1 + r)) (_ : Fin 1) => (1 : ℝ)) z = .ok (.finite (f0 z))) ∧
      (∀ z, reml be la K1 (Matrix.of fun (_ : Fin (1 + r)) (_ : Fin 1) => (1 : ℝ)) z = .ok (.finite (f1 z))) ∧
      ∫ z, f0 z ∂(normalLaw (fun _ => mu) K0) ≤ ∫ z, f1 z ∂(normalLaw (fun _ => mu) K0) ∧
      (∫ z, f0 z ∂(normalLaw (fun _ => mu) K0) = ∫ z, f1 z ∂(normalLaw (fun _ => mu) K0) ↔
        variogram K0 = variogram K1) := by
  have hP : FullRank (Matrix.of fun (_ : Fin (1 + r)) (_ : Fin 1) => (1 : ℝ)) := fun b hb => by
    have := congrFun hb ⟨0, by omega⟩
    funext k
    rw [Subsingleton.elim k 0]
    simpa [mulVec, dotProduct] using this
  have hc : ∀ {K : Mat (1 + r) (1 + r)}, K.PosDef → CPD K (Matrix.of fun (_ : Fin (1 + r)) (_ : Fin 1) => (1 : ℝ)) :=
    fun h => CPD.of_posDef h _
  obtain ⟨f0, f1, e0, e1, -, -, hle, hiff⟩ := reml_proper hla (hc h0) h0.posSemidef (hc h1) hP fun _ => mu
  have hm : (Matrix.of fun (_ : Fin (1 + r)) (_ : Fin 1) => (1 : ℝ)) *ᵥ (fun _ => mu) = fun _ => mu := by
    funext i
    simp [mulVec, dotProduct]
  rw [hm] at hle hiff
  exact ⟨f0, f1, e0, e1, hle, hiff.trans
    (contrasts_variogram (PosSemidef.symm h0.posSemidef) (PosSemidef.symm h1.posSemidef))⟩

theorem reml_same (hla : la.Sound be) {K0 K1 : Mat (q + r) (q + r)} {P : Mat (q + r) q} (h0 : CPD K0 P)
    (h1 : CPD K1 P) (hP : FullRank P) (h : ∀ w, Pᵀ *ᵥ w = 0 → w ⬝ᵥ (K0 *ᵥ w) = w ⬝ᵥ (K1 *ᵥ w))
    (z : Fin (q + r) → ℝ) : reml be la K0 P z = reml be la K1 P z := by
  set W := contrastMatrix la P
  have hW : IsContrast P W := (hla.qr_ok P (Nat.le_add_right q r)).contrast hP
  have hG0 : (Wᵀ * (K0 * W)).PosDef := contrast_posDef hW.orth hW.null h0
  have hG1 : (Wᵀ * (K1 * W)).PosDef := contrast_posDef hW.orth hW.null h1
  have hq : ∀ (K : Mat (q + r) (q + r)) (y : Fin r → ℝ),
      y ⬝ᵥ ((Wᵀ * (K * W)) *ᵥ y) = (W *ᵥ y) ⬝ᵥ (K *ᵥ (W *ᵥ y)) := fun K y => by
    rw [← mulVec_mulVec, ← mulVec_mulVec, dotProduct_mulVec, vecMul_transpose]
  have e : Wᵀ * (K0 * W) = Wᵀ * (K1 * W) := by
    refine sub_eq_zero.1 (quad_polar ?_ fun y => ?_)
    · rw [transpose_sub, PosSemidef.symm hG0.posSemidef, PosSemidef.symm hG1.posSemidef]
    · rw [sub_mulVec, dotProduct_sub, hq, hq, h, sub_self]
      rw [mulVec_mulVec, hW.null, zero_mulVec]
  rw [reml_eq hla h0 hP z hW, reml_eq hla h1 hP z hW, e]

/-- **C252, negation** Two points on a line determine the variance and the length scale for the
likelihood, but not for the restricted likelihood with a constant mean: other parameters give the same
criterion whatever the data. -/
theorem reml_two_points_false (p : ℕ) : ∃ x : Matrix (Fin (1 + 1)) (Fin 1) ℝ, Function.Injective x ∧ Spread x ∧
    ∃ a b : Fin 2 → ℝ, a ≠ b ∧ ∀ (be : Backend) (la : LA), la.Sound be → ∀ z : Fin (1 + 1) → ℝ,
      reml be la (cov (maternFormula p) 0 a x .same) (Matrix.of fun _ (_ : Fin 1) => (1 : ℝ)) z =
        reml be la (cov (maternFormula p) 0 b x .same) (Matrix.of fun _ (_ : Fin 1) => (1 : ℝ)) z := by
  obtain ⟨k0, -, -, klt⟩ := Kernel.maternFormula_shape_props p
  set x : Matrix (Fin (1 + 1)) (Fin 1) ℝ := Matrix.of fun i _ => (i : ℝ) with hx
  have hinj : Function.Injective x := fun i j h => by
    have := congrFun h 0
    simp only [hx, of_apply, Nat.cast_inj] at this
    exact Fin.ext this
  set s := (1 - maternFormula p 1) / (1 - maternFormula p (Real.exp 1)) with hs
  have h1 : 0 < 1 - maternFormula p 1 := sub_pos.2 (klt 1 one_pos)
  have h2 : 0 < 1 - maternFormula p (Real.exp 1) := sub_pos.2 (klt _ (Real.exp_pos 1))
  have hsp : 0 < s := div_pos h1 h2
  refine ⟨x, hinj, spread_one (i := 0) (j := 1) (by simp [hx]), 0, ![Real.log s, 1], fun h => ?_, fun be la hla z => ?_⟩
  · have := congrFun h 1
    simp at this
  have hd : ∀ a : Fin 2 → ℝ, (cov (maternFormula p) 0 a x .same).PosDef := fun a =>
    Kernel.cov_posDef p 0 le_rfl a x _ (Or.inr rfl) hinj
  have hP : FullRank (Matrix.of fun (_ : Fin (1 + 1)) (_ : Fin 1) => (1 : ℝ)) := fun b hb => by
    have := congrFun hb 0
    funext k
    rw [Subsingleton.elim k 0]
    simpa [mulVec, dotProduct] using this
  refine reml_same hla (CPD.of_posDef (hd _) _) (CPD.of_posDef (hd _) _) hP ?_ z
  refine (contrasts_variogram (PosSemidef.symm (hd _).posSemidef) (PosSemidef.symm (hd _).posSemidef)).2 ?_
  have hv : ∀ (a : Fin 2 → ℝ) i j, variogram (cov (maternFormula p) 0 a x .same) i j =
      if i = j then 0 else 2 * Real.exp (a 0) * (1 - maternFormula p (Real.exp (a 1))) := fun a i j => by
    have hself : ∀ i, maternFormula p (Kernel.scaledDistance (fun k => a k.succ) (x i) (x i)) = 1 := fun i => by
      rw [Kernel.scaledDistance_self, k0]
    have hoff : ∀ i j, i ≠ j → Kernel.scaledDistance (fun k => a k.succ) (x i) (x j) = Real.exp (a 1) := fun i j hij => by
      rw [scaledDistance_sq]
      have : (x i 0 - x j 0) ^ 2 = 1 := by
        fin_cases i <;> fin_cases j <;> simp_all
      simp only [sqScaled, Fin.sum_univ_one, this, mul_one]
      rw [Real.sqrt_sq (Real.exp_pos _).le]
      rfl
    by_cases hij : i = j
    · subst hij
      simp only [variogram, if_true]
      ring
    · simp only [variogram, cov, covII, of_apply, hself, hoff i j hij, if_neg hij, if_true]
      ring
  funext i j
  rw [hv, hv]
  by_cases hij : i = j
  · simp [hij]
  · simp only [if_neg hij, Pi.zero_apply, Real.exp_zero, Matrix.cons_val_zero, Matrix.cons_val_one, Real.exp_log hsp]
    rw [hs, mul_assoc 2 _ (1 - maternFormula p (Real.exp 1)), div_mul_cancel₀ _ h2.ne']
    ring

end Verif.Core
