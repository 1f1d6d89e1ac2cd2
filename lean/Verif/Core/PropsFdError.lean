import Verif.Core.PropsFisher
import Verif.Core.PropsSmooth
import Verif.Backend.PropsArrays
import Mathlib.Analysis.Calculus.IteratedDeriv.Defs
import Mathlib.Analysis.Calculus.ContDiff.Deriv
import Mathlib.Analysis.Calculus.MeanValue
import Mathlib.Analysis.Complex.ExponentialBounds

/-!
# C258: the error of the five-point difference formula

A truncation error of order four, and the errors of the four values divided by the step.
-/

set_option autoImplicit false

namespace Verif.Core

open Verif Verif.Data Matrix Set

/-- A function that starts at zero and whose slope is at most a power is at most its primitive. -/
theorem grow_pow {f f' : ℝ → ℝ} {c h : ℝ} {k : ℕ} (hd : ∀ s ∈ Icc 0 h, HasDerivAt f (f' s) s) (h0 : f 0 = 0)
    (hb : ∀ s ∈ Icc 0 h, |f' s| ≤ c * s ^ k) : ∀ s ∈ Icc 0 h, |f s| ≤ c / (k + 1) * s ^ (k + 1) := by
  have hp : ∀ s : ℝ, HasDerivAt (fun s : ℝ => c / (k + 1) * s ^ (k + 1)) (c * s ^ k) s := fun s => by
    refine ((hasDerivAt_pow (k + 1) s).const_mul (c / ((k : ℝ) + 1))).congr_deriv ?_
    push_cast
    have : (k : ℝ) + 1 ≠ 0 := by positivity
    field_simp
  have mono : ∀ g g' : ℝ → ℝ, (∀ s ∈ Icc 0 h, HasDerivAt g (g' s) s) → (∀ s ∈ Icc 0 h, 0 ≤ g' s) → g 0 = 0 →
      ∀ s ∈ Icc 0 h, 0 ≤ g s := by
    intro g g' hg hn g0 s hs
    have hm : MonotoneOn g (Icc 0 h) := by
      refine monotoneOn_of_deriv_nonneg (convex_Icc 0 h) (fun t ht => (hg t ht).continuousAt.continuousWithinAt) ?_ ?_
      · intro t ht
        exact (hg t (interior_subset ht)).differentiableAt.differentiableWithinAt
      · intro t ht
        rw [(hg t (interior_subset ht)).deriv]
        exact hn t (interior_subset ht)
    have := hm ⟨le_rfl, hs.1.trans hs.2⟩ hs hs.1
    rwa [g0] at this
  intro s hs
  have a1 := mono (fun s => c / (k + 1) * s ^ (k + 1) - f s) (fun s => c * s ^ k - f' s) (fun t ht => (hp t).sub (hd t ht))
    (fun t ht => by have := (abs_le.mp (hb t ht)).2; linarith) (by simp [h0]) s hs
  have a2 := mono (fun s => c / (k + 1) * s ^ (k + 1) + f s) (fun s => c * s ^ k + f' s) (fun t ht => (hp t).add (hd t ht))
    (fun t ht => by have := (abs_le.mp (hb t ht)).1; linarith) (by simp [h0]) s hs
  rw [abs_le]
  constructor <;> linarith

/-- The truncation error. -/
theorem fd_truncation {F : ℕ → ℝ → ℝ} {x h M : ℝ} (hh : 0 < h)
    (hF : ∀ k < 5, ∀ t ∈ Icc (x - 2 * h) (x + 2 * h), HasDerivAt (F k) (F (k + 1) t) t)
    (hM : ∀ t ∈ Icc (x - 2 * h) (x + 2 * h), |F 5 t| ≤ M) :
    |finiteDiff (F 0) x h - F 1 x| ≤ M * h ^ 4 / 30 := by
  have hin : ∀ {c s : ℝ}, s ∈ Icc 0 h → |c| ≤ 2 → x + c * s ∈ Icc (x - 2 * h) (x + 2 * h) := by
    intro c s hs hc
    have h1 : |c * s| ≤ 2 * h := by
      rw [abs_mul, abs_of_nonneg hs.1]
      exact mul_le_mul hc hs.2 hs.1 (by norm_num)
    have := abs_le.mp h1
    constructor <;> linarith
  have hc : ∀ (k : ℕ), k < 5 → ∀ (c s : ℝ), s ∈ Icc 0 h → |c| ≤ 2 →
      HasDerivAt (fun s => F k (x + c * s)) (F (k + 1) (x + c * s) * c) s := by
    intro k hk c s hs hc
    have h1 : HasDerivAt (fun s : ℝ => x + c * s) c s := by
      simpa using ((hasDerivAt_id s).const_mul c).const_add x
    exact (hF k hk _ (hin hs hc)).comp s h1
  have a2 : |(2 : ℝ)| ≤ 2 := by norm_num
  have a1 : |(1 : ℝ)| ≤ 2 := by norm_num
  have b1 : |(-1 : ℝ)| ≤ 2 := by norm_num
  have b2 : |(-2 : ℝ)| ≤ 2 := by norm_num
  -- the third derivative of the numerator
  have g3 : ∀ s ∈ Icc 0 h, |-8 * F 3 (x + 2 * s) + 8 * F 3 (x + 1 * s) + 8 * F 3 (x + (-1) * s) - 8 * F 3 (x + (-2) * s)| ≤
      24 * M * s ^ 2 := by
    intro s hs
    rcases eq_or_lt_of_le hs.1 with h0 | h0
    · rw [← h0]
      refine le_of_eq ?_
      norm_num
    set phi : ℝ → ℝ := fun u => F 3 (x + s + u) - F 3 (x - 2 * s + u) with hphi
    have hw : ∀ u ∈ Icc 0 s, x + s + u ∈ Icc (x - 2 * h) (x + 2 * h) ∧ x - 2 * s + u ∈ Icc (x - 2 * h) (x + 2 * h) := by
      intro u hu
      have := hs.2
      have := hu.1
      have := hu.2
      refine ⟨⟨?_, ?_⟩, ⟨?_, ?_⟩⟩ <;> linarith
    have hd : ∀ u ∈ Icc 0 s, HasDerivAt phi (F 4 (x + s + u) - F 4 (x - 2 * s + u)) u := by
      intro u hu
      have i1 : HasDerivAt (fun u : ℝ => x + s + u) 1 u := (hasDerivAt_id u).const_add _
      have i2 : HasDerivAt (fun u : ℝ => x - 2 * s + u) 1 u := (hasDerivAt_id u).const_add _
      have j1 := (hF 3 (by norm_num) _ (hw u hu).1).comp u i1
      have j2 := (hF 3 (by norm_num) _ (hw u hu).2).comp u i2
      exact (j1.sub j2).congr_deriv (by ring)
    obtain ⟨u, hu, he⟩ := exists_hasDerivAt_eq_slope phi (fun u => F 4 (x + s + u) - F 4 (x - 2 * s + u)) h0
      (fun t ht => (hd t ht).continuousAt.continuousWithinAt) (fun t ht => hd t (Ioo_subset_Icc_self ht))
    have hu' := Ioo_subset_Icc_self hu
    have hb : |F 4 (x + s + u) - F 4 (x - 2 * s + u)| ≤ M * (3 * s) := by
      have := (convex_Icc (x - 2 * h) (x + 2 * h)).norm_image_sub_le_of_norm_hasDerivWithin_le (f := F 4) (f' := F 5) (C := M)
        (fun t ht => (hF 4 (by norm_num) t ht).hasDerivWithinAt) (fun t ht => hM t ht) (hw u hu').2 (hw u hu').1
      rw [Real.norm_eq_abs, Real.norm_eq_abs, show x + s + u - (x - 2 * s + u) = 3 * s by ring,
        abs_of_nonneg (show (0 : ℝ) ≤ 3 * s by linarith)] at this
      exact this
    have e1 : phi s - phi 0 = s * (F 4 (x + s + u) - F 4 (x - 2 * s + u)) := by
      rw [he]; field_simp; ring
    have e2 : -8 * F 3 (x + 2 * s) + 8 * F 3 (x + 1 * s) + 8 * F 3 (x + (-1) * s) - 8 * F 3 (x + (-2) * s) = -8 * (phi s - phi 0) := by
      simp only [hphi, add_zero]
      rw [show x + 2 * s = x + s + s by ring, show x + (-1) * s = x - 2 * s + s by ring, show x + (-2) * s = x - 2 * s by ring,
        one_mul]
      ring
    rw [e2, e1, abs_mul, abs_mul, abs_of_pos h0]
    norm_num
    nlinarith
  have g2 := grow_pow (f := fun s => -4 * F 2 (x + 2 * s) + 8 * F 2 (x + 1 * s) - 8 * F 2 (x + (-1) * s) + 4 * F 2 (x + (-2) * s))
    (fun s hs => by
      refine ((((hc 2 (by norm_num) 2 s hs a2).const_mul (-4)).add ((hc 2 (by norm_num) 1 s hs a1).const_mul 8)).sub
        ((hc 2 (by norm_num) (-1) s hs b1).const_mul 8)).add ((hc 2 (by norm_num) (-2) s hs b2).const_mul 4) |>.congr_deriv ?_
      show _ = -8 * F 3 (x + 2 * s) + 8 * F 3 (x + 1 * s) + 8 * F 3 (x + (-1) * s) - 8 * F 3 (x + (-2) * s)
      ring) (by simp) g3
  have g1 := grow_pow (f := fun s => -2 * F 1 (x + 2 * s) + 8 * F 1 (x + 1 * s) + 8 * F 1 (x + (-1) * s) - 2 * F 1 (x + (-2) * s) - 12 * F 1 x)
    (fun s hs => by
      refine (((((hc 1 (by norm_num) 2 s hs a2).const_mul (-2)).add ((hc 1 (by norm_num) 1 s hs a1).const_mul 8)).add
        ((hc 1 (by norm_num) (-1) s hs b1).const_mul 8)).sub ((hc 1 (by norm_num) (-2) s hs b2).const_mul 2)).sub_const (12 * F 1 x)
        |>.congr_deriv ?_
      show _ = -4 * F 2 (x + 2 * s) + 8 * F 2 (x + 1 * s) - 8 * F 2 (x + (-1) * s) + 4 * F 2 (x + (-2) * s)
      ring) (by simp; ring) g2
  have g0 := grow_pow (f := fun s => -F 0 (x + 2 * s) + 8 * F 0 (x + 1 * s) - 8 * F 0 (x + (-1) * s) + F 0 (x + (-2) * s) - 12 * F 1 x * s)
    (fun s hs => by
      refine (((((hc 0 (by norm_num) 2 s hs a2).neg).add ((hc 0 (by norm_num) 1 s hs a1).const_mul 8)).sub
        ((hc 0 (by norm_num) (-1) s hs b1).const_mul 8)).add (hc 0 (by norm_num) (-2) s hs b2)).sub
        ((hasDerivAt_id s).const_mul (12 * F 1 x)) |>.congr_deriv ?_
      show _ = -2 * F 1 (x + 2 * s) + 8 * F 1 (x + 1 * s) + 8 * F 1 (x + (-1) * s) - 2 * F 1 (x + (-2) * s) - 12 * F 1 x
      ring) (by simp) g1 h ⟨hh.le, le_rfl⟩
  have e : finiteDiff (F 0) x h - F 1 x = (12 * h)⁻¹ *
      (-F 0 (x + 2 * h) + 8 * F 0 (x + 1 * h) - 8 * F 0 (x + (-1) * h) + F 0 (x + (-2) * h) - 12 * F 1 x * h) := by
    unfold finiteDiff
    simp only [smul_eq_mul, one_mul, neg_mul, ← sub_eq_add_neg]
    field_simp
  rw [e, abs_mul, abs_of_pos (by positivity), inv_mul_le_iff₀ (by positivity)]
  refine g0.trans_eq ?_
  norm_num
  ring

/-- **C258** With values wrong by at most `e` at the four points, the derivative returned is wrong by at most
`M h⁴ / 30 + 3 e / (2 h)`, where `M` bounds the fifth derivative. -/
theorem fd_error {F : ℕ → ℝ → ℝ} {g : ℝ → ℝ} {x h M e : ℝ} (hh : 0 < h)
    (hF : ∀ k < 5, ∀ t ∈ Icc (x - 2 * h) (x + 2 * h), HasDerivAt (F k) (F (k + 1) t) t)
    (hM : ∀ t ∈ Icc (x - 2 * h) (x + 2 * h), |F 5 t| ≤ M)
    (he : ∀ t, t = x + 2 * h ∨ t = x + h ∨ t = x - h ∨ t = x - 2 * h → |g t - F 0 t| ≤ e) :
    |finiteDiff g x h - F 1 x| ≤ M * h ^ 4 / 30 + 3 * e / (2 * h) := by
  have h1 := fd_truncation hh hF hM
  have h2 : |finiteDiff g x h - finiteDiff (F 0) x h| ≤ 3 * e / (2 * h) := by
    have e1 := abs_le.mp (he (x + 2 * h) (Or.inl rfl))
    have e2 := abs_le.mp (he (x + h) (Or.inr (Or.inl rfl)))
    have e3 := abs_le.mp (he (x - h) (Or.inr (Or.inr (Or.inl rfl))))
    have e4 := abs_le.mp (he (x - 2 * h) (Or.inr (Or.inr (Or.inr rfl))))
    have e5 : finiteDiff g x h - finiteDiff (F 0) x h = (12 * h)⁻¹ * (-(g (x + 2 * h) - F 0 (x + 2 * h)) +
        8 * (g (x + h) - F 0 (x + h)) - 8 * (g (x - h) - F 0 (x - h)) + (g (x - 2 * h) - F 0 (x - 2 * h))) := by
      unfold finiteDiff
      simp only [smul_eq_mul]
      ring
    rw [e5, abs_mul, abs_of_pos (by positivity), inv_mul_le_iff₀ (by positivity),
      show 12 * h * (3 * e / (2 * h)) = 18 * e by field_simp; ring, abs_le]
    constructor <;> linarith [e1.1, e1.2, e2.1, e2.2, e3.1, e3.2, e4.1, e4.2]
  have := abs_add_le (finiteDiff g x h - finiteDiff (F 0) x h) (finiteDiff (F 0) x h - F 1 x)
  rw [sub_add_sub_cancel] at this
  linarith

/-- **C258** Both constants are the best ones: values `e` too large or too small in the order of the weights, and `t ^ 5`, whose fifth
derivative is 120. -/
theorem fd_sharp {x h e : ℝ} (hh : 0 < h) (he : 0 ≤ e) :
    |finiteDiff (fun t : ℝ => t ^ 5) x h - 5 * x ^ 4| = 120 * h ^ 4 / 30 ∧
    ∃ g : ℝ → ℝ, (∀ t, |g t - 0| ≤ e) ∧ |finiteDiff g x h - 0| = 3 * e / (2 * h) := by
  constructor
  · rw [finiteDiff_degree_five x h hh.ne', sub_sub_cancel_left, abs_neg, abs_of_nonneg (by positivity)]
    ring
  · refine ⟨fun t => if t = x + h ∨ t = x - 2 * h then e else -e, fun t => ?_, ?_⟩
    · simp only [sub_zero]
      split
      · exact (abs_of_nonneg he).le
      · rw [abs_neg]; exact (abs_of_nonneg he).le
    · have n1 : ¬ (x + 2 * h = x + h ∨ x + 2 * h = x - 2 * h) := by rintro (h | h) <;> linarith
      have n2 : ¬ (x - h = x + h ∨ x - h = x - 2 * h) := by rintro (h | h) <;> linarith
      simp only [finiteDiff, if_neg n1, if_neg n2, true_or, or_true, if_true, smul_eq_mul, sub_zero]
      rw [abs_mul, abs_of_pos (by positivity), show - -e + 8 * e - 8 * -e + e = 18 * e by ring, abs_of_nonneg (by positivity)]
      field_simp
      ring

/-- For a function with five continuous derivatives, one constant for all steps up to one. -/
theorem fd_smooth {f : ℝ → ℝ} (hf : ContDiff ℝ 5 f) (x : ℝ) :
    ∃ M, 0 ≤ M ∧ ∀ h, 0 < h → h ≤ 1 → ∀ (g : ℝ → ℝ) (e : ℝ),
      (∀ t, t = x + 2 * h ∨ t = x + h ∨ t = x - h ∨ t = x - 2 * h → |g t - f t| ≤ e) →
      |finiteDiff g x h - deriv f x| ≤ M * h ^ 4 + 3 * e / (2 * h) := by
  have hc : Continuous (iteratedDeriv 5 f) := hf.continuous_iteratedDeriv 5 le_rfl
  obtain ⟨M, hM⟩ := (isCompact_Icc (a := x - 2) (b := x + 2)).exists_bound_of_continuousOn hc.continuousOn
  have hM0 : 0 ≤ M := (norm_nonneg _).trans (hM x ⟨by linarith, by linarith⟩)
  refine ⟨M / 30, by positivity, fun h h0 h1 g e he => ?_⟩
  have := fd_error (F := fun k => iteratedDeriv k f) (g := g) (x := x) (M := M) (e := e) h0 (fun k hk t _ => ?_)
    (fun t ht => hM t ⟨by linarith [ht.1], by linarith [ht.2]⟩) (by simpa using he)
  · rw [iteratedDeriv_one] at this
    refine this.trans_eq ?_
    ring
  · rw [iteratedDeriv_succ]
    exact ((hf.differentiable_iteratedDeriv k (by exact_mod_cast hk)) t).hasDerivAt

variable {n q d r : ℕ} {be : Backend} {la : LA}

open Verif.Kernel (cov maternFormula)

theorem update_smooth {p : ℕ} (theta : Fin p → ℝ) (i : Fin p) {N : WithTop ℕ∞} :
    ContDiff ℝ N fun v : ℝ => Function.update theta i v := by
  refine contDiff_pi.mpr fun k => ?_
  by_cases hk : k = i
  · subst hk
    simp only [Function.update_self]
    exact contDiff_id
  · simpa [Function.update_of_ne hk] using contDiff_const

/-- **C258** The derivatives of a Matérn covariance used by `fisher_information` are within a constant times the fourth power of
the step of the exact ones. -/
theorem fd_matern (p : ℕ) (nug : ℝ) (x : Matrix (Fin n) (Fin d) ℝ) (theta : Fin (d + 1) → ℝ) :
    ∃ M, 0 ≤ M ∧ ∀ eps, 0 < eps → eps ≤ 1 → ∀ i a b,
      |dCov (fun th => cov (maternFormula p) nug th x .same) theta eps i a b -
        deriv (fun v => cov (maternFormula p) nug (Function.update theta i v) x .same a b) (theta i)| ≤ M * eps ^ 4 := by
  have hs := (cov_smooth (N := 5) p nug x x).1
  choose M hM0 hM using fun (i : Fin (d + 1)) (a b : Fin n) => fd_smooth ((hs a b).comp (update_smooth theta i)) (theta i)
  refine ⟨∑ i, ∑ a, ∑ b, M i a b, Finset.sum_nonneg fun i _ => Finset.sum_nonneg fun a _ => Finset.sum_nonneg fun b _ => hM0 i a b,
    fun eps h0 h1 i a b => ?_⟩
  have := hM i a b eps h0 h1 (fun v => cov (maternFormula p) nug (Function.update theta i v) x .same a b) 0 (fun t _ => by simp)
  rw [mul_zero, zero_div, add_zero] at this
  unfold dCov
  rw [finiteDiff_entry]
  refine this.trans (mul_le_mul_of_nonneg_right ?_ (by positivity))
  refine (Finset.single_le_sum (f := fun b => M i a b) (fun b _ => hM0 i a b) (Finset.mem_univ b)).trans ?_
  refine (Finset.single_le_sum (f := fun a => ∑ b, M i a b) (fun a _ => Finset.sum_nonneg fun b _ => hM0 i a b)
    (Finset.mem_univ a)).trans ?_
  exact Finset.single_le_sum (f := fun i => ∑ a, ∑ b, M i a b)
    (fun i _ => Finset.sum_nonneg fun a _ => Finset.sum_nonneg fun b _ => hM0 i a b) (Finset.mem_univ i)

/-- **C258** The gradient numpy computes of the likelihood criteria, from values wrong by at most `e`, is within a constant times `h⁴`
plus `3 e / (2 h)` of the exact one. -/
theorem fd_criteria (hla : la.Sound be) (p : ℕ) {eps : ℝ} {x : Matrix (Fin (q + r)) (Fin d) ℝ} (hx : Admissible eps x)
    {P : Mat (q + r) q} (hP : FullRank P) (mi zi : Fin (q + r) → ℝ) (theta : Fin (d + 1) → ℝ) :
    (∃ L : (Fin (d + 1) → ℝ) → ℝ, (∀ th, nll be la (cov (maternFormula p) eps th x .same) mi zi = .ok (.finite (L th))) ∧
      ∃ M, 0 ≤ M ∧ ∀ h, 0 < h → h ≤ 1 → ∀ (g : (Fin (d + 1) → ℝ) → ℝ) (e : ℝ), (∀ th, |g th - L th| ≤ e) → ∀ i,
        |Backend.gradNumpy false g theta h i - deriv (fun v => L (Function.update theta i v)) (theta i)| ≤
          M * h ^ 4 + 3 * e / (2 * h)) ∧
    ∃ L : (Fin (d + 1) → ℝ) → ℝ, (∀ th, reml be la (cov (maternFormula p) eps th x .same) P zi = .ok (.finite (L th))) ∧
      ∃ M, 0 ≤ M ∧ ∀ h, 0 < h → h ≤ 1 → ∀ (g : (Fin (d + 1) → ℝ) → ℝ) (e : ℝ), (∀ th, |g th - L th| ≤ e) → ∀ i,
        |Backend.gradNumpy false g theta h i - deriv (fun v => L (Function.update theta i v)) (theta i)| ≤
          M * h ^ 4 + 3 * e / (2 * h) := by
  have key : ∀ L : (Fin (d + 1) → ℝ) → ℝ, ContDiff ℝ 5 L → ∃ M, 0 ≤ M ∧ ∀ h, 0 < h → h ≤ 1 →
      ∀ (g : (Fin (d + 1) → ℝ) → ℝ) (e : ℝ), (∀ th, |g th - L th| ≤ e) → ∀ i,
        |Backend.gradNumpy false g theta h i - deriv (fun v => L (Function.update theta i v)) (theta i)| ≤
          M * h ^ 4 + 3 * e / (2 * h) := by
    intro L hL
    choose M hM0 hM using fun i : Fin (d + 1) => fd_smooth (hL.comp (update_smooth theta i)) (theta i)
    refine ⟨∑ i, M i, Finset.sum_nonneg fun i _ => hM0 i, fun h h0 h1 g e he i => ?_⟩
    have := hM i h h0 h1 (fun v => g (Function.update theta i v)) e (fun t _ => he _)
    simp only [Backend.gradNumpy, Backend.storeAs, Bool.false_eq_true, if_false]
    refine this.trans (add_le_add_left (mul_le_mul_of_nonneg_right ?_ (by positivity)) _)
    exact Finset.single_le_sum (f := M) (fun i _ => hM0 i) (Finset.mem_univ i)
  obtain ⟨⟨L, hL, h⟩, ⟨R, hR, h'⟩⟩ := criteria_smooth (N := 5) hla p hx hP mi zi
  exact ⟨⟨L, h, key L hL⟩, ⟨R, h', key R hR⟩⟩

/-- The exponential at 0 with the step of numpy's `grad` and values wrong by `1e-16`: about ten digits. -/
example (g : ℝ → ℝ) (hg : ∀ t, |g t - Real.exp t| ≤ 1e-16) : |finiteDiff g 0 1e-5 - 1| ≤ 2e-11 := by
  have h := fd_error (F := fun _ => Real.exp) (g := g) (x := 0) (h := 1e-5) (M := 3) (e := 1e-16) (by norm_num)
    (fun _ _ t _ => Real.hasDerivAt_exp t) (fun t ht => by
      rw [abs_of_pos (Real.exp_pos t)]
      have h1 : t ≤ 1 := ht.2.trans (by norm_num)
      have := Real.exp_le_exp.mpr h1
      have := Real.exp_one_lt_three
      linarith) (fun t _ => hg t)
  rw [Real.exp_zero] at h
  refine h.trans ?_
  norm_num

end Verif.Core
