import Mathlib.Analysis.SpecialFunctions.ExpDeriv
import Mathlib.Analysis.SpecialFunctions.Sqrt
import Mathlib.Analysis.SpecialFunctions.Log.Deriv
import Mathlib.Analysis.Calculus.Deriv.Inv
import Mathlib.Analysis.Calculus.FDeriv.Mul
import Mathlib.Analysis.Calculus.FDeriv.Pow
import Mathlib.Analysis.Calculus.FDeriv.Pi
import Mathlib.Algebra.BigOperators.Fin
import Mathlib.Tactic.FieldSimp
import Verif.Backend.Autograd
import Verif.Kernel.PropsCov
import Verif.Kernel.PropsRegularity

/-!
# C274: gradients of covariance entries computed by torch

The backward pass returns the derivative, also where two points coincide.
-/

set_option autoImplicit false
set_option linter.unusedSectionVars false

namespace Verif.Torch

open Verif Verif.Kernel Filter Topology

variable {K : Type} [Fintype K] [DecidableEq K]

/-! ## What a recorded computation computes, in real numbers -/

open Classical in
/-- The mathematical function of the leaves. -/
noncomputable def ev : Ex K → (K → ℝ) → ℝ
  | .var k, w => w k
  | .const r, _ => r
  | .add a b, w => ev a w + ev b w
  | .sub a b, w => ev a w - ev b w
  | .mul a b, w => ev a w * ev b w
  | .exp a, w => Real.exp (ev a w)
  | .pow a n, w => ev a w ^ n
  | .sqrt a, w => Real.sqrt (ev a w)
  | .log a, w => Real.log (ev a w)
  | .div a b, w => ev a w / ev b w
  | .maxi a b, w => max (ev a w) (ev b w)
  | .inf, _ => 0
  | .clamp0 a, w => max (ev a w) 0
  | .whr c x a b, w => if c (Flt.fin (ev x w)) then ev a w else ev b w

/-- A zero gradient stays zero. -/
def Inert (e : Ex K) (v : K → ℝ) : Prop := ∀ k, back v e (Flt.fin 0) k = Flt.fin 0

/-- Where the backward pass is exact: square roots and logarithms of positive numbers, quotients by numbers other than
zero, maxima of different numbers, no infinity, clamps of
numbers that stay nonnegative nearby, masks that do not change nearby. -/
def Ok : Ex K → (K → ℝ) → Prop
  | .var _, _ => True
  | .const _, _ => True
  | .add a b, v => Ok a v ∧ Ok b v
  | .sub a b, v => Ok a v ∧ Ok b v
  | .mul a b, v => Ok a v ∧ Ok b v
  | .exp a, v => Ok a v
  | .pow a _, v => Ok a v
  | .sqrt a, v => Ok a v ∧ 0 < ev a v
  | .log a, v => Ok a v ∧ 0 < ev a v
  | .div a b, v => Ok a v ∧ Ok b v ∧ ev b v ≠ 0
  | .maxi a b, v => Ok a v ∧ Ok b v ∧ ev a v ≠ ev b v
  | .inf, _ => False
  | .clamp0 a, v => Ok a v ∧ ∀ᶠ w in 𝓝 v, 0 ≤ ev a w
  | .whr c x a b, v => val v x = Flt.fin (ev x v) ∧
      (((∀ᶠ w in 𝓝 v, c (Flt.fin (ev x w))) ∧ Ok a v ∧ Inert b v) ∨
       ((∀ᶠ w in 𝓝 v, ¬ c (Flt.fin (ev x w))) ∧ Ok b v ∧ Inert a v))

theorem fpow_fin (x : ℝ) (n : ℕ) : fpow (Flt.fin x) n = Flt.fin (x ^ n) := by
  induction n with
  | zero => simp [fpow]
  | succ n ih => rw [fpow, ih, Flt.mul_fin, pow_succ]

theorem fsqrt_fin {x : ℝ} (h : 0 ≤ x) : fsqrt (Flt.fin x) = Flt.fin (Real.sqrt x) := by
  have h1 : ¬ ((x : EReal) < 0) := by
    rw [not_lt]; exact_mod_cast h
  simp [fsqrt, Flt.fin, h1]

theorem flog_fin {x : ℝ} (h : 0 < x) : flog (Flt.fin x) = Flt.fin (Real.log x) := by
  have h1 : ¬ ((x : EReal) < 0) := by
    rw [not_lt]; exact_mod_cast h.le
  have h2 : ¬ ((x : EReal) = 0) := by exact_mod_cast h.ne'
  simp [flog, Flt.fin, h1, h2]

theorem fmax_fin (x y : ℝ) : fmax (Flt.fin x) (Flt.fin y) = Flt.fin (max x y) := by
  simp only [fmax, Flt.fin]
  rcases le_total x y with h | h
  · rw [max_eq_right h, max_eq_right (by exact_mod_cast h)]
  · rw [max_eq_left h, max_eq_left (by exact_mod_cast h)]

theorem fclamp0_fin (x : ℝ) : fclamp0 (Flt.fin x) = Flt.fin (max x 0) := by
  simp only [fclamp0, Flt.fin]
  rcases le_total x 0 with h | h
  · rw [max_eq_right h, max_eq_right (by exact_mod_cast h)]; rfl
  · rw [max_eq_left h, max_eq_left (by exact_mod_cast h)]

/-- **C274** The backward pass computes the derivative of the recorded function. -/
theorem back_sound (e : Ex K) (v : K → ℝ) (h : Ok e v) :
    val v e = Flt.fin (ev e v) ∧ ∃ L : (K → ℝ) →L[ℝ] ℝ, HasFDerivAt (ev e) L v ∧
      ∀ g k, back v e (Flt.fin g) k = Flt.fin (g * L (Pi.single k 1)) := by
  induction e with
  | var j =>
    refine ⟨rfl, ContinuousLinearMap.proj j, hasFDerivAt_apply j v, fun g k => ?_⟩
    simp only [back, ContinuousLinearMap.proj_apply]
    by_cases hk : k = j
    · subst hk; simp
    · simp [hk, Pi.single_apply, Ne.symm hk]
  | const r =>
    exact ⟨rfl, 0, hasFDerivAt_const r v, fun g k => by simp [back]⟩
  | add a b iha ihb =>
    obtain ⟨va, La, ha, ba⟩ := iha h.1
    obtain ⟨vb, Lb, hb, bb⟩ := ihb h.2
    refine ⟨by simp [val, va, vb, ev], La + Lb, ha.add hb, fun g k => ?_⟩
    simp only [back, ba, bb, Flt.add_fin, ContinuousLinearMap.add_apply]
    congr 1; ring
  | sub a b iha ihb =>
    obtain ⟨va, La, ha, ba⟩ := iha h.1
    obtain ⟨vb, Lb, hb, bb⟩ := ihb h.2
    refine ⟨by simp [val, va, vb, ev], La - Lb, ha.sub hb, fun g k => ?_⟩
    simp only [back, ba, bb, Flt.neg_fin, Flt.add_fin, ContinuousLinearMap.sub_apply]
    congr 1; ring
  | mul a b iha ihb =>
    obtain ⟨va, La, ha, ba⟩ := iha h.1
    obtain ⟨vb, Lb, hb, bb⟩ := ihb h.2
    refine ⟨by simp [val, va, vb, ev], _, ha.mul hb, fun g k => ?_⟩
    simp only [back, va, vb, Flt.mul_fin, ba, bb, Flt.add_fin, ContinuousLinearMap.add_apply,
      ContinuousLinearMap.smul_apply, smul_eq_mul]
    congr 1; ring
  | exp a iha =>
    obtain ⟨va, La, ha, ba⟩ := iha h
    refine ⟨by simp [val, va, ev], _, ha.exp, fun g k => ?_⟩
    simp only [back, val, va, Flt.exp_fin, Flt.mul_fin, ba, ContinuousLinearMap.smul_apply,
      smul_eq_mul]
    congr 1; ring
  | pow a n iha =>
    obtain ⟨va, La, ha, ba⟩ := iha h
    refine ⟨by simp [val, va, ev, fpow_fin], _, ha.pow n, fun g k => ?_⟩
    by_cases hn : n = 0
    · subst hn
      simp [back, ba]
    · simp only [back, hn, if_false, va, fpow_fin, Flt.mul_fin, ba, ContinuousLinearMap.smul_apply,
        smul_eq_mul, nsmul_eq_mul]
      congr 1; ring
  | sqrt a iha =>
    obtain ⟨va, La, ha, ba⟩ := iha h.1
    have hpos := h.2
    have hs : Real.sqrt (ev a v) ≠ 0 := (Real.sqrt_pos.mpr hpos).ne'
    refine ⟨by simp [val, va, ev, fsqrt_fin hpos.le], _, ha.sqrt hpos.ne', fun g k => ?_⟩
    have h2 : (2 : ℝ) * Real.sqrt (ev a v) ≠ 0 := mul_ne_zero two_ne_zero hs
    simp only [back, val, va, fsqrt_fin hpos.le, Flt.mul_fin, Flt.div_fin h2, ba,
      ContinuousLinearMap.smul_apply, smul_eq_mul]
    congr 1; ring
  | log a iha =>
    obtain ⟨va, La, ha, ba⟩ := iha h.1
    have hpos := h.2
    refine ⟨by simp [val, va, ev, flog_fin hpos], _, ha.log hpos.ne', fun g k => ?_⟩
    simp only [back, va, Flt.div_fin hpos.ne', ba, ContinuousLinearMap.smul_apply, smul_eq_mul]
    congr 1; ring
  | div a b iha ihb =>
    obtain ⟨va, La, ha, ba⟩ := iha h.1
    obtain ⟨vb, Lb, hb, bb⟩ := ihb h.2.1
    have h0 := h.2.2
    have hq : HasFDerivAt (ev (.div a b)) ((ev b v)⁻¹ • La - (ev a v / ev b v / ev b v) • Lb) v := by
      refine (ha.mul ((hasDerivAt_inv h0).comp_hasFDerivAt v hb)).congr_fderiv ?_
      ext w
      simp only [ContinuousLinearMap.sub_apply, ContinuousLinearMap.add_apply, ContinuousLinearMap.smul_apply, smul_eq_mul,
        Function.comp_apply]
      field_simp
      ring
    refine ⟨by simp [val, va, vb, ev, Flt.div_fin h0], _, hq, fun g k => ?_⟩
    simp only [back, va, vb, Flt.div_fin h0, ba, bb, Flt.neg_fin, Flt.mul_fin, Flt.add_fin, ContinuousLinearMap.sub_apply,
      ContinuousLinearMap.smul_apply, smul_eq_mul]
    congr 1; ring
  | maxi a b iha ihb =>
    obtain ⟨va, La, ha, ba⟩ := iha h.1
    obtain ⟨vb, Lb, hb, bb⟩ := ihb h.2.1
    refine ⟨by simp [val, va, vb, ev, fmax_fin], ?_⟩
    have hne : Flt.fin (ev a v) ≠ Flt.fin (ev b v) := fun h' => h.2.2 (Flt.fin_inj.mp h')
    rcases lt_or_gt_of_ne h.2.2 with hlt | hlt
    · refine ⟨Lb, ?_, fun g k => ?_⟩
      · refine hb.congr_of_eventuallyEq ?_
        filter_upwards [ha.continuousAt.eventually_lt hb.continuousAt hlt] with w hw
        simp [ev, hw.le]
      · simp [back, va, vb, fwhere, hne, hne.symm, hlt, hlt.not_gt, ba, bb]
    · refine ⟨La, ?_, fun g k => ?_⟩
      · refine ha.congr_of_eventuallyEq ?_
        filter_upwards [hb.continuousAt.eventually_lt ha.continuousAt hlt] with w hw
        simp [ev, hw.le]
      · simp [back, va, vb, fwhere, hne, hne.symm, hlt, hlt.not_gt, ba, bb]
  | inf => exact h.elim
  | clamp0 a iha =>
    obtain ⟨va, La, ha, ba⟩ := iha h.1
    have h0 := h.2
    have hv : 0 ≤ ev a v := h0.self_of_nhds
    refine ⟨by simp [val, va, ev, fclamp0_fin], La, ?_, fun g k => ?_⟩
    · refine ha.congr_of_eventuallyEq ?_
      filter_upwards [h0] with w hw
      simp [ev, hw]
    · simp [back, va, fwhere, hv, ba]
  | whr c x a b ihx iha ihb =>
    obtain ⟨vx, h | h⟩ := h
    · obtain ⟨hc, hOk, hI⟩ := h
      obtain ⟨va, La, ha, ba⟩ := iha hOk
      have hcv := hc.self_of_nhds
      refine ⟨by simp [val, vx, ev, fwhere, hcv, va], La, ?_, fun g k => ?_⟩
      · refine ha.congr_of_eventuallyEq ?_
        filter_upwards [hc] with w hw
        simp [ev, hw]
      · simp [back, vx, fwhere, hcv, ba, hI k]
    · obtain ⟨hc, hOk, hI⟩ := h
      obtain ⟨vb, Lb, hb, bb⟩ := ihb hOk
      have hcv := hc.self_of_nhds
      refine ⟨by simp [val, vx, ev, fwhere, hcv, vb], Lb, ?_, fun g k => ?_⟩
      · refine hb.congr_of_eventuallyEq ?_
        filter_upwards [hc] with w hw
        simp [ev, hw]
      · simp [back, vx, fwhere, hcv, bb, hI k]

theorem Ok.val {e : Ex K} {v : K → ℝ} (h : Ok e v) : val v e = Flt.fin (ev e v) :=
  (back_sound e v h).1

theorem Ok.inert {e : Ex K} {v : K → ℝ} (h : Ok e v) : Inert e v := by
  obtain ⟨-, L, -, hL⟩ := back_sound e v h
  intro k
  rw [hL]; simp

theorem Ok.continuousAt {e : Ex K} {v : K → ℝ} (h : Ok e v) : ContinuousAt (ev e) v := by
  obtain ⟨-, L, hd, -⟩ := back_sound e v h
  exact hd.continuousAt

/-- **C274** `gnp.grad` returns the partial derivatives. -/
theorem grad_eq {e : Ex K} {v : K → ℝ} (h : Ok e v) :
    DifferentiableAt ℝ (ev e) v ∧ ∀ k, grad e v k = Flt.fin (fderiv ℝ (ev e) v (Pi.single k 1)) := by
  obtain ⟨-, L, hd, hL⟩ := back_sound e v h
  refine ⟨hd.differentiableAt, fun k => ?_⟩
  rw [grad, hL, hd.fderiv, one_mul]

/-! ## Sums, square roots, distances -/

theorem ev_sumE {d : ℕ} (f : Fin d → Ex K) (w : K → ℝ) : ev (sumE f) w = ∑ k, ev (f k) w := by
  have : ∀ l : List (Fin d), ev (l.foldr (fun k e => Ex.add (f k) e) (.const 0)) w =
      (l.map fun k => ev (f k) w).sum := by
    intro l
    induction l with
    | nil => rfl
    | cons k l ih => simp [ev, ih]
  rw [sumE, this, Fin.sum_univ_def]

theorem ok_sumE {d : ℕ} (f : Fin d → Ex K) {v : K → ℝ} (h : ∀ k, Ok (f k) v) : Ok (sumE f) v := by
  have : ∀ l : List (Fin d), Ok (l.foldr (fun k e => Ex.add (f k) e) (.const 0)) v := by
    intro l
    induction l with
    | nil => trivial
    | cons k l ih => exact ⟨h k, ih⟩
  exact this _

theorem ev_customSqrtE (x : Ex K) (w : K → ℝ) : ev (customSqrtE x) w = Real.sqrt (ev x w) := by
  by_cases h : ev x w = 0
  · simp [customSqrtE, ev, h]
  · have : Flt.fin (ev x w) ≠ Flt.fin 0 := fun h' => h (Flt.fin_inj.mp h')
    simp [customSqrtE, ev, this]

/-- The mask protects the square root: the gradient is exact where the argument is
positive and where it is zero in a neighbourhood. -/
theorem ok_customSqrtE {x : Ex K} {v : K → ℝ} (hx : Ok x v)
    (h : 0 < ev x v ∨ ∀ᶠ w in 𝓝 v, ev x w = 0) : Ok (customSqrtE x) v := by
  rcases h with h | h
  · have hc : ∀ᶠ w in 𝓝 v, ¬ (Flt.fin (ev x w) = Flt.fin 0) := by
      filter_upwards [hx.continuousAt.eventually (lt_mem_nhds h)] with w hw h'
      exact hw.ne' (Flt.fin_inj.mp h')
    have h1 : Ok (Ex.whr (fun a => a = Flt.fin 0) x (.const 1) x) v :=
      ⟨hx.val, Or.inr ⟨hc, hx, fun k => rfl⟩⟩
    refine ⟨hx.val, Or.inr ⟨hc, ⟨h1, ?_⟩, fun k => rfl⟩⟩
    simp only [ev, if_neg hc.self_of_nhds]
    exact h
  · have hc : ∀ᶠ w in 𝓝 v, Flt.fin (ev x w) = Flt.fin 0 := by
      filter_upwards [h] with w hw
      rw [hw]
    have h1 : Ok (Ex.whr (fun a => a = Flt.fin 0) x (.const 1) x) v :=
      ⟨hx.val, Or.inl ⟨hc, trivial, hx.inert⟩⟩
    refine ⟨hx.val, Or.inl ⟨hc, trivial, Ok.inert (e := .sqrt _) ⟨h1, ?_⟩⟩⟩
    simp only [ev, if_pos hc.self_of_nhds]
    exact one_pos

/-- The squared distance recorded by `cdist`. -/
noncomputable def sqE {d : ℕ} (x y : Fin d → Ex K) : Ex K :=
  Ex.sub (.add (sumE fun k => .pow (x k) 2) (sumE fun k => .pow (y k) 2))
    (.mul (.const 2) (sumE fun k => .mul (x k) (y k)))

theorem ev_sqE {d : ℕ} (x y : Fin d → Ex K) (w : K → ℝ) :
    ev (sqE x y) w = ∑ k, (ev (x k) w - ev (y k) w) ^ 2 := by
  simp only [sqE, ev, ev_sumE]
  rw [Finset.mul_sum, ← Finset.sum_add_distrib, ← Finset.sum_sub_distrib]
  exact Finset.sum_congr rfl fun k _ => by ring

theorem ok_clamp_sqE {d : ℕ} {x y : Fin d → Ex K} {v : K → ℝ} (hx : ∀ k, Ok (x k) v)
    (hy : ∀ k, Ok (y k) v) : Ok (.clamp0 (sqE x y)) v := by
  refine ⟨⟨⟨ok_sumE _ fun k => hx k, ok_sumE _ fun k => hy k⟩, trivial,
    ok_sumE _ fun k => ⟨hx k, hy k⟩⟩, Eventually.of_forall fun w => ?_⟩
  rw [ev_sqE]
  exact Finset.sum_nonneg fun k _ => sq_nonneg _

theorem ev_clamp_sqE {d : ℕ} (x y : Fin d → Ex K) (w : K → ℝ) :
    ev (.clamp0 (sqE x y)) w = ∑ k, (ev (x k) w - ev (y k) w) ^ 2 := by
  simp only [ev]
  rw [max_eq_left, ev_sqE]
  rw [ev_sqE]
  exact Finset.sum_nonneg fun k _ => sq_nonneg _

theorem ok_cdistE {d : ℕ} {diag : Prop} {x y : Fin d → Ex K} {v : K → ℝ} (hx : ∀ k, Ok (x k) v)
    (hy : ∀ k, Ok (y k) v)
    (h : (∃ k, ev (x k) v ≠ ev (y k) v) ∨ ∀ᶠ w in 𝓝 v, ∀ k, ev (x k) w = ev (y k) w) :
    Ok (cdistE diag x y) v := by
  have h1 : Ok (customSqrtE (.clamp0 (sqE x y))) v := by
    refine ok_customSqrtE (ok_clamp_sqE hx hy) ?_
    rcases h with ⟨k, hk⟩ | h
    · left
      rw [ev_clamp_sqE]
      exact Finset.sum_pos' (fun k _ => sq_nonneg _)
        ⟨k, Finset.mem_univ _, by have := sub_ne_zero.mpr hk; positivity⟩
    · right
      filter_upwards [h] with w hw
      rw [ev_clamp_sqE]
      exact Finset.sum_eq_zero fun k _ => by rw [hw k]; ring
  refine ⟨h1.val, ?_⟩
  by_cases hd : diag
  · exact Or.inl ⟨Eventually.of_forall fun _ => hd, trivial, h1.inert⟩
  · exact Or.inr ⟨Eventually.of_forall fun _ => hd, h1, fun k => rfl⟩

theorem ev_cdistE {d : ℕ} (diag : Prop) (x y : Fin d → Ex K) (w : K → ℝ)
    (hd : diag → ∀ k, ev (x k) w = ev (y k) w) :
    ev (cdistE diag x y) w = Real.sqrt (∑ k, (ev (x k) w - ev (y k) w) ^ 2) := by
  by_cases h : diag
  · have : ∑ k, (ev (x k) w - ev (y k) w) ^ 2 = 0 :=
      Finset.sum_eq_zero fun k _ => by rw [hd h k]; ring
    rw [this]
    simp [cdistE, ev, h]
  · have : ev (cdistE diag x y) w = ev (customSqrtE (.clamp0 (sqE x y))) w := by
      simp [cdistE, ev, h, sqE]
    rw [this, ev_customSqrtE, ev_clamp_sqE]

theorem ok_scaledDistanceE {d : ℕ} {diag : Prop} {l x y : Fin d → Ex K} {v : K → ℝ}
    (hl : ∀ k, Ok (l k) v) (hx : ∀ k, Ok (x k) v) (hy : ∀ k, Ok (y k) v)
    (h : (∃ k, ev (x k) v ≠ ev (y k) v) ∨ ∀ᶠ w in 𝓝 v, ∀ k, ev (x k) w = ev (y k) w) :
    Ok (scaledDistanceE diag l x y) v := by
  refine ok_cdistE (fun k => ⟨hl k, hx k⟩) (fun k => ⟨hl k, hy k⟩) ?_
  rcases h with ⟨k, hk⟩ | h
  · left
    refine ⟨k, fun h' => hk ?_⟩
    simpa [ev, (Real.exp_pos (ev (l k) v)).ne'] using h'
  · right
    filter_upwards [h] with w hw k
    simp [ev, hw k]

theorem ev_scaledDistanceE {d : ℕ} (diag : Prop) (l x y : Fin d → Ex K) (w : K → ℝ)
    (hd : diag → ∀ k, ev (x k) w = ev (y k) w) :
    ev (scaledDistanceE diag l x y) w =
      scaledDistance (fun k => ev (l k) w) (fun k => ev (x k) w) (fun k => ev (y k) w) := by
  rw [scaledDistanceE, ev_cdistE _ _ _ _ (fun h k => by simp [ev, hd h k])]
  rfl

/-! ## The Matérn kernel -/

theorem ev_inftobigfE (bigf : ℝ) (h : Ex K) (w : K → ℝ) : ev (inftobigfE bigf h) w = ev h w := by
  simp [inftobigfE, ev, Flt.fin]

theorem ok_inftobigfE {bigf : ℝ} {h : Ex K} {v : K → ℝ} (hh : Ok h v) : Ok (inftobigfE bigf h) v :=
  ⟨hh.val, Or.inr ⟨Eventually.of_forall fun w => by simp [Flt.fin], hh, fun k => rfl⟩⟩

theorem coefE_eq {g : ℕ → ℝ} (hg : IsGammaln g) (p i : ℕ) :
    coefE g p i = ((p.factorial : ℝ) / (2 * p).factorial) *
      (((p + i).factorial : ℝ) / (i.factorial * (p - i).factorial)) := by
  unfold coefE
  rw [Real.exp_sub, Real.exp_sub, Real.exp_add, Real.exp_sub, exp_gammaln hg, exp_gammaln hg,
    exp_gammaln hg, exp_gammaln hg, exp_gammaln hg]
  field_simp

theorem ev_poly (a : ℕ → ℝ) (p : ℕ) (t : Ex K) (w : K → ℝ) (is : List ℕ) (acc : Ex K) :
    ev (is.foldl (fun acc i => Ex.add acc (.mul (.const (a i)) (.pow t (p - i)))) acc) w =
      ev acc w + (is.map fun i => a i * ev t w ^ (p - i)).sum := by
  induction is generalizing acc with
  | nil => simp
  | cons i is ih => simp [ih, ev, add_assoc]

theorem ok_poly (a : ℕ → ℝ) (p : ℕ) {t : Ex K} {v : K → ℝ} (ht : Ok t v) (is : List ℕ) (acc : Ex K)
    (ha : Ok acc v) :
    Ok (is.foldl (fun acc i => Ex.add acc (.mul (.const (a i)) (.pow t (p - i)))) acc) v := by
  induction is generalizing acc with
  | nil => exact ha
  | cons i is ih => exact ih _ ⟨ha, trivial, ht⟩

/-- The recorded kernel is the documented formula. -/
theorem ev_maternE {g : ℕ → ℝ} (hg : IsGammaln g) (bigf : ℝ) (p : ℕ) (h : Ex K) (w : K → ℝ) :
    ev (maternE g bigf p h) w = maternFormula p (ev h w) := by
  have h5 : (0.5 : ℝ) = 1 / 2 := by norm_num
  simp only [maternE, ev, ev_poly, ev_inftobigfE, h5]
  unfold maternFormula
  rw [mul_assoc (Real.exp _) ((p.factorial : ℝ) / _) _]
  congr 1
  rw [Finset.sum_range_succ, mul_add, add_comm]
  congr 1
  · rw [Finset.mul_sum, ← List.sum_toFinset _ List.nodup_range, List.toFinset_range]
    exact Finset.sum_congr rfl fun i _ => by rw [coefE_eq hg]; ring
  · have h1 : ((2 * p).factorial : ℝ) ≠ 0 := by exact_mod_cast (Nat.factorial_pos _).ne'
    have h2 : (p.factorial : ℝ) ≠ 0 := by exact_mod_cast (Nat.factorial_pos _).ne'
    rw [← two_mul p]
    simp only [Nat.sub_self, Nat.factorial_zero, pow_zero, Nat.cast_one, mul_one]
    field_simp

theorem ok_maternE {g : ℕ → ℝ} {bigf : ℝ} {p : ℕ} {h : Ex K} {v : K → ℝ} (hh : Ok h v) :
    Ok (maternE g bigf p h) v := by
  have h1 : Ok (inftobigfE bigf h) v := ok_inftobigfE hh
  have h2 : ∀ r, Ok (Ex.mul (.const r) (inftobigfE bigf h)) v := fun r => ⟨trivial, h1⟩
  exact ⟨h2 _, ok_poly _ p (h2 _) _ _ trivial⟩

/-! ## Covariance matrices, gradient with respect to the parameters -/

/-- The parameter vector as leaves: `param[0]`. -/
def sigmaVar (d : ℕ) : Ex (Fin (d + 1)) := .var 0

/-- The parameter vector as leaves: `param[1:]`. -/
def rangeVar (d : ℕ) : Fin d → Ex (Fin (d + 1)) := fun k => .var k.succ

/-- A row of data: constants. -/
def row {d : ℕ} (x : Fin d → ℝ) : Fin d → Ex K := fun k => .const (x k)

theorem ok_dist_param {d : ℕ} (diag : Prop) (x y : Fin d → ℝ) (θ : Fin (d + 1) → ℝ) :
    Ok (scaledDistanceE diag (rangeVar d) (row x) (row y)) θ := by
  refine ok_scaledDistanceE (fun _ => trivial) (fun _ => trivial) (fun _ => trivial) ?_
  by_cases h : x = y
  · exact Or.inr (Eventually.of_forall fun w k => by simp [row, ev, h])
  · obtain ⟨k, hk⟩ := Function.ne_iff.mp h
    exact Or.inl ⟨k, by simpa [row, ev] using hk⟩

/-- **C274** Torch gradient of any entry of `maternp_covariance(x, y, p, param)` with respect to the
parameters: finite and equal to the partial derivatives of the entry, for all points (equal or
not), all regularities and all parameters. -/
theorem cov_grad {n m d : ℕ} {g : ℕ → ℝ} (hg : IsGammaln g) (bigf : ℝ) (p : ℕ)
    (x : Matrix (Fin n) (Fin d) ℝ) (y : Matrix (Fin m) (Fin d) ℝ) (i : Fin n) (j : Fin m)
    (θ : Fin (d + 1) → ℝ) :
    let e := covITE g bigf p false (sigmaVar d) (rangeVar d) (row (x i)) (row (y j))
    val θ e = Flt.fin (covIT (maternFormula p) θ x y i j) ∧
    DifferentiableAt ℝ (fun θ => covIT (maternFormula p) θ x y i j) θ ∧
    ∀ k, grad e θ k =
      Flt.fin (fderiv ℝ (fun θ => covIT (maternFormula p) θ x y i j) θ (Pi.single k 1)) := by
  intro e
  have hok : Ok e θ := ⟨trivial, ok_maternE (ok_dist_param False (x i) (y j) θ)⟩
  have hev : ev e = fun θ => covIT (maternFormula p) θ x y i j := by
    funext w
    show Real.exp (w 0) * ev (maternE g bigf p _) w = _
    rw [ev_maternE hg]
    have := ev_scaledDistanceE False (rangeVar d) (row (x i)) (row (y j)) w (fun h => h.elim)
    simp only [Bool.false_eq_true, if_false]
    rw [this]
    rfl
  have hv := hok.val
  rw [hev] at hv
  rw [← hev]
  exact ⟨hv, grad_eq hok⟩

/-- **C274** The same for the matrix of one set of points, with its nugget. -/
theorem cov_grad_same {n d : ℕ} {g : ℕ → ℝ} (hg : IsGammaln g) (bigf eps : ℝ) (p : ℕ)
    (x : Matrix (Fin n) (Fin d) ℝ) (i j : Fin n) (θ : Fin (d + 1) → ℝ) :
    let e := covIIE g bigf eps p (decide (i = j)) (sigmaVar d) (rangeVar d) (row (x i)) (row (x j))
    val θ e = Flt.fin (covII (maternFormula p) eps θ x i j) ∧
    DifferentiableAt ℝ (fun θ => covII (maternFormula p) eps θ x i j) θ ∧
    ∀ k, grad e θ k =
      Flt.fin (fderiv ℝ (fun θ => covII (maternFormula p) eps θ x i j) θ (Pi.single k 1)) := by
  intro e
  have hok : Ok e θ := ⟨⟨trivial, ok_maternE (ok_dist_param _ (x i) (x j) θ)⟩,
    ⟨⟨trivial, trivial⟩, trivial⟩, trivial⟩
  have hev : ev e = fun θ => covII (maternFormula p) eps θ x i j := by
    funext w
    show Real.exp (w 0) * ev (maternE g bigf p _) w +
      10 * Real.exp (w 0) * eps * (if decide (i = j) = true then 1 else 0) = _
    rw [ev_maternE hg]
    have := ev_scaledDistanceE (decide (i = j) = true) (rangeVar d) (row (x i)) (row (x j)) w
      (fun h k => by have h' : i = j := by simpa using h
                     subst h'; rfl)
    rw [this]
    simp [covII, rangeVar, row, ev]
  have hv := hok.val
  rw [hev] at hv
  rw [← hev]
  exact ⟨hv, grad_eq hok⟩

/-! ## Gradient with respect to a point -/

/-- A node through which no gradient flows. -/
def Flat (e : Ex K) (v : K → ℝ) : Prop :=
  val v e = Flt.fin (ev e v) ∧ ∀ g k, back v e (Flt.fin g) k = Flt.fin 0

theorem flat_const (r : ℝ) (v : K → ℝ) : Flat (.const r) v := ⟨rfl, fun _ _ => rfl⟩

theorem flat_add {a b : Ex K} {v : K → ℝ} (ha : Flat a v) (hb : Flat b v) : Flat (.add a b) v :=
  ⟨by simp [val, ev, ha.1, hb.1], fun g k => by simp [back, ha.2, hb.2]⟩

theorem flat_mul {a b : Ex K} {v : K → ℝ} (ha : Flat a v) (hb : Flat b v) : Flat (.mul a b) v :=
  ⟨by simp [val, ev, ha.1, hb.1], fun g k => by simp [back, ha.1, hb.1, ha.2, hb.2]⟩

theorem flat_exp {a : Ex K} {v : K → ℝ} (ha : Flat a v) : Flat (.exp a) v :=
  ⟨by simp [val, ev, ha.1], fun g k => by simp [back, val, ha.1, ha.2]⟩

theorem flat_pow {a : Ex K} {v : K → ℝ} (n : ℕ) (ha : Flat a v) : Flat (.pow a n) v := by
  refine ⟨by simp [val, ev, ha.1, fpow_fin], fun g k => ?_⟩
  by_cases hn : n = 0
  · simp [back, hn, ha.2]
  · simp [back, hn, ha.1, ha.2, fpow_fin]

theorem flat_inftobigfE {h : Ex K} {v : K → ℝ} (bigf : ℝ) (hh : Flat h v) :
    Flat (inftobigfE bigf h) v := by
  refine ⟨?_, fun g k => ?_⟩
  · rw [ev_inftobigfE]
    simp [inftobigfE, val, hh.1, fwhere, Flt.fin]
  · have : ¬ (Flt.fin (ev h v) = .num ⊤ ∨ Flt.fin (ev h v) = .num ⊥) := by simp [Flt.fin]
    simp [inftobigfE, back, hh.1, fwhere, this, hh.2]

theorem flat_maternE {g : ℕ → ℝ} {bigf : ℝ} {p : ℕ} {h : Ex K} {v : K → ℝ} (hh : Flat h v) :
    Flat (maternE g bigf p h) v := by
  have h1 := flat_inftobigfE bigf hh
  have h2 : ∀ r, Flat (Ex.mul (.const r) (inftobigfE bigf h)) v := fun r =>
    flat_mul (flat_const r v) h1
  have h3 : ∀ (is : List ℕ) (acc : Ex K), Flat acc v → Flat (is.foldl (fun acc i =>
      Ex.add acc (.mul (.const (coefE g p i)) (.pow (Ex.mul (.const (2 * (2 * Real.sqrt (p + 0.5))))
        (inftobigfE bigf h)) (p - i)))) acc) v := by
    intro is
    induction is with
    | nil => exact fun acc ha => ha
    | cons i is ih =>
      exact fun acc ha => ih _ (flat_add ha (flat_mul (flat_const _ v) (flat_pow _ (h2 _))))
  exact flat_mul (flat_exp (h2 _)) (h3 _ _ (flat_const 1 v))

/-- No gradient flows through `custom_sqrt` at zero. -/
theorem flat_customSqrtE {x : Ex K} {v : K → ℝ} (hx : Ok x v) (h0 : ev x v = 0) :
    Flat (customSqrtE x) v := by
  have h1 : ∀ k, back v x (Flt.fin 0) k = Flt.fin 0 := hx.inert
  have h2 : Flt.div (Flt.fin 0) (Flt.fin 2) = Flt.fin 0 := by
    rw [Flt.div_fin two_ne_zero, zero_div]
  constructor
  · rw [ev_customSqrtE, h0]
    simp [customSqrtE, val, hx.val, h0, fwhere]
  · intro g k
    simp [customSqrtE, back, val, hx.val, h0, fwhere, fsqrt_fin zero_le_one, h1, h2]

theorem flat_scaledDistanceE {d : ℕ} {l x y : Fin d → Ex K} {v : K → ℝ} (hl : ∀ k, Ok (l k) v)
    (hx : ∀ k, Ok (x k) v) (hy : ∀ k, Ok (y k) v) (h : ∀ k, ev (x k) v = ev (y k) v) :
    Flat (scaledDistanceE False l x y) v := by
  have h1 : Flat (customSqrtE (.clamp0 (sqE (fun k => .mul (.exp (l k)) (x k))
      (fun k => .mul (.exp (l k)) (y k))))) v := by
    refine flat_customSqrtE (ok_clamp_sqE (fun k => ⟨hl k, hx k⟩) (fun k => ⟨hl k, hy k⟩)) ?_
    rw [ev_clamp_sqE]
    exact Finset.sum_eq_zero fun k _ => by simp [ev, h k]
  constructor
  · have := h1.1
    simp only [scaledDistanceE, cdistE, val, fwhere, if_false, ev]
    exact this
  · intro g k
    have := h1.2 g k
    simp only [scaledDistanceE, cdistE, back, fwhere, if_false]
    simp only [sqE] at this
    rw [this]; simp

/-- Beyond the exponential kernel the covariance is flat at coinciding points. -/
theorem matern_point_flat {d : ℕ} (p : ℕ) (l y : Fin d → ℝ) :
    HasFDerivAt (fun x : Fin d → ℝ => maternFormula (p + 1) (scaledDistance l x y))
      (0 : (Fin d → ℝ) →L[ℝ] ℝ) y := by
  set c : ℝ := 2 * Real.sqrt ((p + 1 : ℕ) + 1 / 2) with hc
  have hd := shape_deriv p 0
  rw [neg_zero, zero_div, zero_mul] at hd
  have hlip : ∀ x, ‖c * scaledDistance l x y‖ ≤
      (c * ∑ k, Real.exp (l k)) * ‖x - y‖ := by
    intro x
    have hc0 : 0 ≤ c := by positivity
    rw [Real.norm_of_nonneg (mul_nonneg hc0 (scaledDistance_nonneg _ _ _)), mul_assoc c]
    refine mul_le_mul_of_nonneg_left ?_ hc0
    rw [scaledDistance, cdistNumpy]
    have hS : 0 ≤ ∑ k, Real.exp (l k) := Finset.sum_nonneg fun k _ => (Real.exp_pos _).le
    refine Real.sqrt_le_iff.mpr ⟨mul_nonneg hS (norm_nonneg _), ?_⟩
    calc ∑ k, (scaleRow l x k - scaleRow l y k) ^ 2
        ≤ ∑ k, (Real.exp (l k) * ‖x - y‖) ^ 2 := by
          refine Finset.sum_le_sum fun k _ => ?_
          rw [scaleRow, scaleRow, ← mul_sub, mul_pow, mul_pow]
          refine mul_le_mul_of_nonneg_left ?_ (sq_nonneg _)
          rw [← sq_abs]
          have : |x k - y k| ≤ ‖x - y‖ := norm_le_pi_norm (x - y) k
          exact pow_le_pow_left₀ (abs_nonneg _) this 2
      _ ≤ (∑ k, Real.exp (l k) * ‖x - y‖) ^ 2 :=
          Finset.sum_sq_le_sq_sum_of_nonneg fun k _ => mul_nonneg (Real.exp_pos _).le (norm_nonneg _)
      _ = ((∑ k, Real.exp (l k)) * ‖x - y‖) ^ 2 := by rw [Finset.sum_mul]
  have hO : (fun x => c * scaledDistance l x y) =O[𝓝 y] fun x => x - y :=
    Asymptotics.IsBigO.of_bound _ (Eventually.of_forall hlip)
  have ht : Tendsto (fun x => c * scaledDistance l x y) (𝓝 y) (𝓝 0) := by
    refine hO.trans_tendsto ?_
    have : Tendsto (fun x : Fin d → ℝ => x - y) (𝓝 y) (𝓝 (y - y)) :=
      (continuous_id.sub continuous_const).tendsto y
    simpa using this
  rw [hasFDerivAt_iff_isLittleO]
  have h1 := (hasDerivAt_iff_isLittleO.mp hd).comp_tendsto ht
  refine (h1.congr (fun x => ?_) (fun x => ?_)).trans_isBigO hO
  · simp [maternFormula_shape, scaledDistance_self, hc]
  · simp

/-- **C274** Torch gradient of a covariance with respect to the point `x`: exact for every `p ≥ 1`,
also at `x = y`; and exact for `p = 0` off coinciding points. -/
theorem point_grad {d : ℕ} {g : ℕ → ℝ} (hg : IsGammaln g) (bigf : ℝ) (p : ℕ) (s : ℝ)
    (l y x : Fin d → ℝ) (h : 1 ≤ p ∨ x ≠ y) :
    let f := fun x : Fin d → ℝ => Real.exp s * maternFormula p (scaledDistance l x y)
    let e := covITE g bigf p false (.const s) (row l) (fun k => .var k) (row y)
    val x e = Flt.fin (f x) ∧ DifferentiableAt ℝ f x ∧
      ∀ k, grad e x k = Flt.fin (fderiv ℝ f x (Pi.single k 1)) := by
  intro f e
  have hev : ev e = f := by
    funext w
    show Real.exp s * ev (maternE g bigf p _) w = _
    rw [ev_maternE hg]
    have := ev_scaledDistanceE False (row l) (fun k => Ex.var k) (row y) w (fun h => h.elim)
    simp only [Bool.false_eq_true, if_false]
    rw [this]
    rfl
  by_cases hxy : x = y
  · obtain ⟨q, rfl⟩ : ∃ q, p = q + 1 := ⟨p - 1, by have := h.resolve_right (fun h => h hxy); omega⟩
    have h1 : Flat (scaledDistanceE False (row l) (fun k => Ex.var k) (row y)) x :=
      flat_scaledDistanceE (fun _ => trivial) (fun _ => trivial) (fun _ => trivial)
        (fun k => by simp [ev, row, hxy])
    have h2 : Flat e x := flat_mul (flat_exp (flat_const s x)) (flat_maternE h1)
    have h3 : HasFDerivAt f (0 : (Fin d → ℝ) →L[ℝ] ℝ) x := by
      have := (matern_point_flat q l y).const_mul (Real.exp s)
      rw [smul_zero] at this
      rw [hxy]; exact this
    refine ⟨by rw [← hev]; exact h2.1, h3.differentiableAt, fun k => ?_⟩
    rw [h3.fderiv, grad, h2.2]; rfl
  · have hok : Ok e x := by
      refine ⟨trivial, ok_maternE (ok_scaledDistanceE (fun _ => trivial) (fun _ => trivial)
        (fun _ => trivial) (Or.inl ?_))⟩
      obtain ⟨k, hk⟩ := Function.ne_iff.mp hxy
      exact ⟨k, by simpa [ev, row] using hk⟩
    rw [← hev]
    exact ⟨hok.val, grad_eq hok⟩

/-- **C274** With the exponential kernel (`p = 0`) the gradient at a coinciding point is zero, though
the covariance has no derivative there. -/
theorem point_grad_false {g : ℕ → ℝ} (bigf : ℝ) :
    let f := fun x : Fin 1 → ℝ => Real.exp 0 * maternFormula 0 (scaledDistance 0 x 0)
    let e := covITE g bigf 0 false (.const 0) (row 0) (fun k => .var k) (row (0 : Fin 1 → ℝ))
    grad e 0 0 = Flt.fin 0 ∧ ¬ DifferentiableAt ℝ f 0 := by
  intro f e
  constructor
  · have h1 : Flat (scaledDistanceE False (row (0 : Fin 1 → ℝ)) (fun k => Ex.var k)
        (row (0 : Fin 1 → ℝ))) (0 : Fin 1 → ℝ) :=
      flat_scaledDistanceE (fun _ => trivial) (fun _ => trivial) (fun _ => trivial)
        (fun k => by simp [ev, row])
    have h2 : Flat e 0 := flat_mul (flat_exp (flat_const 0 _)) (flat_maternE h1)
    exact h2.2 1 0
  · intro hf
    have hc : DifferentiableAt ℝ (fun t : ℝ => (fun _ : Fin 1 => t)) 0 := by
      rw [differentiableAt_pi]; exact fun _ => differentiableAt_id
    have h1 : DifferentiableAt ℝ (fun t : ℝ => f (fun _ => t)) 0 :=
      DifferentiableAt.comp (0 : ℝ) (g := f) hf hc
    have h2 : (fun t : ℝ => f (fun _ => t)) = fun t => Real.exp (-(2 * Real.sqrt (1 / 2)) * |t|) := by
      funext t
      simp [f, maternFormula_shape, shape_zero_eq, scaledDistance, cdistNumpy, scaleRow, Real.sqrt_sq_eq_abs]
    rw [h2] at h1
    have h3 := (h1.log (Real.exp_pos _).ne')
    simp only [Real.log_exp] at h3
    have h4 : DifferentiableAt ℝ (fun t : ℝ => |t|) 0 := by
      have h5 : (-(2 * Real.sqrt (1 / 2)) : ℝ) ≠ 0 := by
        have : 0 < Real.sqrt (1 / 2) := Real.sqrt_pos.mpr (by norm_num)
        linarith
      have := h3.const_mul (-(2 * Real.sqrt (1 / 2)) : ℝ)⁻¹
      refine this.congr_of_eventuallyEq (Eventually.of_forall fun t => ?_)
      simp only
      rw [← mul_assoc, inv_mul_cancel₀ h5, one_mul]
    exact not_differentiableAt_abs_zero h4

/-! ## The pairwise form -/

theorem back_sum_nan {d : ℕ} (f : Fin d → Ex K) (v : K → ℝ) (g : Flt) (k : K) (i : Fin d)
    (h : back v (f i) g k = .nan) : back v (sumE f) g k = .nan := by
  have : ∀ l : List (Fin d), i ∈ l →
      back v (l.foldr (fun k e => Ex.add (f k) e) (.const 0)) g k = .nan := by
    intro l
    induction l with
    | nil => intro h; cases h
    | cons a l ih =>
      intro hl
      rcases List.mem_cons.mp hl with rfl | hl
      · simp [back, h]
      · simp [back, ih hl]
  exact this _ (List.mem_finRange i)

theorem div_zero_mul_zero (g : Flt) : (g.div (Flt.fin 0)).mul (Flt.fin 0) = .nan := by
  cases g with
  | nan => rfl
  | num a =>
    by_cases h0 : a = 0
    · simp [Flt.div, Flt.fin, h0, Flt.mul]
    · by_cases h1 : 0 < a
      · simp [Flt.div, Flt.fin, h0, h1, Flt.mul]
      · simp [Flt.div, Flt.fin, h0, h1, Flt.mul]

theorem dist_elt_nan {d : ℕ} (x : Fin d → ℝ) (θ : Fin (d + 1) → ℝ) (k : Fin d) (g : Flt) :
    back θ (scaledDistanceEltE (rangeVar d) (row x) (row x)) g k.succ = .nan := by
  set s : Ex (Fin (d + 1)) := sumE fun k => .pow (.mul (.exp (rangeVar d k)) (.sub (row x k) (row x k))) 2 with hs
  have hok : Ok s θ := ok_sumE _ fun k => ⟨trivial, trivial, trivial⟩
  have h0 : ev s θ = 0 := by
    rw [hs, ev_sumE]
    exact Finset.sum_eq_zero fun k _ => by simp [ev, row]
  show back θ (.sqrt s) g k.succ = .nan
  simp only [back, val, hok.val, h0, fsqrt_fin le_rfl, Real.sqrt_zero, Flt.mul_fin, mul_zero]
  refine back_sum_nan _ _ _ _ k ?_
  simp [back, val, rangeVar, row, fpow, div_zero_mul_zero]

/-- **C274** `maternp_covariance(x, y, p, param, pairwise=True)` records an unguarded square root:
where `y[i]` equals `x[i]` (in another array) the covariance is `sigma2` but every range component
of its gradient is NaN, for every regularity; the full matrix has no such problem (`cov_grad`). -/
theorem pairwise_grad_false {d : ℕ} {g : ℕ → ℝ} (hg : IsGammaln g) (bigf : ℝ) (p : ℕ) (x : Fin d → ℝ)
    (θ : Fin (d + 1) → ℝ) :
    let e := covITE g bigf p true (sigmaVar d) (rangeVar d) (row x) (row x)
    val θ e = Flt.fin (Real.exp (θ 0)) ∧ ∀ k : Fin d, grad e θ k.succ = .nan := by
  intro e
  set D := scaledDistanceEltE (rangeVar d) (row x) (row x) with hD
  set s : Ex (Fin (d + 1)) := sumE fun k => .pow (.mul (.exp (rangeVar d k)) (.sub (row x k) (row x k))) 2 with hs
  have hok : Ok s θ := ok_sumE _ fun k => ⟨trivial, trivial, trivial⟩
  have h0 : ev s θ = 0 := by
    rw [hs, ev_sumE]
    exact Finset.sum_eq_zero fun k _ => by simp [ev, row]
  have hv : val θ D = Flt.fin 0 := by
    show val θ (.sqrt s) = _
    simp [val, hok.val, h0, fsqrt_fin le_rfl]
  have he : e = .mul (.exp (sigmaVar d)) (maternE g bigf p D) := rfl
  have hb : ∀ gg (k : Fin d), back θ (inftobigfE bigf D) gg k.succ = .nan := by
    intro gg k
    have : ¬ (Flt.fin 0 = .num ⊤ ∨ Flt.fin 0 = .num ⊥) := by simp [Flt.fin]
    simp only [inftobigfE, back, hv, fwhere, if_neg this]
    rw [dist_elt_nan]; simp
  constructor
  · -- the value is that of a constant zero distance
    have hvc : val θ e = val θ (.mul (.exp (sigmaVar d)) (maternE g bigf p (.const 0))) := by
      have h1 : val θ (inftobigfE bigf D) = val θ (inftobigfE bigf (.const 0)) := by
        simp only [inftobigfE, val]
        rw [hv]
      have h2 : ∀ (is : List ℕ) (a b : Ex (Fin (d + 1))), val θ a = val θ b →
          val θ (is.foldl (fun acc i => Ex.add acc (.mul (.const (coefE g p i))
            (.pow (Ex.mul (.const (2 * (2 * Real.sqrt (p + 0.5)))) (inftobigfE bigf D)) (p - i)))) a) =
          val θ (is.foldl (fun acc i => Ex.add acc (.mul (.const (coefE g p i))
            (.pow (Ex.mul (.const (2 * (2 * Real.sqrt (p + 0.5)))) (inftobigfE bigf (.const 0))) (p - i)))) b) := by
        intro is
        induction is with
        | nil => exact fun a b h => h
        | cons i is ih =>
          intro a b h
          refine ih _ _ ?_
          simp only [val, h, h1]
      rw [he]
      simp only [maternE, val, h1]
      rw [h2 _ _ _ rfl]
    have hok : Ok (.mul (.exp (sigmaVar d)) (maternE g bigf p (.const 0))) θ :=
      ⟨trivial, ok_maternE (h := .const 0) trivial⟩
    rw [hvc, hok.val]
    congr 1
    show Real.exp (θ 0) * ev (maternE g bigf p (.const 0)) θ = _
    rw [ev_maternE hg]
    have : maternFormula p (ev (.const 0) θ) = 1 := by
      show maternFormula p 0 = 1
      exact (maternFormula_shape_props p).1
    rw [this, mul_one]
  · intro k
    rw [grad, he]
    simp only [back, maternE, hb]
    simp

/-! ## Concrete cases -/

/-- `sqrt(t^2 + 1)` at `t = 1`. -/
example : grad (.sqrt (.add (.pow (.var ()) 2) (.const 1))) (fun _ : Unit => (1 : ℝ)) () =
    Flt.fin (fderiv ℝ (fun w : Unit → ℝ => Real.sqrt (w () ^ 2 + 1)) (fun _ => 1) (Pi.single () 1)) :=
  (grad_eq (e := .sqrt (.add (.pow (.var ()) 2) (.const 1))) (v := fun _ : Unit => (1 : ℝ))
    ⟨⟨trivial, trivial⟩, by simp only [ev]; norm_num⟩).2 ()

/-- Two coinciding points in different arrays: the gradient of the matrix entry is finite, that of
the pairwise entry is not. -/
example : ∃ g : ℕ → ℝ, IsGammaln g ∧
    (grad (covITE g 1 1 false (sigmaVar 1) (rangeVar 1) (row fun _ => 2) (row fun _ => 2)) 0 1).IsFin ∧
    grad (covITE g 1 1 true (sigmaVar 1) (rangeVar 1) (row fun _ => 2) (row fun _ => 2)) 0 1 = .nan := by
  refine ⟨fun k => Real.log (Real.Gamma k), fun _ _ => rfl, ?_, ?_⟩
  · exact ⟨_, (cov_grad (n := 1) (m := 1) (g := fun k => Real.log (Real.Gamma k)) (fun _ _ => rfl) 1 1
      (fun _ _ => 2) (fun _ _ => 2) 0 0 0).2.2 1⟩
  · exact (pairwise_grad_false (g := fun k => Real.log (Real.Gamma k)) (fun _ _ => rfl) 1 1
      (fun _ => 2) 0).2 0

/-- A diagonal and an off-diagonal entry of the covariance of the points 0 and 1. -/
example (i j : Fin 2) (k : Fin 2) :
    (grad (covIIE (fun k => Real.log (Real.Gamma k)) 1 1 2 (decide (i = j)) (sigmaVar 1) (rangeVar 1)
      (row fun _ => (i : ℝ)) (row fun _ => (j : ℝ))) 0 k).IsFin :=
  ⟨_, (cov_grad_same (n := 2) (d := 1) (g := fun k => Real.log (Real.Gamma k)) (fun _ _ => rfl) 1 1 2
    (fun i _ => (i : ℝ)) i j 0).2.2 k⟩

/-- The gradient with respect to a point, on the other point and off it. -/
example (x : Fin 1 → ℝ) : (grad (covITE (fun k => Real.log (Real.Gamma k)) 1 1 false (.const 0)
    (row (0 : Fin 1 → ℝ)) (fun k => .var k) (row (0 : Fin 1 → ℝ))) x 0).IsFin :=
  ⟨_, (point_grad (g := fun k => Real.log (Real.Gamma k)) (fun _ _ => rfl) 1 1 0 0 0 x
    (Or.inl le_rfl)).2.2 0⟩

open Classical in
/-- **C274** `custom_sqrt` returns the square root of numbers that are not negative, and NaN for negative numbers. -/
theorem custom_sqrt_value {x : Ex K} {v : K → ℝ} {a : ℝ} (h : val v x = Flt.fin a) :
    val v (customSqrtE x) = if a < 0 then .nan else Flt.fin (Real.sqrt a) := by
  by_cases h0 : a = 0
  · subst h0
    simp [customSqrtE, val, h, fwhere]
  · have h1 : Flt.fin a ≠ Flt.fin 0 := fun e => h0 (Flt.fin_inj.1 e)
    simp only [customSqrtE, val, h, fwhere, h1, if_false]
    split_ifs with hn
    · have : ((a : ℝ) : EReal) < 0 := by exact_mod_cast hn
      simp [fsqrt, Flt.fin, this]
    · exact fsqrt_fin (not_lt.1 hn)

/-- Minus one. -/
example : val (K := Fin 1) (fun _ => (-1 : ℝ)) (customSqrtE (.const (-1))) = .nan := by
  rw [custom_sqrt_value (a := -1) rfl, if_pos (by norm_num)]

end Verif.Torch
