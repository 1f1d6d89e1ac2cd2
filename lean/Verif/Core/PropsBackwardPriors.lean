import Verif.Core.BackwardPriors
import Verif.Core.PropsBackward
import Verif.Kernel.PropsPriors

/-!
# C280: gradients of the posterior criteria computed by torch
-/

set_option autoImplicit false

namespace Verif.Core.Rev

open Verif Verif.Data Matrix
open Verif.Kernel (cov maternFormula YArg IsGammaln PowerLaw logPriorJeffreys logPriorPowerLaw neglogF1)
open Verif.Torch (Ex val back ev Ok Inert sumE)

variable {n m q d r : ℕ} {la : LA}

theorem ev_jeffreysE (lam : ℝ) (th : Fin (d + 1) → ℝ) : ev (jeffreysE lam) th = logPriorJeffreys th lam := rfl

theorem ok_jeffreysE (lam : ℝ) (th : Fin (d + 1) → ℝ) : Ok (jeffreysE lam) th := ⟨trivial, trivial⟩

theorem ev_powerLawE (a : PowerLaw) (th : Fin (d + 1) → ℝ) : ev (powerLawE a) th = logPriorPowerLaw a th := by
  simp only [powerLawE, ev, Torch.ev_sumE, logPriorPowerLaw]

theorem ok_powerLawE (a : PowerLaw) (th : Fin (d + 1) → ℝ) (h0 : th 0 ≠ a.cutVar)
    (h : ∀ j : Fin d, th j.succ ≠ a.cutLow ∧ th j.succ ≠ a.cutHigh) : Ok (powerLawE a) th := by
  refine ⟨⟨⟨trivial, trivial⟩, trivial, ⟨trivial, trivial⟩, trivial, ?_⟩, ⟨⟨trivial, Torch.ok_sumE _ fun j => trivial⟩,
    Torch.ok_sumE _ fun j => ⟨trivial, ⟨trivial, trivial⟩, trivial, ?_⟩⟩,
    Torch.ok_sumE _ fun j => ⟨trivial, ⟨trivial, trivial⟩, trivial, ?_⟩⟩
  · simpa [ev, sub_eq_zero] using h0
  · simpa [ev, sub_eq_zero] using (h j).1.symm
  · simpa [ev, sub_eq_zero] using (h j).2

theorem ev_gaussE (c s : ℝ) (th : Fin (d + 1) → ℝ) :
    ev (gaussE c s) th = -0.5 * ((th 0 - c) / s) * ((th 0 - c) / s) := rfl

theorem std_ne_zero {invCdf : ℝ → ℝ} {gamma coverage std : ℝ}
    (h : Kernel.logsigma2PriorStd invCdf gamma coverage = .ok std) : std ≠ 0 := by
  unfold Kernel.logsigma2PriorStd at h
  split_ifs at h with h1 h2
  dsimp only at h
  split_ifs at h with h3
  obtain rfl := Except.ok.inj h
  exact div_ne_zero (Real.log_pos (not_le.1 h1)).ne' (not_le.1 h3).ne'

theorem ok_gaussE (c : ℝ) {s : ℝ} (hs : s ≠ 0) (th : Fin (d + 1) → ℝ) : Ok (gaussE c s) th :=
  have hz : Ok (Ex.div (.sub (.var 0) (.const c)) (.const s) : Ex (Fin (d + 1))) th :=
    ⟨⟨trivial, trivial⟩, trivial, hs⟩
  ⟨⟨trivial, hz⟩, hz⟩

/-- The value of one penalty. -/
theorem val_neglogE {K : Type} [Fintype K] [DecidableEq K] (alpha m0 r0 : ℝ) {e : Ex K} {v : K → ℝ} (he : Ok e v) :
    val v (neglogE alpha m0 r0 e) = neglogF1 alpha (ev e v) m0 r0 := by
  by_cases h : m0 < ev e v
  · have h' : 0 < ev e v - m0 := sub_pos.2 h
    simp [neglogE, val, he.val, Torch.fwhere, h, Torch.flog_fin h', neglogF1]
  · simp [neglogE, val, he.val, Torch.fwhere, h, neglogF1]

/-- The slope of one penalty; zero where the penalty is infinite. -/
theorem back_neglogE {K : Type} [Fintype K] [DecidableEq K] (alpha m0 r0 : ℝ) {e : Ex K} {v : K → ℝ} (he : Ok e v)
    {L : (K → ℝ) →L[ℝ] ℝ} (hL : ∀ g k, back v e (Flt.fin g) k = Flt.fin (g * L (Pi.single k 1))) (g : ℝ) (k : K) :
    back v (neglogE alpha m0 r0 e) (Flt.fin g) k = Flt.fin (g *
      (if m0 < ev e v then alpha * (1 - (r0 - m0) / (ev e v - m0)) else 0) * L (Pi.single k 1)) := by
  by_cases h : m0 < ev e v
  · have h' : 0 < ev e v - m0 := sub_pos.2 h
    simp [neglogE, back, val, he.val, Torch.fwhere, h, hL, Flt.div_fin h'.ne']
    field_simp
    ring_nf
  · simp [neglogE, back, val, he.val, Torch.fwhere, h, hL]

theorem back_sumE {K : Type} {N : ℕ} {f : Fin N → Ex K} {v : K → ℝ} {g : Flt} {k : K} {s : Fin N → ℝ}
    (h : ∀ j, back v (f j) g k = Flt.fin (s j)) : back v (sumE f) g k = Flt.fin (∑ j, s j) := by
  have : ∀ l : List (Fin N), back v (l.foldr (fun k e => Ex.add (f k) e) (.const 0)) g k = Flt.fin (l.map s).sum := by
    intro l
    induction l with
    | nil => rfl
    | cons j l ih => simp [back, h, ih]
  rw [sumE, this, Fin.sum_univ_def]

/-- The derivative of the penalty on `logrho_j` with respect to `loginvrho_j`; zero where the penalty is infinite. -/
noncomputable def slope (alpha : ℝ) (lo ref : Fin d → ℝ) (th : Fin (d + 1) → ℝ) (j : Fin d) : ℝ :=
  open Classical in
  if lo j < -th j.succ then -(alpha * (1 - (ref j - lo j) / (-th j.succ - lo j))) else 0

theorem back_barrierE (alpha : ℝ) (lo ref : Fin d → ℝ) (th : Fin (d + 1) → ℝ) (g : ℝ) (k : Fin (d + 1)) :
    back th (barrierE alpha lo ref) (Flt.fin g) k = Flt.fin (-g * Fin.cons (α := fun _ => ℝ) 0 (slope alpha lo ref th) k) := by
  have hj : ∀ j : Fin d, back th (neglogE alpha (lo j) (ref j) (.mul (.const (-1)) (.var j.succ))) (Flt.fin (-g)) k =
      Flt.fin (-g * (slope alpha lo ref th j * (Pi.single k 1 : Fin (d + 1) → ℝ) j.succ)) := by
    intro j
    obtain ⟨-, L, hd, hL⟩ := Torch.back_sound (.mul (.const (-1)) (.var j.succ) : Ex (Fin (d + 1))) th ⟨trivial, trivial⟩
    have hd' : HasFDerivAt (fun w : Fin (d + 1) → ℝ => -1 * w j.succ)
        ((-1 : ℝ) • ContinuousLinearMap.proj (R := ℝ) (φ := fun _ => ℝ) j.succ) th :=
      (hasFDerivAt_apply j.succ th).const_mul (-1)
    have e : L = (-1 : ℝ) • ContinuousLinearMap.proj (R := ℝ) (φ := fun _ => ℝ) j.succ := hd.unique hd'
    rw [back_neglogE alpha (lo j) (ref j) (e := .mul (.const (-1)) (.var j.succ)) ⟨trivial, trivial⟩ hL, e]
    simp only [ev, slope, neg_mul, one_mul, _root_.smul_apply, ContinuousLinearMap.proj_apply, smul_eq_mul]
    split_ifs <;> congr 1 <;> ring
  have h1 := back_sumE (g := Flt.fin (-g)) hj
  have h2 : back th (barrierE alpha lo ref) (Flt.fin g) k =
      (Flt.fin 0).add (back th (sumE fun j => neglogE alpha (lo j) (ref j) (.mul (.const (-1)) (.var j.succ))) (Flt.fin (-g)) k) := by
    have e : (Flt.fin g).mul (val th (.const (-1) : Ex (Fin (d + 1)))) = Flt.fin (-g) := by simp [val]
    conv_lhs => rw [barrierE, back, e]
    rfl
  rw [h2, h1, Flt.add_fin, zero_add, ← Finset.mul_sum]
  congr 2
  refine Fin.cases ?_ (fun i => ?_) k
  · simp [Fin.succ_ne_zero]
  · simp [Pi.single_apply, Fin.succ_inj]

theorem ok_neglogE {K : Type} [Fintype K] [DecidableEq K] (alpha r0 : ℝ) {m0 : ℝ} {e : Ex K} {v : K → ℝ} (he : Ok e v)
    (h : m0 < ev e v) : Ok (neglogE alpha m0 r0 e) v := by
  have hs : Ok (Ex.sub e (.const m0)) v := ⟨he, trivial⟩
  have hc : ∀ᶠ w in nhds v, Flt.lt (Flt.fin 0) (Flt.fin (ev (Ex.sub e (.const m0)) w)) := by
    filter_upwards [he.continuousAt.eventually (lt_mem_nhds h)] with w hw
    simpa [ev] using hw
  have h1 : Ok (Ex.whr (fun a => Flt.lt (Flt.fin 0) a) (Ex.sub e (.const m0)) (Ex.sub e (.const m0)) (.const 1)) v :=
    ⟨hs.val, Or.inl ⟨hc, hs, fun k => rfl⟩⟩
  have h2 : 0 < ev (Ex.whr (fun a => Flt.lt (Flt.fin 0) a) (Ex.sub e (.const m0)) (Ex.sub e (.const m0)) (.const 1)) v := by
    simp [ev, h]
  exact ⟨hs.val, Or.inl ⟨hc, ⟨⟨trivial, h1, h2⟩, trivial, h1⟩, fun k => rfl⟩⟩

theorem ok_barrierE (alpha : ℝ) {lo ref : Fin d → ℝ} {th : Fin (d + 1) → ℝ} (h : ∀ j : Fin d, lo j < -th j.succ) :
    Ok (barrierE alpha lo ref) th :=
  ⟨trivial, Torch.ok_sumE _ fun j => ok_neglogE _ _ ⟨trivial, trivial⟩ (by simpa [ev] using h j)⟩

theorem ev_barrierE (alpha : ℝ) {lo ref : Fin d → ℝ} {th : Fin (d + 1) → ℝ} (h : ∀ j : Fin d, lo j < -th j.succ) :
    ev (barrierE alpha lo ref) th = -∑ j, alpha * ((-th j.succ - lo j) - (ref j - lo j) * Real.log (-th j.succ - lo j)) := by
  rw [barrierE, ev, Torch.ev_sumE]
  simp only [ev, neg_mul, one_mul]
  congr 1
  refine Finset.sum_congr rfl fun j _ => ?_
  simp [neglogE, ev, h j]
  ring

/-- Outside the support of the prior the recorded value is minus infinity. -/
theorem val_barrierE (alpha : ℝ) {lo ref : Fin d → ℝ} {th : Fin (d + 1) → ℝ} (h : ∃ j : Fin d, -th j.succ ≤ lo j) :
    val th (barrierE alpha lo ref) = .num ⊥ := by
  have hv : ∀ j : Fin d, val th (neglogE alpha (lo j) (ref j) (.mul (.const (-1)) (.var j.succ) : Ex (Fin (d + 1)))) =
      neglogF1 alpha (-th j.succ) (lo j) (ref j) := fun j => by
    rw [val_neglogE alpha (lo j) (ref j) (e := .mul (.const (-1)) (.var j.succ)) ⟨trivial, trivial⟩]
    simp [ev]
  have hs : ∀ l : List (Fin d), (∃ a : ℝ, val th (l.foldr (fun j e => Ex.add
      (neglogE alpha (lo j) (ref j) (.mul (.const (-1)) (.var j.succ) : Ex (Fin (d + 1)))) e) (.const 0)) = Flt.fin a ∧
        ∀ j ∈ l, lo j < -th j.succ) ∨
      val th (l.foldr (fun j e => Ex.add
      (neglogE alpha (lo j) (ref j) (.mul (.const (-1)) (.var j.succ) : Ex (Fin (d + 1)))) e) (.const 0)) = .num ⊤ := by
    intro l
    induction l with
    | nil => exact Or.inl ⟨0, rfl, by simp⟩
    | cons j l ih =>
      rw [List.foldr_cons]
      simp only [val]
      rw [hv j]
      by_cases hj : lo j < -th j.succ
      · obtain ⟨c, hc⟩ := (Kernel.neglogF1_inf_iff alpha (-th j.succ) (lo j) (ref j)).2 hj
        rw [hc]
        rcases ih with ⟨a, ha, hl⟩ | ih
        · rw [ha]
          exact Or.inl ⟨c + a, by simp, by simpa using ⟨hj, hl⟩⟩
        · rw [ih]
          exact Or.inr (by simp [Flt.add, Flt.fin])
      · rw [(Kernel.neglogF1_inf_iff alpha (-th j.succ) (lo j) (ref j)).1.2 (not_lt.1 hj)]
        rcases ih with ⟨a, ha, hl⟩ | ih
        · rw [ha]
          exact Or.inr (by simp [Flt.add, Flt.fin])
        · rw [ih]
          exact Or.inr (by simp [Flt.add])
  obtain ⟨j, hj⟩ := h
  rcases hs (List.finRange d) with ⟨a, -, hl⟩ | h
  · exact absurd (hl j (List.mem_finRange j)) (not_lt.2 hj)
  · rw [barrierE, val, sumE, h]
    simp [val, Flt.mul, Flt.fin]

/-- The restricted likelihood as a function of the parameters. -/
theorem post_reml (hla : la.Sound .torch) {g : ℕ → ℝ} (hg : IsGammaln g) (bigf : ℝ) (p : ℕ) {eps : ℝ}
    {x : Matrix (Fin (q + r)) (Fin d) ℝ} (hx : Admissible eps x) {P : Mat (q + r) q} (hP : FullRank P)
    (z : Fin (q + r) → ℝ) {R : (Fin (d + 1) → ℝ) → ℝ}
    (hR : ∀ th, reml .torch la (cov (maternFormula p) eps th x .same) P z = .ok (.finite (R th))) (th : Fin (d + 1) → ℝ) :
    DifferentiableAt ℝ R th ∧
      remlGrad la (recorded g bigf eps p x) P z th = .ok fun k => Flt.fin (fderiv ℝ R th (Pi.single k 1)) := by
  obtain ⟨L, h1, h2⟩ := reml_grad hla hg bigf p hx hP z
  have : L = R := funext fun th => by
    have := (h1 th).symm.trans (hR th)
    simpa using this
  subst this
  exact h2 th

/-- **C280** The gradient of a posterior criterion is that of the restricted likelihood minus those of the priors. -/
theorem post_grad (hla : la.Sound .torch) {g : ℕ → ℝ} (hg : IsGammaln g) (bigf : ℝ) (p : ℕ) {eps : ℝ}
    {x : Matrix (Fin (q + r)) (Fin d) ℝ} (hx : Admissible eps x) {P : Mat (q + r) q} (hP : FullRank P)
    (z : Fin (q + r) → ℝ) {R : (Fin (d + 1) → ℝ) → ℝ}
    (hR : ∀ th, reml .torch la (cov (maternFormula p) eps th x .same) P z = .ok (.finite (R th))) {th : Fin (d + 1) → ℝ}
    {priors : List (Ex (Fin (d + 1)))} (hO : ∀ e ∈ priors, Ok e th) :
    DifferentiableAt ℝ (fun th => R th - (priors.map fun e => ev e th).sum) th ∧
      postGrad la (recorded g bigf eps p x) P z priors th =
        .ok fun k => Flt.fin (fderiv ℝ (fun th => R th - (priors.map fun e => ev e th).sum) th (Pi.single k 1)) := by
  obtain ⟨hd, hgr⟩ := post_reml hla hg bigf p hx hP z hR th
  have key : ∀ (l : List (Ex (Fin (d + 1)))), (∀ e ∈ l, Ok e th) → ∀ (F : (Fin (d + 1) → ℝ) → ℝ), DifferentiableAt ℝ F th →
      DifferentiableAt ℝ (fun th => F th - (l.map fun e => ev e th).sum) th ∧
      ∀ k, l.foldl (fun s e => s.add (back th e (Flt.fin (-1)) k)) (Flt.fin (fderiv ℝ F th (Pi.single k 1))) =
        Flt.fin (fderiv ℝ (fun th => F th - (l.map fun e => ev e th).sum) th (Pi.single k 1)) := by
    intro l
    induction l with
    | nil => intro _ F hF; simpa using hF
    | cons e l ih =>
      intro hl F hF
      obtain ⟨-, L, hL, hb⟩ := Torch.back_sound e th (hl e (by simp))
      have hF' : HasFDerivAt (fun th => F th - ev e th) (fderiv ℝ F th - L) th := hF.hasFDerivAt.sub hL
      have h3 := ih (fun e' he' => hl e' (List.mem_cons_of_mem _ he')) _ hF'.differentiableAt
      have e1 : (fun th => F th - ((e :: l).map fun e => ev e th).sum) =
          fun th => F th - ev e th - (l.map fun e => ev e th).sum := by
        funext th
        simp only [List.map_cons, List.sum_cons]
        ring
      rw [e1]
      refine ⟨h3.1, fun k => ?_⟩
      rw [List.foldl_cons, hb, ← h3.2 k, hF'.fderiv, Flt.add_fin, _root_.sub_apply]
      congr 2
      ring
  obtain ⟨h1, h2⟩ := key priors hO R hd
  refine ⟨h1, ?_⟩
  simp only [postGrad, hgr, bind, Except.bind, pure, Except.pure]
  exact congrArg Except.ok (funext h2)

/-- At a cut-off of the power laws the prior has no derivative; torch returns the mean of the two slopes. -/
theorem powerLaw_kink (a : PowerLaw) (ha : a.penalty ≠ 0) {th : Fin (d + 1) → ℝ} (h0 : th 0 = a.cutVar)
    (h : ∀ j : Fin d, th j.succ ≠ a.cutLow ∧ th j.succ ≠ a.cutHigh) :
    back th (powerLawE a) (Flt.fin 1) 0 = Flt.fin (-a.lambdaVar + a.penalty / 2) ∧
    ¬ DifferentiableAt ℝ (logPriorPowerLaw a) th := by
  constructor
  · have hC : Ok (Ex.sub (.sub (.mul (.const (-a.lambdaLen)) (sumE fun j : Fin d => (.var j.succ : Ex (Fin (d + 1)))))
        (sumE fun j : Fin d => Ex.mul (.const a.penalty) (.maxi (.sub (.const a.cutLow) (.var j.succ)) (.const 0))))
        (sumE fun j : Fin d => Ex.mul (.const a.penalty) (.maxi (.sub (.var j.succ) (.const a.cutHigh)) (.const 0)))) th := by
      refine ⟨⟨⟨trivial, Torch.ok_sumE _ fun j => trivial⟩,
        Torch.ok_sumE _ fun j => ⟨trivial, ⟨trivial, trivial⟩, trivial, ?_⟩⟩,
        Torch.ok_sumE _ fun j => ⟨trivial, ⟨trivial, trivial⟩, trivial, ?_⟩⟩
      · simpa [ev, sub_eq_zero] using (h j).1.symm
      · simpa [ev, sub_eq_zero] using (h j).2
    obtain ⟨-, L, hL, hb⟩ := Torch.back_sound _ th hC
    have hz : L (Pi.single 0 1) = 0 := by
      have h1 := hL.hasLineDerivAt (Pi.single 0 1)
      refine HasDerivAt.unique h1 ?_
      have e : ∀ (t : ℝ) (j : Fin d), (th + t • (Pi.single 0 1 : Fin (d + 1) → ℝ)) j.succ = th j.succ := fun t j => by
        simp [Fin.succ_ne_zero]
      simp only [ev, Torch.ev_sumE, e]
      exact hasDerivAt_const _ _
    have hB := hb 1 0
    rw [hz] at hB
    rw [powerLawE, back, hB]
    simp [back, val, h0, Torch.fwhere, Flt.div_fin (two_ne_zero (α := ℝ))]
  · intro hd
    have h1 : HasDerivAt (fun t : ℝ => logPriorPowerLaw a (Function.update th 0 (a.cutVar + t)))
        (fderiv ℝ (logPriorPowerLaw a) th (Pi.single 0 1)) 0 := by
      have := hd.hasFDerivAt.hasLineDerivAt (Pi.single 0 1)
      have e : ∀ t : ℝ, th + t • (Pi.single 0 1 : Fin (d + 1) → ℝ) = Function.update th 0 (a.cutVar + t) := fun t => by
        ext i
        by_cases hi : i = 0
        · subst hi
          simp [h0]
        · simp [hi]
      simp only [HasLineDerivAt, e] at this
      exact this
    have e2 : ∀ t : ℝ, |t| = 2 / a.penalty * (logPriorPowerLaw a (Function.update th 0 (a.cutVar + t)) -
        logPriorPowerLaw a (Function.update th 0 a.cutVar) + a.lambdaVar * t) - t := fun t => by
      rw [Kernel.powerLaw_split]
      have : max t 0 = (t + |t|) / 2 := by
        rcases le_total 0 t with ht | ht
        · rw [max_eq_left ht, abs_of_nonneg ht]; ring
        · rw [max_eq_right ht, abs_of_nonpos ht]; ring
      simp only [add_sub_cancel_left, sub_self, max_self, this]
      field_simp
      ring
    refine not_differentiableAt_abs_zero ?_
    rw [show (abs : ℝ → ℝ) = fun t => _ from funext e2]
    exact (((h1.sub_const _).add ((hasDerivAt_id (0 : ℝ)).const_mul a.lambdaVar)).const_mul (2 / a.penalty)
      |>.sub (hasDerivAt_id (0 : ℝ))).differentiableAt

section criteria

variable (hla : la.Sound .torch) {g : ℕ → ℝ} (hg : IsGammaln g) (bigf : ℝ) (p : ℕ) {eps : ℝ}
  {x : Matrix (Fin (q + r)) (Fin d) ℝ} (hx : Admissible eps x) {P : Mat (q + r) q} (hP : FullRank P)
  (z : Fin (q + r) → ℝ) {R : (Fin (d + 1) → ℝ) → ℝ}
  (hR : ∀ th, reml .torch la (cov (maternFormula p) eps th x .same) P z = .ok (.finite (R th)))

include hla hg hx hP hR

/-- **C280** Jeffreys prior. -/
theorem jeffreys_grad (lam : ℝ) (th : Fin (d + 1) → ℝ) :
    DifferentiableAt ℝ (fun th => R th - logPriorJeffreys th lam) th ∧
      postGrad la (recorded g bigf eps p x) P z [jeffreysE lam] th =
        .ok fun k => Flt.fin (fderiv ℝ (fun th => R th - logPriorJeffreys th lam) th (Pi.single k 1)) := by
  have := post_grad hla hg bigf p hx hP z hR (th := th) (priors := [jeffreysE lam]) (by simpa using ok_jeffreysE lam th)
  simpa only [List.map_cons, List.map_nil, List.sum_cons, List.sum_nil, add_zero, ev_jeffreysE] using this

/-- **C280** Power laws, away from the cut-offs, where the prior has no derivative. -/
theorem powerLaw_grad (a : PowerLaw) {th : Fin (d + 1) → ℝ} (h0 : th 0 ≠ a.cutVar)
    (h : ∀ j : Fin d, th j.succ ≠ a.cutLow ∧ th j.succ ≠ a.cutHigh) :
    DifferentiableAt ℝ (fun th => R th - logPriorPowerLaw a th) th ∧
      postGrad la (recorded g bigf eps p x) P z [powerLawE a] th =
        .ok fun k => Flt.fin (fderiv ℝ (fun th => R th - logPriorPowerLaw a th) th (Pi.single k 1)) := by
  have := post_grad hla hg bigf p hx hP z hR (th := th) (priors := [powerLawE a]) (by simpa using ok_powerLawE a th h0 h)
  simpa only [List.map_cons, List.map_nil, List.sum_cons, List.sum_nil, add_zero, ev_powerLawE] using this

/-- **C280** Gaussian prior on `log(sigma²)`. -/
theorem gauss_grad {invCdf : ℝ → ℝ} {gamma coverage std : ℝ} (hs : Kernel.logsigma2PriorStd invCdf gamma coverage = .ok std)
    (c : ℝ) {G : (Fin (d + 1) → ℝ) → ℝ} (hG : ∀ th, Kernel.logPriorGaussian invCdf th c gamma coverage = .ok (G th))
    (th : Fin (d + 1) → ℝ) :
    DifferentiableAt ℝ (fun th => R th - G th) th ∧
      postGrad la (recorded g bigf eps p x) P z [gaussE c std] th =
        .ok fun k => Flt.fin (fderiv ℝ (fun th => R th - G th) th (Pi.single k 1)) := by
  have hG' : G = fun th => ev (gaussE c std) th := funext fun th => by
    have := hG th
    simp only [Kernel.logPriorGaussian, hs, bind, Except.bind, pure, Except.pure, Except.ok.injEq] at this
    rw [← this, ev_gaussE]
  have := post_grad hla hg bigf p hx hP z hR (th := th) (priors := [gaussE c std])
    (by simpa using ok_gaussE c (std_ne_zero hs) th)
  rw [hG']
  simpa only [List.map_cons, List.map_nil, List.sum_cons, List.sum_nil, add_zero] using this

/-- **C280** Barrier on the ranges, possibly with further priors before it: inside the support the gradient is the derivative;
outside the criterion is infinite and the gradient still consists of numbers, those of the restricted likelihood, the other
priors and the finite penalties. -/
theorem barrier_grad {priors : List (Ex (Fin (d + 1)))} (alpha : ℝ) (lo ref : Fin d → ℝ) {th : Fin (d + 1) → ℝ}
    (hO : ∀ e ∈ priors, Ok e th) :
    postGrad la (recorded g bigf eps p x) P z (priors ++ [barrierE alpha lo ref]) th =
      .ok (fun k => Flt.fin (fderiv ℝ (fun th => R th - (priors.map fun e => ev e th).sum) th (Pi.single k 1) +
        Fin.cons (α := fun _ => ℝ) 0 (slope alpha lo ref th) k)) ∧
    ((∀ j : Fin d, lo j < -th j.succ) →
      DifferentiableAt ℝ (fun th => R th - (priors.map fun e => ev e th).sum + ∑ j : Fin d,
        alpha * ((-th j.succ - lo j) - (ref j - lo j) * Real.log (-th j.succ - lo j))) th ∧
      ∀ k, fderiv ℝ (fun th => R th - (priors.map fun e => ev e th).sum) th (Pi.single k 1) +
          Fin.cons (α := fun _ => ℝ) 0 (slope alpha lo ref th) k =
        fderiv ℝ (fun th => R th - (priors.map fun e => ev e th).sum + ∑ j : Fin d,
          alpha * ((-th j.succ - lo j) - (ref j - lo j) * Real.log (-th j.succ - lo j))) th (Pi.single k 1)) := by
  have hgr := (post_grad hla hg bigf p hx hP z hR hO).2
  have hgr' := (post_reml hla hg bigf p hx hP z hR th).2
  have h1 : postGrad la (recorded g bigf eps p x) P z (priors ++ [barrierE alpha lo ref]) th =
      .ok (fun k => Flt.fin (fderiv ℝ (fun th => R th - (priors.map fun e => ev e th).sum) th (Pi.single k 1) +
        Fin.cons (α := fun _ => ℝ) 0 (slope alpha lo ref th) k)) := by
    simp only [postGrad, hgr', bind, Except.bind, pure, Except.pure, Except.ok.injEq] at hgr
    simp only [postGrad, hgr', bind, Except.bind, pure, Except.pure, List.foldl_append, List.foldl_cons, List.foldl_nil,
      back_barrierE, neg_neg, one_mul, Except.ok.injEq]
    funext k
    rw [congrFun hgr k, Flt.add_fin]
  refine ⟨h1, fun h => ?_⟩
  have h2 := post_grad hla hg bigf p hx hP z hR (th := th) (priors := priors ++ [barrierE alpha lo ref]) (fun e he => by
    rcases List.mem_append.1 he with he | he
    · exact hO e he
    · rw [List.mem_singleton.1 he]
      exact ok_barrierE alpha h)
  have hn : ∀ᶠ w in nhds th, ∀ j : Fin d, lo j < -w j.succ :=
    Filter.eventually_all.2 fun j => (continuous_apply j.succ).neg.continuousAt.eventually (lt_mem_nhds (h j))
  have he : (fun th => R th - ((priors ++ [barrierE alpha lo ref]).map fun e => ev e th).sum) =ᶠ[nhds th] fun th =>
      R th - (priors.map fun e => ev e th).sum + ∑ j : Fin d,
      alpha * ((-th j.succ - lo j) - (ref j - lo j) * Real.log (-th j.succ - lo j)) := by
    filter_upwards [hn] with w hw
    simp only [List.map_append, List.sum_append, List.map_cons, List.map_nil, List.sum_cons, List.sum_nil, add_zero,
      ev_barrierE alpha hw]
    ring
  rw [he.fderiv_eq, h1] at h2
  refine ⟨h2.1.congr_of_eventuallyEq he.symm, fun k => ?_⟩
  have := congrFun (Except.ok.inj h2.2) k
  exact Flt.fin_inj.mp this

end criteria

/-! ## Examples -/

theorem ex_rank : FullRank (fun _ _ => 1 : Mat 2 1) := by
  intro b hb
  have := congrFun hb 0
  funext j
  fin_cases j
  simpa [mulVec, dotProduct] using this

/-- Two observations on a line, both priors, at the parameters `(0, 0)` inside the support. -/
example : ∃ g : ℕ → ℝ, ∃ R : (Fin 2 → ℝ) → ℝ,
    (∀ th, reml (q := 1) (r := 1) .torch (exactLA .torch)
      (cov (maternFormula 1) 0 th (!![0; 1] : Matrix (Fin 2) (Fin 1) ℝ) .same) (fun _ _ => 1) ![1, 2] = .ok (.finite (R th))) ∧
    postGrad (q := 1) (r := 1) (exactLA .torch) (recorded g 1 0 1 (!![0; 1] : Matrix (Fin 2) (Fin 1) ℝ)) (fun _ _ => 1)
      ![1, 2] ([gaussE 0 1] ++ [barrierE 1 ![-1] ![1]]) 0 =
        .ok fun k => Flt.fin (fderiv ℝ (fun th => R th - (([gaussE 0 1] : List (Ex (Fin 2))).map fun e => ev e th).sum) 0
          (Pi.single k 1) + Fin.cons (α := fun _ => ℝ) 0 ![1] k) := by
  obtain ⟨R, h1, -⟩ := reml_grad (q := 1) (r := 1) (exactLA_contract .torch).toSound
    (g := fun k => Real.log (Real.Gamma k)) (fun _ _ => rfl) 1 1 ex_points ex_rank ![1, 2]
  refine ⟨fun k => Real.log (Real.Gamma k), R, h1, ?_⟩
  rw [(barrier_grad (q := 1) (r := 1) (exactLA_contract .torch).toSound (fun _ _ => rfl) 1 1 ex_points ex_rank ![1, 2] h1
    (priors := [gaussE 0 1]) 1 ![-1] ![1] (th := 0) (by simpa using ok_gaussE 0 one_ne_zero 0)).1]
  refine congrArg Except.ok (funext fun k => ?_)
  have : slope (d := 1) 1 ![-1] ![1] 0 = ![1] := by
    funext j
    fin_cases j
    simp [slope]
  rw [this]

/-- The default power laws at the upper cut-off: the slope `-1 + 100/2`. -/
example : back (fun i : Fin 2 => if i = 0 then 9.21 else 0) (powerLawE .default) (Flt.fin 1) 0 = Flt.fin 49 := by
  rw [(powerLaw_kink .default (by norm_num [PowerLaw.default]) (by simp [PowerLaw.default])
    (fun j => by norm_num [PowerLaw.default, Fin.succ_ne_zero])).1]
  norm_num [PowerLaw.default]

end Verif.Core.Rev
