import Verif.Mcmc.NutsEdge
import Verif.Mcmc.PropsPosteriorNuts
import Verif.Mcmc.PropsSVGDEdge

/-!
# NUTS next to the sides of the sampling box

With the numpy backend gradients are finite differences.  Within two difference steps of a
side the log-density is `-inf` at an outer point, so that the gradient is not finite and the
first leapfrog step diverges: a chain that starts there never moves.
-/

set_option autoImplicit false

namespace Verif.NutsEdge

open Verif
open Verif.Nuts (finite?)
open Verif.SVGD (isFin_add isFin_neg isFin_sub isFin_div)

variable {d : ℕ}

theorem isFin_mul {r : ℝ} (hr : r ≠ 0) {a : Flt} (h : ((Flt.fin r).mul a).IsFin) : a.IsFin := by
  classical
  obtain ⟨x, hx⟩ := h
  cases a with
  | nan => simp [Flt.fin] at hx
  | num a =>
    induction a using EReal.rec with
    | coe y => exact ⟨y, rfl⟩
    | bot =>
      exfalso
      simp only [Flt.mul, Flt.fin, EReal.coe_eq_zero, hr, false_and, EReal.bot_ne_zero, or_self, if_false] at hx
      injection hx with hx
      rcases lt_or_gt_of_ne hr with h | h
      · rw [EReal.coe_mul_bot_of_neg h] at hx; exact EReal.top_ne_coe x hx
      · rw [EReal.coe_mul_bot_of_pos h] at hx; exact EReal.bot_ne_coe x hx
    | top =>
      exfalso
      simp only [Flt.mul, Flt.fin, EReal.coe_eq_zero, hr, false_and, EReal.top_ne_zero, or_self, if_false] at hx
      injection hx with hx
      rcases lt_or_gt_of_ne hr with h | h
      · rw [EReal.coe_mul_top_of_neg h] at hx; exact EReal.bot_ne_coe x hx
      · rw [EReal.coe_mul_top_of_pos h] at hx; exact EReal.top_ne_coe x hx

theorem mul_comm' (a b : Flt) : a.mul b = b.mul a := by
  classical
  cases a <;> cases b <;> simp only [Flt.mul, Flt.nan_mul, Flt.mul_nan]
  rw [mul_comm]
  congr 1
  rw [or_comm]

theorem isFin_sq {a : Flt} (h : (a.mul a).IsFin) : a.IsFin := by
  classical
  obtain ⟨x, hx⟩ := h
  cases a with
  | nan => simp [Flt.fin] at hx
  | num a =>
    induction a using EReal.rec with
    | coe y => exact ⟨y, rfl⟩
    | bot => simp [Flt.mul, Flt.fin] at hx
    | top => simp [Flt.mul, Flt.fin] at hx

theorem isFin_foldl (l : List Flt) (c : Flt) (h : (l.foldl Flt.add c).IsFin) :
    c.IsFin ∧ ∀ a ∈ l, a.IsFin := by
  induction l generalizing c with
  | nil => exact ⟨h, by simp⟩
  | cons a l ih =>
    obtain ⟨h1, h2⟩ := ih _ h
    obtain ⟨h3, h4⟩ := isFin_add h1
    refine ⟨h3, fun b hb => ?_⟩
    rcases List.mem_cons.mp hb with rfl | hb
    · exact h4
    · exact h2 b hb

theorem isFin_sum {f : Fin d → Flt} (h : (Flt.sum f).IsFin) (i : Fin d) : (f i).IsFin :=
  (isFin_foldl _ _ h).2 _ (List.mem_map.mpr ⟨i, List.mem_finRange i, rfl⟩)

theorem isFin_kinetic {p : FPt d} {im : Fin d → ℝ} (him : ∀ i, im i ≠ 0) (h : (kineticF p im).IsFin)
    (i : Fin d) : (p i).IsFin := by
  have h1 := isFin_sum (isFin_mul (by norm_num) h) i
  rw [mul_comm'] at h1
  exact isFin_sq (isFin_mul (him i) h1)

/-- **C123** From a point whose gradient is not finite the chain does not move: either its
energy is not finite or the first leapfrog step diverges. -/
theorem edge_stuck (tg : TargetF d) (mv : MoveF d) (him : ∀ i, mv.im i ≠ 0) (he : mv.eps ≠ 0)
    (q0 : FPt d) (c : Fin d) (hg : ¬ (tg.g q0 c).IsFin) :
    let out := transitionF tg mv.im mv.eps mv.maxDepth mv.noise mv.v mv.rest q0
    out.q = q0 ∧ out.accept = 0 ∧ (1 ≤ mv.maxDepth → out.div = true) := by
  intro out
  have hout : out = transitionF tg mv.im mv.eps mv.maxDepth mv.noise mv.v mv.rest q0 := rfl
  unfold transitionF at hout
  dsimp only at hout
  cases h0 : finite? ((tg.U q0).add (kineticF (lift (Nuts.momentum mv.im mv.noise)) mv.im)) with
  | none => rw [h0] at hout; rw [hout]; exact ⟨rfl, rfl, fun _ => rfl⟩
  | some h =>
    rw [h0] at hout
    dsimp only at hout
    by_cases hd : mv.maxDepth = 0
    · rw [if_pos hd] at hout
      rw [hout]
      exact ⟨rfl, rfl, fun h => by omega⟩
    rw [if_neg hd] at hout
    have hnone : finite? ((tg.U (leapfrogF tg q0 (lift (Nuts.momentum mv.im mv.noise)) (tg.g q0)
        (if mv.v then mv.eps else -mv.eps) mv.im).1).add (kineticF (leapfrogF tg q0
        (lift (Nuts.momentum mv.im mv.noise)) (tg.g q0) (if mv.v then mv.eps else -mv.eps) mv.im).2
        mv.im)) = none := by
      cases hs : finite? ((tg.U (leapfrogF tg q0 (lift (Nuts.momentum mv.im mv.noise)) (tg.g q0)
        (if mv.v then mv.eps else -mv.eps) mv.im).1).add (kineticF (leapfrogF tg q0
        (lift (Nuts.momentum mv.im mv.noise)) (tg.g q0) (if mv.v then mv.eps else -mv.eps) mv.im).2
        mv.im)) with
      | none => rfl
      | some h1 =>
        exfalso
        have hk := (isFin_add ⟨h1, Nuts.finite?_some.mp hs⟩).2
        have hp := isFin_kinetic him hk c
        have hh := (isFin_sub hp).1
        have hm := (isFin_sub hh).2
        refine hg (isFin_mul ?_ hm)
        split
        · exact mul_ne_zero (by norm_num) he
        · exact mul_ne_zero (by norm_num) (neg_ne_zero.mpr he)
    rw [hnone] at hout
    rw [hout]
    exact ⟨rfl, rfl, fun _ => rfl⟩

/-- **C123** Such a chain stays forever, whatever the steps, masses and draws. -/
theorem edge_chain (tg : TargetF d) (q0 : FPt d) (c : Fin d) (hg : ¬ (tg.g q0 c).IsFin)
    (l : List (MoveF d)) (hl : ∀ mv ∈ l, (∀ i, mv.im i ≠ 0) ∧ mv.eps ≠ 0) :
    ∀ out ∈ chainF tg l q0, out.q = q0 ∧ out.accept = 0 := by
  induction l with
  | nil => intro out h; cases h
  | cons mv l ih =>
    obtain ⟨h1, h2⟩ := hl mv (List.mem_cons_self ..)
    obtain ⟨a, b, _⟩ := edge_stuck tg mv h1 h2 q0 c hg
    intro out h
    simp only [chainF, List.mem_cons] at h
    rw [a] at h
    rcases h with rfl | h
    · exact ⟨a, b⟩
    · exact ih (fun mv hmv => hl mv (List.mem_cons_of_mem _ hmv)) out h

/-- A difference quotient is finite only when the four values are. -/
theorem diff5_fin {f : (Fin d → ℝ) → Py Flt} {x : Fin d → ℝ} {h : ℝ} (hh : 0 < h) {c : Fin d} {v : Flt}
    (hv : SVGD.diff5 f x h c = .ok v) (hf : v.IsFin) :
    ∀ t, (t = h ∨ t = -h ∨ t = 2 * h ∨ t = -(2 * h)) →
      ∃ r, f (Function.update x c (x c + t)) = .ok (.fin r) := by
  unfold SVGD.diff5 at hv
  obtain ⟨p2, h1, hv⟩ := MH.bind_ok hv
  obtain ⟨p1, h2, hv⟩ := MH.bind_ok hv
  obtain ⟨m1, h3, hv⟩ := MH.bind_ok hv
  obtain ⟨m2, h4, hv⟩ := MH.bind_ok hv
  injection hv with hv
  rw [← hv] at hf
  obtain ⟨a, ⟨r4, e4⟩⟩ := isFin_add (isFin_div (by positivity) hf)
  obtain ⟨a, b⟩ := isFin_sub a
  obtain ⟨a, b'⟩ := isFin_add a
  obtain ⟨r2, e2⟩ := isFin_neg a
  obtain ⟨r1, e1⟩ := isFin_mul (by norm_num) b'
  obtain ⟨r3, e3⟩ := isFin_mul (by norm_num) b
  rintro t (rfl | rfl | rfl | rfl)
  · exact ⟨r1, by rw [h2, e1]⟩
  · exact ⟨r3, by rw [← sub_eq_add_neg, h3, e3]⟩
  · exact ⟨r2, by rw [h1, e2]⟩
  · exact ⟨r4, by rw [← sub_eq_add_neg, h4, e4]⟩

/-- **C123** Numpy backend, difference step `h`: a chain of
`sample_from_selection_criterion_nuts` that starts closer than `2 h` to a side of
`sampling_box` never moves, whatever the criterion, steps, masses and draws. -/
theorem nuts_edge {f : Posterior.Crit} {lo hi : Fin d → ℝ} {lp : (Fin d → ℝ) → Py Flt}
    (hlp : Posterior.logProb f (some (lo, hi)) 1 = .ok lp) {h : ℝ} (hh : 0 < h) {tg : TargetF d}
    (ht : NumpyTarget h (nlp lp) tg) (q : Fin d → ℝ) (c : Fin d)
    (hq : hi c < q c + 2 * h ∨ q c - 2 * h < lo c)
    (l : List (MoveF d)) (hl : ∀ mv ∈ l, (∀ i, mv.im i ≠ 0) ∧ mv.eps ≠ 0) :
    ∀ out ∈ chainF tg l (lift q), out.q = lift q ∧ out.accept = 0 := by
  refine edge_chain tg (lift q) c ?_ l hl
  have htot : ∀ p, ∃ v, nlp lp p = .ok v := by
    intro p
    classical
    unfold Posterior.logProb at hlp
    rw [if_neg (by norm_num)] at hlp
    injection hlp with hlp
    have : ∃ v, lp p = .ok v := by
      rw [← hlp]
      dsimp only
      split_ifs
      · exact ⟨_, rfl⟩
      · cases f d p <;> exact ⟨_, rfl⟩
    obtain ⟨v, hv⟩ := this
    exact ⟨v.neg, by simp only [nlp, hv, bind, Except.bind, pure, Except.pure]⟩
  have hdiff : ∀ c, ∃ v, SVGD.diff5 (nlp lp) q h c = .ok v := by
    intro c
    obtain ⟨v1, h1⟩ := htot (Function.update q c (q c + 2 * h))
    obtain ⟨v2, h2⟩ := htot (Function.update q c (q c + h))
    obtain ⟨v3, h3⟩ := htot (Function.update q c (q c - h))
    obtain ⟨v4, h4⟩ := htot (Function.update q c (q c - 2 * h))
    unfold SVGD.diff5
    simp only [h1, h2, h3, h4, bind, Except.bind, pure, Except.pure]
    exact ⟨_, rfl⟩
  choose g hg using hdiff
  obtain ⟨y, hy⟩ := htot q
  have hvg : SVGD.numpyValGrad h (nlp lp) q = .ok (y, g) := by
    unfold SVGD.numpyValGrad
    have : SVGD.forFin d (SVGD.diff5 (nlp lp) q h) = .ok g := SVGD.forFin_ok.mpr hg
    simp only [hy, this, bind, Except.bind, pure, Except.pure]
  rw [(ht q y g hvg).2]
  intro hfin
  have hall := diff5_fin hh (hg c) hfin
  have key : ∀ p, Posterior.Outside (some (lo, hi)) p → ∀ r, nlp lp p ≠ .ok (.fin r) := by
    intro p hp r hr
    obtain ⟨lp', hlp', ho, _⟩ := (Posterior.logProb_spec f (some (lo, hi)) 1).2 one_pos
    rw [hlp] at hlp'
    injection hlp' with hlp'
    subst hlp'
    simp only [nlp, ho p hp, bind, Except.bind, pure, Except.pure] at hr
    simp [Flt.neg, Flt.fin] at hr
  rcases hq with hq | hq
  · obtain ⟨r, hr⟩ := hall (2 * h) (by simp)
    exact key _ ⟨lo, hi, rfl, c, Or.inr (by rw [Function.update_self]; exact hq)⟩ r hr
  · obtain ⟨r, hr⟩ := hall (-(2 * h)) (by simp)
    exact key _ ⟨lo, hi, rfl, c, Or.inl (by rw [Function.update_self]; linarith)⟩ r hr

/-- **C123** A flat criterion on `[0, 1]` and a chain started at the side 0, where the density
is positive: it never moves. -/
theorem nuts_edge_false : ∃ lp, Posterior.logProb (d := 1) (fun _ _ => .ok (.fin 0))
      (some (fun _ => 0, fun _ => 1)) 1 = .ok lp ∧ lp (fun _ => 0) = .ok (.fin 0) ∧
    ∀ tg : TargetF 1, NumpyTarget (10⁻¹ ^ 5) (nlp lp) tg →
      ∀ l : List (MoveF 1), (∀ mv ∈ l, (∀ i, mv.im i ≠ 0) ∧ mv.eps ≠ 0) →
        ∀ out ∈ chainF tg l (lift fun _ => 0), out.q = lift fun _ => 0 := by
  obtain ⟨lp, hlp, _, h2⟩ := (Posterior.logProb_spec (d := 1) (fun _ _ => .ok (.fin 0))
    (some (fun _ => 0, fun _ => 1)) 1).2 one_pos
  refine ⟨lp, hlp, ?_, fun tg ht l hl out ho => ?_⟩
  · have := (h2 (fun _ => 0) (by
      rintro ⟨lo, hi, h, j, hj⟩
      injection h with h
      obtain ⟨rfl, rfl⟩ := Prod.mk.inj h
      norm_num at hj)).2.1 0 rfl
    rw [this]
    norm_num
  · exact (nuts_edge hlp (by positivity) ht (fun _ => 0) 0 (Or.inr (by norm_num)) l hl out ho).1

/-- The target of the numpy backend exists. -/
example (lp : (Fin d → ℝ) → Py Flt) (h : ℝ) : ∃ tg : TargetF d, NumpyTarget h (nlp lp) tg := by
  let un : FPt d → Fin d → ℝ := fun p i => match p i with
    | .num a => a.toReal
    | .nan => 0
  have hun : ∀ q, un (lift q) = q := fun q => by
    funext i
    simp [un, lift, Flt.fin]
  refine ⟨⟨fun p => match SVGD.numpyValGrad h (nlp lp) (un p) with
      | .ok r => r.1
      | .error _ => .nan,
    fun p => match SVGD.numpyValGrad h (nlp lp) (un p) with
      | .ok r => r.2
      | .error _ => fun _ => .nan⟩, fun q y g hv => ?_⟩
  simp only [hun, hv, and_self]

end Verif.NutsEdge
