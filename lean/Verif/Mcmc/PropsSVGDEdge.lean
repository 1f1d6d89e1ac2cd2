import Verif.Mcmc.PropsSVGDRun
import Verif.Core.PropsFisher
import Mathlib.Analysis.Calculus.Deriv.Polynomial

/-!
# C114: scores near the sides of the box (numpy backend)
-/

set_option autoImplicit false

namespace Verif.SVGD

open Verif
open Verif.Nuts (finite? finite?_fin finite?_some)

variable {n d : ℕ}

/-! ## Finite sums have finite terms -/

theorem isFin_add {a b : Flt} (h : (a.add b).IsFin) : a.IsFin ∧ b.IsFin := by
  obtain ⟨r, hr⟩ := h
  cases a with
  | nan => simp [Flt.fin] at hr
  | num a =>
    cases b with
    | nan => simp [Flt.fin] at hr
    | num b =>
      unfold Flt.add at hr
      dsimp only at hr
      split_ifs at hr with hc
      · cases hr
      injection hr with hr
      induction a using EReal.rec with
      | bot => simp at hr
      | top =>
        induction b using EReal.rec with
        | bot => simp at hc
        | top => simp at hr
        | coe b => simp at hr
      | coe a =>
        induction b using EReal.rec with
        | bot => simp at hr
        | top => simp at hr
        | coe b => exact ⟨⟨a, rfl⟩, ⟨b, rfl⟩⟩

theorem isFin_neg {a : Flt} (h : a.neg.IsFin) : a.IsFin := by
  obtain ⟨r, hr⟩ := h
  cases a with
  | nan => cases hr
  | num a =>
    injection hr with hr
    refine ⟨-r, ?_⟩
    unfold Flt.fin
    rw [EReal.coe_neg, ← hr, neg_neg]

theorem isFin_sub {a b : Flt} (h : (a.sub b).IsFin) : a.IsFin ∧ b.IsFin :=
  ⟨(isFin_add h).1, isFin_neg (isFin_add h).2⟩

theorem isFin_div {a : Flt} {r : ℝ} (hr : 0 < r) (h : (a.div (.fin r)).IsFin) : a.IsFin := by
  obtain ⟨s, hs⟩ := h
  cases a with
  | nan => cases hs
  | num a =>
    unfold Flt.div Flt.fin at hs
    dsimp only at hs
    have h0 : (r : EReal) ≠ 0 := by
      intro e; exact hr.ne' (EReal.coe_eq_zero.mp e)
    rw [if_neg h0, if_neg (by simp)] at hs
    injection hs with hs
    induction a using EReal.rec with
    | bot =>
      rw [EReal.bot_div_of_pos_ne_top (by exact_mod_cast hr) (EReal.coe_ne_top r)] at hs
      exact absurd hs.symm (EReal.coe_ne_bot s)
    | top =>
      rw [EReal.top_div_of_pos_ne_top (by exact_mod_cast hr) (EReal.coe_ne_top r)] at hs
      exact absurd hs.symm (EReal.coe_ne_top s)
    | coe a => exact ⟨a, rfl⟩

theorem not_isFin_bot : ¬ (Flt.num ⊥).IsFin := by
  rintro ⟨r, hr⟩
  injection hr with hr
  exact absurd hr.symm (EReal.coe_ne_bot r)

theorem forFin_ok {α : Type} : ∀ {d : ℕ} {f : Fin d → Py α} {g : Fin d → α},
    forFin d f = .ok g ↔ ∀ i, f i = .ok (g i)
  | 0, f, g => by
    constructor
    · intro _ i; exact i.elim0
    · intro _
      unfold forFin
      congr 1
      funext i; exact i.elim0
  | d + 1, f, g => by
    unfold forFin
    cases h0 : f 0 with
    | error e =>
      constructor
      · intro h; cases h
      · intro h; rw [h 0] at h0; cases h0
    | ok a =>
      dsimp only [bind, Except.bind, pure, Except.pure]
      cases hr : forFin d (fun i => f i.succ) with
      | error e =>
        constructor
        · intro h; cases h
        · intro h
          have := (forFin_ok (f := fun i : Fin d => f i.succ) (g := fun i => g i.succ)).mpr fun i => h i.succ
          rw [this] at hr; cases hr
      | ok r =>
        have hr' := (forFin_ok (f := fun i : Fin d => f i.succ) (g := r)).mp hr
        constructor
        · intro h
          injection h with h
          subst h
          intro i
          refine Fin.cases ?_ (fun i => ?_) i
          · simpa using h0
          · simpa using hr' i
        · intro h
          refine congrArg Except.ok (funext fun i => ?_)
          refine Fin.cases ?_ (fun i => ?_) i
          · have := h 0
            rw [h0] at this
            injection this
          · have := h i.succ
            rw [hr' i] at this
            injection this

/-! ## Scores -/

theorem tempered_outside {f : LogProb d} {lo hi : Pt d} {T : ℝ} {x : Pt d}
    (h : ¬ InBox lo hi x) : tempered f (some (lo, hi)) T x = .ok (.num ⊥) := by
  unfold tempered
  dsimp only
  rw [if_pos]
  unfold InBox at h
  push Not at h
  obtain ⟨c, hc⟩ := h
  by_cases h1 : lo c ≤ x c
  · exact Or.inr ⟨c, hc h1⟩
  · exact Or.inl ⟨c, not_le.mp h1⟩

/-- **C114** A log-density that is `-inf` at one of the two outer points of the stencil
gives a score of zero in that coordinate. -/
theorem outer_score_zero {f : LogProb d} {x : Pt d} {h : ℝ} (hh : 0 < h) (c : Fin d)
    (ho : f (Function.update x c (x c + 2 * h)) = .ok (.num ⊥) ∨
      f (Function.update x c (x c - 2 * h)) = .ok (.num ⊥)) :
    (safeValGrad (numpyValGrad h) f x).2 c = 0 := by
  unfold safeValGrad numpyValGrad
  cases hy : f x with
  | error e => rfl
  | ok y =>
    dsimp only [bind, Except.bind, pure, Except.pure]
    cases hg : forFin d (diff5 f x h) with
    | error e => rfl
    | ok g =>
      dsimp only
      cases hv : finite? y with
      | none => rfl
      | some r =>
        dsimp only
        have hc := forFin_ok.mp hg c
        cases hgc : finite? (g c) with
        | none => rfl
        | some s =>
          exfalso
          have hs : (g c).IsFin := ⟨s, finite?_some.mp hgc⟩
          unfold diff5 at hc
          cases h1 : f (Function.update x c (x c + 2 * h)) with
          | error e => rw [h1] at hc; cases hc
          | ok p2 =>
          cases h2 : f (Function.update x c (x c + h)) with
          | error e => rw [h1, h2] at hc; cases hc
          | ok p1 =>
          cases h3 : f (Function.update x c (x c - h)) with
          | error e => rw [h1, h2, h3] at hc; cases hc
          | ok m1 =>
          cases h4 : f (Function.update x c (x c - 2 * h)) with
          | error e => rw [h1, h2, h3, h4] at hc; cases hc
          | ok m2 =>
          rw [h1, h2, h3, h4] at hc
          injection hc with hc
          rw [← hc] at hs
          obtain ⟨a, b⟩ := isFin_add (isFin_div (by positivity) hs)
          have a := isFin_neg (isFin_add (isFin_sub a).1).1
          rcases ho with ho | ho
          · rw [h1] at ho; injection ho with ho
            rw [ho] at a; exact not_isFin_bot a
          · rw [h4] at ho; injection ho with ho
            rw [ho] at b; exact not_isFin_bot b

/-- **C114** Within two difference steps of a side of the box, the score in the direction
of that side is zero, whatever the log-density. -/
theorem boundary_score_zero {f : LogProb d} {lo hi : Pt d} {T h : ℝ} (hh : 0 < h) (x : Pt d)
    (c : Fin d) (hc : hi c < x c + 2 * h ∨ x c - 2 * h < lo c) :
    (safeValGrad (numpyValGrad h) (tempered f (some (lo, hi)) T) x).2 c = 0 := by
  refine outer_score_zero hh c ?_
  rcases hc with hc | hc
  · left
    refine tempered_outside fun hb => ?_
    have := (hb c).2
    rw [Function.update_self] at this
    linarith
  · right
    refine tempered_outside fun hb => ?_
    have := (hb c).1
    rw [Function.update_self] at this
    linarith

theorem tempered_inside {f : LogProb d} {lo hi : Pt d} {T : ℝ} (hT : 0 < T) {x : Pt d} {v : ℝ}
    (h : InBox lo hi x) (hf : f x = .ok (.fin v)) :
    tempered f (some (lo, hi)) T x = .ok (.fin (v / T)) := by
  unfold tempered
  dsimp only
  rw [if_neg]
  · rw [hf]
    dsimp only [bind, Except.bind, pure, Except.pure]
    rw [Flt.div_fin hT.ne']
  · rintro (⟨c, hc⟩ | ⟨c, hc⟩)
    · have := (h c).1; linarith
    · have := (h c).2; linarith

/-- **C114** Further inside, the score is the five-point difference of the log-density divided
by the temperature. -/
theorem interior_score {f : LogProb d} {F : Pt d → ℝ} {lo hi : Pt d} {T h : ℝ} (hh : 0 < h)
    (hT : 0 < T) {x : Pt d} (hF : ∀ y, InBox lo hi y → f y = .ok (.fin (F y)))
    (hx : ∀ c, lo c ≤ x c - 2 * h ∧ x c + 2 * h ≤ hi c) (c : Fin d) :
    safeValGrad (numpyValGrad h) (tempered f (some (lo, hi)) T) x =
      (.fin (F x / T), fun c => Core.finiteDiff (fun t => F (Function.update x c t) / T) (x c) h) := by
  have hin : ∀ c t, x c - 2 * h ≤ t → t ≤ x c + 2 * h → InBox lo hi (Function.update x c t) := by
    intro c t h1 h2 e
    by_cases he : e = c
    · subst he
      rw [Function.update_self]
      exact ⟨(hx e).1.trans h1, h2.trans (hx e).2⟩
    · rw [Function.update_of_ne he]
      have := hx e
      constructor <;> linarith
  have hval : ∀ c t, x c - 2 * h ≤ t → t ≤ x c + 2 * h →
      tempered f (some (lo, hi)) T (Function.update x c t) = .ok (.fin (F (Function.update x c t) / T)) :=
    fun c t h1 h2 => tempered_inside hT (hin c t h1 h2) (hF _ (hin c t h1 h2))
  have hx0 : tempered f (some (lo, hi)) T x = .ok (.fin (F x / T)) := by
    have := hval c (x c) (by linarith) (by linarith)
    rwa [Function.update_eq_self] at this
  have hg : forFin d (diff5 (tempered f (some (lo, hi)) T) x h) =
      .ok fun c => .fin (Core.finiteDiff (fun t => F (Function.update x c t) / T) (x c) h) := by
    rw [forFin_ok]
    intro e
    unfold diff5
    rw [hval e _ (by linarith) (by linarith), hval e _ (by linarith) (by linarith),
      hval e _ (by linarith) (by linarith), hval e _ (by linarith) (by linarith)]
    dsimp only [bind, Except.bind, pure, Except.pure]
    rw [Flt.mul_fin, Flt.mul_fin, Flt.neg_fin, Flt.add_fin, Flt.sub_fin, Flt.add_fin,
      Flt.div_fin (by positivity)]
    congr 2
    unfold Core.finiteDiff
    simp only [smul_eq_mul]
    rw [div_eq_inv_mul]
  unfold safeValGrad numpyValGrad
  rw [hx0]
  dsimp only [bind, Except.bind, pure, Except.pure]
  rw [hg]
  dsimp only
  rw [finite?_fin]
  simp [finite?_fin]

/-- **C114** It is the derivative itself when the log-density is, in that coordinate, a
polynomial of degree at most four. -/
theorem interior_score_exact {f : LogProb d} {F : Pt d → ℝ} {lo hi : Pt d} {T h : ℝ} (hh : 0 < h)
    (hT : 0 < T) {x : Pt d} (hF : ∀ y, InBox lo hi y → f y = .ok (.fin (F y)))
    (hx : ∀ c, lo c ≤ x c - 2 * h ∧ x c + 2 * h ≤ hi c) (c : Fin d) (P : Polynomial ℝ)
    (hP : P.natDegree ≤ 4) (hPF : ∀ t, F (Function.update x c t) / T = P.eval t) :
    (safeValGrad (numpyValGrad h) (tempered f (some (lo, hi)) T) x).2 c =
      deriv (fun t => F (Function.update x c t) / T) (x c) := by
  rw [interior_score hh hT hF hx c]
  have e : (fun t => F (Function.update x c t) / T) = fun t => P.eval t := funext hPF
  dsimp only
  rw [e, Core.finiteDiff_exact P hP _ _ hh.ne']
  exact (P.hasDerivAt (x c)).deriv.symm

/-- **C114** A lone particle within two difference steps of the box in every coordinate
never moves. -/
theorem boundary_stuck {f : LogProb d} {o : StepOpts} {x0 y : Pts 1 d} {info : StepInfo 1 d}
    {box : List Bound} {lo hi : Pt d} {h : ℝ} (hh : 0 < h) (hbox : o.box = some box)
    (hn : normBounds box d = .ok (lo, hi)) (hin : InBox lo hi (x0 0))
    (hnear : ∀ c, hi c < x0 0 c + 2 * h ∨ x0 0 c - 2 * h < lo c)
    (hs : step (numpyValGrad h) f o x0 = .ok (y, info)) : y = x0 := by
  have hb : normBox o.box d = .ok (some (lo, hi)) := by
    rw [hbox, normBox_some]; exact ⟨_, hn, rfl⟩
  have hp : proj o x0 0 = x0 0 := by
    unfold proj; rw [hb]; exact project_id hin
  have hy : y 0 = x0 0 := by
    by_cases ha : Alive (numpyValGrad h) f o (proj o x0 0)
    · obtain ⟨b, hb', e⟩ := step_moves hs 0
      rw [hb] at hb'
      injection hb' with hb'
      subst hb'
      have hv : ∀ c, info.velocity 0 c = 0 := by
        intro c
        rw [lone_particle hs 0 ha (fun j _ => Subsingleton.elim _ _) c]
        unfold vgAt logDens
        rw [hb, hp]
        dsimp only
        rw [boundary_score_zero hh _ c (hnear c), mul_zero]
      rw [e]
      simp only [hv, mul_zero, add_zero]
      rw [hp]
      exact project_id hin
    · rw [dead_stays hs 0 ha, hp]
  funext i
  rw [Subsingleton.elim i 0, hy]

/-- Standard normal log-density on the line, up to a constant. -/
noncomputable def normalLP : LogProb 1 := fun x => .ok (.fin (-(x 0) ^ 2 / 2))

/-- Box `[-1, 1]`, default steps of the numpy difference. -/
noncomputable def edgeOpts : StepOpts where
  bandwidth := none
  scale := 1
  bmin := none
  jitter := (10 : ℝ)⁻¹ ^ 12
  stepSize := 1 / 100
  temperature := 1
  precondDiag := none
  box := some [.scalar (-1), .scalar 1]

/-- **C114** Expected: a particle on the side of the box follows a log-density that increases
inward.  False on the numpy backend: the score at `x = 1` of the standard normal is `-1`, yet
the particle stays at `1`. -/
theorem boundary_score_false : ∃ (y : Pts 1 1) (info : StepInfo 1 1),
    step (numpyValGrad (1 / 10 ^ 5)) normalLP edgeOpts (fun _ _ => 1) = .ok (y, info) ∧
    y = (fun _ _ => 1) ∧ deriv (fun t : ℝ => -t ^ 2 / 2) 1 = -1 := by
  obtain ⟨y, info, h⟩ := (step_succeeds (n := 1) (numpyValGrad (1 / 10 ^ 5)) normalLP edgeOpts
    (fun _ _ => 1)).mpr ⟨by norm_num [edgeOpts], by norm_num [edgeOpts], by norm_num,
      ⟨some (fun _ => -1, fun _ => 1), rfl⟩, ⟨_, rfl⟩, by norm_num [edgeOpts], by simp [edgeOpts]⟩
  refine ⟨y, info, h, ?_, ?_⟩
  · refine boundary_stuck (lo := fun _ => -1) (hi := fun _ => 1) (h := 1 / 10 ^ 5) (by positivity)
      (box := [.scalar (-1), .scalar 1]) rfl rfl (fun c => by norm_num) (fun c => ?_) h
    left
    norm_num
  · have : HasDerivAt (fun t : ℝ => -t ^ 2 / 2) (-1) 1 := by
      refine (((hasDerivAt_id (1 : ℝ)).pow 2).neg.div_const 2).congr_deriv ?_
      norm_num
    exact this.deriv

/-- In the interior the same settings give the derivative. -/
example : (safeValGrad (numpyValGrad (1 / 10 ^ 5))
    (tempered normalLP (some ((fun _ => -1), (fun _ => 1))) 1) (fun _ => 1 / 2)).2 0 = -(1 / 2) := by
  rw [interior_score_exact (f := normalLP) (F := fun x => -(x 0) ^ 2 / 2) (by positivity) one_pos (fun y _ => rfl)
    (fun c => by norm_num) 0 (Polynomial.C (-(1 / 2)) * Polynomial.X ^ 2)
    ((Polynomial.natDegree_C_mul_X_pow_le _ _).trans (by norm_num)) (fun t => by simp; ring)]
  have : HasDerivAt (fun t : ℝ => -(Function.update (fun _ : Fin 1 => (1 / 2 : ℝ)) 0 t 0) ^ 2 / 2 / 1)
      (-(1 / 2)) (1 / 2) := by
    simp only [Function.update_self]
    refine ((((hasDerivAt_id (1 / 2 : ℝ)).pow 2).neg.div_const 2).div_const 1).congr_deriv ?_
    norm_num
  exact this.deriv

end Verif.SVGD
