import Verif.Mcmc.PropsSVGDEdge
import Verif.Mcmc.PropsSVGDSample

/-!
# SVGD: failing log-densities and the recorded velocities

Particles at which the log-density raises are frozen; the recorded mean velocity norm is
the mean distance moved divided by the step size.
-/

set_option autoImplicit false

namespace Verif.SVGD

open Verif
open Verif.Nuts (finite?)
open Verif.MH (bind_ok)

variable {n d : ℕ}

/-- **C61** A particle at which the value and the gradient cannot be computed is reported with
log-density `-inf` and score zero, is not counted as alive and does not move. -/
theorem failing_stays {vg : ValGrad d} {f : LogProb d} {o : StepOpts} {x0 y : Pts n d}
    {info : StepInfo n d} (h : step vg f o x0 = .ok (y, info)) (i : Fin n) {e : PyErr}
    (hf : vg (logDens f o) (proj o x0 i) = .error e) :
    y i = proj o x0 i ∧ info.alive i = false ∧ info.logp i = .num ⊥ ∧
      (∀ c, info.velocity i c = 0) := by
  have hv : vgAt vg f o (proj o x0 i) = (.num ⊥, fun _ => 0) := by
    unfold vgAt safeValGrad
    rw [hf]
  have hdead : ¬ Alive vg f o (proj o x0 i) := by
    rintro ⟨r, hr⟩
    rw [hv] at hr
    simp [Flt.fin] at hr
  obtain ⟨ha, hl⟩ := step_alive h i
  refine ⟨dead_stays h i hdead, ?_, ?_, ?_⟩
  · cases hh : info.alive i with
    | false => rfl
    | true => exact absurd (ha.mp hh) hdead
  · rw [hl, hv]
  · intro c
    rw [(step_stein h i c).1, if_neg hdead]

/-- Errors in one entry make the whole gradient fail. -/
theorem forFin_error {α : Type} : ∀ {d : ℕ} {f : Fin d → Py α} (c : Fin d) {e : PyErr},
    f c = .error e → ∃ e', forFin d f = .error e'
  | d + 1, f, c, e, h => by
    unfold forFin
    cases h0 : f 0 with
    | error e0 => exact ⟨e0, rfl⟩
    | ok a =>
      have hc : c ≠ 0 := by rintro rfl; rw [h] at h0; cases h0
      obtain ⟨c', rfl⟩ := Fin.exists_succ_eq.mpr hc
      obtain ⟨e', he⟩ := forFin_error (f := fun i => f i.succ) c' h
      refine ⟨e', ?_⟩
      simp only [bind, Except.bind, he]

/-- **C61** With the numpy backend a particle inside the box is frozen as soon as the
log-density raises at the particle or at one of the four neighbours along a coordinate used
for its gradient, although the log-density may be finite at the particle itself. -/
theorem failing_neighbour_stays {h : ℝ} {f : LogProb d} {o : StepOpts} {x0 y : Pts n d}
    {info : StepInfo n d} (hs : step (numpyValGrad h) f o x0 = .ok (y, info)) (i : Fin n)
    (hbox : o.box = none) {e : PyErr} {t : ℝ} (ht : t = 0 ∨ t = h ∨ t = -h ∨ t = 2 * h ∨ t = -(2 * h))
    (c : Fin d) (hf : f (Function.update (x0 i) c (x0 i c + t)) = .error e) :
    y i = x0 i ∧ info.alive i = false ∧ info.logp i = .num ⊥ := by
  have e1 : logDens f o = tempered f none o.temperature := by
    unfold logDens; rw [hbox]; rfl
  have e2 : proj o x0 i = x0 i := by
    unfold proj; rw [hbox]; rfl
  have hfail : ∃ e', numpyValGrad h (logDens f o) (proj o x0 i) = .error e' := by
    rw [e1, e2]
    unfold numpyValGrad
    have herr : ∀ p, f p = .error e → tempered f none o.temperature p = .error e := by
      intro p hp
      simp only [tempered, hp, bind, Except.bind]
    cases h0 : tempered f none o.temperature (x0 i) with
    | error e0 => exact ⟨e0, rfl⟩
    | ok v =>
      obtain ⟨e', he⟩ : ∃ e', diff5 (tempered f none o.temperature) (x0 i) h c = .error e' := by
        have hp := herr _ hf
        unfold diff5
        rcases ht with rfl | rfl | rfl | rfl | rfl
        · rw [add_zero, Function.update_eq_self] at hp
          rw [hp] at h0; cases h0
        · cases h2 : tempered f none o.temperature (Function.update (x0 i) c (x0 i c + 2 * t)) with
          | error e => exact ⟨e, rfl⟩
          | ok v2 => exact ⟨e, by simp only [bind, Except.bind, hp]⟩
        · cases h2 : tempered f none o.temperature (Function.update (x0 i) c (x0 i c + 2 * h)) with
          | error e => exact ⟨e, rfl⟩
          | ok v2 =>
            cases h1 : tempered f none o.temperature (Function.update (x0 i) c (x0 i c + h)) with
            | error e => exact ⟨e, by simp only [bind, Except.bind]⟩
            | ok v1 => exact ⟨e, by rw [sub_eq_add_neg]; simp only [bind, Except.bind, hp]⟩
        · exact ⟨e, by simp only [bind, Except.bind, hp]⟩
        · cases h2 : tempered f none o.temperature (Function.update (x0 i) c (x0 i c + 2 * h)) with
          | error e => exact ⟨e, rfl⟩
          | ok v2 =>
            cases h1 : tempered f none o.temperature (Function.update (x0 i) c (x0 i c + h)) with
            | error e => exact ⟨e, by simp only [bind, Except.bind]⟩
            | ok v1 =>
              cases h3 : tempered f none o.temperature (Function.update (x0 i) c (x0 i c - h)) with
              | error e => exact ⟨e, by simp only [bind, Except.bind]⟩
              | ok v3 =>
                exact ⟨e, by rw [sub_eq_add_neg (x0 i c) (2 * h)]; simp only [bind, Except.bind, hp]⟩
      obtain ⟨e'', he''⟩ := forFin_error (f := diff5 (tempered f none o.temperature) (x0 i) h) c he
      exact ⟨e'', by simp only [bind, Except.bind, he'']⟩
  obtain ⟨e', he⟩ := hfail
  obtain ⟨a, b, c', _⟩ := failing_stays hs i he
  exact ⟨by rw [a, e2], b, c'⟩

/-- A log-density that raises for negative arguments: a particle at `h` is frozen. -/
example : ∃ y info, step (numpyValGrad (1 / 100)) (fun p : Pt 1 => if p 0 < 0 then .error .valueError else .ok (.fin 0))
    ({ Opts.default with nSteps := 1 }.stepOpts 1) (fun _ : Fin 1 => fun _ => 1 / 100) = .ok (y, info) ∧
    y 0 = (fun _ => 1 / 100) ∧ info.alive 0 = false := by
  obtain ⟨y, info, hs⟩ := (step_succeeds (n := 1) (numpyValGrad (1 / 100))
    (fun p : Pt 1 => if p 0 < 0 then .error .valueError else .ok (.fin 0))
    ({ Opts.default with nSteps := 1 }.stepOpts 1) (fun _ : Fin 1 => fun _ => 1 / 100)).mpr
    ⟨by norm_num [Opts.stepOpts, Opts.default], by norm_num [Opts.stepOpts], by norm_num,
      ⟨none, rfl⟩, ⟨_, rfl⟩, by norm_num [Opts.stepOpts, Opts.default],
      by simp [Opts.stepOpts, Opts.default]⟩
  obtain ⟨a, b, _⟩ := failing_neighbour_stays (e := .valueError) (t := -(2 * (1 / 100))) hs 0 rfl
    (by norm_num) 0 (by norm_num)
  exact ⟨y, info, hs, a, b⟩

/-! ## The recorded mean velocity norm -/

/-- Euclidean length of a displacement. -/
noncomputable def dist1 (a b : Pt d) : ℝ := Real.sqrt (dist2 a b)

/-- **C117** Without a box, the mean distance moved by the particles in a step is the step size
times the recorded mean velocity norm. -/
theorem step_meanNorm {vg : ValGrad d} {f : LogProb d} {o : StepOpts} {x0 y : Pts n d}
    {info : StepInfo n d} (h : step vg f o x0 = .ok (y, info)) (hbox : o.box = none) :
    (∑ i, dist1 (y i) (x0 i)) / n = o.stepSize * meanNorm info.velocity := by
  have hpos := ((step_ok vg f o x0 _).mp h).1
  unfold meanNorm
  rw [← mul_div_assoc, Finset.mul_sum]
  refine congrArg₂ (· / ·) (Finset.sum_congr rfl fun i _ => ?_) rfl
  obtain ⟨b, hb, hy⟩ := step_moves h i
  rw [hbox] at hb
  injection hb with hb
  subst hb
  have e2 : proj o x0 i = x0 i := by
    unfold proj; rw [hbox]; rfl
  have : dist2 (y i) (x0 i) = o.stepSize ^ 2 * ∑ c, info.velocity i c ^ 2 := by
    rw [hy, e2]
    unfold dist2 project
    rw [Finset.mul_sum]
    refine Finset.sum_congr rfl fun c _ => ?_
    ring
  unfold dist1
  rw [this, Real.sqrt_mul (sq_nonneg _), Real.sqrt_sq hpos.le]

/-- **C117** The same for the traces of a run with history. -/
theorem run_meanNorm {vg : ValGrad d} {f : LogProb d} {o : Opts} {x : Pts n d} {r : Result n d}
    (h : run vg f o x = .ok r) (hst : o.store = true) (hbox : o.box = none) :
    ∃ l, r.history = some l ∧ ∀ j, j < o.nSteps.toNat → ∃ a ∈ l[j]?, ∃ b ∈ l[j + 1]?,
      ∃ row ∈ r.trace[j]?, (∑ i, dist1 (b i) (a i)) / n = o.stepSize * row.velNorm := by
  obtain ⟨_, _, _, _, h5⟩ := run_spec h
  obtain ⟨l, hl, _, _, _, hall⟩ := h5 hst
  refine ⟨l, hl, fun j hj => ?_⟩
  obtain ⟨a, ha, b, hb, row, hrow, info, hs, _, _, hv⟩ := hall j hj
  refine ⟨a, ha, b, hb, row, hrow, ?_⟩
  rw [hv]
  exact step_meanNorm hs hbox

end Verif.SVGD
