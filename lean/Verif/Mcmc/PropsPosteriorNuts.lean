import Verif.Mcmc.PropsPosterior
import Verif.Mcmc.PropsNuts
import Verif.Mcmc.PropsNutsTree
import Verif.Mcmc.PropsSVGDEdge

/-!
# Posterior sampling with NUTS

What `sample_from_selection_criterion_nuts` returns, whatever the criterion, its gradient,
the step size search and the random draws.
-/

set_option autoImplicit false

namespace Verif.Posterior

open Verif
open Verif.MH (bind_ok)

variable {m : ℕ}

/-- The draws are uniform numbers of `[0, 1)`. -/
structure NutsDraws.OK {m d maxDepth : ℕ} (w : NutsDraws m d maxDepth) : Prop where
  slice : ∀ t c, 0 ≤ w.slice t c ∧ w.slice t c < 1
  tree : ∀ t c, Nuts.TDrawsOK maxDepth 0 (w.tree t c)

/-- A successful call. -/
theorem sampleNUTS_ok {a : Args} {u : ∀ d, Fin m → Pt d} {run : NutsRun m} {r : NutsResult m}
    (h : sampleNUTS a m u run = .ok (some r)) :
    ∃ s lp raw step mass, setup a true m u = .ok s ∧ logProb s.crit s.box 1 = .ok lp ∧
      run s.d lp s.theta0 = some (raw, step, mass) ∧ r = ⟨s.d, swap raw, step, mass⟩ := by
  unfold sampleNUTS at h
  obtain ⟨s, hs, h⟩ := bind_ok h
  obtain ⟨lp, hlp, h⟩ := bind_ok h
  injection h with h
  obtain ⟨⟨raw, step, mass⟩, hr, hh⟩ := Option.map_eq_some_iff.mp h
  exact ⟨s, lp, raw, step, mass, hs, hlp, hr, hh.symm⟩

/-- **C122** The NUTS sampler raises exactly when its arguments cannot be resolved; failures of
the criterion never make it raise. -/
theorem nuts_raises_iff (a : Args) (u : ∀ d, Fin m → Pt d) (run : NutsRun m) :
    (∃ e, sampleNUTS a m u run = .error e) ↔ ∃ e, setup a true m u = .error e := by
  unfold sampleNUTS
  cases hs : setup a true m u with
  | error e => simp [bind, Except.bind]
  | ok s =>
    obtain ⟨lp, hlp, _⟩ := (logProb_spec s.crit s.box 1).2 one_pos
    simp [bind, Except.bind, hlp, pure, Except.pure]

/-- Where the log-density is finite. -/
theorem logProb_fin_iff {d : ℕ} {f : Crit} {box : Option (Pt d × Pt d)} {lp : Pt d → Py Flt}
    (hlp : logProb f box 1 = .ok lp) (p : Pt d) :
    (∃ v, lp p = .ok (.fin v)) ↔ ¬ Outside box p ∧ ∃ v, f d p = .ok (.fin v) := by
  classical
  obtain ⟨lp', hlp', h1, h2⟩ := (logProb_spec f box 1).2 one_pos
  rw [hlp] at hlp'
  injection hlp' with hlp'
  subst hlp'
  constructor
  · rintro ⟨v, hv⟩
    by_cases ho : Outside box p
    · rw [h1 p ho] at hv
      simp [Flt.fin] at hv
    refine ⟨ho, ?_⟩
    unfold logProb at hlp
    rw [if_neg (by norm_num)] at hlp
    injection hlp with hlp
    rw [← hlp] at hv
    dsimp only at hv
    rw [if_neg fun h => ho ((outside_iff box p).mp h)] at hv
    cases hf : f d p with
    | error e => rw [hf] at hv; simp [Flt.fin] at hv
    | ok x =>
      rw [hf] at hv
      injection hv with hv
      have : (x.neg.div (.fin 1)).IsFin := ⟨v, hv⟩
      obtain ⟨y, hy⟩ := SVGD.isFin_neg (SVGD.isFin_div one_pos this)
      exact ⟨y, by rw [hy]⟩
  · rintro ⟨ho, v, hv⟩
    exact ⟨_, (h2 p ho).2.1 v hv⟩

/-- A transition from a point of the box where the density is positive ends at such a point;
other points are not left. -/
theorem kernel_stays {d maxDepth : ℕ} {f : Crit} {box : Option (Pt d × Pt d)} {lp : Pt d → Py Flt}
    (hlp : logProb f box 1 = .ok lp) (grad : Pt d → Pt d) (dmax : ℝ) {w : NutsDraws m d maxDepth}
    (hw : w.OK) (t : ℕ) (c : Fin m) (q : Pt d) (step : ℝ) (im : Pt d) :
    ((∃ v, lp q = .ok (.fin v)) →
      ∃ v, lp (nutsKernel (nutsTarget lp grad) dmax w t c q step im).1 = .ok (.fin v)) ∧
    ((∀ v, lp q ≠ .ok (.fin v)) →
      (nutsKernel (nutsTarget lp grad) dmax w t c q step im).1 = q) := by
  have hU : ∀ p h k, ((nutsTarget lp grad).U p).add (.fin k) = .fin h → ∃ v, lp p = .ok (.fin v) := by
    intro p h k hh
    have hf : ((nutsTarget lp grad).U p).IsFin := (SVGD.isFin_add (by rw [hh]; exact ⟨h, rfl⟩)).1
    unfold nutsTarget at hf
    dsimp only at hf
    cases hv : lp p with
    | error e => rw [hv] at hf; obtain ⟨x, hx⟩ := hf; cases hx
    | ok v =>
      rw [hv] at hf
      obtain ⟨x, hx⟩ := SVGD.isFin_neg hf
      exact ⟨x, by rw [hx]⟩
  obtain ⟨_, _, _, _, h5, h6⟩ := Nuts.transition_spec (nutsTarget lp grad) im step maxDepth dmax
    (w.noise t c) (w.slice t c) (hw.slice t c).1 (hw.slice t c).2 (w.tree t c) (hw.tree t c) q
  by_cases hfin : ∃ h0, Nuts.energy (nutsTarget lp grad) im
      ⟨q, Nuts.momentum im (w.noise t c), (nutsTarget lp grad).g q⟩ = .fin h0
  · obtain ⟨h0, hh0⟩ := hfin
    obtain ⟨i, _, ⟨h1, hh1, _⟩, hq⟩ := h5 h0 hh0
    constructor
    · intro _
      change ∃ v, lp (Nuts.transition _ _ _ _ _ _ _ _ _).q = _
      rw [hq]
      exact hU _ _ _ hh1
    · intro hn
      obtain ⟨v, hv⟩ := hU _ _ _ hh0
      exact absurd hv (hn v)
  · have h7 := (h6 fun h0 hh => hfin ⟨h0, hh⟩).1
    constructor
    · rintro ⟨v, hv⟩
      refine ⟨v, ?_⟩
      change lp (Nuts.transition _ _ _ _ _ _ _ _ _).q = _
      rw [h7, hv]
    · intro _
      exact h7

/-- Iterates of a kernel keep an invariant of single chains. -/
theorem sampleLoop_inv {d : ℕ} {step : ℝ} {im : Pt d} {ker : Nuts.Kern m d} {P : Fin m → Pt d → Prop}
    (hP : ∀ t c q, P c q → P c (ker t c q step im).1) : ∀ (k t : ℕ) (q : Fin m → Pt d),
    (∀ c, P c (q c)) → ∀ y ∈ Nuts.sampleLoop step im ker k t q, ∀ c, P c (y c)
  | 0, _, _, _, y, hy => by cases hy
  | k + 1, t, q, hq, y, hy => by
    have h1 : ∀ c, P c (ker t c (q c) step im).1 := fun c => hP t c _ (hq c)
    simp only [Nuts.sampleLoop, List.mem_cons] at hy
    rcases hy with rfl | hy
    · exact h1
    · exact sampleLoop_inv hP k (t + 1) _ h1 y hy

theorem warmLoop_inv {d : ℕ} {o : Nuts.Options d} {lo hi : ℝ} {wn : List (ℤ × ℤ)} {ker : Nuts.Kern m d}
    {P : Fin m → Pt d → Prop} (hP : ∀ t c q step im, P c q → P c (ker t c q step im).1) :
    ∀ (k t : ℕ) (s : Nuts.WState m d), (∀ c, P c (s.q c)) →
      ∀ c, P c ((Nuts.warmLoop o lo hi wn ker k t s).q c)
  | 0, _, s, hs => hs
  | k + 1, t, s, hs => by
    refine warmLoop_inv hP k (t + 1) _ fun c => ?_
    have : (Nuts.warmStep o lo hi wn ker t s).q c = (ker t c (s.q c) s.step fun i => 1 / s.mass i).1 := by
      unfold Nuts.warmStep
      dsimp only
      split <;> rfl
    rw [this]
    exact hP _ _ _ _ _ (hs c)

/-- Every returned sample satisfies an invariant of the transitions. -/
theorem nutsSample_inv {d : ℕ} {o : Nuts.Options d} {search : Pt d → Option ℝ} {ker : Nuts.Kern m d}
    {num : ℕ} {q0 : Fin m → Pt d} {raw : List (Fin m → Pt d)} {step : ℝ} {mass : Pt d}
    {P : Fin m → Pt d → Prop} (hP : ∀ t c q step im, P c q → P c (ker t c q step im).1)
    (h0 : ∀ c, P c (q0 c)) (h : Nuts.nutsSample o search ker num q0 = some (raw, step, mass)) :
    ∀ y ∈ raw, ∀ c, P c (y c) := by
  unfold Nuts.nutsSample at h
  obtain ⟨e0, _, h⟩ := Option.map_eq_some_iff.mp h
  obtain ⟨h1, h2⟩ := Prod.mk.inj h
  rw [← h1]
  exact sampleLoop_inv (fun t c q hq => hP t c q _ _ hq) _ _ _ (warmLoop_inv hP _ _ _ h0)

/-- **C122** The samples: for each chain `num_samples` points.  A chain that starts where the
log-density `-J` is finite and inside of the box stays at such points; a chain that starts
elsewhere never moves, so all its samples are its starting point. -/
theorem nuts_samples {a : Args} {u : ∀ d, Fin m → Pt d} {maxDepth num : ℕ} {o : ∀ d, Nuts.Options d}
    {grad : ∀ d, (Pt d → Py Flt) → Pt d → Pt d} {search : ∀ d, (Pt d → Py Flt) → Pt d → Option ℝ}
    {w : ∀ d, NutsDraws m d maxDepth} (hw : ∀ d, (w d).OK) {r : NutsResult m}
    (h : sampleNUTS a m u (nutsRun maxDepth num o grad search w) = .ok (some r)) :
    ∃ s smp step mass, setup a true m u = .ok s ∧ r = ⟨s.d, smp, step, mass⟩ ∧
      ∀ c, (smp c).length = num ∧
        (¬ Outside s.box (s.theta0 c) → (∃ v, s.crit s.d (s.theta0 c) = .ok (.fin v)) →
          ∀ y ∈ smp c, ¬ Outside s.box y ∧ ∃ v, s.crit s.d y = .ok (.fin v)) ∧
        ((Outside s.box (s.theta0 c) ∨ ∀ v, s.crit s.d (s.theta0 c) ≠ .ok (.fin v)) →
          ∀ y ∈ smp c, y = s.theta0 c) := by
  obtain ⟨s, lp, raw, step, mass, hs, hlp, hr, rfl⟩ := sampleNUTS_ok h
  have hlen := (Nuts.nutsSample_spec _ _ _ _ _ _ _ _ hr).1
  have hfin := fun p => logProb_fin_iff hlp p
  refine ⟨s, swap raw, step, mass, hs, rfl, fun c => ⟨by simp [swap, hlen], ?_, ?_⟩⟩
  · intro hin hv y hy
    obtain ⟨q, hq, rfl⟩ := List.mem_map.mp hy
    have := nutsSample_inv (P := fun c' p => c' = c → ∃ v, lp p = .ok (.fin v)) ?_ ?_ hr q hq c rfl
    · exact (hfin _).mp this
    · intro t c' p step im hp hc
      exact (kernel_stays hlp _ _ (hw s.d) t c' p step im).1 (hp hc)
    · intro c' hc
      subst hc
      exact (hfin _).mpr ⟨hin, hv⟩
  · intro hout y hy
    obtain ⟨q, hq, rfl⟩ := List.mem_map.mp hy
    refine nutsSample_inv (P := fun c' p => c' = c → p = s.theta0 c) ?_ ?_ hr q hq c rfl
    · intro t c' p step im hp hc
      rw [(kernel_stays hlp _ _ (hw s.d) t c' p step im).2 ?_, hp hc]
      intro v hv
      rw [hp hc] at hv
      obtain ⟨h1, h2, h3⟩ := (hfin _).mp ⟨v, hv⟩
      rcases hout with h | h
      · exact h1 h
      · exact h _ h3
    · intro c' hc
      rw [hc]

/-- Draws in `[0, 1)` exist. -/
theorem nutsDraws_exist (m d maxDepth : ℕ) : ∃ w : NutsDraws m d maxDepth, w.OK := by
  have hd : ∀ k, ∃ w : Nuts.Draws k, Nuts.DrawsOK k w := by
    intro k
    induction k with
    | zero => exact ⟨(), trivial⟩
    | succ k ih =>
      obtain ⟨w, hw⟩ := ih
      exact ⟨(0, w, w), by norm_num [Nuts.DrawsOK, hw]⟩
  have ht : ∀ n j, ∃ w : Nuts.TDraws n j, Nuts.TDrawsOK n j w := by
    intro n
    induction n with
    | zero => intro j; exact ⟨(), trivial⟩
    | succ n ih =>
      intro j
      obtain ⟨w, hw⟩ := ih (j + 1)
      obtain ⟨x, hx⟩ := hd j
      exact ⟨((0, x, 0), w), by norm_num [Nuts.TDrawsOK, hw, hx]⟩
  obtain ⟨w, hw⟩ := ht maxDepth 0
  exact ⟨⟨fun _ _ _ => 0, fun _ _ => 0, fun _ _ => w⟩, ⟨fun _ _ => by norm_num, fun _ _ => hw⟩⟩

/-- **C122** A chain given in the documented way but outside of `sampling_box` is returned
unchanged, without an error: two chains at 5 for the box `[0, 1]`. -/
theorem nuts_outside_false (f : Crit) (num : ℕ) (grad : ∀ d, (Pt d → Py Flt) → Pt d → Pt d)
    (w : ∀ d, NutsDraws 2 d 10) (hw : ∀ d, (w d).OK) (u : ∀ d, Fin 2 → Pt d) :
    ∃ smp step mass, sampleNUTS ⟨none, some f, some (.one 1 fun _ => 5), false, none,
        some [.scalar 0, .scalar 1]⟩ 2 u
        (nutsRun 10 num (fun _ => { initStep := some 1 }) grad (fun _ _ _ => none) w) =
      .ok (some ⟨1, smp, step, mass⟩) ∧
      ∀ c, (smp c).length = num ∧ ∀ y ∈ smp c, y = fun _ => 5 := by
  have hset := (setup_accepts ⟨none, some f, some (.one 1 fun _ => 5), false, none,
    some [.scalar 0, .scalar 1]⟩ true 2 1 u f rfl rfl ⟨none, rfl⟩ (some (fun _ => 0, fun _ => 1)) rfl).1 _ rfl
  obtain ⟨lp, hlp, _⟩ := (logProb_spec (d := 1) f (some (fun _ => 0, fun _ => 1)) 1).2 one_pos
  have hex : ∃ r, sampleNUTS ⟨none, some f, some (.one 1 fun _ => 5), false, none,
        some [.scalar 0, .scalar 1]⟩ 2 u
        (nutsRun 10 num (fun _ => { initStep := some 1 }) grad (fun _ _ _ => none) w) =
      .ok (some r) := by
    unfold sampleNUTS
    simp only [hset, hlp, bind, Except.bind, pure, Except.pure]
    exact ⟨_, rfl⟩
  obtain ⟨r, hr⟩ := hex
  obtain ⟨s, smp, step, mass, hs, rfl, hall⟩ := nuts_samples hw hr
  rw [hset] at hs
  injection hs with hs
  subst hs
  refine ⟨smp, step, mass, hr, fun c => ⟨(hall c).1, ?_⟩⟩
  exact (hall c).2.2 (Or.inl ⟨_, _, rfl, 0, Or.inr (by norm_num)⟩)

end Verif.Posterior
