import Verif.Mcmc.PropsPosterior
import Verif.Mcmc.PropsSVGDSample
import Verif.Mcmc.PropsSVGDStep

/-!
# Posterior sampling with SVGD

The initial cloud of `sample_from_selection_criterion_svgd`, the containment of its
particles, and when it succeeds.
-/

set_option autoImplicit false

namespace Verif.SVGD

open Verif

variable {n d : ℕ}

/-- A loop succeeds when each of its steps has valid arguments. -/
theorem loop_succeeds (vg : ValGrad d) (f : LogProb d) (o : Opts) : ∀ (k s : ℕ) (x : Pts n d),
    (∃ r, loop vg f o k s x = .ok r) ↔ ∀ j < k, ∃ T,
      annealed (s + j) o.nSteps.toNat o.t0 o.t1 o.schedule = .ok T ∧
        0 < o.stepSize ∧ 0 < T ∧ 0 < n ∧ (∃ b, normBox o.box d = .ok b) ∧
        (∃ p, precond o.precondDiag d o.jitter = .ok p) ∧ 0 < o.scale ∧ ∀ m ∈ o.bmin, 0 < m
  | 0, s, x => ⟨fun _ j hj => absurd hj (Nat.not_lt_zero _), fun _ => ⟨_, rfl⟩⟩
  | k + 1, s, x => by
    constructor
    · rintro ⟨r, h⟩
      obtain ⟨T, hT, h⟩ := MH.bind_ok h
      obtain ⟨⟨x', info⟩, hs, h⟩ := MH.bind_ok h
      obtain ⟨r', hl, h⟩ := MH.bind_ok h
      have hs' := (step_succeeds vg f (o.stepOpts T) x).mp ⟨_, _, hs⟩
      intro j hj
      cases j with
      | zero => exact ⟨T, hT, hs'⟩
      | succ j =>
        have := (loop_succeeds vg f o k (s + 1) x').mp ⟨_, hl⟩ j (by omega)
        rw [show s + (j + 1) = s + 1 + j by omega]
        exact this
    · intro h
      obtain ⟨T, hT, hs⟩ := h 0 (Nat.succ_pos k)
      obtain ⟨x', info, hst⟩ := (step_succeeds vg f (o.stepOpts T) x).mpr hs
      obtain ⟨⟨y, tr, hist⟩, hr⟩ := (loop_succeeds vg f o k (s + 1) x').mpr fun j hj => by
        have := h (j + 1) (by omega)
        rw [show s + (j + 1) = s + 1 + j by omega] at this
        exact this
      refine ⟨(y, ⟨info.logp, info.h, T, meanNorm info.velocity⟩ :: tr, x' :: hist), ?_⟩
      rw [add_zero] at hT
      unfold loop
      simp only [hT, hst, hr, bind, Except.bind, pure, Except.pure]

/-- **C125** Whether a run succeeds depends on its options and sizes only: not on the
log-density, its gradient or the particles. -/
theorem run_succeeds (vg vg' : ValGrad d) (f f' : LogProb d) (o : Opts) (x x' : Pts n d) :
    (∃ r, run vg f o x = .ok r) → ∃ r, run vg' f' o x' = .ok r := by
  rintro ⟨r, h⟩
  obtain ⟨hist, hl, hn, _⟩ := run_ok h
  obtain ⟨⟨y, tr, hs⟩, hr⟩ := (loop_succeeds vg' f' o o.nSteps.toNat 0 x').mpr
    ((loop_succeeds vg f o o.nSteps.toNat 0 x).mp ⟨_, hl⟩)
  unfold run
  simp only [hr, bind, Except.bind, pure, Except.pure, if_neg hn.ne']
  exact ⟨_, rfl⟩

end Verif.SVGD

namespace Verif.Posterior

open Verif
open Verif.MH (bind_ok)
open Verif.SVGD (Bound InBox)

/-! ## Specification -/

/-- A point repeated `n` times, with noise of standard deviation `s` when there are several
particles and `s` is positive. -/
noncomputable def noisy {d : ℕ} (n : ℕ) (s : ℝ) (x : ℕ → ℝ) (g : ∀ n d, SVGD.Pts n d) (i : Fin n) : Pt d :=
  fun j => open Classical in if 1 < n ∧ 0 < s then x j + s * g n d i j else x j

/-- The nearest point of a box. -/
noncomputable def clip {d : ℕ} (box : Option (Pt d × Pt d)) (p : Pt d) : Pt d :=
  fun j => match box with
    | none => p j
    | some b => min (max (p j) (b.1 j)) (b.2 j)

theorem clip_eq {d : ℕ} (box : Option (Pt d × Pt d)) (p : Pt d) : SVGD.project box p = clip box p := by
  cases box <;> rfl

theorem noisy_eq {d : ℕ} (n : ℕ) (s : ℝ) (x : ℕ → ℝ) (g : ∀ n d, SVGD.Pts n d) (i : Fin n) :
    jittered n s (fun j : Fin d => x j) g i = noisy n s x g i := by
  classical
  unfold jittered noisy
  by_cases h : 1 < n ∧ 0 < s
  · simp only [if_pos h]
  · simp only [if_neg h]

/-! ## The initial cloud -/

variable {a : Args} {n : ℕ} {s : ℝ} {given : Option SVGD.Opts} {kw : SVGD.Opts}
  {vg : ∀ d, SVGD.ValGrad d} {g rnd : ∀ n d, SVGD.Pts n d}

/-- A successful call. -/
theorem sampleSVGD_ok {c : SVGD.Cloud} {r : SVGD.Result c.n c.d} :
    sampleSVGD a n s given kw vg g rnd = .ok ⟨c, r⟩ ↔
    ∃ f d sb c0 lp, resolve a.info a.sel true = .ok f ∧ inferDim a.info a.init a.dimBox = .ok d ∧
      SVGD.normBox a.samplingBox d = .ok sb ∧ svgdCloud a n s d g = .ok c0 ∧
      logProb f sb 1 = .ok lp ∧ 0 ≤ (svgdOpts a given kw).nSteps ∧
      SVGD.initCloud (svgdInit sb n c0).1 (some (svgdInit sb n c0).2) (some d) (svgdInitBox a) rnd = .ok c ∧
      SVGD.run (vg c.d) (anyDim lp c.d) (svgdOpts a given kw) c.pts = .ok r := by
  constructor
  · intro h
    unfold sampleSVGD at h
    obtain ⟨f, hf, h⟩ := bind_ok h
    obtain ⟨d, hd, h⟩ := bind_ok h
    obtain ⟨sb, hsb, h⟩ := bind_ok h
    obtain ⟨c0, hc0, h⟩ := bind_ok h
    obtain ⟨lp, hlp, h⟩ := bind_ok h
    obtain ⟨h1, h2, h3⟩ := SVGD.sample_ok.mp h
    exact ⟨f, d, sb, c0, lp, hf, hd, hsb, hc0, hlp, h1, h2, h3⟩
  · rintro ⟨f, d, sb, c0, lp, hf, hd, hsb, hc0, hlp, h1, h2, h3⟩
    unfold sampleSVGD
    simp only [hf, hd, hsb, hc0, hlp, bind, Except.bind]
    exact SVGD.sample_ok.mpr ⟨h1, h2, h3⟩

/-- A given cloud is the one used. -/
theorem initCloud_parts {d : ℕ} (sb : Option (Pt d × Pt d)) (p : Parts d) (ib : Option (List Bound)) :
    SVGD.initCloud (svgdInit sb n (some p)).1 (some (svgdInit sb n (some p)).2) (some d) ib rnd =
      .ok ⟨p.n, d, fun i => clip sb (p.pts i)⟩ := by
  simp [svgdInit, SVGD.initCloud, SVGD.rawCloud, bind, Except.bind, pure, Except.pure, clip_eq]

/-- **C125** A vector is repeated `n_particles` times, with noise, and put in the box. -/
theorem svgd_initial_vector {c : SVGD.Cloud} {r : SVGD.Result c.n c.d} {d : ℕ} {x : ℕ → ℝ}
    (hi : a.init = some (.one d x)) (h : sampleSVGD a n s given kw vg g rnd = .ok ⟨c, r⟩) :
    ∃ sb, SVGD.normBox a.samplingBox d = .ok sb ∧
      c = ⟨n, d, fun i => clip sb (noisy n s x g i)⟩ := by
  obtain ⟨f, d', sb, c0, lp, hf, hd, hsb, hc0, hlp, h1, h2, h3⟩ := sampleSVGD_ok.mp h
  rw [hi] at hd
  have hdd : d = d' := by
    cases a.info <;> exact Except.ok.inj hd
  subst hdd
  unfold svgdCloud at hc0
  simp only [hi, ne_eq, not_true_eq_false, if_false] at hc0
  injection hc0 with hc0
  subst hc0
  rw [initCloud_parts] at h2
  injection h2 with h2
  refine ⟨sb, hsb, h2.symm.trans ?_⟩
  simp only [noisy_eq]

/-- **C125** The same for the parameters of `info`, when nothing else is given. -/
theorem svgd_initial_info {c : SVGD.Cloud} {r : SVGD.Result c.n c.d} {d : ℕ} {x : ℕ → ℝ} {i : Info}
    (hi : a.init = none) (hr : a.randomInit = false) (hinf : a.info = some i) (hx : i.covparam = .one d x)
    (h : sampleSVGD a n s given kw vg g rnd = .ok ⟨c, r⟩) :
    ∃ sb, SVGD.normBox a.samplingBox d = .ok sb ∧
      c = ⟨n, d, fun i => clip sb (noisy n s x g i)⟩ := by
  obtain ⟨f, d', sb, c0, lp, hf, hd, hsb, hc0, hlp, h1, h2, h3⟩ := sampleSVGD_ok.mp h
  rw [hi, hinf] at hd
  simp only [inferDim, hx] at hd
  have hdd : d = d' := Except.ok.inj hd
  subst hdd
  unfold svgdCloud at hc0
  simp only [hi, hr, hinf, infoStates, hx, Bool.false_eq_true, if_false, if_true] at hc0
  injection hc0 with hc0
  subst hc0
  rw [initCloud_parts] at h2
  injection h2 with h2
  refine ⟨sb, hsb, h2.symm.trans ?_⟩
  simp only [noisy_eq]

/-- **C125** One row is treated as a vector; several rows are the particles, and `n_particles`
is not used. -/
theorem svgd_initial_rows {c : SVGD.Cloud} {r : SVGD.Result c.n c.d} {m d : ℕ} {x : ℕ → ℕ → ℝ}
    (hi : a.init = some (.two m d x)) (h : sampleSVGD a n s given kw vg g rnd = .ok ⟨c, r⟩) :
    ∃ sb, SVGD.normBox a.samplingBox d = .ok sb ∧
      ((m = 1 ∧ 1 < n) → c = ⟨n, d, fun i => clip sb (noisy n s (x 0) g i)⟩) ∧
      (¬ (m = 1 ∧ 1 < n) → c = ⟨m, d, fun i => clip sb fun j => x i j⟩) := by
  obtain ⟨f, d', sb, c0, lp, hf, hd, hsb, hc0, hlp, h1, h2, h3⟩ := sampleSVGD_ok.mp h
  unfold svgdCloud at hc0
  simp only [hi] at hc0
  by_cases hdd : d = d'
  swap
  · rw [if_pos hdd] at hc0; cases hc0
  subst hdd
  rw [if_neg (not_not.mpr rfl)] at hc0
  refine ⟨sb, hsb, fun hm => ?_, fun hm => ?_⟩
  · rw [if_pos hm] at hc0
    injection hc0 with hc0
    subst hc0
    rw [initCloud_parts] at h2
    injection h2 with h2
    refine h2.symm.trans ?_
    simp only [noisy_eq]
  · rw [if_neg hm] at hc0
    injection hc0 with hc0
    subst hc0
    rw [initCloud_parts] at h2
    injection h2 with h2
    exact h2.symm

/-- **C125** A random cloud has `n_particles` points of `init_box`; it is not put in
`sampling_box`. -/
theorem svgd_initial_random {c : SVGD.Cloud} {r : SVGD.Result c.n c.d}
    (hu : ∀ n d i e, 0 ≤ rnd n d i e ∧ rnd n d i e < 1)
    (hi : a.init = none) (hr : a.randomInit = true) (h : sampleSVGD a n s given kw vg g rnd = .ok ⟨c, r⟩) :
    c.n = n ∧ ∃ ib lo hi, a.initBox = some ib ∧ SVGD.normBounds ib c.d = .ok (lo, hi) ∧
      (∀ e, lo e < hi e) ∧ ∀ i, InBox lo hi (c.pts i) := by
  obtain ⟨f, d', sb, c0, lp, hf, hd, hsb, hc0, hlp, h1, h2, h3⟩ := sampleSVGD_ok.mp h
  unfold svgdCloud at hc0
  simp only [hi, hr, if_true] at hc0
  cases hb : a.initBox with
  | none => rw [hb] at hc0; cases hc0
  | some ib =>
    rw [hb] at hc0
    injection hc0 with hc0
    subst hc0
    simp only [svgdInit, svgdInitBox, hi, hr, hb, if_true] at h2
    obtain ⟨h4, lo, hi', h5, h6, h7⟩ := SVGD.initCloud_box hu h2
    refine ⟨?_, ib, lo, hi', rfl, h5, h6, h7⟩
    have := (SVGD.initCloud_sizes h2).1 _ rfl
    exact_mod_cast this.symm

/-! ## Containment -/

/-- **C125** Without an options object, the returned particles are in `sampling_box`, as soon as
one step is taken or the initial cloud is not random. -/
theorem svgd_in_box {c : SVGD.Cloud} {r : SVGD.Result c.n c.d} {box : List Bound} {lo hi : Pt c.d}
    (hb : a.samplingBox = some box) (hn : SVGD.normBounds box c.d = .ok (lo, hi)) (hle : ∀ j, lo j ≤ hi j)
    (hs : 1 ≤ kw.nSteps ∨ ¬ (a.init = none ∧ a.randomInit = true))
    (h : sampleSVGD a n s none kw vg g rnd = .ok ⟨c, r⟩) (i : Fin c.n) : InBox lo hi (r.particles i) := by
  obtain ⟨f, d, sb, c0, lp, hf, hd, hsb, hc0, hlp, h1, h2, h3⟩ := sampleSVGD_ok.mp h
  by_cases h4 : 1 ≤ kw.nSteps
  · exact (SVGD.run_in_box (o := svgdOpts a none kw) hb hn hle h4 h3).1 i
  have hs := hs.resolve_left h4
  have h0 : (svgdOpts a none kw).nSteps = 0 := by
    change 0 ≤ kw.nSteps at h1
    change kw.nSteps = 0
    omega
  obtain ⟨hist, hl, hpos, _⟩ := SVGD.run_ok h3
  obtain ⟨r', hr', hp⟩ := SVGD.run_zero_steps (vg c.d) (anyDim lp c.d) (svgdOpts a none kw) h0 c.pts hpos
  rw [h3] at hr'
  injection hr' with hr'
  subst hr'
  rw [hp]
  have hc : ∃ p, c0 = some p := by
    unfold svgdCloud at hc0
    rcases hi' : a.init with _ | ⟨v⟩ | ⟨e, x⟩ | ⟨m, e, x⟩ | _ <;> simp only [hi'] at hc0
    · by_cases hr : a.randomInit = true
      · exact absurd ⟨hi', hr⟩ hs
      · rw [if_neg hr] at hc0
        cases hx : infoStates a.info 1 d with
        | error e => rw [hx] at hc0; cases hc0
        | ok x =>
          rw [hx] at hc0
          injection hc0 with hc0
          exact ⟨_, hc0.symm⟩
    · split_ifs at hc0
      injection hc0 with hc0
      exact ⟨_, hc0.symm⟩
    · split_ifs at hc0
      injection hc0 with hc0
      exact ⟨_, hc0.symm⟩
    · split_ifs at hc0 <;>
      · injection hc0 with hc0
        exact ⟨_, hc0.symm⟩
    · cases hc0
  obtain ⟨p, rfl⟩ := hc
  rw [initCloud_parts] at h2
  injection h2 with h2
  subst h2
  dsimp only at hn
  rw [hb] at hsb
  obtain ⟨q, hq, rfl⟩ := (SVGD.normBox_some _ _).mp hsb
  have e := Except.ok.inj (hn.symm.trans hq)
  dsimp only
  rw [← clip_eq, ← e]
  exact SVGD.project_mem hle _

/-- Three particles from the point 5 with the box `[0, 1]`, whatever the criterion: the call
succeeds and returns three particles of the box. -/
example (f : Crit) (vg : ∀ d, SVGD.ValGrad d) (g rnd : ∀ n d, SVGD.Pts n d) :
    ∃ (c : SVGD.Cloud) (r : SVGD.Result c.n c.d),
      sampleSVGD ⟨none, some f, some (.one 1 fun _ => 5), false, none, some [.scalar 0, .scalar 1]⟩ 3 1 none
        { SVGD.Opts.default with nSteps := 1 } vg g rnd = .ok ⟨c, r⟩ ∧ c.n = 3 ∧ c.d = 1 ∧
      ∀ i, InBox (fun _ => 0) (fun _ => 1) (r.particles i) := by
  obtain ⟨lp, hlp, _⟩ := (logProb_spec (d := 1) f (some (fun _ => 0, fun _ => 1)) 1).2 one_pos
  let a : Args := ⟨none, some f, some (.one 1 fun _ => 5), false, none, some [.scalar 0, .scalar 1]⟩
  let o : SVGD.Opts := svgdOpts a none { SVGD.Opts.default with nSteps := 1 }
  let p : Parts 1 := ⟨3, jittered 3 1 (fun _ => 5) g⟩
  have hl := (SVGD.loop_succeeds (n := 3) (vg 1) (anyDim lp 1) o 1 0
    (fun i => clip (some (fun _ => 0, fun _ => 1)) (p.pts i))).mpr (by
      intro j hj
      refine ⟨1, ?_, by norm_num [o, svgdOpts, SVGD.Opts.default], one_pos, by norm_num, ⟨_, rfl⟩, ⟨_, rfl⟩,
        by norm_num [o, svgdOpts, SVGD.Opts.default], by simp [o, svgdOpts, SVGD.Opts.default]⟩
      rw [Nat.lt_one_iff.mp hj]
      simp [SVGD.annealed, o, SVGD.Opts.default, svgdOpts])
  obtain ⟨⟨y, tr, hist⟩, hl⟩ := hl
  have h : sampleSVGD a 3 1 none { SVGD.Opts.default with nSteps := 1 } vg g rnd = .ok
      ⟨⟨3, 1, fun i => clip (some (fun _ => 0, fun _ => 1)) (p.pts i)⟩,
        ⟨y, tr, fun i => SVGD.safeEval (anyDim lp 1) (y i), none⟩⟩ := by
    refine sampleSVGD_ok.mpr ⟨f, 1, some (fun _ => 0, fun _ => 1), some p, lp, rfl, rfl, rfl, ?_, hlp, ?_, ?_, ?_⟩
    · simp [svgdCloud, a, p]
    · simp [svgdOpts]
    · rw [initCloud_parts]
    · change SVGD.run (vg 1) (anyDim lp 1) o _ = _
      unfold SVGD.run
      rw [show o.nSteps.toNat = 1 from rfl, hl]
      rfl
  exact ⟨_, _, h, rfl, rfl, svgd_in_box (hle := fun _ => zero_le_one) rfl rfl (Or.inl le_rfl) h⟩

/-! ## Success -/

/-- **C125** Whether the call succeeds does not depend on the values of the criterion or its
failures, the gradient or the noise. -/
theorem svgd_succeeds_iff (f f' : Crit) (init : Option PArr) (ri : Bool) (ib sb : Option (List Bound))
    (vg vg' : ∀ d, SVGD.ValGrad d) (g g' : ∀ n d, SVGD.Pts n d) :
    (∃ r, sampleSVGD ⟨none, some f, init, ri, ib, sb⟩ n s given kw vg g rnd = .ok r) →
      ∃ r, sampleSVGD ⟨none, some f', init, ri, ib, sb⟩ n s given kw vg' g' rnd = .ok r := by
  rintro ⟨⟨c, r⟩, h⟩
  obtain ⟨f0, d, b, c0, lp, hf, hd, hsb, hc0, hlp, h1, h2, h3⟩ := sampleSVGD_ok.mp h
  obtain ⟨lp', hlp', _⟩ := (logProb_spec (d := d) f' b 1).2 one_pos
  have hc : ∃ c0' c', svgdCloud ⟨none, some f', init, ri, ib, sb⟩ n s d g' = .ok c0' ∧
      SVGD.initCloud (svgdInit b n c0').1 (some (svgdInit b n c0').2) (some d)
        (svgdInitBox ⟨none, some f', init, ri, ib, sb⟩) rnd = .ok c' ∧ c'.n = c.n ∧ c'.d = c.d := by
    unfold svgdCloud at hc0 ⊢
    rcases init with _ | ⟨v⟩ | ⟨e, x⟩ | ⟨m, e, x⟩ | _ <;> simp only at hc0 ⊢
    · by_cases hr : ri = true
      · rw [if_pos hr] at hc0 ⊢
        exact ⟨c0, c, hc0, h2, rfl, rfl⟩
      · rw [if_neg hr] at hc0
        cases hc0
    · split_ifs at hc0 ⊢
      injection hc0 with hc0
      subst hc0
      rw [initCloud_parts] at h2
      injection h2 with h2
      subst h2
      exact ⟨_, _, rfl, initCloud_parts _ _ _, rfl, rfl⟩
    · split_ifs at hc0 ⊢
      injection hc0 with hc0
      subst hc0
      rw [initCloud_parts] at h2
      injection h2 with h2
      subst h2
      exact ⟨_, _, rfl, initCloud_parts _ _ _, rfl, rfl⟩
    · split_ifs at hc0 ⊢ <;>
      · injection hc0 with hc0
        subst hc0
        rw [initCloud_parts] at h2
        injection h2 with h2
        subst h2
        exact ⟨_, _, rfl, initCloud_parts _ _ _, rfl, rfl⟩
    · cases hc0
  obtain ⟨c0', ⟨n', d', pts'⟩, hc0', h2', hcn, hcd⟩ := hc
  obtain ⟨cn, cd, pts⟩ := c
  dsimp only at hcn hcd
  subst hcn hcd
  obtain ⟨r', hr'⟩ := SVGD.run_succeeds _ (vg' d') _ (anyDim lp' d') _ _ pts' ⟨r, h3⟩
  exact ⟨⟨⟨n', d', pts'⟩, r'⟩, sampleSVGD_ok.mpr
    ⟨f', d, b, c0', lp', rfl, hd, hsb, hc0', hlp', h1, h2', hr'⟩⟩

/-! ## Where it fails -/

/-- **C125** With no step, random particles are returned outside of `sampling_box`. -/
theorem svgd_no_step_false (f : Crit) (vg : ∀ d, SVGD.ValGrad d) (g rnd : ∀ n d, SVGD.Pts n d)
    (hu : ∀ n d i e, 0 ≤ rnd n d i e ∧ rnd n d i e < 1) :
    ∃ (c : SVGD.Cloud) (r : SVGD.Result c.n c.d),
      sampleSVGD ⟨none, some f, none, true, some [.vec [2], .vec [3]], some [.vec [0], .vec [1]]⟩ 4 1 none
        { SVGD.Opts.default with nSteps := 0 } vg g rnd = .ok ⟨c, r⟩ ∧ c.n = 4 ∧ c.d = 1 ∧
      ∀ i j, 2 ≤ r.particles i j := by
  obtain ⟨lp, hlp, _⟩ := (logProb_spec (d := 1) f (some (fun _ => 0, fun _ => 1)) 1).2 one_pos
  have hb2 : SVGD.normBounds [.vec [2], .vec [3]] 1 = .ok (fun _ => 2, fun _ => 3) :=
    (SVGD.normBounds_spec _ _ _ _).mpr ⟨_, _, rfl, Or.inl rfl, Or.inl rfl, fun c => ⟨rfl, rfl⟩⟩
  have hb1 : SVGD.normBounds [.vec [0], .vec [1]] 1 = .ok (fun _ => 0, fun _ => 1) :=
    (SVGD.normBounds_spec _ _ _ _).mpr ⟨_, _, rfl, Or.inl rfl, Or.inl rfl, fun c => ⟨rfl, rfl⟩⟩
  obtain ⟨r, hr, hp⟩ := SVGD.run_zero_steps (vg 1) (anyDim lp 1)
    { SVGD.Opts.default with nSteps := 0, box := some [.vec [0], .vec [1]] } rfl
    (fun i e => rnd 4 1 i e * (3 - 2) + 2) (by norm_num : 0 < 4)
  refine ⟨⟨4, 1, fun i e => rnd 4 1 i e * (3 - 2) + 2⟩, r, sampleSVGD_ok.mpr
    ⟨f, 1, some (fun _ => 0, fun _ => 1), none, lp, rfl, rfl, ?_, rfl, hlp, le_rfl, ?_, hr⟩, rfl, rfl, ?_⟩
  · simp only [SVGD.normBox, hb1, bind, Except.bind, pure, Except.pure]
  · simp only [svgdInit, svgdInitBox, if_true, SVGD.initCloud, SVGD.rawCloud, SVGD.boxDim, hb2, SVGD.randunif,
      bind, Except.bind, pure, Except.pure]
    norm_num
    exact ⟨rfl, rfl⟩
  · intro i j
    rw [hp]
    have := (hu 4 1 i j).1
    dsimp only
    linarith

/-- **C125** With an options object that does not repeat the box, the particles leave
`sampling_box` although it is given: criterion `-10 θ`, box `[0, 1]`, one particle at 1/2 and one step of
length 1 (the gradient is that of the log-density at 1/2). -/
theorem svgd_options_false (g rnd : ∀ n d, SVGD.Pts n d) :
    let f : Crit := fun _ p => .ok (.fin (-10 * ∑ j, p j))
    let vg : ∀ d, SVGD.ValGrad d := fun _ lp x => do let v ← lp x; return (v, fun _ => .fin 10)
    ∃ (c : SVGD.Cloud) (r : SVGD.Result c.n c.d),
      sampleSVGD ⟨none, some f, some (.one 1 fun _ => 1 / 2), false, none, some [.scalar 0, .scalar 1]⟩ 1 1
        (some { SVGD.Opts.default with nSteps := 1, stepSize := 1 })
        SVGD.Opts.default vg g rnd = .ok ⟨c, r⟩ ∧ c.n = 1 ∧ c.d = 1 ∧
      ∀ i j, r.particles i j = 21 / 2 := by
  classical
  intro f vg
  let sb : Option (Pt 1 × Pt 1) := some (fun _ => 0, fun _ => 1)
  let o : SVGD.Opts := { SVGD.Opts.default with nSteps := 1, stepSize := 1 }
  let x : SVGD.Pts 1 1 := fun _ _ => 1 / 2
  obtain ⟨lp, hlp, _, hspec⟩ := (logProb_spec (d := 1) f sb 1).2 one_pos
  have hin : ¬ Outside sb fun _ => (1 / 2 : ℝ) := by
    rintro ⟨lo, hi, h, j, hj⟩
    injection h with h
    obtain ⟨rfl, rfl⟩ := Prod.mk.inj h
    norm_num at hj
  have hlp2 : anyDim lp 1 (x 0) = .ok (.fin 5) := by
    have := (hspec _ hin).2.1 (-5) (by simp only [f]; norm_num)
    rw [anyDim, dif_pos rfl]
    refine this.trans ?_
    norm_num
  have hT : SVGD.annealed 0 o.nSteps.toNat o.t0 o.t1 o.schedule = .ok 1 := by
    simp [SVGD.annealed, o, SVGD.Opts.default]
  obtain ⟨y, info, hst⟩ := (SVGD.step_succeeds (n := 1) (vg 1) (anyDim lp 1) (o.stepOpts 1) x).mpr
    ⟨by norm_num [SVGD.Opts.stepOpts, o], by norm_num [SVGD.Opts.stepOpts], by norm_num,
      ⟨none, rfl⟩, ⟨_, rfl⟩, by norm_num [SVGD.Opts.stepOpts, SVGD.Opts.default, o],
      by simp [SVGD.Opts.stepOpts, SVGD.Opts.default, o]⟩
  have hvg : SVGD.vgAt (vg 1) (anyDim lp 1) (o.stepOpts 1) (x 0) = (.fin 5, fun _ => 10) := by
    have ht : SVGD.logDens (anyDim lp 1) (o.stepOpts 1) (x 0) = .ok (.fin 5) := by
      change (do let v ← anyDim lp 1 (x 0); return Flt.div v (.fin 1) : Py Flt) = _
      rw [hlp2]
      change Except.ok (Flt.div _ _) = _
      rw [Flt.div_fin one_ne_zero, div_one]
    unfold SVGD.vgAt SVGD.safeValGrad
    simp only [vg, ht, bind, Except.bind, pure, Except.pure, Nuts.finite?_fin, Option.getD_some]
  have hpr : SVGD.proj (o.stepOpts 1) x = x := rfl
  have hv := SVGD.lone_particle hst 0 ⟨5, by rw [hpr, hvg]⟩ (fun j _ => Subsingleton.elim j 0)
  have hpre : info.precond = fun _ => 1 := (Except.ok.inj (SVGD.step_stein hst 0 0).2.2).symm
  obtain ⟨b, hb, hy⟩ := SVGD.step_moves hst 0
  have hb' : b = none := (Except.ok.inj hb).symm
  subst hb'
  have hy' : ∀ i j, y i j = 21 / 2 := by
    intro i j
    rw [Subsingleton.elim i 0, hy]
    change SVGD.proj (o.stepOpts 1) x 0 j + 1 * info.velocity 0 j = _
    rw [hv j, hpr, hvg, hpre]
    norm_num [x]
  refine ⟨⟨1, 1, x⟩, ⟨y, [⟨info.logp, info.h, 1, SVGD.meanNorm info.velocity⟩],
    fun i => SVGD.safeEval (anyDim lp 1) (y i), none⟩, sampleSVGD_ok.mpr
    ⟨f, 1, sb, some ⟨1, x⟩, lp, rfl, rfl, rfl, ?_, hlp, ?_, ?_, ?_⟩, rfl, rfl, hy'⟩
  · simp [svgdCloud, jittered, x]
  · simp [svgdOpts]
  · rw [initCloud_parts]
    congr 2
    funext i j
    norm_num [clip, sb, x]
  · change SVGD.run (vg 1) (anyDim lp 1) o x = _
    unfold SVGD.run
    rw [show o.nSteps.toNat = 0 + 1 from rfl]
    unfold SVGD.loop
    simp only [hT, hst, SVGD.loop, bind, Except.bind, pure, Except.pure]
    rfl

end Verif.Posterior
