import Verif.Mcmc.PropsSVGDEdge
import Verif.Mcmc.PropsMHRun

/-!
# C60 (whole runs), C115 permutations, C117 the driver
-/

set_option autoImplicit false

namespace Verif.SVGD

open Verif
open Verif.Nuts (finite? finite?_fin finite?_some)
open Verif.MH (bind_ok)

variable {n d : ℕ}

/-! ## C115 -/

theorem posSq_perm (x : Pts n d) (σ : Equiv.Perm (Fin n)) :
    (posSq fun i => x (σ i)).Perm (posSq x) := by
  classical
  unfold posSq
  refine List.Perm.filter _ ?_
  have h1 : ((List.finRange n).flatMap fun i => (List.finRange n).map fun j =>
      sqDist (fun i => x (σ i)) i j) =
      ((List.finRange n).map σ).flatMap fun i => ((List.finRange n).map σ).map fun j => sqDist x i j := by
    rw [List.flatMap_map]
    simp only [List.map_map]
    rfl
  rw [h1]
  have hp := σ.map_finRange_perm
  refine (List.Perm.flatMap_left _ fun i _ => hp.map _).trans ?_
  exact List.Perm.flatMap_right _ hp

theorem bw_perm (o : KOpts) (x : Pts n d) (σ : Equiv.Perm (Fin n)) :
    bw o (fun i => x (σ i)) = bw o x := by
  unfold bw
  have : rawBandwidth o (fun i => x (σ i)) = rawBandwidth o x := by
    unfold rawBandwidth
    have hp := posSq_perm x σ
    cases o.bandwidth with
    | some b => rfl
    | none =>
      dsimp only
      by_cases h : posSq x = []
      · have h' : posSq (fun i => x (σ i)) = [] := by rw [h] at hp; exact hp.eq_nil
        rw [if_pos h, if_pos h']
      · have h' : posSq (fun i => x (σ i)) ≠ [] := by
          intro e; rw [e] at hp; exact h hp.symm.eq_nil
        rw [if_neg h, if_neg h', percentile_perm hp]
  have h2 : raw o (fun i => x (σ i)) = raw o x := by unfold raw; rw [this]
  rw [h2]

theorem step_bw {vg : ValGrad d} {f : LogProb d} {o : StepOpts} {x0 y : Pts n d}
    {info : StepInfo n d} (h : step vg f o x0 = .ok (y, info)) :
    info.h = bw o.toKOpts (proj o x0) := by
  obtain ⟨_, _, _, bx, pre, k0, hh, hbx, hp, hk, hr⟩ := (step_ok _ _ _ _ _).mp h
  obtain ⟨_, _, hh', _⟩ := (rbf_ok _ _ _ _).mp hk
  have h2 := congrArg Prod.snd hr
  dsimp only at h2
  rw [h2]
  unfold proj
  rw [hbx]
  exact hh'

/-- **C115** Renumbering the particles renumbers the result: nothing depends on the order of
the particles. -/
theorem step_perm {vg : ValGrad d} {f : LogProb d} {o : StepOpts} {x0 y : Pts n d}
    {info : StepInfo n d} (h : step vg f o x0 = .ok (y, info)) (σ : Equiv.Perm (Fin n)) :
    ∃ info', step vg f o (fun i => x0 (σ i)) = .ok (fun i => y (σ i), info') ∧
      info'.h = info.h ∧ (∀ i c, info'.velocity i c = info.velocity (σ i) c) ∧
      info'.aliveCount = info.aliveCount := by
  classical
  obtain ⟨y', info', h'⟩ := (step_succeeds vg f o fun i => x0 (σ i)).mpr
    ((step_succeeds vg f o x0).mp ⟨y, info, h⟩)
  have hproj : ∀ i, proj o (fun i => x0 (σ i)) i = proj o x0 (σ i) := by
    intro i
    unfold proj
    cases normBox o.box d <;> rfl
  have hbw : info'.h = info.h := by
    rw [step_bw h, step_bw h']
    have : proj o (fun i => x0 (σ i)) = fun i => proj o x0 (σ i) := funext hproj
    rw [this, bw_perm]
  have hcard : info'.aliveCount = info.aliveCount := by
    by_cases hd : ∃ c : Fin d, True
    · obtain ⟨c, _⟩ := hd
      obtain ⟨_, _, hn, _⟩ := (step_ok _ _ _ _ _).mp h
      have i0 : Fin n := ⟨0, hn⟩
      rw [(step_stein h i0 c).2.1, (step_stein h' i0 c).2.1, Finset.card_filter, Finset.card_filter]
      simp only [hproj]
      exact Equiv.sum_comp σ fun j => if Alive vg f o (proj o x0 j) then 1 else 0
    · -- no coordinates: count through the masks
      have e1 : info.aliveCount = (Finset.univ.filter fun j => info.alive j = true).card := by
        obtain ⟨_, _, _, _, _, _, _, _, _, _, hr⟩ := (step_ok _ _ _ _ _).mp h
        have h2 := congrArg Prod.snd hr
        dsimp only at h2
        rw [h2]; rfl
      have e2 : info'.aliveCount = (Finset.univ.filter fun j => info'.alive j = true).card := by
        obtain ⟨_, _, _, _, _, _, _, _, _, _, hr⟩ := (step_ok _ _ _ _ _).mp h'
        have h2 := congrArg Prod.snd hr
        dsimp only at h2
        rw [h2]; rfl
      rw [e1, e2, Finset.card_filter, Finset.card_filter]
      simp only [(step_alive h _).1, (step_alive h' _).1, hproj]
      exact Equiv.sum_comp σ fun j => if Alive vg f o (proj o x0 j) then 1 else 0
  have hv : ∀ i c, info'.velocity i c = info.velocity (σ i) c := by
    intro i c
    obtain ⟨a1, a2, a3⟩ := step_stein h (σ i) c
    obtain ⟨b1, b2, b3⟩ := step_stein h' i c
    rw [a3] at b3
    injection b3 with b3
    rw [a1, b1, ← b3, hcard, hbw, Finset.sum_filter, Finset.sum_filter]
    simp only [hproj]
    refine if_congr Iff.rfl ?_ rfl
    congr 2
    exact Equiv.sum_comp σ fun j => if Alive vg f o (proj o x0 j) then
      gauss info.h (proj o x0 j) (proj o x0 (σ i)) * (vgAt vg f o (proj o x0 j)).2 c +
        gradK info.h (proj o x0 j) (proj o x0 (σ i)) c else 0
  have hy : y' = fun i => y (σ i) := by
    funext i
    obtain ⟨b, hb, e⟩ := step_moves h (σ i)
    obtain ⟨b', hb', e'⟩ := step_moves h' i
    rw [hb] at hb'
    injection hb' with hb'
    subst hb'
    rw [e, e', hproj]
    simp only [hv]
  subst hy
  exact ⟨info', h', hbw, hv, hcard⟩

/-! ## The loop -/

/-- What a loop of `k` steps from step `s` records. -/
theorem loop_ok {vg : ValGrad d} {f : LogProb d} {o : Opts} : ∀ {k s : ℕ} {x y : Pts n d}
    {tr : List (TraceRow n)} {hist : List (Pts n d)}, loop vg f o k s x = .ok (y, tr, hist) →
    tr.length = k ∧ hist.length = k ∧ (x :: hist).getLast? = some y ∧
      ∀ j (hj : j < k), ∃ T info, annealed (s + j) o.nSteps.toNat o.t0 o.t1 o.schedule = .ok T ∧
        step vg f (o.stepOpts T) ((x :: hist).getD j x) = .ok ((x :: hist).getD (j + 1) x, info) ∧
        tr[j]? = some ⟨info.logp, info.h, T, meanNorm info.velocity⟩
  | 0, s, x, y, tr, hist, h => by
    injection h with h
    cases h
    exact ⟨rfl, rfl, rfl, fun j hj => absurd hj (Nat.not_lt_zero _)⟩
  | k + 1, s, x, y, tr, hist, h => by
    obtain ⟨T, hT, h⟩ := bind_ok h
    obtain ⟨⟨x', info⟩, hs, h⟩ := bind_ok h
    obtain ⟨⟨y', tr', hist'⟩, hl, h⟩ := bind_ok h
    injection h with h
    cases h
    obtain ⟨i1, i2, i3, i4⟩ := loop_ok hl
    refine ⟨by simp [i1], by simp [i2], ?_, ?_⟩
    · rw [List.getLast?_cons_cons]; exact i3
    · intro j hj
      cases j with
      | zero => exact ⟨T, info, hT, hs, rfl⟩
      | succ j =>
        obtain ⟨T', info', a, b, c⟩ := i4 j (by omega)
        refine ⟨T', info', ?_, ?_, c⟩
        · rw [show s + (j + 1) = s + 1 + j by omega]; exact a
        · have e1 : (x :: x' :: hist').getD (j + 1) x = (x' :: hist').getD j x' := by
            simp only [List.getD_cons_succ, List.getD_eq_getElem?_getD]
            rw [List.getElem?_cons_succ, List.getElem?_eq_getElem (by simp [i2]; omega)]; rfl
          have e2 : (x :: x' :: hist').getD (j + 1 + 1) x = (x' :: hist').getD (j + 1) x' := by
            simp only [List.getD_cons_succ, List.getD_eq_getElem?_getD]
            rw [List.getElem?_cons_succ, List.getElem?_eq_getElem (by simp [i2]; omega)]; rfl
          rw [e1, e2]; exact b

/-- Successful runs come from successful loops. -/
theorem run_ok {vg : ValGrad d} {f : LogProb d} {o : Opts} {x : Pts n d} {r : Result n d}
    (h : run vg f o x = .ok r) : ∃ hist, loop vg f o o.nSteps.toNat 0 x = .ok (r.particles, r.trace, hist) ∧
      0 < n ∧ (∀ i, r.logpFinal i = safeEval f (r.particles i)) ∧
      r.history = if o.store then some (x :: hist) else none := by
  unfold run at h
  obtain ⟨⟨y, tr, hist⟩, hl, h⟩ := bind_ok h
  dsimp only at h
  by_cases hn : n = 0
  · rw [if_pos hn] at h; cases h
  rw [if_neg hn] at h
  injection h with h
  subst h
  exact ⟨hist, hl, Nat.pos_of_ne_zero hn, fun i => rfl, rfl⟩

/-- **C117** Traces have one entry for each step; the stored history starts with the initial
cloud, ends with the returned one, has one more entry than there are steps, and consecutive
entries are linked by one step at the scheduled temperature. -/
theorem run_spec {vg : ValGrad d} {f : LogProb d} {o : Opts} {x : Pts n d} {r : Result n d}
    (h : run vg f o x = .ok r) :
    r.trace.length = o.nSteps.toNat ∧
    (∀ j, j < o.nSteps.toNat → ∃ row ∈ r.trace[j]?,
      annealed j o.nSteps.toNat o.t0 o.t1 o.schedule = .ok row.temperature) ∧
    (∀ i, r.logpFinal i = match f (r.particles i) with
      | .ok v => v
      | .error _ => .num ⊥) ∧
    (o.store = false → r.history = none) ∧
    (o.store = true → ∃ l, r.history = some l ∧ l.length = o.nSteps.toNat + 1 ∧
      l.head? = some x ∧ l.getLast? = some r.particles ∧
      ∀ j, j < o.nSteps.toNat → ∃ a ∈ l[j]?, ∃ b ∈ l[j + 1]?, ∃ row ∈ r.trace[j]?, ∃ info,
        step vg f (o.stepOpts row.temperature) a = .ok (b, info) ∧
        row.h = info.h ∧ row.logp = info.logp ∧ row.velNorm = meanNorm info.velocity) := by
  obtain ⟨hist, hl, hn, hf, hh⟩ := run_ok h
  obtain ⟨a1, a2, a3, a4⟩ := loop_ok hl
  refine ⟨a1, ?_, hf, ?_, ?_⟩
  · intro j hj
    obtain ⟨T, info, b1, b2, b3⟩ := a4 j hj
    rw [zero_add] at b1
    exact ⟨_, b3, b1⟩
  · intro hs; rw [hh, hs]; rfl
  · intro hs
    refine ⟨x :: hist, by rw [hh, hs]; rfl, by simp [a2], rfl, a3, ?_⟩
    intro j hj
    obtain ⟨T, info, b1, b2, b3⟩ := a4 j hj
    have e1 : (x :: hist)[j]? = some ((x :: hist).getD j x) := by
      rw [List.getD_eq_getElem?_getD, List.getElem?_eq_getElem (by simp [a2]; omega)]; rfl
    have e2 : (x :: hist)[j + 1]? = some ((x :: hist).getD (j + 1) x) := by
      rw [List.getD_eq_getElem?_getD, List.getElem?_eq_getElem (by simp [a2]; omega)]; rfl
    exact ⟨_, e1, _, e2, _, b3, info, b2, rfl, rfl, rfl⟩

/-- **C60** After at least one step all returned particles are in the box, and so are all the
clouds of the history but the first. -/
theorem run_in_box {vg : ValGrad d} {f : LogProb d} {o : Opts} {x : Pts n d} {r : Result n d}
    {box : List Bound} {lo hi : Pt d} (hbox : o.box = some box)
    (hn : normBounds box d = .ok (lo, hi)) (hle : ∀ c, lo c ≤ hi c) (hs : 1 ≤ o.nSteps)
    (h : run vg f o x = .ok r) :
    (∀ i, InBox lo hi (r.particles i)) ∧
      ∀ l ∈ r.history, ∀ y ∈ l.tail, ∀ i, InBox lo hi (y i) := by
  obtain ⟨hist, hl, _, _, hh⟩ := run_ok h
  obtain ⟨a1, a2, a3, a4⟩ := loop_ok hl
  have hall : ∀ y ∈ hist, ∀ i, InBox lo hi (y i) := by
    intro y hy
    obtain ⟨j, hj, rfl⟩ := List.getElem_of_mem hy
    obtain ⟨T, info, _, b2, _⟩ := a4 j (by omega)
    have e : (x :: hist).getD (j + 1) x = hist[j] := by
      rw [List.getD_cons_succ, List.getD_eq_getElem?_getD, List.getElem?_eq_getElem hj]; rfl
    rw [e] at b2
    exact step_in_box (o := o.stepOpts T) hbox hn hle b2
  refine ⟨?_, ?_⟩
  · refine hall _ ?_
    have hne : hist ≠ [] := by
      intro e
      rw [e] at a2
      simp at a2
      omega
    cases hist with
    | nil => exact absurd rfl hne
    | cons a t =>
      rw [List.getLast?_cons_cons] at a3
      exact List.mem_of_getLast? a3
  · intro l hl' y hy
    rw [hh] at hl'
    split_ifs at hl' with hst
    · cases hl'
      exact hall y hy
    · cases hl'

/-- **C60** With no step the initial particles are returned as they are, also outside the box,
and no option is checked. -/
theorem run_zero_steps (vg : ValGrad d) (f : LogProb d) (o : Opts) (hs : o.nSteps = 0)
    (x : Pts n d) (hn : 0 < n) : ∃ r, run vg f o x = .ok r ∧ r.particles = x := by
  unfold run
  rw [hs]
  dsimp only [Int.toNat_zero, loop, bind, Except.bind, pure, Except.pure]
  rw [if_neg hn.ne']
  exact ⟨_, rfl, rfl⟩

/-- **C60** Witness: a box with wrong order is never noticed and no step is taken, so the
returned particle is not in the box. -/
theorem run_in_box_false : ∃ (o : Opts) (r : Result 1 1),
    o.box = some [.scalar 0, .scalar 1] ∧
    run (fun f x => do let v ← f x; return (v, fun _ => .fin 0)) (fun _ => .ok (.fin 0)) o
      (fun _ _ => 2) = .ok r ∧ ¬ InBox (fun _ => 0) (fun _ => 1) (r.particles 0) := by
  obtain ⟨r, h1, h2⟩ := run_zero_steps (n := 1) (d := 1)
    (fun f x => do let v ← f x; return (v, fun _ => .fin 0)) (fun _ => .ok (.fin 0))
    { Opts.default with nSteps := 0, box := some [.scalar 0, .scalar 1] } rfl (fun _ _ => 2)
    Nat.one_pos
  refine ⟨_, r, rfl, h1, ?_⟩
  rw [h2]
  intro h
  have := (h 0).2
  norm_num at this

/-- **C60** Bounds in the wrong order are not refused: the particles are put on the upper
bounds, which are not in the (empty) box. -/
theorem step_in_box_false : ∃ (o : StepOpts) (y : Pts 1 1) (info : StepInfo 1 1),
    o.box = some [.scalar 1, .scalar 0] ∧
    step (numpyValGrad (1 / 10 ^ 5)) normalLP o (fun _ _ => 5) = .ok (y, info) ∧
    y 0 0 = 0 ∧ ¬ InBox (fun _ => 1) (fun _ => 0) (y 0) := by
  obtain ⟨y, info, h⟩ := (step_succeeds (n := 1) (numpyValGrad (1 / 10 ^ 5)) normalLP
    { edgeOpts with box := some [.scalar 1, .scalar 0] }
    (fun _ _ => 5)).mpr ⟨by norm_num [edgeOpts], by norm_num [edgeOpts], by norm_num,
      ⟨some (fun _ => 1, fun _ => 0), rfl⟩, ⟨_, rfl⟩, by norm_num [edgeOpts], by simp [edgeOpts]⟩
  refine ⟨_, y, info, rfl, h, ?_, ?_⟩
  · obtain ⟨b, hb, e⟩ := step_moves h 0
    cases hb
    rw [e, project_inverted (fun c => by norm_num)]
  · intro hi
    have h1 := (hi 0).1
    have h2 := (hi 0).2
    linarith

/-- **C114** The lone particle of a whole run never leaves the side of the box. -/
theorem run_boundary_stuck {f : LogProb d} {o : Opts} {x : Pts 1 d} {r : Result 1 d}
    {box : List Bound} {lo hi : Pt d} {h : ℝ} (hh : 0 < h) (hbox : o.box = some box)
    (hn : normBounds box d = .ok (lo, hi)) (hin : InBox lo hi (x 0))
    (hnear : ∀ c, hi c < x 0 c + 2 * h ∨ x 0 c - 2 * h < lo c)
    (hr : run (numpyValGrad h) f o x = .ok r) : r.particles = x := by
  obtain ⟨hist, hl, _⟩ := run_ok hr
  have key : ∀ {k s : ℕ} {x' y : Pts 1 d} {tr : List (TraceRow 1)} {hist : List (Pts 1 d)}, x' = x →
      loop (numpyValGrad h) f o k s x' = .ok (y, tr, hist) → y = x := by
    intro k
    induction k with
    | zero =>
      intro s x' y tr hist hx h
      injection h with h
      cases h
      exact hx
    | succ k ih =>
      intro s x' y tr hist hx hl
      obtain ⟨T, hT, hl⟩ := bind_ok hl
      obtain ⟨⟨x'', info⟩, hs, hl⟩ := bind_ok hl
      obtain ⟨⟨y', tr', hist'⟩, hl', hl⟩ := bind_ok hl
      injection hl with hl
      cases hl
      refine ih ?_ hl'
      subst hx
      exact boundary_stuck (o := o.stepOpts T) hh hbox hn hin hnear hs
  exact key rfl hl

/-- **C62** The recorded temperatures of a run of at least two steps start at the initial
temperature, end at the final one, and lie between them. -/
theorem run_temperatures {vg : ValGrad d} {f : LogProb d} {o : Opts} {x : Pts n d} {r : Result n d}
    (hs : 2 ≤ o.nSteps) (h : run vg f o x = .ok r) :
    (∃ row ∈ r.trace.head?, row.temperature = o.t0) ∧
    (∃ row ∈ r.trace.getLast?, row.temperature = o.t1) ∧
    ∀ row ∈ r.trace, min o.t0 o.t1 ≤ row.temperature ∧ row.temperature ≤ max o.t0 o.t1 ∧
      0 < row.temperature := by
  obtain ⟨h1, h2, _⟩ := run_spec h
  have hN : 2 ≤ o.nSteps.toNat := by omega
  refine ⟨?_, ?_, ?_⟩
  · obtain ⟨row, hr, hT⟩ := h2 0 (by omega)
    refine ⟨row, ?_, annealed_first hN hT⟩
    rw [List.head?_eq_getElem?]; exact hr
  · obtain ⟨row, hr, hT⟩ := h2 (o.nSteps.toNat - 1) (by omega)
    refine ⟨row, ?_, annealed_last (by omega) hT⟩
    rw [List.getLast?_eq_getElem?, h1]; exact hr
  · intro row hrow
    obtain ⟨j, hj, rfl⟩ := List.getElem_of_mem hrow
    obtain ⟨row', hr, hT⟩ := h2 j (by omega)
    rw [List.getElem?_eq_getElem hj] at hr
    cases hr
    exact annealed_bounds (by omega) hT

/-! ## Initial cloud -/

/-- **C117** A vector is one particle; a matrix is a cloud, one row for each particle. -/
theorem initCloud_given (d : ℕ) (x : Pt d) (n : ℕ) (xs : Pts n d) (rnd : ∀ n d, Pts n d) (box : Option (List Bound)) :
    initCloud (some (.oneD d x)) none none box rnd = .ok ⟨1, d, fun _ => x⟩ ∧
    initCloud (some (.twoD n d xs)) none none box rnd = .ok ⟨n, d, xs⟩ ∧
    initCloud (some .other) none none box rnd = .error .valueError := by
  refine ⟨?_, ?_, rfl⟩ <;> simp [initCloud, rawCloud, bind, Except.bind, pure, Except.pure]

/-- **C117** Whatever the route, an accepted cloud has the announced sizes. -/
theorem initCloud_sizes {init : Option Init} {np : Option ℤ} {dim : Option ℕ}
    {box : Option (List Bound)} {rnd : ∀ n d, Pts n d} {c : Cloud}
    (h : initCloud init np dim box rnd = .ok c) :
    (∀ m ∈ np, m = c.n) ∧ ∀ e ∈ dim, e = c.d := by
  unfold initCloud at h
  obtain ⟨⟨cl, dd⟩, h0, h⟩ := bind_ok h
  dsimp only at h
  by_cases h1 : ∃ n ∈ np, n ≠ (cl.n : ℤ)
  · rw [if_pos h1] at h; cases h
  rw [if_neg h1] at h
  by_cases h2 : ∃ e ∈ dd, e ≠ cl.d
  · simp only [if_pos h2] at h; cases h
  simp only [if_neg h2] at h
  injection h with h
  subst h
  push Not at h1 h2
  refine ⟨h1, ?_⟩
  intro e he
  cases he
  refine h2 e ?_
  cases init with
  | some i =>
    cases i with
    | oneD d x => injection h0 with h0; cases h0; rfl
    | twoD n d x => injection h0 with h0; cases h0; rfl
    | other => cases h0
  | none =>
    cases box with
    | none => cases h0
    | some box =>
      cases np with
      | none => cases h0
      | some m =>
        unfold rawCloud at h0
        dsimp only at h0
        by_cases hm : m ≤ 0
        · rw [if_pos hm] at h0; cases h0
        rw [if_neg hm] at h0
        obtain ⟨d', hd', h0⟩ := bind_ok h0
        obtain ⟨lh, hb, h0⟩ := bind_ok h0
        obtain ⟨x, hx, h0⟩ := bind_ok h0
        injection hd' with hd'
        subst hd'
        injection h0 with h0
        cases h0
        rfl

/-- **C117** Particles drawn in `init_box` are in it: with draws in `[0, 1)` every coordinate is
between its bounds, and equal or reversed bounds are refused. -/
theorem initCloud_box {np : ℤ} {dim : Option ℕ} {box : List Bound} {rnd : ∀ n d, Pts n d}
    {c : Cloud} (hr : ∀ n d i e, 0 ≤ rnd n d i e ∧ rnd n d i e < 1)
    (h : initCloud none (some np) dim (some box) rnd = .ok c) :
    0 < np ∧ ∃ lo hi, normBounds box c.d = .ok (lo, hi) ∧ (∀ e, lo e < hi e) ∧
      ∀ i, InBox lo hi (c.pts i) := by
  unfold initCloud at h
  obtain ⟨⟨cl, dd⟩, h0, h⟩ := bind_ok h
  dsimp only at h
  by_cases h1 : ∃ n ∈ some np, n ≠ (cl.n : ℤ)
  · rw [if_pos h1] at h; cases h
  rw [if_neg h1] at h
  by_cases h2 : ∃ e ∈ dd, e ≠ cl.d
  · simp only [if_pos h2] at h; cases h
  simp only [if_neg h2] at h
  injection h with h
  subst h
  unfold rawCloud at h0
  dsimp only at h0
  by_cases hm : np ≤ 0
  · rw [if_pos hm] at h0; cases h0
  rw [if_neg hm] at h0
  obtain ⟨d', hd', h0⟩ := bind_ok h0
  obtain ⟨⟨lo, hi⟩, hb, h0⟩ := bind_ok h0
  dsimp only at h0
  obtain ⟨x, hx, h0⟩ := bind_ok h0
  injection h0 with h0
  cases h0
  refine ⟨not_le.mp hm, lo, hi, hb, ?_⟩
  unfold randunif at hx
  split_ifs at hx with hc
  injection hx with hx
  subst hx
  push Not at hc
  refine ⟨hc, fun i e => ?_⟩
  obtain ⟨r0, r1⟩ := hr np.toNat d' i e
  have := hc e
  constructor
  · nlinarith
  · nlinarith

/-- A box with a common scalar lower bound needs the dimension. -/
example (rnd : ∀ n d, Pts n d) :
    initCloud none (some 3) none (some [.scalar 0, .vec [1, 2]]) rnd = .error .valueError := by
  simp [initCloud, rawCloud, boxDim, bind, Except.bind]

/-- **C117** A negative number of steps is refused. -/
theorem sample_negative (vg : ∀ d, ValGrad d) (f : ∀ d, LogProb d) (o : Opts) (init : Option Init)
    (np : Option ℤ) (dim : Option ℕ) (box : Option (List Bound)) (rnd : ∀ n d, Pts n d)
    (h : o.nSteps < 0) : sample vg f o init np dim box rnd = .error .valueError := by
  unfold sample
  rw [if_pos h]
  rfl

/-- **C117** `svgd_sample` is a run from the initial cloud. -/
theorem sample_ok {vg : ∀ d, ValGrad d} {f : ∀ d, LogProb d} {o : Opts} {init : Option Init}
    {np : Option ℤ} {dim : Option ℕ} {box : Option (List Bound)} {rnd : ∀ n d, Pts n d}
    {c : Cloud} {r : Result c.n c.d} :
    sample vg f o init np dim box rnd = .ok ⟨c, r⟩ ↔
      0 ≤ o.nSteps ∧ initCloud init np dim box rnd = .ok c ∧ run (vg c.d) (f c.d) o c.pts = .ok r := by
  unfold sample
  by_cases h : o.nSteps < 0
  · rw [if_pos h]
    constructor
    · intro h'; cases h'
    · rintro ⟨h', _⟩; omega
  rw [if_neg h]
  constructor
  · intro h'
    have h' : (do
        let cl ← initCloud init np dim box rnd
        let r ← run (vg cl.d) (f cl.d) o cl.pts
        return (⟨cl, r⟩ : Σ c : Cloud, Result c.n c.d) : Py _) = .ok ⟨c, r⟩ := h'
    obtain ⟨cl, hc, h'⟩ := bind_ok h'
    obtain ⟨r', hr, h'⟩ := bind_ok h'
    injection h' with h'
    cases h'
    exact ⟨not_lt.mp h, hc, hr⟩
  · rintro ⟨_, hc, hr⟩
    simp only [hc, bind, Except.bind, pure, Except.pure, hr]

/-- The default options from two particles given as a matrix: the run succeeds. -/
example (x : Pts 2 1) (rnd : ∀ n d, Pts n d) (vg : ∀ d, ValGrad d) :
    ∃ r, sample vg (fun _ _ => .ok (.fin 0)) { Opts.default with nSteps := 1 }
      (some (.twoD 2 1 x)) none none none rnd = .ok ⟨⟨2, 1, x⟩, r⟩ := by
  have hs := (step_succeeds (n := 2) (vg 1) (fun _ => .ok (.fin 0))
    ({ Opts.default with nSteps := 1 }.stepOpts 1) x).mpr
    ⟨by norm_num [Opts.stepOpts, Opts.default], by norm_num [Opts.stepOpts], by norm_num,
      ⟨none, rfl⟩, ⟨_, rfl⟩, by norm_num [Opts.stepOpts, Opts.default],
      by simp [Opts.stepOpts, Opts.default]⟩
  obtain ⟨y, info, hs⟩ := hs
  have ha : annealed 0 (Int.toNat 1) 10 1 "geometric" = .ok 1 := by
    unfold annealed
    norm_num
  refine ⟨⟨y, [⟨info.logp, info.h, 1, meanNorm info.velocity⟩], fun _ => .fin 0, none⟩, ?_⟩
  rw [sample_ok]
  refine ⟨by norm_num, (initCloud_given 1 (x 0) 2 x rnd none).2.1, ?_⟩
  unfold run
  have hl : loop (vg 1) (fun _ => .ok (.fin 0)) { Opts.default with nSteps := 1 } (Int.toNat 1) 0 x =
      .ok (y, [⟨info.logp, info.h, 1, meanNorm info.velocity⟩], [y]) := by
    change loop (vg 1) (fun _ => .ok (.fin 0)) { Opts.default with nSteps := 1 } (0 + 1) 0 x = _
    rw [loop]
    change (annealed 0 (Int.toNat 1) 10 1 "geometric" >>= _) = _
    rw [ha]
    simp only [bind, Except.bind, pure, Except.pure]
    rw [hs]
    rfl
  change (loop (vg 1) (fun _ => .ok (.fin 0)) { Opts.default with nSteps := 1 } (Int.toNat 1) 0 x >>= _) = _
  rw [hl]
  rfl

end Verif.SVGD
