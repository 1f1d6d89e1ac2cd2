import Verif.Mcmc.PropsSVGD
import Mathlib.Analysis.Calculus.Deriv.Pow
import Mathlib.Analysis.Calculus.Deriv.Add
import Mathlib.Analysis.Calculus.Deriv.Mul

/-!
# C61, C115, C116: velocities
-/

set_option autoImplicit false

namespace Verif.SVGD

open Verif
open Verif.Nuts (finite? finite?_fin finite?_some)

variable {n d : ℕ}

/-- The kernel gradient in closed form. -/
theorem gradK_eq (h : ℝ) (a b : Pt d) (c : Fin d) :
    gradK h a b c = 2 / h * (gauss h a b * (b c - a c)) := by
  unfold gradK gauss
  have h1 : ∀ e, HasDerivAt (fun t => (Function.update a c t e - b e) ^ 2)
      (if e = c then 2 * (a c - b c) else 0) (a c) := by
    intro e
    by_cases he : e = c
    · subst he
      simp only [Function.update_self, if_true]
      have := ((hasDerivAt_id (a e)).sub_const (b e)).pow 2
      refine this.congr_deriv ?_
      simp
    · simp only [if_neg he, Function.update_of_ne he]
      exact hasDerivAt_const _ _
  have h2 : HasDerivAt (fun t => ∑ e, (Function.update a c t e - b e) ^ 2)
      (∑ e, if e = c then 2 * (a c - b c) else 0) (a c) := HasDerivAt.fun_sum fun e _ => h1 e
  rw [Finset.sum_ite_eq' Finset.univ c, if_pos (Finset.mem_univ c)] at h2
  have h3 : HasDerivAt (fun t => Real.exp ((-∑ e, (Function.update a c t e - b e) ^ 2) / h))
      (Real.exp ((-∑ e, (Function.update a c (a c) e - b e) ^ 2) / h) *
        (-(2 * (a c - b c)) / h)) (a c) := (h2.neg.div_const h).exp
  rw [Function.update_eq_self] at h3
  rw [h3.deriv]
  ring

/-- The velocity with the mask written out. -/
theorem velocity_eq (x : Pts n d) (k0 : Fin n → Fin n → ℝ) (h : ℝ) (s : Pts n d)
    (alive : Fin n → Bool) (pre : Pt d) (i : Fin n) (c : Fin d) :
    velocity x (fun i j => k0 i j * ind (alive i) * ind (alive j)) h
        (fun i c => if alive i = true then s i c else 0) alive pre i c =
      if alive i = true then
        pre c * ((∑ j with alive j = true, (k0 i j * s j c + 2 / h * (k0 i j * (x i c - x j c)))) /
          (Finset.univ.filter fun j => alive j = true).card)
      else 0 := by
  unfold velocity
  dsimp only
  by_cases hi : alive i = true
  swap
  · rw [if_neg hi, if_neg hi]
  rw [if_pos hi, if_pos hi]
  have hone : 1 ≤ (Finset.univ.filter fun j => alive j = true).card := by
    rw [Nat.one_le_iff_ne_zero, ← Nat.pos_iff_ne_zero, Finset.card_pos]
    exact ⟨i, by simpa using hi⟩
  rw [max_eq_left hone, ← add_div, mul_comm]
  congr 1
  congr 1
  rw [Finset.sum_filter, Finset.mul_sum, ← Finset.sum_add_distrib]
  refine Finset.sum_congr rfl fun j _ => ?_
  by_cases hj : alive j = true
  · simp [hi, hj, ind]
  · simp [hi, hj, ind]

/-- Positions used by a step: the given ones, projected. -/
noncomputable def proj (o : StepOpts) (x0 : Pts n d) : Pts n d :=
  match normBox o.box d with
  | .ok b => fun i => project b (x0 i)
  | .error _ => x0

/-- Log-density seen by a particle, tempered and set to `-inf` outside the box. -/
noncomputable def logDens (f : LogProb d) (o : StepOpts) : LogProb d :=
  match normBox o.box d with
  | .ok b => tempered f b o.temperature
  | .error _ => f

/-- The (cleaned) value and gradient at a point. -/
noncomputable def vgAt (vg : ValGrad d) (f : LogProb d) (o : StepOpts) (x : Pt d) : Flt × Pt d :=
  safeValGrad vg (logDens f o) x

/-- Alive: the log-density is finite. -/
def Alive (vg : ValGrad d) (f : LogProb d) (o : StepOpts) (x : Pt d) : Prop :=
  ∃ r, (vgAt vg f o x).1 = .fin r

theorem isSome_iff (v : Flt) : (finite? v).isSome = true ↔ ∃ r, v = .fin r := by
  cases h : finite? v with
  | none =>
    simp only [Option.isSome_none, Bool.false_eq_true, false_iff]
    rintro ⟨r, rfl⟩
    rw [finite?_fin] at h; cases h
  | some r => simp only [Option.isSome_some, true_iff]; exact ⟨r, finite?_some.mp h⟩

/-- **C61** The mask reported by a step marks the particles with a finite log-density. -/
theorem step_alive {vg : ValGrad d} {f : LogProb d} {o : StepOpts} {x0 y : Pts n d}
    {info : StepInfo n d} (h : step vg f o x0 = .ok (y, info)) (i : Fin n) :
    (info.alive i = true ↔ Alive vg f o (proj o x0 i)) ∧
      info.logp i = (vgAt vg f o (proj o x0 i)).1 := by
  obtain ⟨_, _, _, b, pre, k0, hh, hb, _, _, hr⟩ := (step_ok vg f o x0 _).mp h
  have hi := congrArg Prod.snd hr
  dsimp only at hi
  subst hi
  have e : proj o x0 = fun i => project b (x0 i) := by unfold proj; rw [hb]
  have e' : logDens f o = tempered f b o.temperature := by unfold logDens; rw [hb]
  unfold Alive vgAt
  rw [e, e']
  exact ⟨isSome_iff _, rfl⟩

open Classical in
/-- **C61** The velocity is the Stein direction: over the alive particles `j`, the mean of
`k(x_j, x_i) score(x_j) + ∇_{x_j} k(x_j, x_i)`, scaled by the preconditioner.  Particles with a
nonfinite log-density have velocity zero.  The particles move by `step_size` times the velocity,
then are projected on the box. -/
theorem step_stein {vg : ValGrad d} {f : LogProb d} {o : StepOpts} {x0 y : Pts n d}
    {info : StepInfo n d} (h : step vg f o x0 = .ok (y, info)) (i : Fin n) (c : Fin d) :
    info.velocity i c =
      (if Alive vg f o (proj o x0 i) then
        info.precond c * ((∑ j with Alive vg f o (proj o x0 j),
          (gauss info.h (proj o x0 j) (proj o x0 i) * (vgAt vg f o (proj o x0 j)).2 c +
            gradK info.h (proj o x0 j) (proj o x0 i) c)) / info.aliveCount)
       else 0) ∧
    info.aliveCount = (Finset.univ.filter fun j => Alive vg f o (proj o x0 j)).card ∧
    precond o.precondDiag d o.jitter = .ok info.precond := by
  have hal := fun j => (step_alive h j).1
  obtain ⟨_, _, _, b, pre, k0, hh, hb, hp, hk, hr⟩ := (step_ok vg f o x0 _).mp h
  obtain ⟨_, _, _, hk⟩ := (rbf_ok _ _ _ _).mp hk
  have hi := congrArg Prod.snd hr
  dsimp only at hi
  subst hi
  have e : proj o x0 = fun i => project b (x0 i) := by unfold proj; rw [hb]
  have e' : logDens f o = tempered f b o.temperature := by unfold logDens; rw [hb]
  have hcard : (Finset.univ.filter fun j => Alive vg f o (proj o x0 j)) =
      Finset.univ.filter fun j => (stepFrom vg f o b pre (fun i => project b (x0 i)) k0 hh).2.alive j
        = true := by
    ext j
    simp only [Finset.mem_filter, Finset.mem_univ, true_and]
    exact (hal j).symm
  refine ⟨?_, ?_, hp⟩
  swap
  · rw [hcard]; rfl
  refine Eq.trans ?_ ((velocity_eq (fun i => project b (x0 i)) k0 hh
    (fun j => (vgAt vg f o (proj o x0 j)).2)
    (stepFrom vg f o b pre (fun i => project b (x0 i)) k0 hh).2.alive pre i c).trans ?_)
  · unfold vgAt
    rw [e, e']
    rfl
  refine if_congr (hal i) ?_ rfl
  rw [hcard]
  refine congrArg₂ (· * ·) rfl (congrArg₂ (· / ·) ?_ rfl)
  refine Finset.sum_congr rfl fun j _ => ?_
  rw [gradK_eq, hk, gauss_comm, e]
  rfl

/-- **C61** The particles move along the velocity and are then projected. -/
theorem step_moves {vg : ValGrad d} {f : LogProb d} {o : StepOpts} {x0 y : Pts n d}
    {info : StepInfo n d} (h : step vg f o x0 = .ok (y, info)) (i : Fin n) :
    ∃ b, normBox o.box d = .ok b ∧
      y i = project b fun c => proj o x0 i c + o.stepSize * info.velocity i c := by
  obtain ⟨_, _, _, b, pre, k0, hh, hb, hp, hk, hr⟩ := (step_ok vg f o x0 _).mp h
  have e : proj o x0 = fun i => project b (x0 i) := by unfold proj; rw [hb]
  refine ⟨b, hb, ?_⟩
  have h1 := congrArg Prod.fst hr
  have h2 := congrArg Prod.snd hr
  dsimp only at h1 h2
  rw [h1, h2, e]
  rfl

theorem proj_idem {o : StepOpts} {b : Option (Pt d × Pt d)} (hb : normBox o.box d = .ok b)
    (x0 : Pts n d) (i : Fin n) : project b (proj o x0 i) = proj o x0 i := by
  have e : proj o x0 = fun i => project b (x0 i) := by unfold proj; rw [hb]
  rw [e]; exact project_idem b _

/-- **C61** A particle whose log-density is not finite does not move (beyond the initial
projection on the box). -/
theorem dead_stays {vg : ValGrad d} {f : LogProb d} {o : StepOpts} {x0 y : Pts n d}
    {info : StepInfo n d} (h : step vg f o x0 = .ok (y, info)) (i : Fin n)
    (hd : ¬ Alive vg f o (proj o x0 i)) : y i = proj o x0 i := by
  obtain ⟨b, hb, hy⟩ := step_moves h i
  rw [hy]
  have : (fun c => proj o x0 i c + o.stepSize * info.velocity i c) = proj o x0 i := by
    funext c
    rw [(step_stein h i c).1, if_neg hd, mul_zero, add_zero]
  rw [this]
  exact proj_idem hb x0 i

/-- **C61** The repulsions cancel: summed over the alive particles the kernel gradients
are zero, so the velocities sum to the (kernel-weighted) scores. -/
theorem repulsion_sum_zero (h : ℝ) (x : Pts n d) (s : Finset (Fin n)) (c : Fin d) :
    ∑ i ∈ s, ∑ j ∈ s, gradK h (x j) (x i) c = 0 := by
  have key : ∑ i ∈ s, ∑ j ∈ s, gradK h (x j) (x i) c = -∑ i ∈ s, ∑ j ∈ s, gradK h (x j) (x i) c := by
    conv_lhs => rw [Finset.sum_comm]
    rw [← Finset.sum_neg_distrib]
    refine Finset.sum_congr rfl fun i _ => ?_
    rw [← Finset.sum_neg_distrib]
    refine Finset.sum_congr rfl fun j _ => ?_
    rw [gradK_eq, gradK_eq, gauss_comm]
    ring
  linarith

open Classical in
/-- **C61** Total velocity: the repulsions cancel. -/
theorem velocity_total {vg : ValGrad d} {f : LogProb d} {o : StepOpts} {x0 y : Pts n d}
    {info : StepInfo n d} (h : step vg f o x0 = .ok (y, info)) (c : Fin d) :
    ∑ i, info.velocity i c = info.precond c *
      ((∑ i with Alive vg f o (proj o x0 i), ∑ j with Alive vg f o (proj o x0 j),
        gauss info.h (proj o x0 j) (proj o x0 i) * (vgAt vg f o (proj o x0 j)).2 c) /
        info.aliveCount) := by
  rw [Finset.sum_congr rfl fun i _ => (step_stein h i c).1, ← Finset.sum_filter, ← Finset.mul_sum,
    ← Finset.sum_div]
  simp only [Finset.sum_add_distrib]
  rw [repulsion_sum_zero, add_zero]

open Classical in
/-- **C61** If only one particle is alive it follows its own (preconditioned) score:
gradient ascent on the tempered log-density. -/
theorem lone_particle {vg : ValGrad d} {f : LogProb d} {o : StepOpts} {x0 y : Pts n d}
    {info : StepInfo n d} (h : step vg f o x0 = .ok (y, info)) (i : Fin n)
    (ha : Alive vg f o (proj o x0 i)) (hone : ∀ j, Alive vg f o (proj o x0 j) → j = i)
    (c : Fin d) : info.velocity i c = info.precond c * (vgAt vg f o (proj o x0 i)).2 c := by
  obtain ⟨h1, h2, _⟩ := step_stein h i c
  have hs : (Finset.univ.filter fun j => Alive vg f o (proj o x0 j)) = {i} := by
    ext j
    simp only [Finset.mem_filter, Finset.mem_univ, true_and, Finset.mem_singleton]
    exact ⟨hone j, fun e => e ▸ ha⟩
  rw [h1, if_pos ha, h2, hs, Finset.sum_singleton, Finset.card_singleton, gauss_self, gradK_eq]
  simp

/-- **C61** Two clouds that agree on the alive particles and use the same bandwidth move the
alive particles in the same way: the others have no influence, wherever they are. -/
theorem dead_no_influence {vg : ValGrad d} {f : LogProb d} {o : StepOpts} {x0 x0' y y' : Pts n d}
    {info info' : StepInfo n d} (h : step vg f o x0 = .ok (y, info))
    (h' : step vg f o x0' = .ok (y', info')) (hbw : info.h = info'.h)
    (hx : ∀ j, x0 j = x0' j ∨ (¬ Alive vg f o (proj o x0 j) ∧ ¬ Alive vg f o (proj o x0' j)))
    (i : Fin n) (ha : Alive vg f o (proj o x0 i)) : y i = y' i := by
  classical
  have hp : ∀ j, Alive vg f o (proj o x0 j) → proj o x0' j = proj o x0 j := by
    intro j hj
    rcases hx j with e | e
    · unfold proj
      cases normBox o.box d with
      | ok b => dsimp only; rw [e]
      | error _ => exact e.symm
    · exact absurd hj e.1
  have hal : ∀ j, Alive vg f o (proj o x0' j) ↔ Alive vg f o (proj o x0 j) := by
    intro j
    rcases hx j with e | e
    · have : proj o x0' j = proj o x0 j := by
        unfold proj
        cases normBox o.box d with
        | ok b => dsimp only; rw [e]
        | error _ => exact e.symm
      rw [this]
    · exact iff_of_false e.2 e.1
  have hs : (Finset.univ.filter fun j => Alive vg f o (proj o x0' j)) =
      Finset.univ.filter fun j => Alive vg f o (proj o x0 j) := by
    ext j; simp [hal]
  have hv : ∀ c, info'.velocity i c = info.velocity i c := by
    intro c
    obtain ⟨a1, a2, a3⟩ := step_stein h i c
    obtain ⟨b1, b2, b3⟩ := step_stein h' i c
    rw [a3] at b3
    injection b3 with b3
    rw [a1, b1, if_pos ha, if_pos ((hal i).mpr ha), ← b3, a2, b2, hs, ← hbw]
    congr 2
    refine Finset.sum_congr rfl fun j hj => ?_
    rw [Finset.mem_filter] at hj
    rw [hp j hj.2, hp i ha]
  obtain ⟨b, hb, hy⟩ := step_moves h i
  obtain ⟨b', hb', hy'⟩ := step_moves h' i
  rw [hb] at hb'
  injection hb' with hb'
  subst hb'
  rw [hy, hy', hp i ha]
  simp only [hv]

/-- With a given bandwidth every step uses the same one. -/
theorem step_fixed_bandwidth {vg : ValGrad d} {f : LogProb d} {o : StepOpts} {x0 y : Pts n d}
    {info : StepInfo n d} {b : ℝ} (hb : o.bandwidth = some b)
    (h : step vg f o x0 = .ok (y, info)) : info.h = guardBandwidth o.toKOpts (o.scale * b) := by
  obtain ⟨_, _, _, bx, pre, k0, hh, _, hp, hk, hr⟩ := (step_ok vg f o x0 _).mp h
  obtain ⟨_, _, hh', _⟩ := (rbf_ok _ _ _ _).mp hk
  have h2 := congrArg Prod.snd hr
  dsimp only at h2
  rw [h2]
  change hh = _
  rw [hh', bw, raw_fixed hb]

/-- **C61** With a given bandwidth the dead particles have no influence. -/
theorem dead_no_influence_fixed {vg : ValGrad d} {f : LogProb d} {o : StepOpts}
    {x0 x0' y y' : Pts n d} {info info' : StepInfo n d} {b : ℝ} (hb : o.bandwidth = some b)
    (h : step vg f o x0 = .ok (y, info)) (h' : step vg f o x0' = .ok (y', info'))
    (hx : ∀ j, x0 j = x0' j ∨ (¬ Alive vg f o (proj o x0 j) ∧ ¬ Alive vg f o (proj o x0' j)))
    (i : Fin n) (ha : Alive vg f o (proj o x0 i)) : y i = y' i :=
  dead_no_influence h h' ((step_fixed_bandwidth hb h).trans (step_fixed_bandwidth hb h').symm)
    hx i ha

/-! ## The median bandwidth depends on the dead particles -/

/-- The half-level quantile of a sorted list that the given list permutes. -/
theorem percentile_perm {l l' : List ℝ} (hp : l.Perm l') (q : ℝ) :
    Data.percentile l q = Data.percentile l' q := by
  have hs : l.insertionSort (· ≤ ·) = l'.insertionSort (· ≤ ·) :=
    List.Perm.eq_of_pairwise (fun a b _ _ h1 h2 => le_antisymm h1 h2)
      (List.pairwise_insertionSort _ l) (List.pairwise_insertionSort _ l')
      (((List.perm_insertionSort _ l).trans hp).trans (List.perm_insertionSort _ l').symm)
  by_cases hl : l = []
  · subst hl
    rw [List.Perm.nil_eq hp]
  · have hl' : l' ≠ [] := fun e => hl (List.Perm.eq_nil (e ▸ hp))
    unfold Data.percentile
    rw [if_neg hl, if_neg hl', hs, hp.length_eq]

/-- Median of three pairs. -/
theorem median_pairs {a b c : ℝ} (hab : a ≤ b) (hbc : b ≤ c) {l : List ℝ}
    (hp : l.Perm [a, a, b, b, c, c]) : Data.percentile l (50 / 100) = .ok b := by
  rw [percentile_perm hp]
  have hs : [a, a, b, b, c, c].insertionSort (· ≤ ·) = [a, a, b, b, c, c] :=
    List.Pairwise.insertionSort_eq (by simp [hab, hbc, hab.trans hbc])
  unfold Data.percentile
  rw [if_neg (by simp), hs]
  have h1 : (50 / 100 * (((([a, a, b, b, c, c] : List ℝ).length : ℕ) : ℝ) - 1)) = 5 / 2 := by
    simp; norm_num
  dsimp only
  rw [h1]
  have h2 : ⌊(5 / 2 : ℝ)⌋₊ = 2 := by
    rw [Nat.floor_eq_iff (by norm_num)]; norm_num
  rw [h2]
  simp

/-- Two particles, the second where the gradient raises: it stays where it is, and the first
moves along its own score. -/
example : ∃ y info, step (n := 2) (d := 1)
      (fun _ x => if 0 ≤ x 0 then .ok (.fin 0, fun _ => .fin 3) else .error .valueError) (fun _ => .ok (.fin 0))
      ⟨⟨some 2, 1, none, 0⟩, 1 / 10, 1, none, none⟩ ![fun _ => 1, fun _ => -1] = .ok (y, info) ∧
    info.alive 0 = true ∧ info.alive 1 = false ∧ y 1 = (fun _ => -1) ∧ info.velocity 0 0 = info.precond 0 * 3 := by
  let vg : ValGrad 1 := fun _ x => if 0 ≤ x 0 then .ok (.fin 0, fun _ => .fin 3) else .error .valueError
  let o : StepOpts := ⟨⟨some 2, 1, none, 0⟩, 1 / 10, 1, none, none⟩
  let x0 : Pts 2 1 := ![fun _ => 1, fun _ => -1]
  have hk : rbf o.toKOpts x0 = .ok (fun i j => gauss 2 (x0 i) (x0 j), 2) := by
    rw [rbf_ok]
    refine ⟨by norm_num [o], by simp [o], ?_, fun i j => rfl⟩
    unfold bw
    rw [raw_fixed rfl]
    norm_num [guardBandwidth, o]
  have hs : ∃ y info, step vg (fun _ => .ok (.fin 0)) o x0 = .ok (y, info) := by
    have : ∃ r, step vg (fun _ => .ok (.fin 0)) o x0 = .ok r := by
      unfold step
      rw [if_neg (by norm_num [o]), if_neg (by norm_num [o])]
      change ∃ r, (rbf o.toKOpts x0 >>= fun kh => _) = _
      rw [hk]
      exact ⟨_, rfl⟩
    obtain ⟨⟨y, info⟩, h⟩ := this
    exact ⟨y, info, h⟩
  obtain ⟨y, info, hs⟩ := hs
  have hp : proj o x0 = x0 := rfl
  have h0 : Alive vg (fun _ => .ok (.fin 0)) o (proj o x0 0) := by
    refine ⟨0, ?_⟩
    simp [hp, vgAt, safeValGrad, vg, x0, finite?_fin]
  have h1 : ¬ Alive vg (fun _ => .ok (.fin 0)) o (proj o x0 1) := by
    rintro ⟨r, hr⟩
    have h : ¬ (0 : ℝ) ≤ -1 := by norm_num
    simp [hp, vgAt, safeValGrad, vg, x0, h] at hr
    cases hr
  refine ⟨y, info, hs, (step_alive hs 0).1.mpr h0, ?_, dead_stays hs 1 h1, ?_⟩
  · rw [← Bool.not_eq_true, (step_alive hs 1).1]; exact h1
  · rw [lone_particle hs 0 h0 (fun j hj => by
      fin_cases j
      · rfl
      · exact absurd hj h1) 0]
    simp [hp, vgAt, safeValGrad, vg, x0, finite?_fin]

end Verif.SVGD
