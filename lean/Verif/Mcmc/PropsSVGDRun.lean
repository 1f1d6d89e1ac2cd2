import Verif.Mcmc.PropsSVGDStep
import Mathlib.Data.List.FinRange
import Mathlib.Analysis.Complex.ExponentialBounds

/-!
# C61 (median bandwidth), C62 temperatures, C114 scores near the box, C115 permutations
-/

set_option autoImplicit false

namespace Verif.SVGD

open Verif
open Verif.Nuts (finite? finite?_fin finite?_some)

variable {n d : ℕ}

/-! ## C62 -/

/-- **C62** The first of at least two temperatures is the initial one. -/
theorem annealed_first {N : ℕ} {t0 t1 T : ℝ} {sch : String} (hN : 2 ≤ N)
    (h : annealed 0 N t0 t1 sch = .ok T) : T = t0 := by
  unfold annealed at h
  by_cases h1 : t0 ≤ 0 ∨ t1 ≤ 0
  · rw [if_pos h1] at h; cases h
  rw [if_neg h1, if_neg (by omega)] at h
  dsimp only at h
  by_cases hl : sch = "linear"
  · rw [if_pos hl] at h
    injection h with h
    rw [← h]; simp
  · rw [if_neg hl] at h
    by_cases hg : sch = "geometric"
    · rw [if_pos hg] at h
      injection h with h
      rw [← h]; simp
    · rw [if_neg hg] at h; cases h

/-- **C62** The last temperature is the final one (any number of steps). -/
theorem annealed_last {N : ℕ} {t0 t1 T : ℝ} {sch : String} (hN : 1 ≤ N)
    (h : annealed (N - 1) N t0 t1 sch = .ok T) : T = t1 := by
  unfold annealed at h
  by_cases h1 : t0 ≤ 0 ∨ t1 ≤ 0
  · rw [if_pos h1] at h; cases h
  rw [if_neg h1] at h
  push Not at h1
  by_cases h2 : N ≤ 1
  · rw [if_pos h2] at h; injection h with h; exact h.symm
  rw [if_neg h2] at h
  dsimp only at h
  have hu : ((N - 1 : ℕ) : ℝ) / ((N - 1 : ℕ) : ℝ) = 1 := by
    apply div_self
    have : N - 1 ≠ 0 := by omega
    exact_mod_cast this
  rw [hu] at h
  by_cases hl : sch = "linear"
  · rw [if_pos hl] at h
    injection h with h
    rw [← h]; ring
  · rw [if_neg hl] at h
    by_cases hg : sch = "geometric"
    · rw [if_pos hg] at h
      injection h with h
      rw [← h, Real.rpow_one]
      field_simp [h1.1.ne']
    · rw [if_neg hg] at h; cases h

/-- Convex combination bounds. -/
theorem mix_bounds {t0 t1 u : ℝ} (h0 : 0 ≤ u) (h1 : u ≤ 1) :
    min t0 t1 ≤ t0 + u * (t1 - t0) ∧ t0 + u * (t1 - t0) ≤ max t0 t1 := by
  rcases le_total t0 t1 with h | h
  · rw [min_eq_left h, max_eq_right h]; constructor <;> nlinarith
  · rw [min_eq_right h, max_eq_left h]; constructor <;> nlinarith

theorem geo_eq {t0 t1 : ℝ} (h0 : 0 < t0) (h1 : 0 < t1) (u : ℝ) :
    t0 * (t1 / t0) ^ u = Real.exp (Real.log t0 + u * (Real.log t1 - Real.log t0)) := by
  rw [Real.rpow_def_of_pos (div_pos h1 h0), Real.log_div h1.ne' h0.ne', Real.exp_add,
    Real.exp_log h0, mul_comm u]

/-- **C62** Every temperature of the schedule is between the two ends, and positive. -/
theorem annealed_bounds {s N : ℕ} {t0 t1 T : ℝ} {sch : String} (hs : s < N)
    (h : annealed s N t0 t1 sch = .ok T) : min t0 t1 ≤ T ∧ T ≤ max t0 t1 ∧ 0 < T := by
  unfold annealed at h
  by_cases h1 : t0 ≤ 0 ∨ t1 ≤ 0
  · rw [if_pos h1] at h; cases h
  rw [if_neg h1] at h
  push Not at h1
  have hmin : 0 < min t0 t1 := lt_min h1.1 h1.2
  suffices hh : min t0 t1 ≤ T ∧ T ≤ max t0 t1 from ⟨hh.1, hh.2, hmin.trans_le hh.1⟩
  by_cases h2 : N ≤ 1
  · rw [if_pos h2] at h; injection h with h
    rw [← h]; exact ⟨min_le_right _ _, le_max_right _ _⟩
  rw [if_neg h2] at h
  dsimp only at h
  have hN : (0 : ℝ) < ((N - 1 : ℕ) : ℝ) := by
    have : 0 < N - 1 := by omega
    exact_mod_cast this
  have hu0 : 0 ≤ (s : ℝ) / ((N - 1 : ℕ) : ℝ) := by positivity
  have hu1 : (s : ℝ) / ((N - 1 : ℕ) : ℝ) ≤ 1 := by
    rw [div_le_one hN]
    have : s ≤ N - 1 := by omega
    exact_mod_cast this
  by_cases hl : sch = "linear"
  · rw [if_pos hl] at h
    injection h with h
    rw [← h]; exact mix_bounds hu0 hu1
  · rw [if_neg hl] at h
    by_cases hg : sch = "geometric"
    · rw [if_pos hg] at h
      injection h with h
      rw [← h, geo_eq h1.1 h1.2]
      obtain ⟨a, b⟩ := mix_bounds (t0 := Real.log t0) (t1 := Real.log t1) hu0 hu1
      rcases le_total t0 t1 with h' | h'
      · have hlog := Real.log_le_log h1.1 h'
        rw [min_eq_left hlog] at a
        rw [max_eq_right hlog] at b
        rw [min_eq_left h', max_eq_right h']
        exact ⟨by rw [← Real.log_le_iff_le_exp h1.1]; exact a,
          by rw [← Real.le_log_iff_exp_le h1.2]; exact b⟩
      · have hlog := Real.log_le_log h1.2 h'
        rw [min_eq_right hlog] at a
        rw [max_eq_left hlog] at b
        rw [min_eq_right h', max_eq_left h']
        exact ⟨by rw [← Real.log_le_iff_le_exp h1.2]; exact a,
          by rw [← Real.le_log_iff_exp_le h1.1]; exact b⟩
    · rw [if_neg hg] at h; cases h

/-- **C62** Temperatures go monotonically from the first to the last. -/
theorem annealed_mono {s s' N : ℕ} {t0 t1 T T' : ℝ} {sch : String} (hss : s ≤ s')
    (h : annealed s N t0 t1 sch = .ok T) (h' : annealed s' N t0 t1 sch = .ok T') :
    (t1 ≤ t0 → T' ≤ T) ∧ (t0 ≤ t1 → T ≤ T') := by
  unfold annealed at h h'
  by_cases h1 : t0 ≤ 0 ∨ t1 ≤ 0
  · rw [if_pos h1] at h; cases h
  rw [if_neg h1] at h h'
  push Not at h1
  by_cases h2 : N ≤ 1
  · rw [if_pos h2] at h h'
    rw [h] at h'
    cases h'
    exact ⟨fun _ => le_rfl, fun _ => le_rfl⟩
  rw [if_neg h2] at h h'
  dsimp only at h h'
  have hN : (0 : ℝ) < ((N - 1 : ℕ) : ℝ) := by
    have : 0 < N - 1 := by omega
    exact_mod_cast this
  have hu : (s : ℝ) / ((N - 1 : ℕ) : ℝ) ≤ (s' : ℝ) / ((N - 1 : ℕ) : ℝ) := by
    rw [div_le_div_iff_of_pos_right hN]; exact_mod_cast hss
  by_cases hl : sch = "linear"
  · rw [if_pos hl] at h h'
    injection h with h
    injection h' with h'
    rw [← h, ← h']
    constructor <;> intro ht <;> nlinarith
  · rw [if_neg hl] at h h'
    by_cases hg : sch = "geometric"
    · rw [if_pos hg] at h h'
      injection h with h
      injection h' with h'
      rw [← h, ← h', geo_eq h1.1 h1.2, geo_eq h1.1 h1.2, Real.exp_le_exp, Real.exp_le_exp]
      constructor <;> intro ht
      · have := Real.log_le_log h1.2 ht; nlinarith
      · have := Real.log_le_log h1.1 ht; nlinarith
    · rw [if_neg hg] at h; cases h

/-- **C62** The linear schedule has equal differences and the geometric one equal ratios. -/
theorem annealed_even {s N : ℕ} {t0 t1 : ℝ} (hN : 2 ≤ N) (h0 : 0 < t0) (h1 : 0 < t1) :
    annealed s N t0 t1 "linear" = .ok (t0 + s / ((N : ℝ) - 1) * (t1 - t0)) ∧
    annealed s N t0 t1 "geometric" =
      .ok (Real.exp (Real.log t0 + s / ((N : ℝ) - 1) * (Real.log t1 - Real.log t0))) := by
  have hc : ((N - 1 : ℕ) : ℝ) = (N : ℝ) - 1 := by
    rw [Nat.cast_sub (by omega)]; norm_num
  constructor
  · unfold annealed
    rw [if_neg (by push Not; exact ⟨h0, h1⟩), if_neg (by omega)]
    simp [hc]
  · unfold annealed
    rw [if_neg (by push Not; exact ⟨h0, h1⟩), if_neg (by omega)]
    simp only [if_neg (show ¬ "geometric" = "linear" by decide), if_true]
    rw [geo_eq h0 h1, hc]

example : annealed 1 3 10 1 "linear" = .ok (11 / 2) := by
  rw [(annealed_even (by norm_num) (by norm_num) (by norm_num)).1]
  norm_num

/-- **C62** With a single step the run starts at the final temperature: the initial one
is never used. -/
theorem annealed_first_false : ∃ (t0 t1 T : ℝ), annealed 0 1 t0 t1 "geometric" = .ok T ∧ T ≠ t0 := by
  refine ⟨10, 1, 1, ?_, by norm_num⟩
  unfold annealed
  norm_num

/-- **C62** Nonpositive temperatures are always refused by a step of the schedule; an unknown
schedule is refused if there are at least two steps. -/
theorem annealed_refuses (s N : ℕ) (t0 t1 : ℝ) (sch : String) :
    (∃ e, annealed s N t0 t1 sch = .error e) ↔
      (t0 ≤ 0 ∨ t1 ≤ 0) ∨ (2 ≤ N ∧ sch ≠ "linear" ∧ sch ≠ "geometric") := by
  unfold annealed
  by_cases h1 : t0 ≤ 0 ∨ t1 ≤ 0
  · rw [if_pos h1]; simp [h1]
  rw [if_neg h1]
  by_cases h2 : N ≤ 1
  · rw [if_pos h2]; simp [h1]; omega
  rw [if_neg h2]
  dsimp only
  by_cases hl : sch = "linear"
  · rw [if_pos hl]; simp [h1, hl]
  · rw [if_neg hl]
    by_cases hg : sch = "geometric"
    · rw [if_pos hg]; simp [h1, hg]
    · rw [if_neg hg]; simp [h1, hl, hg]; omega

/-! ## C61: the median heuristic lets dead particles act -/

/-- A density that is constant on `(-∞, 5]` and zero above. -/
noncomputable def cut : LogProb 1 := fun x =>
  open Classical in if 5 < x 0 then .ok (.num ⊥) else .ok (.fin 0)

/-- Its derivative (zero) with its value. -/
noncomputable def cutVG : ValGrad 1 := fun f x => do
  let v ← f x
  return (v, fun _ => .fin 0)

/-- Default settings, unit step and temperature. -/
noncomputable def cutOpts : StepOpts where
  bandwidth := none
  scale := 1
  bmin := none
  jitter := (10 : ℝ)⁻¹ ^ 12
  stepSize := 1
  temperature := 1
  precondDiag := none
  box := none

theorem cut_alive (x : Pt 1) : Alive cutVG cut cutOpts x ↔ x 0 ≤ 5 := by
  unfold Alive vgAt logDens cutOpts normBox safeValGrad cutVG tempered cut
  dsimp only
  by_cases h : 5 < x 0
  · simp only [if_pos h, bind, Except.bind, pure, Except.pure]
    have hd : Flt.div (.num ⊥) (.fin 1) = .num ⊥ := by
      have h1 : (1 : EReal) ≠ ⊤ := EReal.coe_ne_top 1
      have h2 : (1 : EReal) ≠ ⊥ := EReal.coe_ne_bot 1
      simp [Flt.div, Flt.fin, h1, h2]
    rw [hd]
    have : finite? (.num ⊥) = none := by simp [finite?]
    rw [this]
    dsimp only
    constructor
    · rintro ⟨r, hr⟩
      injection hr with hr
      exact absurd hr.symm (EReal.coe_ne_bot r)
    · intro h'; linarith
  · simp only [if_neg h, bind, Except.bind, pure, Except.pure]
    rw [Flt.div_fin one_ne_zero, finite?_fin]
    exact ⟨fun _ => not_lt.mp h, fun _ => ⟨_, rfl⟩⟩

theorem cut_score (x : Pt 1) (c : Fin 1) : (vgAt cutVG cut cutOpts x).2 c = 0 := by
  unfold vgAt logDens cutOpts normBox safeValGrad cutVG tempered cut
  dsimp only
  by_cases h : 5 < x 0
  · simp only [if_pos h, bind, Except.bind, pure, Except.pure]
    cases finite? (Flt.div (.num ⊥) (.fin 1)) with
    | none => rfl
    | some r => simp [finite?_fin]
  · simp only [if_neg h, bind, Except.bind, pure, Except.pure]
    rw [Flt.div_fin one_ne_zero, finite?_fin]
    simp [finite?_fin]

/-- Two particles of the support at distance 1 and a dead one at `t`. -/
noncomputable def cloud3 (t : ℝ) : Pts 3 1 := fun i _ => ![0, 1, t] i

theorem cloud3_posSq {t : ℝ} (ht : 5 < t) :
    posSq (cloud3 t) = [1, t ^ 2, 1, (t - 1) ^ 2, t ^ 2, (t - 1) ^ 2] := by
  classical
  have h1 : (0 : ℝ) < t * t := by nlinarith
  have h2 : (0 : ℝ) < (1 - t) * (1 - t) := by nlinarith
  have h3 : (0 : ℝ) < (t - 1) * (t - 1) := by nlinarith
  have hf : List.finRange 3 = [0, 1, 2] := by decide
  unfold posSq
  rw [hf]
  simp [sqDist, cloud3, List.filter_cons, h1, h2, h3]
  refine ⟨?_, ?_, ?_, ?_⟩ <;> ring

theorem cloud3_raw {t : ℝ} (ht : 5 < t) :
    raw cutOpts.toKOpts (cloud3 t) = (t - 1) ^ 2 / Real.log 4 := by
  have hp : (posSq (cloud3 t)).Perm [1, 1, (t - 1) ^ 2, (t - 1) ^ 2, t ^ 2, t ^ 2] := by
    rw [cloud3_posSq ht]
    exact List.Perm.map (fun i : ℕ => if i = 0 then 1 else if i = 1 then (t - 1) ^ 2 else t ^ 2)
      (show [0, 2, 0, 1, 2, 1].Perm [0, 0, 1, 1, 2, 2] by decide)
  have := raw_median (o := cutOpts.toKOpts) rfl (cloud3 t) (by rw [cloud3_posSq ht]; simp)
    (median_pairs (by nlinarith) (by nlinarith) hp)
  rw [this]
  norm_num [cutOpts]

theorem log4_bounds : 1 < Real.log 4 ∧ Real.log 4 < 2 := by
  have h : Real.log 4 = 2 * Real.log 2 := by
    rw [show (4 : ℝ) = 2 ^ 2 by norm_num, Real.log_pow]; norm_num
  have := Real.log_two_gt_d9
  have := Real.log_two_lt_d9
  constructor <;> linarith

theorem cloud3_bw {t : ℝ} (ht : 5 < t) :
    bw cutOpts.toKOpts (cloud3 t) = (t - 1) ^ 2 / Real.log 4 := by
  unfold bw guardBandwidth
  rw [cloud3_raw ht]
  have hl := log4_bounds
  have : (1 : ℝ) < (t - 1) ^ 2 / Real.log 4 := by
    rw [lt_div_iff₀ (by linarith)]; nlinarith
  have hj : ¬ (t - 1) ^ 2 / Real.log 4 ≤ cutOpts.jitter := by
    rw [not_le]
    refine lt_trans ?_ this
    norm_num [cutOpts]
  rw [if_neg hj]
  rfl

theorem cloud3_step {t : ℝ} (ht : 5 < t) : ∃ y info, step cutVG cut cutOpts (cloud3 t) = .ok (y, info) ∧
    y 0 0 = -(Real.log 4 / (t - 1) ^ 2 * Real.exp (-(Real.log 4 / (t - 1) ^ 2))) := by
  classical
  obtain ⟨y, info, h⟩ : ∃ y info, step cutVG cut cutOpts (cloud3 t) = .ok (y, info) := by
    rw [step_succeeds]
    exact ⟨by norm_num [cutOpts], by norm_num [cutOpts], by norm_num, ⟨none, rfl⟩, ⟨_, rfl⟩,
      by norm_num [cutOpts], by simp [cutOpts]⟩
  refine ⟨y, info, h, ?_⟩
  have hproj : proj cutOpts (cloud3 t) = cloud3 t := rfl
  have hh : info.h = (t - 1) ^ 2 / Real.log 4 := by
    obtain ⟨_, _, _, bx, pre, k0, hh, hbx, hp, hk, hr⟩ := (step_ok _ _ _ _ _).mp h
    obtain ⟨_, _, hh', _⟩ := (rbf_ok _ _ _ _).mp hk
    have h2 := congrArg Prod.snd hr
    dsimp only at h2
    rw [h2]
    change hh = _
    cases hbx
    rw [hh', ← cloud3_bw ht]
    rfl
  obtain ⟨b, hb, hy⟩ := step_moves h 0
  cases hb
  rw [hy, hproj]
  obtain ⟨a1, a2, a3⟩ := step_stein h 0 0
  have a3 : info.precond = fun _ => 1 := by injection a3 with a3; exact a3.symm
  rw [hproj] at a1 a2
  have hset : (Finset.univ.filter fun j => Alive cutVG cut cutOpts (cloud3 t j)) = {0, 1} := by
    ext j
    rw [Finset.mem_filter, cut_alive]
    fin_cases j
    · simp [cloud3]
    · simp [cloud3]
    · simp [cloud3]; exact ht
  have h0 : Alive cutVG cut cutOpts (cloud3 t 0) := by
    rw [cut_alive]; simp [cloud3]
  rw [if_pos h0, hset] at a1
  rw [hset] at a2
  change cloud3 t 0 0 + cutOpts.stepSize * info.velocity 0 0 = _
  have hl := log4_bounds
  have ht' : (t - 1) ^ 2 ≠ 0 := by
    have : 0 < t - 1 := by linarith
    positivity
  rw [a1, a2, a3, Finset.sum_pair (by decide), Finset.card_pair (by decide), hh]
  simp only [cut_score, gradK_eq]
  have e : (-(1 : ℝ) / ((t - 1) ^ 2 / Real.log 4)) = -(Real.log 4 / (t - 1) ^ 2) := by
    field_simp
  simp [cloud3, gauss, cutOpts, e]
  field_simp

/-- **C61** The median bandwidth is computed from all particles, also those with a nonfinite
log-density: moving a dead particle changes where the alive ones go. -/
theorem dead_no_influence_false : ∃ (vg : ValGrad 1) (f : LogProb 1) (o : StepOpts)
    (x0 x0' y y' : Pts 3 1) (info info' : StepInfo 3 1),
    step vg f o x0 = .ok (y, info) ∧ step vg f o x0' = .ok (y', info') ∧
    (∀ j, x0 j = x0' j ∨ (¬ Alive vg f o (proj o x0 j) ∧ ¬ Alive vg f o (proj o x0' j))) ∧
    Alive vg f o (proj o x0 0) ∧ y 0 ≠ y' 0 := by
  obtain ⟨y, info, h, hy⟩ := cloud3_step (t := 10) (by norm_num)
  obtain ⟨y', info', h', hy'⟩ := cloud3_step (t := 100) (by norm_num)
  refine ⟨cutVG, cut, cutOpts, cloud3 10, cloud3 100, y, y', info, info', h, h', ?_, ?_, ?_⟩
  · intro j
    fin_cases j
    · left; funext c; simp [cloud3]
    · left; funext c; simp [cloud3]
    · right
      rw [cut_alive, cut_alive]
      simp [proj, normBox, cutOpts, project, cloud3]
      norm_num
  · rw [cut_alive]
    simp [proj, normBox, cutOpts, project, cloud3]
  · intro e
    have e := congrFun e 0
    rw [hy, hy', neg_inj] at e
    obtain ⟨l1, l2⟩ := log4_bounds
    have b1 := Real.add_one_le_exp (-(Real.log 4 / (10 - 1) ^ 2))
    have b2 : Real.exp (-(Real.log 4 / (100 - 1) ^ 2)) ≤ 1 := by
      rw [Real.exp_le_one_iff]; norm_num; positivity
    have c1 : Real.log 4 / (10 - 1) ^ 2 * (-(Real.log 4 / (10 - 1) ^ 2) + 1) ≤
        Real.log 4 / (10 - 1) ^ 2 * Real.exp (-(Real.log 4 / (10 - 1) ^ 2)) :=
      mul_le_mul_of_nonneg_left b1 (by positivity)
    have c2 : Real.log 4 / (100 - 1) ^ 2 * Real.exp (-(Real.log 4 / (100 - 1) ^ 2)) ≤
        Real.log 4 / (100 - 1) ^ 2 * 1 := mul_le_mul_of_nonneg_left b2 (by positivity)
    rw [e] at c1
    have := c1.trans c2
    norm_num at this
    nlinarith

end Verif.SVGD
