import Verif.Kernel.Priors
import Mathlib.Tactic.Linarith
import Mathlib.Tactic.Ring
import Mathlib.Tactic.NormNum
import Mathlib.Tactic.FieldSimp
import Mathlib.Analysis.SpecialFunctions.Gamma.Basic
import Mathlib.Topology.Order.Basic
import Mathlib.Topology.Algebra.Order.Field
import Mathlib.Analysis.Complex.ExponentialBounds

/-!
# C39, C40, C84–C88: priors, their defaults and helpers
-/

set_option autoImplicit false

namespace Verif.Kernel

open Verif Filter

/-! ## C39: power-law prior -/

/-- The prior as a function of the log variance alone. -/
theorem powerLaw_split (a : PowerLaw) {d : ℕ} (cov : Fin (d + 1) → ℝ) (s s' : ℝ) :
    logPriorPowerLaw a (Function.update cov 0 s') - logPriorPowerLaw a (Function.update cov 0 s) =
      -a.lambdaVar * (s' - s) + a.penalty * (max (s' - a.cutVar) 0 - max (s - a.cutVar) 0) := by
  have e : ∀ (t : ℝ) (j : Fin d), Function.update cov 0 t j.succ = cov j.succ := fun t j =>
    Function.update_of_ne (Fin.succ_ne_zero j) t cov
  simp only [logPriorPowerLaw, Function.update_self, e]
  ring

/-- **C39** is false: with the default arguments the prior *increases* (by 99 per
unit) beyond the variance cutoff, without bound. -/
theorem powerLaw_cutoff_false {d : ℕ} (cov : Fin (d + 1) → ℝ) :
    (∀ s s', 9.21 ≤ s → s < s' →
      logPriorPowerLaw .default (Function.update cov 0 s) <
        logPriorPowerLaw .default (Function.update cov 0 s')) ∧
    Tendsto (fun s => logPriorPowerLaw .default (Function.update cov 0 s)) atTop atTop := by
  have key : ∀ s s', 9.21 ≤ s → s ≤ s' →
      logPriorPowerLaw .default (Function.update cov 0 s') =
        logPriorPowerLaw .default (Function.update cov 0 s) + 99 * (s' - s) := by
    intro s s' h h'
    have := powerLaw_split .default cov s s'
    simp only [PowerLaw.default] at this ⊢
    rw [max_eq_left (by linarith), max_eq_left (by linarith)] at this
    linarith
  refine ⟨fun s s' h h' => ?_, ?_⟩
  · rw [key s s' h h'.le]
    linarith
  · have h1 : Tendsto (fun s : ℝ => logPriorPowerLaw .default (Function.update cov 0 (9.21 : ℝ)) +
        99 * (s - 9.21)) atTop atTop :=
      tendsto_atTop_add_const_left _ _ ((tendsto_atTop_add_const_right _ _ tendsto_id).const_mul_atTop
        (by norm_num))
    refine h1.congr' ?_
    filter_upwards [eventually_ge_atTop (9.21 : ℝ)] with s hs
    exact (key 9.21 s le_rfl hs).symm

/-- **C39** What does hold: the power law below the variance cutoff, and the
penalties on the length scales outside their cutoffs. -/
theorem powerLaw_partial (a : PowerLaw) {d : ℕ} (cov : Fin (d + 1) → ℝ) :
    (∀ s s', s' ≤ a.cutVar → s ≤ s' →
      logPriorPowerLaw a (Function.update cov 0 s') =
        logPriorPowerLaw a (Function.update cov 0 s) - a.lambdaVar * (s' - s)) ∧
    (∀ (j : Fin d) s s', a.cutHigh ≤ s → a.cutLow ≤ s → s ≤ s' →
      logPriorPowerLaw a (Function.update cov j.succ s') =
        logPriorPowerLaw a (Function.update cov j.succ s)
          - (a.lambdaLen + a.penalty) * (s' - s)) ∧
    (∀ (j : Fin d) s s', s' ≤ a.cutHigh → s' ≤ a.cutLow → s ≤ s' →
      logPriorPowerLaw a (Function.update cov j.succ s) =
        logPriorPowerLaw a (Function.update cov j.succ s')
          - (a.penalty - a.lambdaLen) * (s' - s)) ∧
    (∀ (j : Fin d) s s', a.cutLow ≤ s → s' ≤ a.cutHigh → s ≤ s' →
      logPriorPowerLaw a (Function.update cov j.succ s') =
        logPriorPowerLaw a (Function.update cov j.succ s) - a.lambdaLen * (s' - s)) := by
  have len : ∀ (j : Fin d) s s',
      logPriorPowerLaw a (Function.update cov j.succ s') -
        logPriorPowerLaw a (Function.update cov j.succ s) =
      -a.lambdaLen * (s' - s) - a.penalty * (max (a.cutLow - s') 0 - max (a.cutLow - s) 0)
        - a.penalty * (max (s' - a.cutHigh) 0 - max (s - a.cutHigh) 0) := by
    intro j s s'
    have e0 : ∀ t, Function.update cov j.succ t 0 = cov 0 := fun t =>
      Function.update_of_ne (Fin.succ_ne_zero j).symm t cov
    have e : ∀ (t : ℝ) (i : Fin d), Function.update cov j.succ t i.succ =
        Function.update (fun i : Fin d => cov i.succ) j t i := by
      intro t i
      by_cases h : i = j
      · subst h; simp
      · rw [Function.update_of_ne h, Function.update_of_ne (by simpa using h)]
    have sm : ∀ (f : ℝ → ℝ) (t : ℝ),
        ∑ i, f (Function.update (fun i : Fin d => cov i.succ) j t i) =
          f t + ∑ i ∈ Finset.univ.erase j, f (cov i.succ) := by
      intro f t
      rw [← Finset.add_sum_erase _ _ (Finset.mem_univ j), Function.update_self]
      congr 1
      refine Finset.sum_congr rfl fun i hi => ?_
      rw [Function.update_of_ne (Finset.ne_of_mem_erase hi)]
    simp only [logPriorPowerLaw, e0, e]
    rw [sm (fun x => x) s, sm (fun x => x) s', sm (fun x => a.penalty * max (a.cutLow - x) 0) s,
      sm (fun x => a.penalty * max (a.cutLow - x) 0) s',
      sm (fun x => a.penalty * max (x - a.cutHigh) 0) s,
      sm (fun x => a.penalty * max (x - a.cutHigh) 0) s']
    ring
  refine ⟨fun s s' h h' => ?_, fun j s s' h1 h2 h => ?_, fun j s s' h1 h2 h => ?_,
    fun j s s' h1 h2 h => ?_⟩
  · have := powerLaw_split a cov s s'
    rw [max_eq_right (by linarith), max_eq_right (by linarith)] at this
    linarith
  · have := len j s s'
    rw [max_eq_right (by linarith : a.cutLow - s' ≤ 0), max_eq_right (by linarith : a.cutLow - s ≤ 0),
      max_eq_left (by linarith), max_eq_left (by linarith)] at this
    linarith
  · have := len j s s'
    rw [max_eq_left (by linarith : 0 ≤ a.cutLow - s'), max_eq_left (by linarith : 0 ≤ a.cutLow - s),
      max_eq_right (by linarith), max_eq_right (by linarith)] at this
    linarith
  · have := len j s s'
    rw [max_eq_right (by linarith : a.cutLow - s' ≤ 0), max_eq_right (by linarith : a.cutLow - s ≤ 0),
      max_eq_right (by linarith), max_eq_right (by linarith)] at this
    linarith

/-- Concrete case: 8 < 9 both below the default cutoff. -/
example : ((9 : ℝ) ≤ PowerLaw.default.cutVar) ∧ ((8 : ℝ) ≤ 9) := by
  norm_num [PowerLaw.default]

/-- **C39** With the default arguments the prior is flat in the length scales and
`-log σ²` as long as all parameters are within the cutoffs. -/
theorem powerLaw_default {d : ℕ} (cov : Fin (d + 1) → ℝ) (h0 : cov 0 ≤ 9.21)
    (h : ∀ j : Fin d, -9.21 ≤ cov j.succ ∧ cov j.succ ≤ 9.21) :
    logPriorPowerLaw .default cov = -cov 0 := by
  have e1 : ∀ j : Fin d, max (-9.21 - cov j.succ) 0 = 0 := fun j =>
    max_eq_right (by linarith [(h j).1])
  have e2 : ∀ j : Fin d, max (cov j.succ - 9.21) 0 = 0 := fun j =>
    max_eq_right (by linarith [(h j).2])
  have e0 : max (cov 0 - 9.21) 0 = 0 := max_eq_right (by linarith)
  simp [logPriorPowerLaw, PowerLaw.default, e0, e1, e2]

/-! ## C40: barrier prior on the log range -/

/-- **C40** When `neglog_f_logrho` raises. -/
theorem neglogF_refuses {d : ℕ} (alpha : ℝ) (r m r0 : Fin d → ℝ) :
    ((0 < alpha ∧ ∀ j, m j < r0 j) →
      neglogF alpha r m r0 = .ok fun j => neglogF1 alpha (r j) (m j) (r0 j)) ∧
    (¬ (0 < alpha ∧ ∀ j, m j < r0 j) → neglogF alpha r m r0 = .error .valueError) := by
  constructor
  · rintro ⟨ha, h⟩
    rw [neglogF, if_neg (not_le.mpr ha), if_neg (by push Not; exact h)]
  · intro h
    unfold neglogF
    by_cases ha : alpha ≤ 0
    · rw [if_pos ha]
    · rw [if_neg ha, if_pos]
      by_contra hc
      push Not at hc ha
      exact h ⟨ha, hc⟩

/-- The penalty above the minimum. -/
theorem neglogF1_above {alpha r m r0 : ℝ} (h : m < r) :
    neglogF1 alpha r m r0 = .fin (alpha * ((r - m) - (r0 - m) * Real.log (r - m))) := by
  have h' : 0 < r - m := by linarith
  simp only [neglogF1, if_pos h']
  congr 1
  ring

/-- **C40** The penalty is `+inf` exactly at or below the minimum and finite above. -/
theorem neglogF1_inf_iff (alpha r m r0 : ℝ) :
    (neglogF1 alpha r m r0 = .num ⊤ ↔ r ≤ m) ∧
    (m < r → ∃ v, neglogF1 alpha r m r0 = .fin v) := by
  refine ⟨⟨fun h => ?_, fun h => ?_⟩, fun h => ⟨_, neglogF1_above h⟩⟩
  · by_contra hc
    rw [neglogF1_above (not_le.mp hc)] at h
    injection h with h
    exact EReal.coe_ne_top _ h
  · have h' : ¬ 0 < r - m := by linarith
    simp only [neglogF1, if_neg h']

/-- **C40** The reference value is the unique minimiser. -/
theorem neglogF1_min {alpha m r0 : ℝ} (ha : 0 < alpha) (h0 : m < r0) (r : ℝ) :
    Flt.le (neglogF1 alpha r0 m r0) (neglogF1 alpha r m r0) ∧
    (r ≠ r0 → Flt.lt (neglogF1 alpha r0 m r0) (neglogF1 alpha r m r0)) := by
  have strict : r ≠ r0 → Flt.lt (neglogF1 alpha r0 m r0) (neglogF1 alpha r m r0) := by
    intro hne
    rw [neglogF1_above h0]
    rcases le_or_gt r m with h | h
    · rw [((neglogF1_inf_iff alpha r m r0).1).2 h]
      exact EReal.coe_lt_top _
    · rw [neglogF1_above h, Flt.fin_lt]
      have ha' : 0 < r0 - m := by linarith
      have hx : 0 < r - m := by linarith
      refine mul_lt_mul_of_pos_left ?_ ha
      have hlog := Real.log_lt_sub_one_of_pos (x := (r - m) / (r0 - m)) (by positivity)
        (by rw [Ne, div_eq_one_iff_eq ha'.ne']; intro h; apply hne; linarith)
      rw [Real.log_div hx.ne' ha'.ne'] at hlog
      have := mul_lt_mul_of_pos_left hlog ha'
      have e : (r0 - m) * ((r - m) / (r0 - m) - 1) = (r - m) - (r0 - m) := by
        field_simp
      rw [e] at this
      linarith
  refine ⟨?_, strict⟩
  by_cases h : r = r0
  · subst h
    rw [neglogF1_above h0, Flt.fin_le]
  · have := strict h
    revert this
    rw [neglogF1_above h0]
    cases neglogF1 alpha r m r0 with
    | nan => simp
    | num x => exact fun h => le_of_lt h

/-- The penalty grows at least linearly: it is bounded below by its tangent at any
point above the minimum (convexity). -/
theorem neglogF1_convex {alpha m r0 : ℝ} (ha : 0 < alpha) (h0 : m < r0) {s : ℝ} (hs : m < s) (r : ℝ)
    (hr : m < r) :
    alpha * ((r - m) - (r0 - m) * Real.log (r - m)) ≥
      alpha * ((s - m) - (r0 - m) * Real.log (s - m)) +
        alpha * (1 - (r0 - m) / (s - m)) * (r - s) := by
  have hs' : 0 < s - m := by linarith
  have hr' : 0 < r - m := by linarith
  have ha' : 0 < r0 - m := by linarith
  have h := Real.log_le_sub_one_of_pos (x := (r - m) / (s - m)) (by positivity)
  rw [Real.log_div hr'.ne' hs'.ne'] at h
  have h2 := mul_le_mul_of_nonneg_left h ha'.le
  have e : (r0 - m) * ((r - m) / (s - m) - 1) = (r0 - m) / (s - m) * (r - s) := by
    field_simp
    ring
  rw [e] at h2
  have := mul_le_mul_of_nonneg_left h2 ha.le
  nlinarith [this]

/-- Concrete case: minimum 0, reference 1, slope 1. -/
example : neglogF (d := 1) 1 (fun _ => 3) (fun _ => 0) (fun _ => 1) =
    .ok fun _ => neglogF1 1 3 0 1 := (neglogF_refuses 1 _ _ _).1 ⟨by norm_num, by norm_num⟩

/-! ## C84: documented sign of the penalty -/

/-- **C84** is false: the penalty is negative at its minimiser as soon as the
reference is more than `e` above the minimum. -/
theorem neglogF1_nonneg_false : ¬ ∀ alpha r m r0 : ℝ, 0 < alpha → m < r0 →
    Flt.le (.fin 0) (neglogF1 alpha r m r0) := by
  intro h
  have := h 1 (Real.exp 2) 0 (Real.exp 2) one_pos (Real.exp_pos 2)
  rw [neglogF1_above (Real.exp_pos 2), Flt.fin_le, sub_zero, Real.log_exp] at this
  nlinarith [Real.exp_pos 2]

/-- **C84** Exactly when it holds. -/
theorem neglogF1_nonneg_partial {alpha m r0 : ℝ} (ha : 0 < alpha) (h0 : m < r0) :
    (∀ r, Flt.le (.fin 0) (neglogF1 alpha r m r0)) ↔ r0 - m ≤ Real.exp 1 := by
  have hpos : 0 < r0 - m := by linarith
  constructor
  · intro h
    have := h r0
    rw [neglogF1_above h0, Flt.fin_le] at this
    have h1 : 0 ≤ (r0 - m) * (1 - Real.log (r0 - m)) := by
      have := nonneg_of_mul_nonneg_right this ha
      linarith
    have h2 := nonneg_of_mul_nonneg_right h1 hpos
    have h3 : Real.log (r0 - m) ≤ 1 := by linarith
    calc r0 - m = Real.exp (Real.log (r0 - m)) := (Real.exp_log hpos).symm
      _ ≤ Real.exp 1 := Real.exp_le_exp.mpr h3
  · intro h r
    have hm := (neglogF1_min ha h0 r).1
    rw [neglogF1_above h0] at hm
    have h3 : Real.log (r0 - m) ≤ 1 := by
      calc Real.log (r0 - m) ≤ Real.log (Real.exp 1) := Real.log_le_log hpos h
        _ = 1 := Real.log_exp 1
    have h4 : 0 ≤ alpha * ((r0 - m) - (r0 - m) * Real.log (r0 - m)) := by
      have : (r0 - m) - (r0 - m) * Real.log (r0 - m) = (r0 - m) * (1 - Real.log (r0 - m)) := by ring
      rw [this]
      exact mul_nonneg ha.le (mul_nonneg hpos.le (by linarith))
    revert hm
    cases neglogF1 alpha r m r0 with
    | nan => simp
    | num x =>
      intro hm
      have : ((0 : ℝ) : EReal) ≤ x := le_trans (EReal.coe_le_coe_iff.mpr h4) hm
      exact this

/-! ## C85: stored defaults stay in their documented ranges -/

/-- The documented ranges. -/
def Defaults.Valid (s : Defaults) : Prop :=
  Flt.lt (.fin 1) s.gamma ∧ (Flt.lt (.fin 0) s.coverage ∧ s.coverage.lt (.fin 1)) ∧
    Flt.lt (.fin 0) s.alpha ∧ Flt.lt (.fin 0) s.factor

/-- State after a sequence of calls (exceptions caught by the caller). -/
noncomputable def runDefaults (s : Defaults) (ops : List SetArgs) : Defaults :=
  ops.foldl (fun s a => (setDefaults a s).2) s

/-- No keyword is NaN. -/
def SetArgs.NoNaN (a : SetArgs) : Prop :=
  a.gamma ≠ some .nan ∧ a.coverage ≠ some .nan ∧ a.alpha ≠ some .nan ∧ a.factor ≠ some .nan

theorem not_le_lt {x : Flt} (h : x ≠ .nan) (c : ℝ) (hx : ¬ x.le (.fin c)) : Flt.lt (.fin c) x := by
  cases x with
  | nan => exact absurd rfl h
  | num x => exact not_le.mp hx

/-- **C85** is false: NaN passes the tests `gamma <= 1` and `alpha <= 0`. -/
theorem defaults_range_false :
    (setDefaults { gamma := some .nan } .init).1 = .ok () ∧
    ¬ (setDefaults { gamma := some .nan } .init).2.Valid ∧
    (setDefaults { alpha := some .nan } .init).1 = .ok () ∧
    ¬ (setDefaults { alpha := some .nan } .init).2.Valid := by
  simp [setDefaults, setBlock, thenDo, Defaults.Valid]

theorem Defaults.init_valid : Defaults.init.Valid := by
  simp only [Defaults.Valid, Defaults.init, Flt.fin_lt]
  norm_num

open Classical in
theorem setDefaults_valid {a : SetArgs} (ha : a.NoNaN) {s : Defaults} (hs : s.Valid) :
    (setDefaults a s).2.Valid := by
  obtain ⟨g, c, al, f⟩ := a
  obtain ⟨hg, hc, hal, hf⟩ := ha
  -- each block preserves validity
  have b4 : ∀ s : Defaults, s.Valid → (setBlock (fun x => x.le (.fin 0))
      (fun x s => { s with factor := x }) f s).2.Valid := by
    intro s hs
    cases f with
    | none => exact hs
    | some x =>
      unfold setBlock
      by_cases hx : x.le (.fin 0)
      · simp only [if_pos hx]; exact hs
      · simp only [if_neg hx]
        exact ⟨hs.1, hs.2.1, hs.2.2.1, not_le_lt (fun h => hf (congrArg some h)) 0 hx⟩
  have b3 : ∀ s : Defaults, s.Valid → (setBlock (fun x => x.le (.fin 0))
      (fun x s => { s with alpha := x }) al s).2.Valid := by
    intro s hs
    cases al with
    | none => exact hs
    | some x =>
      unfold setBlock
      by_cases hx : x.le (.fin 0)
      · simp only [if_pos hx]; exact hs
      · simp only [if_neg hx]
        exact ⟨hs.1, hs.2.1, not_le_lt (fun h => hal (congrArg some h)) 0 hx, hs.2.2.2⟩
  have b2 : ∀ s : Defaults, s.Valid → (setBlock (fun x => ¬ (Flt.lt (.fin 0) x ∧ x.lt (.fin 1)))
      (fun x s => { s with coverage := x }) c s).2.Valid := by
    intro s hs
    cases c with
    | none => exact hs
    | some x =>
      unfold setBlock
      by_cases hx : ¬ (Flt.lt (.fin 0) x ∧ x.lt (.fin 1))
      · simp only [if_pos hx]; exact hs
      · simp only [if_neg hx]
        exact ⟨hs.1, not_not.mp hx, hs.2.2.1, hs.2.2.2⟩
  have b1 : ∀ s : Defaults, s.Valid → (setBlock (fun x => x.le (.fin 1))
      (fun x s => { s with gamma := x }) g s).2.Valid := by
    intro s hs
    cases g with
    | none => exact hs
    | some x =>
      unfold setBlock
      by_cases hx : x.le (.fin 1)
      · simp only [if_pos hx]; exact hs
      · simp only [if_neg hx]
        exact ⟨not_le_lt (fun h => hg (congrArg some h)) 1 hx, hs.2.1, hs.2.2.1, hs.2.2.2⟩
  have seq : ∀ (r : Py Unit × Defaults) (k : Defaults → Py Unit × Defaults), r.2.Valid →
      (∀ s, s.Valid → (k s).2.Valid) → (thenDo r k).2.Valid := by
    rintro ⟨o, s⟩ k h1 h2
    cases o with
    | error e => exact h1
    | ok u => exact h2 s h1
  unfold setDefaults
  exact seq _ _ (b1 s hs) fun s hs => seq _ _ (b2 s hs) fun s hs => seq _ _ (b3 s hs) b4

/-- **C85** With NaN excluded, the stored defaults stay in their ranges through any
sequence of calls, including failing ones. -/
theorem defaults_range_partial (ops : List SetArgs) (h : ∀ a ∈ ops, a.NoNaN) :
    (runDefaults .init ops).Valid := by
  have gen : ∀ (ops : List SetArgs) (s : Defaults), (∀ a ∈ ops, a.NoNaN) → s.Valid →
      (runDefaults s ops).Valid := by
    intro ops
    induction ops with
    | nil => intro s _ hs; exact hs
    | cons a ops ih =>
      intro s h hs
      exact ih _ (fun b hb => h b (List.mem_cons_of_mem _ hb))
        (setDefaults_valid (h a List.mem_cons_self) hs)
  exact gen ops _ h Defaults.init_valid

/-- Concrete case. -/
example : SetArgs.NoNaN { gamma := some (.fin 2), alpha := some (.fin (-1)) } := by
  refine ⟨?_, ?_, ?_, ?_⟩ <;> simp [Flt.fin]

/-! ## C86: a failing update leaves the defaults unchanged -/

/-- **C86** is false: an accepted `gamma` stays stored although the same call
raises because of `alpha`. -/
theorem defaults_atomic_false :
    (setDefaults { gamma := some (.fin 3), alpha := some (.fin (-1)) } .init).1 = .error .valueError ∧
    (setDefaults { gamma := some (.fin 3), alpha := some (.fin (-1)) } .init).2 ≠ .init := by
  have h1 : ¬ Flt.le (.fin 3) (.fin 1) := by rw [Flt.fin_le]; norm_num
  have h2 : Flt.le (.fin (-1)) (.fin 0) := by rw [Flt.fin_le]; norm_num
  have e : setDefaults { gamma := some (.fin 3), alpha := some (.fin (-1)) } .init =
      (.error .valueError, { Defaults.init with gamma := .fin 3 }) := by
    simp [setDefaults, setBlock, thenDo, h1, h2]
  rw [e]
  refine ⟨rfl, fun h => ?_⟩
  have := congrArg Defaults.gamma h
  simp only [Defaults.init, Flt.fin_inj] at this
  norm_num at this

/-- **C86** What holds: a call with a single keyword is atomic. -/
theorem defaults_atomic_partial (s : Defaults) (x : Flt) (e : PyErr) :
    ((setDefaults { gamma := some x } s).1 = .error e → (setDefaults { gamma := some x } s).2 = s) ∧
    ((setDefaults { coverage := some x } s).1 = .error e →
      (setDefaults { coverage := some x } s).2 = s) ∧
    ((setDefaults { alpha := some x } s).1 = .error e → (setDefaults { alpha := some x } s).2 = s) ∧
    ((setDefaults { factor := some x } s).1 = .error e →
      (setDefaults { factor := some x } s).2 = s) := by
  classical
  refine ⟨?_, ?_, ?_, ?_⟩ <;> simp only [setDefaults, setBlock, thenDo] <;> split_ifs <;> simp

end Verif.Kernel
