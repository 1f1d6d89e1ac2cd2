import Verif.Mcmc.MH
import Mathlib.MeasureTheory.Measure.Lebesgue.Basic
import Mathlib.MeasureTheory.Measure.Prod
import Mathlib.MeasureTheory.Measure.WithDensity
import Mathlib.MeasureTheory.Function.SpecialFunctions.Basic
import Mathlib.MeasureTheory.Integral.Lebesgue.Countable

/-!
# C45: the Metropolis-Hastings step
-/

set_option autoImplicit false

namespace Verif.MH

open Verif MeasureTheory
open scoped ENNReal

theorem uFloor_pos : 0 < uFloor := by unfold uFloor; positivity

/-- Unfolding of a step whose proposal and proposal densities do not raise. -/
theorem mhStep_cases {X : Type} (lt : X → Py Flt) (sym : Bool) (lq : X → X → Py Flt) (x y : X)
    (cached : Option Flt) (u : ℝ) (la : Flt)
    (h : logA sym lq x y (currentTarget lt x cached) (evalTarget lt y) = .ok la) :
    ((Flt.fin (Real.log (max u uFloor))).lt la →
      mhStep lt sym lq x cached (.ok y) u =
        .ok (y, true, evalTarget lt y, currentTarget lt x cached)) ∧
    (¬ (Flt.fin (Real.log (max u uFloor))).lt la →
      mhStep lt sym lq x cached (.ok y) u =
        .ok (x, false, currentTarget lt x cached, currentTarget lt x cached)) := by
  unfold mhStep
  simp only [bind, Except.bind, h, pure, Except.pure]
  exact ⟨fun h => by rw [if_pos h], fun h => by rw [if_neg h]⟩

/-- **C45** The decision for a symmetric proposal and finite log-targets. -/
theorem mhStep_accept_iff {X : Type} (lt : X → Py Flt) (lq : X → X → Py Flt) (x y : X) (a b u : ℝ)
    (hx : lt x = .ok (.fin a)) (hy : lt y = .ok (.fin b)) (cached : Option Flt)
    (hc : cached = none ∨ cached = some .nan ∨ cached = some (.fin a)) :
    mhStep lt true lq x cached (.ok y) u =
      .ok (if Real.log (max u uFloor) < b - a then (y, true, .fin b, .fin a)
        else (x, false, .fin a, .fin a)) := by
  have hcur : currentTarget lt x cached = .fin a := by
    rcases hc with rfl | rfl | rfl
    · simp [currentTarget, evalTarget, hx]
    · simp [currentTarget, evalTarget, hx]
    · rfl
  have hev : evalTarget lt y = .fin b := by simp [evalTarget, hy]
  have h := mhStep_cases lt true lq x y cached u (.fin (b - a))
    (by rw [hcur, hev]; simp [logA])
  rw [hcur, hev, Flt.fin_lt] at h
  split
  · rename_i hl; exact h.1 hl
  · rename_i hl; exact h.2 hl

/-- **C45** The decision for a proposal that is not symmetric: the log-ratio of the backward to
the forward proposal density is added; the proposal densities are evaluated at (proposed,
current) and (current, proposed). -/
theorem mhStep_accept_asym {X : Type} (lt : X → Py Flt) (lq : X → X → Py Flt) (x y : X)
    (a b f g u : ℝ) (hx : lt x = .ok (.fin a)) (hy : lt y = .ok (.fin b))
    (hf : lq x y = .ok (.fin f)) (hg : lq y x = .ok (.fin g)) (cached : Option Flt)
    (hc : cached = none ∨ cached = some .nan ∨ cached = some (.fin a)) :
    mhStep lt false lq x cached (.ok y) u =
      .ok (if Real.log (max u uFloor) < b - a + (g - f) then (y, true, .fin b, .fin a)
        else (x, false, .fin a, .fin a)) := by
  have hcur : currentTarget lt x cached = .fin a := by
    rcases hc with rfl | rfl | rfl
    · simp [currentTarget, evalTarget, hx]
    · simp [currentTarget, evalTarget, hx]
    · rfl
  have hev : evalTarget lt y = .fin b := by simp [evalTarget, hy]
  have h := mhStep_cases lt false lq x y cached u (.fin (b - a + (g - f)))
    (by rw [hcur, hev]; simp [logA, hf, hg, bind, Except.bind, pure, Except.pure])
  rw [hcur, hev, Flt.fin_lt] at h
  split
  · rename_i hl; exact h.1 hl
  · rename_i hl; exact h.2 hl

/-- A move from 0 to 1 that the target makes less likely and the proposal correction favours. -/
example : mhStep (fun n : ℕ => .ok (.fin (-n))) false
    (fun n m : ℕ => .ok (.fin (if n < m then -3 else 0))) 0 none (.ok 1) 1 =
      .ok (1, true, .fin (-1), .fin 0) := by
  have h := mhStep_accept_asym (fun n : ℕ => .ok (.fin (-n)))
    (fun n m : ℕ => .ok (.fin (if n < m then -3 else 0))) 0 1 0 (-1) (-3) 0 1 (by simp) (by simp)
    (by simp) (by simp) none (Or.inl rfl)
  rw [h]
  have hm : max (1 : ℝ) uFloor = 1 := max_eq_left (by unfold uFloor; exact pow_le_one₀ (by norm_num) (by norm_num))
  rw [hm, Real.log_one, if_pos (by norm_num)]

/-- A log acceptance ratio of `-inf` or NaN. -/
theorem not_lt_bad {l : ℝ} {la : Flt} (h : la = .num ⊥ ∨ la = .nan) : ¬ (Flt.fin l).lt la := by
  rcases h with rfl | rfl
  · intro h
    exact absurd (show (l : EReal) < ⊥ from h) not_lt_bot
  · simp

/-- **C45** A proposal whose log-target raises, is NaN or is `-inf` is never accepted,
with or without the proposal correction, whatever the cached value. -/
theorem mhStep_rejects_bad {X : Type} (lt : X → Py Flt) (sym : Bool) (lq : X → X → Py Flt) (x y : X)
    (cached : Option Flt) (u : ℝ)
    (hy : lt y = .ok .nan ∨ lt y = .ok (.num ⊥) ∨ ∃ e, lt y = .error e)
    (r : X × Bool × Flt × Flt) (hr : mhStep lt sym lq x cached (.ok y) u = .ok r) :
    r.1 = x ∧ r.2.1 = false := by
  have hev : evalTarget lt y = .nan ∨ evalTarget lt y = .num ⊥ := by
    rcases hy with h | h | ⟨e, h⟩ <;> simp [evalTarget, h]
  have hbad : ∀ lx, (evalTarget lt y).sub lx = .num ⊥ ∨ (evalTarget lt y).sub lx = .nan := by
    intro lx
    rcases hev with h | h
    · rw [h]; simp
    · rw [h]; exact Flt.bot_sub lx
  cases hla : logA sym lq x y (currentTarget lt x cached) (evalTarget lt y) with
  | error e =>
    unfold mhStep at hr
    simp only [bind, Except.bind, hla] at hr
    cases hr
  | ok la =>
    have hb : la = .num ⊥ ∨ la = .nan := by
      unfold logA at hla
      cases sym with
      | true => obtain rfl := Except.ok.inj hla; exact hbad _
      | false =>
        simp only [Bool.false_eq_true, if_false, bind, Except.bind, pure, Except.pure] at hla
        cases h1 : lq y x with
        | error e => rw [h1] at hla; cases hla
        | ok b =>
          cases h2 : lq x y with
          | error e => rw [h1, h2] at hla; cases hla
          | ok f =>
            rw [h1, h2] at hla
            obtain rfl := Except.ok.inj hla
            rcases hbad (currentTarget lt x cached) with h | h
            · rw [h]; exact Flt.bot_add _
            · rw [h]; simp
    rw [(mhStep_cases lt sym lq x y cached u la hla).2 (not_lt_bad hb)] at hr
    obtain rfl := Except.ok.inj hr
    exact ⟨rfl, rfl⟩

/-- **C45** A chain whose current log-target is NaN never moves again. -/
theorem mhStep_nan_stuck {X : Type} (lt : X → Py Flt) (sym : Bool) (lq : X → X → Py Flt) (x y : X)
    (u : ℝ) (hx : lt x = .ok .nan) (cached : Option Flt) (hc : cached = none ∨ cached = some .nan)
    (r : X × Bool × Flt × Flt) (hr : mhStep lt sym lq x cached (.ok y) u = .ok r) :
    r.1 = x ∧ r.2.1 = false ∧ r.2.2.1 = .nan := by
  have hcur : currentTarget lt x cached = .nan := by
    rcases hc with rfl | rfl <;> simp [currentTarget, evalTarget, hx]
  cases hla : logA sym lq x y (currentTarget lt x cached) (evalTarget lt y) with
  | error e =>
    unfold mhStep at hr
    simp only [bind, Except.bind, hla] at hr
    cases hr
  | ok la =>
    have hb : la = .nan := by
      rw [hcur] at hla
      unfold logA at hla
      cases sym with
      | true => exact (Except.ok.inj hla).symm.trans (by simp)
      | false =>
        simp only [Bool.false_eq_true, if_false, bind, Except.bind, pure, Except.pure] at hla
        cases h1 : lq y x with
        | error e => rw [h1] at hla; cases hla
        | ok b =>
          cases h2 : lq x y with
          | error e => rw [h1, h2] at hla; cases hla
          | ok f =>
            rw [h1, h2] at hla
            exact (Except.ok.inj hla).symm.trans (by simp)
    rw [(mhStep_cases lt sym lq x y cached u la hla).2 (not_lt_bad (Or.inr hb))] at hr
    obtain rfl := Except.ok.inj hr
    exact ⟨rfl, rfl, hcur⟩

/-! ## Acceptance probability -/

/-- The uniform draws that accept a move of log ratio `l`. -/
def acceptSet (l : ℝ) : Set ℝ := {u | u ∈ Set.Ico (0 : ℝ) 1 ∧ Real.log (max u uFloor) < l}

theorem acceptSet_eq (l : ℝ) :
    acceptSet l = if Real.log uFloor < l then Set.Ico 0 (min 1 (Real.exp l)) else ∅ := by
  have h0 : (0 : ℝ) < uFloor := uFloor_pos
  ext u
  have key : Real.log (max u uFloor) < l ↔ u < Real.exp l ∧ Real.log uFloor < l := by
    rw [Real.log_lt_iff_lt_exp (lt_max_of_lt_right h0), max_lt_iff, ← Real.log_lt_iff_lt_exp h0]
  unfold acceptSet
  simp only [Set.mem_setOf_eq, key]
  split
  · rename_i h
    simp only [Set.mem_Ico, lt_min_iff]
    tauto
  · rename_i h
    simp [h]

/-- **C45** The probability of accepting, over the uniform draw, is `min(1, exp l)`,
except that ratios not above `uFloor = 1e-300` are never accepted. -/
theorem acceptSet_volume (l : ℝ) :
    volume (acceptSet l) =
      if Real.log uFloor < l then ENNReal.ofReal (min 1 (Real.exp l)) else 0 := by
  rw [acceptSet_eq]
  split
  · rw [Real.volume_Ico, sub_zero]
  · simp

theorem acceptSet_measurable (l : ℝ) : MeasurableSet (acceptSet l) := by
  rw [acceptSet_eq]
  split
  · exact measurableSet_Ico
  · exact MeasurableSet.empty

/-! ## Reversibility

The target has density `p ≥ 0` and the proposal from `x` has density `q x > 0` with
respect to `mu`. -/

/-- `logTarget` is the logarithm of `p` (raising or `-inf` where `p` vanishes). -/
def TargetOf {X : Type} (lt : X → Py Flt) (p : X → ℝ) : Prop :=
  ∀ x, (0 < p x ∧ lt x = .ok (.fin (Real.log (p x)))) ∨
    (p x = 0 ∧ (lt x = .ok (.num ⊥) ∨ ∃ e, lt x = .error e))

/-- The proposal used: symmetric density, or its logarithm supplied. -/
def ProposalOf {X : Type} (sym : Bool) (lq : X → X → Py Flt) (q : X → X → ℝ) : Prop :=
  (∀ x y, 0 < q x y) ∧
  (sym = true → ∀ x y, q x y = q y x) ∧
  (sym = false → ∀ x y, lq x y = .ok (.fin (Real.log (q x y))))

/-- Probability, over a uniform draw, that a step from `x` with proposal `y` ends in `B`. -/
noncomputable def stepProb {X : Type} (lt : X → Py Flt) (sym : Bool) (lq : X → X → Py Flt)
    (x y : X) (B : Set X) : ℝ≥0∞ :=
  volume {u : ℝ | u ∈ Set.Ico (0 : ℝ) 1 ∧
    ∃ r, mhStep lt sym lq x none (.ok y) u = .ok r ∧ r.1 ∈ B}

/-- The transition probability from `x` to `B`. -/
noncomputable def transition {X : Type} [MeasurableSpace X] (mu : Measure X) (lt : X → Py Flt)
    (sym : Bool) (lq : X → X → Py Flt) (q : X → X → ℝ) (x : X) (B : Set X) : ℝ≥0∞ :=
  ∫⁻ y, ENNReal.ofReal (q x y) * stepProb lt sym lq x y B ∂mu

/-- Log of the acceptance ratio. -/
noncomputable def logRatio {X : Type} (p : X → ℝ) (q : X → X → ℝ) (x y : X) : ℝ :=
  Real.log (p y * q y x / (p x * q x y))

open Classical in
/-- The uniform draws that accept a proposal, from a point of positive density. -/
theorem mhStep_draws {X : Type} {lt : X → Py Flt} {sym : Bool} {lq : X → X → Py Flt} {p : X → ℝ}
    {q : X → X → ℝ} (hp : TargetOf lt p) (hq : ProposalOf sym lq q) {x : X} (hx : 0 < p x) (y : X) :
    ∃ S : Set ℝ, MeasurableSet S ∧ S ⊆ Set.Ico 0 1 ∧
      volume S = (if 0 < p y then volume (acceptSet (logRatio p q x y)) else 0) ∧
      ∀ u ∈ Set.Ico (0 : ℝ) 1, ∃ r, mhStep lt sym lq x none (.ok y) u = .ok r ∧
        r.1 = if u ∈ S then y else x := by
  have hltx : lt x = .ok (.fin (Real.log (p x))) := by
    rcases hp x with ⟨_, h⟩ | ⟨h, _⟩
    · exact h
    · rw [h] at hx; exact absurd hx (lt_irrefl _)
  have hcur : currentTarget lt x none = .fin (Real.log (p x)) := by
    simp [currentTarget, evalTarget, hltx]
  rcases hp y with ⟨hy, hlty⟩ | ⟨hy, hlty⟩
  · have hev : evalTarget lt y = .fin (Real.log (p y)) := by simp [evalTarget, hlty]
    have hla : logA sym lq x y (currentTarget lt x none) (evalTarget lt y) =
        .ok (.fin (logRatio p q x y)) := by
      have hqx := hq.1 x y
      have hqy := hq.1 y x
      rw [hcur, hev]
      unfold logRatio
      rw [Real.log_div (mul_pos hy hqy).ne' (mul_pos hx hqx).ne', Real.log_mul hy.ne' hqy.ne',
        Real.log_mul hx.ne' hqx.ne']
      cases hs : sym with
      | true =>
        have := hq.2.1 hs x y
        simp only [logA, if_true, Flt.sub_fin]
        rw [this]
        ring_nf
      | false =>
        have h1 := hq.2.2 hs x y
        have h2 := hq.2.2 hs y x
        simp only [logA, Bool.false_eq_true, if_false, h1, h2, bind, Except.bind, pure,
          Except.pure, Flt.sub_fin, Flt.add_fin]
        ring_nf
    refine ⟨acceptSet (logRatio p q x y), acceptSet_measurable _, fun u hu => hu.1,
      by rw [if_pos hy], ?_⟩
    intro u hu
    have h := mhStep_cases lt sym lq x y none u _ hla
    by_cases hl : Real.log (max u uFloor) < logRatio p q x y
    · exact ⟨_, h.1 ((Flt.fin_lt _ _).2 hl), by rw [if_pos ⟨hu, hl⟩]⟩
    · exact ⟨_, h.2 (fun h' => hl ((Flt.fin_lt _ _).1 h')), by
        rw [if_neg (fun h' => hl h'.2)]⟩
  · refine ⟨∅, MeasurableSet.empty, Set.empty_subset _, by simp [hy], ?_⟩
    intro u _
    have hbad : lt y = .ok .nan ∨ lt y = .ok (.num ⊥) ∨ ∃ e, lt y = .error e := by
      rcases hlty with h | h
      · exact Or.inr (Or.inl h)
      · exact Or.inr (Or.inr h)
    have hok : ∃ la, logA sym lq x y (currentTarget lt x none) (evalTarget lt y) = .ok la := by
      cases hs : sym with
      | true => exact ⟨_, rfl⟩
      | false =>
        have h1 := hq.2.2 hs x y
        have h2 := hq.2.2 hs y x
        simp only [logA, Bool.false_eq_true, if_false, h1, h2, bind, Except.bind, pure,
          Except.pure]
        exact ⟨_, rfl⟩
    obtain ⟨la, hla⟩ := hok
    have h := mhStep_cases lt sym lq x y none u la hla
    by_cases hl : (Flt.fin (Real.log (max u uFloor))).lt la
    · have h1 := mhStep_rejects_bad lt sym lq x y none u hbad _ (h.1 hl)
      exact ⟨_, h.1 hl, by simpa using h1.1⟩
    · exact ⟨_, h.2 hl, by simp⟩

open Classical in
theorem stepProb_eq {X : Type} {lt : X → Py Flt} {sym : Bool} {lq : X → X → Py Flt} {p : X → ℝ}
    {q : X → X → ℝ} (hp : TargetOf lt p) (hq : ProposalOf sym lq q) {x : X} (hx : 0 < p x) (y : X)
    (B : Set X) :
    ∃ a : ℝ≥0∞, a = (if 0 < p y then volume (acceptSet (logRatio p q x y)) else 0) ∧ a ≤ 1 ∧
      stepProb lt sym lq x y B =
        B.indicator (fun _ => a) y + B.indicator (fun _ => 1 - a) x := by
  obtain ⟨S, hSm, hS1, hSa, hstep⟩ := mhStep_draws hp hq hx y
  have hS1' : volume S ≤ 1 := by
    calc volume S ≤ volume (Set.Ico (0 : ℝ) 1) := measure_mono hS1
      _ = 1 := by simp
  refine ⟨volume S, hSa, hS1', ?_⟩
  have hset : {u : ℝ | u ∈ Set.Ico (0 : ℝ) 1 ∧
      ∃ r, mhStep lt sym lq x none (.ok y) u = .ok r ∧ r.1 ∈ B} =
      (if y ∈ B then S else ∅) ∪ (if x ∈ B then Set.Ico 0 1 \ S else ∅) := by
    ext u
    simp only [Set.mem_setOf_eq, Set.mem_union]
    constructor
    · rintro ⟨hu, r, hr, hB⟩
      obtain ⟨r', hr', he⟩ := hstep u hu
      rw [hr] at hr'
      obtain rfl := Except.ok.inj hr'
      rw [he] at hB
      by_cases huS : u ∈ S
      · rw [if_pos huS] at hB; left; rw [if_pos hB]; exact huS
      · rw [if_neg huS] at hB; right; rw [if_pos hB]; exact ⟨hu, huS⟩
    · rintro (h | h)
      · by_cases hy : y ∈ B
        · rw [if_pos hy] at h
          have hu := hS1 h
          obtain ⟨r, hr, he⟩ := hstep u hu
          exact ⟨hu, r, hr, by rw [he, if_pos h]; exact hy⟩
        · rw [if_neg hy] at h; exact absurd h (Set.notMem_empty _)
      · by_cases hx : x ∈ B
        · rw [if_pos hx] at h
          obtain ⟨r, hr, he⟩ := hstep u h.1
          exact ⟨h.1, r, hr, by rw [he, if_neg h.2]; exact hx⟩
        · rw [if_neg hx] at h; exact absurd h (Set.notMem_empty _)
  unfold stepProb
  rw [hset, measure_union]
  · congr 1
    · by_cases hy : y ∈ B <;> simp [hy]
    · by_cases hxB : x ∈ B
      · simp only [if_pos hxB, Set.indicator_of_mem hxB]
        rw [measure_diff hS1 hSm.nullMeasurableSet (ne_top_of_le_ne_top ENNReal.one_ne_top hS1')]
        simp
      · simp [hxB]
  · refine Set.disjoint_left.mpr fun u h1 h2 => ?_
    by_cases hy : y ∈ B
    · rw [if_pos hy] at h1
      by_cases hx : x ∈ B
      · rw [if_pos hx] at h2; exact h2.2 h1
      · rw [if_neg hx] at h2; exact h2
    · rw [if_neg hy] at h1; exact h1
  · by_cases hx : x ∈ B
    · rw [if_pos hx]; exact measurableSet_Ico.diff hSm
    · rw [if_neg hx]; exact MeasurableSet.empty

/-! The flow between two points. -/

section Flow

variable {X : Type} [MeasurableSpace X] {mu : Measure X} {lt : X → Py Flt} {sym : Bool}
  {lq : X → X → Py Flt} {p : X → ℝ} {q : X → X → ℝ}

open Classical in
/-- Acceptance probability of the move from `x` to `y`. -/
noncomputable def acc (p : X → ℝ) (q : X → X → ℝ) (x y : X) : ℝ≥0∞ :=
  if 0 < p y then volume (acceptSet (logRatio p q x y)) else 0

/-- Probability flow from `x` to `y`. -/
noncomputable def flow (p : X → ℝ) (q : X → X → ℝ) (x y : X) : ℝ≥0∞ :=
  ENNReal.ofReal (p x) * (ENNReal.ofReal (q x y) * acc p q x y)

/-- The flow of the textbook algorithm. -/
noncomputable def idealFlow (p : X → ℝ) (q : X → X → ℝ) (x y : X) : ℝ≥0∞ :=
  ENNReal.ofReal (min (p x * q x y) (p y * q y x))

omit [MeasurableSpace X] in
theorem idealFlow_symm (x y : X) : idealFlow p q x y = idealFlow p q y x := by
  unfold idealFlow; rw [min_comm]

omit [MeasurableSpace X] in
/-- Where the ratio is above the floor the flow is the textbook one; below, it is
zero and the textbook one is at most `uFloor * p x * q x y`. -/
theorem flow_cases (hp0 : ∀ x, 0 ≤ p x) (hq0 : ∀ x y, 0 < q x y) (x y : X) :
    (flow p q x y = idealFlow p q x y) ∨
    (0 < p x ∧ 0 < p y ∧ p y * q y x ≤ uFloor * (p x * q x y) ∧ flow p q x y = 0 ∧
      idealFlow p q x y ≤ ENNReal.ofReal uFloor * (ENNReal.ofReal (p x) * ENNReal.ofReal (q x y))) := by
  rcases (hp0 x).eq_or_lt with hx | hx
  · left
    simp [flow, idealFlow, ← hx, mul_nonneg (hp0 y) (hq0 y x).le]
  rcases (hp0 y).eq_or_lt with hy | hy
  · left
    simp [flow, idealFlow, acc, ← hy, mul_nonneg (hp0 x) (hq0 x y).le]
  have h1 := mul_pos hx (hq0 x y)
  have h2 := mul_pos hy (hq0 y x)
  have hr : 0 < p y * q y x / (p x * q x y) := div_pos h2 h1
  have hlt : Real.log uFloor < logRatio p q x y ↔ uFloor * (p x * q x y) < p y * q y x := by
    unfold logRatio
    rw [Real.log_lt_log_iff uFloor_pos hr, lt_div_iff₀ h1]
  by_cases h : Real.log uFloor < logRatio p q x y
  · left
    unfold flow idealFlow acc
    rw [if_pos hy, acceptSet_volume, if_pos h, logRatio, Real.exp_log hr,
      ← ENNReal.ofReal_mul (hq0 x y).le, ← ENNReal.ofReal_mul hx.le, ← mul_assoc,
      mul_min_of_nonneg _ _ h1.le, mul_one, mul_div_cancel₀ _ h1.ne']
  · right
    have h' := fun hh => h (hlt.2 hh)
    refine ⟨hx, hy, not_lt.mp h', ?_, ?_⟩
    · unfold flow acc
      rw [if_pos hy, acceptSet_volume, if_neg h, mul_zero, mul_zero]
    · unfold idealFlow
      rw [← ENNReal.ofReal_mul hx.le, ← ENNReal.ofReal_mul uFloor_pos.le]
      exact ENNReal.ofReal_le_ofReal ((min_le_right _ _).trans (not_lt.mp h'))

variable (hpm : Measurable p) (hqm : Measurable (Function.uncurry q))

include hpm hqm in
theorem logRatio_measurable : Measurable (Function.uncurry (logRatio p q)) := by
  have h1 : Measurable fun z : X × X => p z.1 := hpm.comp measurable_fst
  have h2 : Measurable fun z : X × X => p z.2 := hpm.comp measurable_snd
  have h3 : Measurable fun z : X × X => q z.1 z.2 := hqm
  have h4 : Measurable fun z : X × X => q z.2 z.1 := hqm.comp measurable_swap
  exact Real.measurable_log.comp ((h2.mul h4).div (h1.mul h3))

include hpm hqm in
theorem flow_measurable : Measurable (Function.uncurry (flow p q)) := by
  classical
  have h1 : Measurable fun z : X × X => ENNReal.ofReal (p z.1) :=
    ENNReal.measurable_ofReal.comp (hpm.comp measurable_fst)
  have h3 : Measurable fun z : X × X => ENNReal.ofReal (q z.1 z.2) :=
    ENNReal.measurable_ofReal.comp hqm
  have h2 : Measurable fun z : X × X => p z.2 := hpm.comp measurable_snd
  have hl := logRatio_measurable hpm hqm
  refine h1.mul (h3.mul ?_)
  have hv : Measurable fun l : ℝ => volume (acceptSet l) := by
    simp only [acceptSet_volume]
    refine Measurable.ite (measurableSet_lt measurable_const measurable_id) ?_ measurable_const
    exact ENNReal.measurable_ofReal.comp (measurable_const.min Real.measurable_exp)
  exact Measurable.ite (measurableSet_lt measurable_const h2) (hv.comp hl) measurable_const

include hpm hqm in
theorem idealFlow_measurable : Measurable (Function.uncurry (idealFlow p q)) := by
  have h1 : Measurable fun z : X × X => p z.1 := hpm.comp measurable_fst
  have h2 : Measurable fun z : X × X => p z.2 := hpm.comp measurable_snd
  have h3 : Measurable fun z : X × X => q z.1 z.2 := hqm
  have h4 : Measurable fun z : X × X => q z.2 z.1 := hqm.comp measurable_swap
  exact ENNReal.measurable_ofReal.comp ((h1.mul h3).min (h2.mul h4))

include hpm hqm in
/-- The mass moved from `A` to `B` in one step is the flow plus a symmetric part (the
rejected mass in `A ∩ B`). -/
theorem mass_split [SFinite mu] (hp : TargetOf lt p) (hq : ProposalOf sym lq q) :
    ∃ R : X → ℝ≥0∞, ∀ A B : Set X, MeasurableSet A → MeasurableSet B →
      ∫⁻ x in A, ENNReal.ofReal (p x) * transition mu lt sym lq q x B ∂mu =
        (∫⁻ x in A, ∫⁻ y in B, flow p q x y ∂mu ∂mu) + ∫⁻ x in A ∩ B, R x ∂mu := by
  refine ⟨fun x => ENNReal.ofReal (p x) * ∫⁻ y, ENNReal.ofReal (q x y) * (1 - acc p q x y) ∂mu, ?_⟩
  intro A B hA hB
  have hfm := flow_measurable hpm hqm
  have hpt : ∀ x, ENNReal.ofReal (p x) * transition mu lt sym lq q x B =
      (∫⁻ y in B, flow p q x y ∂mu) + B.indicator (fun x => ENNReal.ofReal (p x) *
        ∫⁻ y, ENNReal.ofReal (q x y) * (1 - acc p q x y) ∂mu) x := by
    intro x
    rcases hp x with ⟨hx, _⟩ | ⟨hx, _⟩
    · have hs : ∀ y, stepProb lt sym lq x y B = B.indicator (fun y => acc p q x y) y +
          B.indicator (fun _ => 1 - acc p q x y) x := by
        intro y
        obtain ⟨a, ha, _, h⟩ := stepProb_eq hp hq hx y B
        have haa : a = acc p q x y := ha
        subst haa
        rw [h]
        rfl
      have hxm : ENNReal.ofReal (p x) ≠ 0 := by simpa using hx
      have hfx : Measurable fun y => flow p q x y := hfm.comp measurable_prodMk_left
      have hfx' : Measurable fun y => ENNReal.ofReal (q x y) * acc p q x y := by
        have : (fun y => ENNReal.ofReal (q x y) * acc p q x y) =
            fun y => (ENNReal.ofReal (p x))⁻¹ * flow p q x y := by
          funext y
          unfold flow
          rw [← mul_assoc, ENNReal.inv_mul_cancel hxm ENNReal.ofReal_ne_top, one_mul]
        rw [this]
        exact measurable_const.mul hfx
      unfold transition
      simp only [hs, mul_add]
      rw [lintegral_add_left, mul_add]
      · congr 1
        · rw [← lintegral_indicator hB, ← lintegral_const_mul']
          · refine lintegral_congr fun y => ?_
            by_cases hy : y ∈ B
            · simp only [Set.indicator_of_mem hy]; rfl
            · simp only [Set.indicator_of_notMem hy, mul_zero]
          · exact ENNReal.ofReal_ne_top
        · by_cases hxB : x ∈ B
          · simp only [Set.indicator_of_mem hxB]
          · simp only [Set.indicator_of_notMem hxB, mul_zero, lintegral_zero]
      · have : (fun y => ENNReal.ofReal (q x y) * B.indicator (fun y => acc p q x y) y) =
            B.indicator fun y => ENNReal.ofReal (q x y) * acc p q x y := by
          funext y
          by_cases hy : y ∈ B
          · simp only [Set.indicator_of_mem hy]
          · simp only [Set.indicator_of_notMem hy, mul_zero]
        rw [this]
        exact hfx'.indicator hB
    · have h0 : ∀ y, flow p q x y = 0 := by
        intro y; simp [flow, hx]
      simp only [hx, ENNReal.ofReal_zero, zero_mul, h0, lintegral_zero, zero_add]
      by_cases hxB : x ∈ B
      · simp [Set.indicator_of_mem hxB, hx]
      · simp [Set.indicator_of_notMem hxB]
  simp only [hpt]
  rw [lintegral_add_left, setLIntegral_indicator hB, Set.inter_comm B A]
  exact hfm.lintegral_prod_right'

omit [MeasurableSpace X] in
theorem TargetOf.nonneg {lt : X → Py Flt} {p : X → ℝ} (h : TargetOf lt p) (x : X) : 0 ≤ p x := by
  rcases h x with ⟨h, _⟩ | ⟨h, _⟩
  · exact h.le
  · exact h.ge

include hpm hqm in
theorem ideal_swap [SFinite mu] (A B : Set X) :
    ∫⁻ x in A, ∫⁻ y in B, idealFlow p q x y ∂mu ∂mu =
      ∫⁻ x in B, ∫⁻ y in A, idealFlow p q x y ∂mu ∂mu := by
  rw [lintegral_lintegral_swap (idealFlow_measurable hpm hqm).aemeasurable]
  refine lintegral_congr fun x => lintegral_congr fun y => idealFlow_symm y x

include hpm hqm in
/-- **C45** Detailed balance, exact, when the acceptance ratios between points of
positive density stay above `1e-300`: the mass going from `A` to `B` in one step equals
the mass going from `B` to `A`. -/
theorem mh_reversible_partial [SFinite mu] (hp : TargetOf lt p) (hq : ProposalOf sym lq q)
    (hfloor : ∀ x y, 0 < p x → 0 < p y → uFloor * (p x * q x y) < p y * q y x)
    (A B : Set X) (hA : MeasurableSet A) (hB : MeasurableSet B) :
    ∫⁻ x in A, ENNReal.ofReal (p x) * transition mu lt sym lq q x B ∂mu =
      ∫⁻ x in B, ENNReal.ofReal (p x) * transition mu lt sym lq q x A ∂mu := by
  obtain ⟨R, hR⟩ := mass_split (mu := mu) hpm hqm hp hq
  have hf : flow p q = idealFlow p q := by
    funext x y
    rcases flow_cases hp.nonneg hq.1 x y with h | ⟨h1, h2, h3, _⟩
    · exact h
    · exact absurd (hfloor x y h1 h2) (not_lt.mpr h3)
  rw [hR A B hA hB, hR B A hB hA, hf, ideal_swap hpm hqm, Set.inter_comm]

include hpm hqm in
/-- **C45** For every target and proposal density, detailed balance holds within
`1e-300`. -/
theorem mh_nearly_reversible [SFinite mu] (hp : TargetOf lt p) (hq : ProposalOf sym lq q)
    (hp1 : ∫⁻ x, ENNReal.ofReal (p x) ∂mu = 1) (hq1 : ∀ x, ∫⁻ y, ENNReal.ofReal (q x y) ∂mu = 1)
    (A B : Set X) (hA : MeasurableSet A) (hB : MeasurableSet B) :
    ∫⁻ x in A, ENNReal.ofReal (p x) * transition mu lt sym lq q x B ∂mu ≤
      (∫⁻ x in B, ENNReal.ofReal (p x) * transition mu lt sym lq q x A ∂mu) +
        ENNReal.ofReal uFloor := by
  obtain ⟨R, hR⟩ := mass_split (mu := mu) hpm hqm hp hq
  rw [hR A B hA hB, hR B A hB hA, Set.inter_comm B A, add_right_comm]
  refine add_le_add ?_ le_rfl
  have hle : ∀ x y, flow p q x y ≤ idealFlow p q x y := by
    intro x y
    rcases flow_cases hp.nonneg hq.1 x y with h | ⟨_, _, _, h, _⟩
    · exact h.le
    · rw [h]; exact zero_le
  have hge : ∀ x y, idealFlow p q x y ≤ flow p q x y +
      ENNReal.ofReal uFloor * (ENNReal.ofReal (p x) * ENNReal.ofReal (q x y)) := by
    intro x y
    rcases flow_cases hp.nonneg hq.1 x y with h | ⟨_, _, _, h, h'⟩
    · rw [h]; exact le_self_add
    · rw [h, zero_add]; exact h'
  have hfm := flow_measurable hpm hqm
  calc ∫⁻ x in A, ∫⁻ y in B, flow p q x y ∂mu ∂mu
      ≤ ∫⁻ x in A, ∫⁻ y in B, idealFlow p q x y ∂mu ∂mu :=
        lintegral_mono fun x => lintegral_mono fun y => hle x y
    _ = ∫⁻ x in B, ∫⁻ y in A, idealFlow p q x y ∂mu ∂mu := ideal_swap hpm hqm A B
    _ ≤ ∫⁻ x in B, ((∫⁻ y in A, flow p q x y ∂mu) +
          ENNReal.ofReal uFloor * ENNReal.ofReal (p x)) ∂mu := by
        refine lintegral_mono fun x => ?_
        calc ∫⁻ y in A, idealFlow p q x y ∂mu
            ≤ ∫⁻ y in A, (flow p q x y +
                ENNReal.ofReal uFloor * (ENNReal.ofReal (p x) * ENNReal.ofReal (q x y))) ∂mu :=
              lintegral_mono fun y => hge x y
          _ = (∫⁻ y in A, flow p q x y ∂mu) + ∫⁻ y in A,
                ENNReal.ofReal uFloor * (ENNReal.ofReal (p x) * ENNReal.ofReal (q x y)) ∂mu :=
              lintegral_add_left (hfm.comp measurable_prodMk_left) _
          _ ≤ _ := by
              refine add_le_add le_rfl ?_
              rw [lintegral_const_mul' _ _ ENNReal.ofReal_ne_top,
                lintegral_const_mul' _ _ ENNReal.ofReal_ne_top]
              have : ∫⁻ y in A, ENNReal.ofReal (q x y) ∂mu ≤ 1 :=
                (setLIntegral_le_lintegral _ _).trans (hq1 x).le
              calc ENNReal.ofReal uFloor * (ENNReal.ofReal (p x) *
                    ∫⁻ y in A, ENNReal.ofReal (q x y) ∂mu)
                  ≤ ENNReal.ofReal uFloor * (ENNReal.ofReal (p x) * 1) := by gcongr
                _ = _ := by rw [mul_one]
    _ = (∫⁻ x in B, ∫⁻ y in A, flow p q x y ∂mu ∂mu) +
          ∫⁻ x in B, ENNReal.ofReal uFloor * ENNReal.ofReal (p x) ∂mu :=
        lintegral_add_left hfm.lintegral_prod_right' _
    _ ≤ _ := by
        refine add_le_add le_rfl ?_
        rw [lintegral_const_mul' _ _ ENNReal.ofReal_ne_top]
        have : ∫⁻ x in B, ENNReal.ofReal (p x) ∂mu ≤ 1 :=
          (setLIntegral_le_lintegral _ _).trans hp1.le
        calc _ ≤ ENNReal.ofReal uFloor * 1 := by gcongr
          _ = _ := mul_one _

include hpm hqm in
/-- **C45** Hence the target is invariant (same condition). -/
theorem mh_invariant_partial [SFinite mu] (hp : TargetOf lt p) (hq : ProposalOf sym lq q)
    (hq1 : ∀ x, ∫⁻ y, ENNReal.ofReal (q x y) ∂mu = 1)
    (hfloor : ∀ x y, 0 < p x → 0 < p y → uFloor * (p x * q x y) < p y * q y x)
    (B : Set X) (hB : MeasurableSet B) :
    ∫⁻ x, ENNReal.ofReal (p x) * transition mu lt sym lq q x B ∂mu =
      ∫⁻ x in B, ENNReal.ofReal (p x) ∂mu := by
  have h := mh_reversible_partial (mu := mu) hpm hqm hp hq hfloor Set.univ B MeasurableSet.univ hB
  rw [Measure.restrict_univ] at h
  rw [h]
  refine lintegral_congr fun x => ?_
  rcases hp x with ⟨hx, _⟩ | ⟨hx, _⟩
  · have : transition mu lt sym lq q x Set.univ = 1 := by
      unfold transition
      rw [← hq1 x]
      refine lintegral_congr fun y => ?_
      obtain ⟨a, _, ha, h⟩ := stepProb_eq hp hq hx y Set.univ
      rw [h, Set.indicator_univ, Set.indicator_univ, add_tsub_cancel_of_le ha, mul_one]
    rw [this, mul_one]
  · simp [hx]

end Flow

/-! ## The floor breaks exact detailed balance -/

/-- Log-target of the density `1, 10^-301` on two points. -/
noncomputable def twoTarget : Bool → Py Flt
  | true => .ok (.fin (Real.log 1))
  | false => .ok (.fin (Real.log (uFloor / 10)))

noncomputable def twoDensity : Bool → ℝ
  | true => 1
  | false => uFloor / 10

theorem two_target : TargetOf twoTarget twoDensity := by
  intro x
  left
  cases x with
  | true => exact ⟨one_pos, rfl⟩
  | false => exact ⟨div_pos uFloor_pos (by norm_num), rfl⟩

theorem two_proposal : ProposalOf true (fun _ _ : Bool => .error .valueError) fun _ _ => 1 / 2 :=
  ⟨fun _ _ => by norm_num, fun _ _ _ => rfl, fun h => by cases h⟩

/-- **C45** False without the condition on ratios: because the uniform draw is floored at
`1e-300`, a move of ratio `1e-301` is never made while the reverse move always is. -/
theorem detailed_balance_false :
    ENNReal.ofReal (twoDensity true) *
      stepProb twoTarget true (fun _ _ => .error .valueError) true false {false} = 0 ∧
    ENNReal.ofReal (twoDensity false) *
      stepProb twoTarget true (fun _ _ => .error .valueError) false true {true} =
        ENNReal.ofReal (uFloor / 10) ∧ 0 < ENNReal.ofReal (uFloor / 10) := by
  have hf : 0 < uFloor / 10 := div_pos uFloor_pos (by norm_num)
  have hle : uFloor ≤ 1 := by
    unfold uFloor
    exact pow_le_one₀ (by norm_num) (by norm_num)
  refine ⟨?_, ?_, by simpa using hf⟩
  · obtain ⟨a, ha, _, h⟩ := stepProb_eq two_target two_proposal (x := true) one_pos false {false}
    have : ¬ Real.log uFloor < logRatio twoDensity (fun _ _ => 1 / 2) true false := by
      unfold logRatio twoDensity
      have e : uFloor / 10 * (1 / 2 : ℝ) / (1 * (1 / 2)) = uFloor / 10 := by ring
      rw [e, not_lt]
      exact Real.log_le_log hf (by linarith [uFloor_pos])
    rw [acceptSet_volume, if_neg this, ite_self] at ha
    rw [h, ha]
    simp
  · obtain ⟨a, ha, _, h⟩ := stepProb_eq two_target two_proposal (x := false) hf true {true}
    have e : twoDensity true * (1 / 2 : ℝ) / (twoDensity false * (1 / 2)) = 10 / uFloor := by
      unfold twoDensity
      have := uFloor_pos.ne'
      field_simp
    have h1 : (1 : ℝ) ≤ 10 / uFloor := by rw [le_div_iff₀ uFloor_pos]; linarith
    have : Real.log uFloor < logRatio twoDensity (fun _ _ => 1 / 2) false true := by
      unfold logRatio
      rw [e]
      exact Real.log_lt_log uFloor_pos (by rw [lt_div_iff₀ uFloor_pos]; nlinarith [uFloor_pos])
    rw [acceptSet_volume, if_pos this, if_pos (show 0 < twoDensity true from one_pos)] at ha
    have h2 : ENNReal.ofReal (min 1 (Real.exp (logRatio twoDensity (fun _ _ => 1 / 2) false true))) = 1 := by
      unfold logRatio
      rw [e, Real.exp_log (by linarith), min_eq_left h1, ENNReal.ofReal_one]
    rw [h2] at ha
    rw [h, ha]
    simp [twoDensity]

/-! ## Concrete cases -/

/-- Two points of weights 1/3, 2/3, uniform proposals. -/
noncomputable def caseTarget : Bool → Py Flt := fun b =>
  .ok (.fin (Real.log (if b then 2 / 3 else 1 / 3)))

example (B : Set Bool) :
    ∫⁻ x, ENNReal.ofReal (if x then 2 / 3 else 1 / 3) * transition Measure.count caseTarget true
      (fun _ _ => .error .valueError) (fun _ _ => 1 / 2) x B ∂Measure.count =
      ∫⁻ x in B, ENNReal.ofReal (if x then 2 / 3 else 1 / 3) ∂Measure.count := by
  have hle : uFloor ≤ 1 / 10 := by
    unfold uFloor
    have : (10⁻¹ : ℝ) ^ 300 ≤ 10⁻¹ ^ 1 :=
      pow_le_pow_of_le_one (by norm_num) (by norm_num) (by norm_num)
    norm_num at this ⊢
    linarith
  have : SFinite (Measure.count : Measure Bool) := by
    have : IsFiniteMeasure (Measure.count : Measure Bool) := ⟨by simp⟩
    infer_instance
  refine mh_invariant_partial (mu := Measure.count) (p := fun x => if x then 2 / 3 else 1 / 3) (q := fun _ _ => 1 / 2)
    (measurable_of_countable _) (measurable_of_countable _) ?_ ?_ ?_ ?_ B (Set.toFinite B).measurableSet
  · intro x
    left
    refine ⟨by cases x <;> norm_num, rfl⟩
  · exact ⟨fun _ _ => by norm_num, fun _ _ _ => rfl, fun h => by cases h⟩
  · intro x
    rw [lintegral_count, tsum_bool, ← ENNReal.ofReal_add (by norm_num) (by norm_num)]
    norm_num
  · intro x y _ _
    cases x <;> cases y <;> norm_num <;> linarith [uFloor_pos]

/-- The two-point density above is only nearly balanced. -/
example : mhStep twoTarget true (fun _ _ => .error .valueError) true none (.ok false) 0 =
    .ok (true, false, .fin (Real.log 1), .fin (Real.log 1)) := by
  rw [mhStep_accept_iff twoTarget _ true false _ _ 0 rfl rfl none (Or.inl rfl), if_neg]
  rw [max_eq_right uFloor_pos.le, Real.log_one, sub_zero, not_lt]
  exact Real.log_le_log (div_pos uFloor_pos (by norm_num)) (by linarith [uFloor_pos])

end Verif.MH
