import Verif.Mcmc.PropsSMC
import Mathlib.Topology.UniformSpace.HeineCantor
import Mathlib.Topology.MetricSpace.Basic
import Mathlib.Topology.Order.Compact
import Mathlib.Analysis.SpecificLimits.Basic
import Mathlib.Analysis.SpecialFunctions.Log.Basic

/-!
# Properties of the SMC driver: restarts, tempering, subset simulation
-/

set_option autoImplicit false

namespace Verif.SMC

open Verif Verif.MH

variable {n d : ℕ}

/-! ## C102: choosing the next parameter -/

theorem bisect_between (p : ℝ → Py Flt) (p0 tol : ℝ) (k : ℕ) (low high t : ℝ)
    (h : bisect p p0 tol k low high = .ok (some t)) :
    (low < high → low < t ∧ t < high) ∧ (high < low → high < t ∧ t < low) ∧
      ∃ v, p t = .ok v ∧ (v.sub (.fin p0)).absLt tol := by
  classical
  induction k generalizing low high with
  | zero => cases h
  | succ k ih =>
    unfold bisect at h
    cases hv : p ((high + low) / 2) with
    | error e => rw [hv] at h; cases h
    | ok v =>
      rw [hv] at h
      dsimp only at h
      split at h
      · next hc =>
        obtain rfl := Option.some.inj (Except.ok.inj h)
        exact ⟨fun _ => ⟨by linarith, by linarith⟩, fun _ => ⟨by linarith, by linarith⟩, v, hv, hc⟩
      · split at h
        · obtain ⟨a, b, c⟩ := ih _ _ h
          refine ⟨fun hl => ?_, fun hl => ?_, c⟩
          · obtain ⟨a1, a2⟩ := a (by linarith); exact ⟨a1, by linarith⟩
          · obtain ⟨a1, a2⟩ := b (by linarith); exact ⟨by linarith, a2⟩
        · obtain ⟨a, b, c⟩ := ih _ _ h
          refine ⟨fun hl => ?_, fun hl => ?_, c⟩
          · obtain ⟨a1, a2⟩ := a (by linarith); exact ⟨by linarith, a2⟩
          · obtain ⟨a1, a2⟩ := b (by linarith); exact ⟨a1, by linarith⟩

/-- **C102** What `compute_next_logpdf_param_p0` returns: the target when its probability
reaches `p0`, and otherwise a parameter strictly between the current one and the target
whose probability is within 0.05 of `p0`. -/
theorem nextP0_spec (k : ℕ) (l : LogPdfP n d) (x : Fin n → Pt d) (cur target p0 t : ℝ)
    (h : nextP0 k l x cur target p0 = .ok (some t)) :
    (t = target ∧ ∃ v, pValue l x target cur = .ok v ∧ (Flt.fin p0).le v) ∨
      ((∃ v, pValue l x t cur = .ok v ∧ (v.sub (.fin p0)).absLt 0.05) ∧
        (cur < target → cur < t ∧ t < target) ∧ (target < cur → target < t ∧ t < cur)) := by
  classical
  obtain ⟨v, h1, h2⟩ := bind_ok h
  by_cases hv : (Flt.fin p0).le v
  · rw [if_pos hv] at h2
    obtain rfl := Option.some.inj (Except.ok.inj h2)
    exact Or.inl ⟨rfl, v, h1, hv⟩
  · rw [if_neg hv] at h2
    obtain ⟨a, b, c⟩ := bisect_between _ _ _ _ _ _ _ h2
    exact Or.inr ⟨c, a, b⟩

/-- The bisection ends once the interval is short. -/
theorem bisect_ends (f : ℝ → ℝ) (p0 tol δ : ℝ) (cur target : ℝ)
    (hδ : ∀ a ∈ Set.uIcc cur target, ∀ b ∈ Set.uIcc cur target, |a - b| < δ → |f a - f b| < tol)
    (k : ℕ) (low high : ℝ) (hl : low ∈ Set.uIcc cur target) (hh : high ∈ Set.uIcc cur target)
    (h1 : p0 ≤ f low) (h2 : f high < p0) (hk : |high - low| < δ * 2 ^ k) :
    ∃ t, bisect (fun t => .ok (.fin (f t))) p0 tol (k + 1) low high = .ok (some t) := by
  classical
  have hmid : (high + low) / 2 ∈ Set.uIcc cur target := by
    rw [Set.mem_uIcc] at *
    rcases hl with ⟨a, b⟩ | ⟨a, b⟩ <;> rcases hh with ⟨c, e⟩ | ⟨c, e⟩
    · left; constructor <;> linarith
    · left; constructor <;> linarith
    · right; constructor <;> linarith
    · right; constructor <;> linarith
  induction k generalizing low high with
  | zero =>
    refine ⟨(high + low) / 2, ?_⟩
    unfold bisect
    dsimp only
    rw [if_pos]
    rw [Flt.sub_fin, Flt.absLt_fin]
    rw [pow_zero, mul_one] at hk
    have a1 := hδ _ hmid _ hl (by
      rw [show (high + low) / 2 - low = (high - low) / 2 by ring, abs_div, abs_two]
      linarith [abs_nonneg (high - low)])
    have a2 := hδ _ hmid _ hh (by
      rw [show (high + low) / 2 - high = -((high - low) / 2) by ring, abs_neg, abs_div, abs_two]
      linarith [abs_nonneg (high - low)])
    rw [abs_lt] at *
    constructor <;> linarith
  | succ k ih =>
    by_cases hc : ((Flt.fin (f ((high + low) / 2))).sub (.fin p0)).absLt tol
    · exact ⟨(high + low) / 2, by unfold bisect; dsimp only; rw [if_pos hc]⟩
    · have hm : ∀ a ∈ Set.uIcc cur target, ∀ b ∈ Set.uIcc cur target,
          (a + b) / 2 ∈ Set.uIcc cur target := by
        intro a ha b hb
        rw [Set.mem_uIcc] at *
        rcases ha with ⟨a1, a2⟩ | ⟨a1, a2⟩ <;> rcases hb with ⟨c, e⟩ | ⟨c, e⟩
        · left; constructor <;> linarith
        · left; constructor <;> linarith
        · right; constructor <;> linarith
        · right; constructor <;> linarith
      by_cases hlt : f ((high + low) / 2) < p0
      · obtain ⟨t, ht⟩ := ih low ((high + low) / 2) hl hmid h1 hlt (by
          rw [show (high + low) / 2 - low = (high - low) / 2 by ring, abs_div, abs_two]
          rw [pow_succ] at hk; linarith) (hm _ hmid _ hl)
        refine ⟨t, ?_⟩
        rw [bisect]; dsimp only; rw [if_neg hc, if_pos (by rw [Flt.fin_lt]; exact hlt)]
        exact ht
      · obtain ⟨t, ht⟩ := ih ((high + low) / 2) high hmid hh (not_lt.mp hlt) h2 (by
          rw [show high - (high + low) / 2 = (high - low) / 2 by ring, abs_div, abs_two]
          rw [pow_succ] at hk; linarith) (hm _ hh _ hmid)
        refine ⟨t, ?_⟩
        rw [bisect]; dsimp only; rw [if_neg hc, if_neg (by rw [Flt.fin_lt]; exact hlt)]
        exact ht

/-- **C102** For a probability that is a continuous function of the parameter the search
ends. -/
theorem nextP0_ends_partial (l : LogPdfP n d) (x : Fin n → Pt d) (cur target p0 : ℝ) (f : ℝ → ℝ)
    (hf : ∀ t, pValue l x t cur = .ok (.fin (f t))) (hcont : ContinuousOn f (Set.uIcc cur target))
    (h0 : p0 ≤ f cur) :
    ∃ k t, nextP0 k l x cur target p0 = .ok (some t) := by
  classical
  by_cases ht : p0 ≤ f target
  · refine ⟨0, target, ?_⟩
    unfold nextP0
    rw [hf]
    change (if (Flt.fin p0).le (.fin (f target)) then _ else _) = _
    rw [if_pos (by rw [Flt.fin_le]; exact ht)]
    rfl
  · have huc : UniformContinuousOn f (Set.uIcc cur target) :=
      isCompact_uIcc.uniformContinuousOn_of_continuous hcont
    obtain ⟨δ, hδ0, hδ⟩ := Metric.uniformContinuousOn_iff.mp huc 0.05 (by norm_num)
    obtain ⟨k, hk⟩ := pow_unbounded_of_one_lt (|target - cur| / δ) (one_lt_two (α := ℝ))
    obtain ⟨t, h⟩ := bisect_ends f p0 0.05 δ cur target
      (fun a ha b hb hab => by
        have := hδ a ha b hb (by rw [Real.dist_eq]; exact hab)
        rwa [Real.dist_eq] at this)
      k cur target Set.left_mem_uIcc Set.right_mem_uIcc h0 (not_le.mp ht)
      (by rw [div_lt_iff₀ hδ0] at hk; linarith)
    refine ⟨k + 1, t, ?_⟩
    unfold nextP0
    rw [hf]
    change (if (Flt.fin p0).le (.fin (f target)) then _ else _) = _
    rw [if_neg (by rw [Flt.fin_le]; exact ht)]
    rw [show (fun t => pValue l x t cur) = fun t => .ok (.fin (f t)) from funext hf]
    exact h

/-- If no parameter has a probability within the tolerance of `p0`, the loop never ends. -/
theorem bisect_never (p : ℝ → Py Flt) (p0 tol : ℝ)
    (hp : ∀ t, ∃ v, p t = .ok v ∧ ¬ (v.sub (.fin p0)).absLt tol) (k : ℕ) (low high : ℝ) :
    bisect p p0 tol k low high = .ok none := by
  classical
  induction k generalizing low high with
  | zero => rfl
  | succ k ih =>
    obtain ⟨v, hv, hn⟩ := hp ((high + low) / 2)
    unfold bisect
    rw [hv]
    dsimp only
    rw [if_neg hn]
    split
    · exact ih _ _
    · exact ih _ _

/-- The probability of an indicator family at particles inside the current set. -/
theorem pValue_two (l : LogPdfP 2 d) (x : Fin 2 → Pt d) (t cur : ℝ) (a b : Fin 2 → Flt)
    (ha : l x t = .ok a) (hb : l x cur = .ok b) (r : Fin 2 → ℝ)
    (hr : ∀ i, ((a i).sub (b i)).exp = .fin (r i)) :
    pValue l x t cur = .ok (.fin ((r 0 + r 1) / 2)) := by
  unfold pValue
  rw [ha, hb]
  simp only [bind, Except.bind, pure, Except.pure, hr, Flt.sum_fin, Fin.sum_univ_two]
  rw [Flt.div_fin (by norm_num)]
  norm_num

/-- **C102** False for indicator log-densities, the use in subset simulation: with two
particles the probability only takes the values 0, 1/2 and 1, and for `p0 = 1/4` the loop
runs forever. -/
theorem nextP0_ends_false : ∃ (l : LogPdfP 2 1) (x : Fin 2 → Pt 1) (cur target p0 : ℝ),
    0 < p0 ∧ p0 < 1 ∧ pValue l x cur cur = .ok (.fin 1) ∧
      ∀ k, nextP0 k l x cur target p0 = .ok none := by
  classical
  -- log of the indicator of `t ≤ y`, at the particles 1 and 2, from level 0 to level 3
  let l : LogPdfP 2 1 := fun x t => .ok fun i => if t ≤ x i 0 then .fin 0 else .num ⊥
  let x : Fin 2 → Pt 1 := fun i _ => if i = 0 then 1 else 2
  have hx : ∀ i, (0 : ℝ) ≤ x i 0 := fun i => by
    simp only [x]; split <;> norm_num
  have hr : ∀ (t : ℝ) (i : Fin 2),
      ((if t ≤ x i 0 then Flt.fin 0 else .num ⊥).sub (if (0 : ℝ) ≤ x i 0 then Flt.fin 0 else .num ⊥)).exp
        = .fin (if t ≤ x i 0 then 1 else 0) := by
    intro t i
    rw [if_pos (hx i)]
    split
    · rw [Flt.sub_fin, Flt.exp_fin]; simp
    · rw [show (Flt.num ⊥).sub (.fin 0) = .num ⊥ by simp [Flt.sub, Flt.add, Flt.neg, Flt.fin], Flt.exp_bot]
  have hp : ∀ t, pValue l x t 0
      = .ok (.fin (((if t ≤ x 0 0 then 1 else 0) + (if t ≤ x 1 0 then 1 else 0)) / 2)) := fun t =>
    pValue_two l x t 0 _ _ rfl rfl _ (hr t)
  refine ⟨l, x, 0, 3, 1 / 4, by norm_num, by norm_num, ?_, fun k => ?_⟩
  · rw [hp 0, if_pos (hx 0), if_pos (hx 1)]; norm_num
  · have h3 : pValue l x 3 0 = .ok (.fin 0) := by
      rw [hp 3, if_neg (by simp only [x]; norm_num), if_neg (by simp only [x]; norm_num)]; norm_num
    unfold nextP0
    rw [h3]
    change (if (Flt.fin (1 / 4)).le (.fin 0) then _ else _) = _
    rw [if_neg (by rw [Flt.fin_le]; norm_num)]
    refine bisect_never _ _ _ (fun t => ⟨_, hp t, ?_⟩) _ _ _
    rw [Flt.sub_fin, Flt.absLt_fin]
    split <;> split <;> norm_num [abs_lt]

/-- **C102** The `ess` rule: with a root finder that stays inside its bracket the result
lies between the current parameter and the target. -/
theorem nextEss_between (brentq : (ℝ → Py Flt) → ℝ → ℝ → Py ℝ)
    (hb : ∀ f a b t, a ≤ b → brentq f a b = .ok t → a ≤ t ∧ t ≤ b) (l : LogPdfP n d) (p : Parts n d)
    (cur target eta0 t : ℝ) (h : nextEss brentq l p cur target eta0 = .ok t) :
    min target cur ≤ t ∧ t ≤ max target cur := by
  classical
  obtain ⟨ft, h1, h2⟩ := bind_ok h
  by_cases hf : (Flt.fin 0).lt ft
  · rw [if_pos hf] at h2
    obtain rfl := Except.ok.inj h2
    exact ⟨min_le_left _ _, le_max_left _ _⟩
  · rw [if_neg hf] at h2
    obtain ⟨fl, h3, h4⟩ := bind_ok h2
    obtain ⟨fh, h5, h6⟩ := bind_ok h4
    by_cases hs : (Flt.fin 0).lt (fl.mul fh)
    · rw [if_pos hs] at h6
      obtain rfl := Except.ok.inj h6
      exact ⟨min_le_left _ _, le_max_left _ _⟩
    · rw [if_neg hs] at h6
      exact hb _ _ _ _ min_le_max h6

/-! ## C53: restarts -/

theorem restartLoop_cached (brentq : (ℝ → Py Flt) → ℝ → ℝ → Py ℝ) (env : Env n d)
    (hm : MultContract env) (cfg : PConfig) (sc : SConfig) (hs : cfg.scheme = .multinomial)
    (l : LogPdfP n d) (ell : ℝ → Pt d → Flt) (hl : ∀ t, Rowwise (fun x => l x t) (ell t))
    (target thr : ℝ) (kb k : ℕ) (cur : ℝ) (p p' : Parts n d) (ts : List ℝ)
    (h : restartLoop brentq env cfg sc l target thr kb k cur p = .ok (some (p', ts))) :
    (cur = target → p' = p ∧ ts = []) ∧
      (cur ≠ target → ts.getLast? = some target ∧ Cached (ell target) p' ∧ p'.w = uniformW n ∧
        p'.wtmp = uniformW n) := by
  classical
  induction k generalizing cur p p' ts with
  | zero => cases h
  | succ k ih =>
    unfold restartLoop at h
    by_cases hc : cur = target
    · rw [if_pos hc] at h
      obtain ⟨rfl, rfl⟩ := Prod.mk.inj (Option.some.inj (Except.ok.inj h))
      exact ⟨fun _ => ⟨rfl, rfl⟩, fun h => absurd hc h⟩
    · rw [if_neg hc] at h
      refine ⟨fun h => absurd h hc, fun _ => ?_⟩
      cases hn : nextParam brentq sc kb l p cur target thr with
      | error e => rw [hn] at h; cases h
      | ok o =>
        rw [hn] at h
        cases o with
        | none => cases h
        | some t =>
          dsimp only at h
          cases hst : step env cfg sc l t p with
          | error e => rw [hst] at h; cases h
          | ok p1 =>
            rw [hst] at h
            dsimp only at h
            cases hr : restartLoop brentq env cfg sc l target thr kb k t p1 with
            | error e => rw [hr] at h; cases h
            | ok o =>
              rw [hr] at h
              cases o with
              | none => cases h
              | some r =>
                obtain ⟨p2, ts2⟩ := r
                obtain ⟨rfl, rfl⟩ := Prod.mk.inj (Option.some.inj (Except.ok.inj h))
                obtain ⟨a, b⟩ := ih _ _ _ _ hr
                by_cases ht : t = target
                · obtain ⟨rfl, rfl⟩ := a ht
                  obtain ⟨c1, c2, c3⟩ := step_cached env hm cfg sc hs l ell hl t p p2 hst
                  rw [ht] at c1
                  exact ⟨by simp [ht], c1, c2, c3⟩
                · obtain ⟨b1, b2⟩ := b ht
                  refine ⟨?_, b2⟩
                  rw [List.getLast?_cons, b1]; rfl

/-- **C53** `step_with_possible_restart`, when the restart begins at another parameter:
the particles end up under the target density, with its values cached. -/
theorem stepRestart_partial (brentq : (ℝ → Py Flt) → ℝ → ℝ → Py ℝ) (env : Env n d)
    (hm : MultContract env) (cfg : PConfig) (sc : SConfig) (hs : cfg.scheme = .multinomial)
    (l : LogPdfP n d) (ell : ℝ → Pt d → Flt) (hl : ∀ t, Rowwise (fun x => l x t) (ell t))
    (lo hi : Pt d) (initial target minEss p0 : ℝ) (hne : initial ≠ target) (k : ℕ)
    (p p' : Parts n d)
    (h : stepRestart brentq env cfg sc l lo hi initial target minEss p0 k p = .ok (some p')) :
    Cached (ell target) p' ∧ p'.w = uniformW n ∧ p'.wtmp = uniformW n := by
  classical
  obtain ⟨q, h1, h2⟩ := bind_ok h
  by_cases hc : ((ess q.wtmp).div (.fin n)).lt (.fin minEss)
  · rw [if_pos hc] at h2
    obtain ⟨r, h3, h4⟩ := bind_ok h2
    cases r with
    | none => cases Except.ok.inj h4
    | some r =>
      obtain ⟨p1, ts⟩ := r
      obtain rfl := Option.some.inj (Except.ok.inj h4)
      obtain ⟨q1, h5, h6⟩ := bind_ok h3
      obtain ⟨q2, h7, h8⟩ := bind_ok h6
      obtain ⟨_, b⟩ := (restartLoop_cached brentq env hm cfg sc hs l ell hl target _ k k initial q2
        p1 ts h8).2 hne
      exact b
  · rw [if_neg hc] at h2
    obtain ⟨r, h3, h4⟩ := bind_ok h2
    obtain rfl := Option.some.inj (Except.ok.inj h4)
    exact step_cached env hm cfg sc hs l ell hl target q r h3

/-- **C53** When the restart begins at the target itself, the particles returned are the
fresh uniform draws: never reweighted, resampled or moved, with the value 0 cached. -/
theorem stepRestart_same (brentq : (ℝ → Py Flt) → ℝ → ℝ → Py ℝ) (env : Env n d)
    (cfg : PConfig) (sc : SConfig) (l : LogPdfP n d) (lo hi : Pt d) (target minEss p0 : ℝ) (k : ℕ)
    (p q p' : Parts n d) (hq : reweight false (setLogpdfParam l target p) = .ok q)
    (hlow : ((ess q.wtmp).div (.fin n)).lt (.fin minEss))
    (h : stepRestart brentq env cfg sc l lo hi target target minEss p0 k p = .ok (some p')) :
    (∀ i j, p'.x i j = lo j + env.init p.clock i j * (hi j - lo j)) ∧ ∀ i, p'.logpx i = .fin 0 := by
  classical
  unfold stepRestart at h
  rw [hq] at h
  change (if ((ess q.wtmp).div (.fin n)).lt (.fin minEss) then _ else _) = _ at h
  rw [if_pos hlow] at h
  obtain ⟨r, h3, h4⟩ := bind_ok h
  cases r with
  | none => cases Except.ok.inj h4
  | some r =>
    obtain ⟨p1, ts⟩ := r
    obtain rfl := Option.some.inj (Except.ok.inj h4)
    obtain ⟨q1, h5, h6⟩ := bind_ok h3
    obtain ⟨q2, h7, h8⟩ := bind_ok h6
    cases k with
    | zero => cases h8
    | succ k =>
      unfold restartLoop at h8
      rw [if_pos rfl] at h8
      obtain ⟨rfl, -⟩ := Prod.mk.inj (Option.some.inj (Except.ok.inj h8))
      obtain ⟨e1, e2, -⟩ := reweight_false h7
      obtain ⟨_, _, _, _, _, e3⟩ := reweight_false hq
      unfold particlesInit at h5
      cases hrand : cfg.randunif with
      | false => rw [hrand] at h5; cases h5
      | true =>
        rw [hrand] at h5
        obtain ⟨x, h9, h10⟩ := bind_ok (show (scaleBox (env.init q.clock) lo hi >>= fun x => _) = _ from h5)
        obtain rfl := Except.ok.inj h10
        unfold scaleBox at h9
        split at h9
        · obtain rfl := Except.ok.inj h9
          rw [e1, e2]
          refine ⟨fun i j => ?_, fun i => rfl⟩
          simp only [setLogpdfParam, setLogpdf] at e3 ⊢
          rw [e3]
        · cases h9

/-- Uniform weights 1/2, cached values 0, at the points 0 and 1. -/
noncomputable def twoParts : Parts 2 1 :=
  { x := fun i _ => if i = 0 then 0 else 1
    logpx := fun _ => .fin 0
    w := uniformW 2
    wtmp := uniformW 2
    s := 1 / 2
    logpdf := fun _ => .error .typeError
    clock := 0 }

/-- A quiet environment. -/
noncomputable def quietEnv (n d : ℕ) (u : ℝ) : Env n d :=
  { init := fun _ _ _ => u
    mult := fun _ N _ => .ok fun i => if (i : ℕ) = 0 then N else 0
    rvs := fun _ _ => .ok fun _ => 0
    unif := fun _ i => if (i : ℕ) = 0 then 1 / 2 else 1
    cov := fun _ _ => .ok 1
    junkX := fun _ _ _ => 0
    junkL := fun _ _ => .nan }

theorem quietEnv_mult (n d : ℕ) (hn : 0 < n) (u : ℝ) : MultContract (quietEnv n d u) := by
  intro k N q c h
  obtain rfl := Except.ok.inj h
  rw [Finset.sum_eq_single (⟨0, hn⟩ : Fin n)]
  · simp
  · intro b _ hb
    rw [if_neg]
    intro h
    exact hb (Fin.ext h)
  · simp

/-- **C53** False when the restart begins at the target: here the density is zero at every
returned particle although the value 0 is cached. -/
theorem stepRestart_false : ∃ (env : Env 2 1) (l : LogPdfP 2 1) (ell : ℝ → Pt 1 → Flt)
    (lo hi : Pt 1) (p p' : Parts 2 1) (brentq : (ℝ → Py Flt) → ℝ → ℝ → Py ℝ),
    MultContract env ∧ (∀ t, Rowwise (fun x => l x t) (ell t)) ∧ (∀ i, p.logpx i = .fin 0) ∧
      p.w = uniformW 2 ∧
      stepRestart brentq env {} {} l lo hi 1 1 (9 / 10) (1 / 2) 1 p = .ok (some p') ∧
      ∀ i, ell 1 (p'.x i) = .num ⊥ ∧ p'.logpx i = .fin 0 := by
  classical
  let ell : ℝ → Pt 1 → Flt := fun _ y => if y 0 = 0 then .fin 0 else .num ⊥
  let l : LogPdfP 2 1 := fun x t => .ok fun i => ell t (x i)
  let lo : Pt 1 := fun _ => 0
  let hi : Pt 1 := fun _ => 1
  let env := quietEnv 2 1 (1 / 2)
  let br : (ℝ → Py Flt) → ℝ → ℝ → Py ℝ := fun _ _ _ => .error .valueError
  let q : Parts 2 1 := { setLogpdfParam l 1 twoParts with
    wtmp := fun i => .fin (if i = 0 then 1 / 2 else 0) }
  have hq : reweight false (setLogpdfParam l 1 twoParts) = .ok q := by
    have : (fun i => (twoParts.w i).mul ((ell 1 (twoParts.x i)).sub (twoParts.logpx i)).exp)
        = fun i => .fin (if i = 0 then 1 / 2 else 0) := by
      funext i
      fin_cases i
      · simp only [twoParts, uniformW, ell]
        norm_num [Flt.sub_fin, Flt.exp_fin, Flt.mul_fin]
      · simp only [twoParts, uniformW, ell]
        rw [if_neg (by norm_num), show (Flt.num ⊥).sub (.fin 0) = .num ⊥ by
          simp [Flt.sub, Flt.add, Flt.neg, Flt.fin], Flt.exp_bot, Flt.mul_fin]
        norm_num
    unfold reweight
    change Except.ok _ = _
    congr 1
    simp only [q]
    rw [← this]
    rfl
  have hess : ess q.wtmp = .fin 1 := by
    rw [ess_fin _ (by rw [Fin.sum_univ_two]; norm_num)]
    rw [Fin.sum_univ_two, Fin.sum_univ_two]
    norm_num
  have hlow : ((ess q.wtmp).div (.fin (2 : ℕ))).lt (.fin (9 / 10)) := by
    rw [hess, Flt.div_fin (by norm_num), Flt.fin_lt]; norm_num
  have hrun : ∃ p', stepRestart br env {} {} l lo hi 1 1 (9 / 10) (1 / 2) 1 twoParts
      = .ok (some p') := by
    unfold stepRestart
    rw [hq]
    change ∃ p', (if ((ess q.wtmp).div (.fin (2 : ℕ))).lt (.fin (9 / 10)) then _ else _) = _
    rw [if_pos hlow]
    unfold restart particlesInit scaleBox
    rw [if_pos (show ∀ j, lo j < hi j from fun _ => zero_lt_one)]
    simp only [bind, Except.bind, pure, Except.pure, Bool.not_true, Bool.false_eq_true, if_false]
    unfold reweight restartLoop
    simp only [setLogpdfParam, setLogpdf, l, bind, Except.bind, pure, Except.pure, if_true,
      Bool.false_eq_true, if_false, Option.map]
    exact ⟨_, rfl⟩
  obtain ⟨p', hp'⟩ := hrun
  obtain ⟨hx, hlp⟩ := stepRestart_same br env {} {} l lo hi 1 _ _ 1 twoParts q p' hq hlow hp'
  refine ⟨env, l, ell, lo, hi, twoParts, p', br, quietEnv_mult 2 1 (by norm_num) _, ?_, fun _ => rfl,
    rfl, hp', fun i => ⟨?_, hlp i⟩⟩
  · intro t x v h i
    obtain rfl := Except.ok.inj h
    rfl
  · simp only [ell]
    rw [if_neg]
    rw [hx i 0]
    simp only [lo, hi, env, quietEnv]
    norm_num

/-- The parameters of the stages go strictly from the start to the target, with the `p0`
rule. -/
theorem restart_monotone (brentq : (ℝ → Py Flt) → ℝ → ℝ → Py ℝ) (env : Env n d) (cfg : PConfig)
    (sc : SConfig) (hsc : sc.useEss = false) (l : LogPdfP n d) (target thr : ℝ) (kb k : ℕ)
    (cur : ℝ) (p p' : Parts n d) (ts : List ℝ)
    (h : restartLoop brentq env cfg sc l target thr kb k cur p = .ok (some (p', ts))) :
    (cur ≤ target → (cur :: ts).IsChain (· < ·)) ∧ (target ≤ cur → (cur :: ts).IsChain (· > ·)) := by
  classical
  induction k generalizing cur p p' ts with
  | zero => cases h
  | succ k ih =>
    unfold restartLoop at h
    by_cases hc : cur = target
    · rw [if_pos hc] at h
      obtain ⟨rfl, rfl⟩ := Prod.mk.inj (Option.some.inj (Except.ok.inj h))
      exact ⟨fun _ => List.isChain_singleton _, fun _ => List.isChain_singleton _⟩
    · rw [if_neg hc] at h
      cases hn : nextParam brentq sc kb l p cur target thr with
      | error e => rw [hn] at h; cases h
      | ok o =>
        rw [hn] at h
        cases o with
        | none => cases h
        | some t =>
          dsimp only at h
          cases hst : step env cfg sc l t p with
          | error e => rw [hst] at h; cases h
          | ok p1 =>
            rw [hst] at h
            dsimp only at h
            cases hr : restartLoop brentq env cfg sc l target thr kb k t p1 with
            | error e => rw [hr] at h; cases h
            | ok o =>
              rw [hr] at h
              cases o with
              | none => cases h
              | some r =>
                obtain ⟨p2, ts2⟩ := r
                obtain ⟨rfl, rfl⟩ := Prod.mk.inj (Option.some.inj (Except.ok.inj h))
                obtain ⟨a, b⟩ := ih _ _ _ _ hr
                unfold nextParam at hn
                rw [hsc] at hn
                have hsp := nextP0_spec kb l p.x cur target thr t hn
                constructor
                · intro hle
                  have hlt : cur < target := lt_of_le_of_ne hle hc
                  have : cur < t ∧ t ≤ target := by
                    rcases hsp with ⟨rfl, _⟩ | ⟨_, e, _⟩
                    · exact ⟨hlt, le_refl _⟩
                    · exact ⟨(e hlt).1, (e hlt).2.le⟩
                  exact List.isChain_cons_cons.mpr ⟨this.1, a this.2⟩
                · intro hle
                  have hlt : target < cur := lt_of_le_of_ne hle (Ne.symm hc)
                  have : t < cur ∧ target ≤ t := by
                    rcases hsp with ⟨rfl, _⟩ | ⟨_, _, e⟩
                    · exact ⟨hlt, le_refl _⟩
                    · exact ⟨(e hlt).2, (e hlt).1.le⟩
                  exact List.isChain_cons_cons.mpr ⟨this.1, b this.2⟩

/-! ## C103: reweighting in two stages -/

/-- Log-density given pointwise. -/
def pointwise (ell : Pt d → Flt) : LogPdf n d := fun x => .ok fun i => ell (x i)

/-- **C103** With finite log-densities, reweighting to one density and then to another
gives the weights and cached values of reweighting to the second directly. -/
theorem reweight_telescope (l1 l2 : Pt d → ℝ) (p : Parts n d) (w lp : Fin n → ℝ)
    (hw : p.w = fun i => .fin (w i)) (hlp : p.logpx = fun i => .fin (lp i)) :
    ∃ a b c, reweight true (setLogpdf (pointwise fun y => .fin (l1 y)) p) = .ok a ∧
      reweight true (setLogpdf (pointwise fun y => .fin (l2 y)) a) = .ok b ∧
      reweight true (setLogpdf (pointwise fun y => .fin (l2 y)) p) = .ok c ∧
      b.w = c.w ∧ b.wtmp = c.wtmp ∧ b.logpx = c.logpx ∧ b.x = p.x ∧
      ∀ i, b.w i = .fin (w i * Real.exp (l2 (p.x i) - lp i)) := by
  have key : ∀ i, ((Flt.fin (w i)).mul ((Flt.fin (l1 (p.x i))).sub (.fin (lp i))).exp).mul
      ((Flt.fin (l2 (p.x i))).sub (.fin (l1 (p.x i)))).exp
      = .fin (w i * Real.exp (l2 (p.x i) - lp i)) := by
    intro i
    rw [Flt.sub_fin, Flt.exp_fin, Flt.mul_fin, Flt.sub_fin, Flt.exp_fin, Flt.mul_fin, mul_assoc,
      ← Real.exp_add]
    congr 3
    ring
  have key2 : ∀ i, (Flt.fin (w i)).mul ((Flt.fin (l2 (p.x i))).sub (.fin (lp i))).exp
      = .fin (w i * Real.exp (l2 (p.x i) - lp i)) := by
    intro i
    rw [Flt.sub_fin, Flt.exp_fin, Flt.mul_fin]
  refine ⟨_, _, _, rfl, rfl, rfl, ?_, ?_, rfl, rfl, ?_⟩
  · funext i; simp only [setLogpdf, hw, hlp, key, key2]
  · funext i; simp only [setLogpdf, hw, hlp, key, key2]
  · intro i; simp only [setLogpdf, hw, hlp, key]

/-- **C103** False with zero densities: a particle outside the first support gets a NaN
weight in the second stage, while the direct weight is 1. -/
theorem reweight_telescope_false : ∃ (l1 l2 : Pt 1 → Flt) (p a b c : Parts 1 1),
    p.w = (fun _ => .fin 1) ∧ p.logpx = (fun _ => .fin 0) ∧ (∀ y, l2 y = .fin 0) ∧
      reweight true (setLogpdf (pointwise l1) p) = .ok a ∧
      reweight true (setLogpdf (pointwise l2) a) = .ok b ∧
      reweight true (setLogpdf (pointwise l2) p) = .ok c ∧
      a.w 0 = .fin 0 ∧ b.w 0 = .nan ∧ c.w 0 = .fin 1 := by
  let p : Parts 1 1 :=
    { x := fun _ _ => 0, logpx := fun _ => .fin 0, w := fun _ => .fin 1, wtmp := fun _ => .fin 1,
      s := 1, logpdf := fun _ => .error .typeError, clock := 0 }
  refine ⟨fun _ => .num ⊥, fun _ => .fin 0, p, _, _, _, rfl, rfl, fun _ => rfl, rfl, rfl, rfl,
    ?_, ?_, ?_⟩
  · simp only [setLogpdf, p]
    rw [show (Flt.num ⊥).sub (.fin 0) = .num ⊥ by simp [Flt.sub, Flt.add, Flt.neg, Flt.fin],
      Flt.exp_bot, Flt.mul_fin]
    norm_num
  · simp only [setLogpdf, p]
    rw [show (Flt.num ⊥).sub (.fin 0) = .num ⊥ by simp [Flt.sub, Flt.add, Flt.neg, Flt.fin],
      Flt.exp_bot, Flt.mul_fin]
    simp [Flt.sub, Flt.add, Flt.neg, Flt.fin, Flt.exp, Flt.mul]
  · simp only [setLogpdf, p]
    rw [Flt.sub_fin, Flt.exp_fin, Flt.mul_fin]
    norm_num

/-! ## C104, C105, C107: moves -/

/-- The step-size rule: shrink after a low acceptance rate, grow after a high one. -/
noncomputable def adjust (sc : SConfig) (s r : ℝ) : ℝ :=
  open Classical in
  if r < sc.accMin then s / sc.factor else if sc.accMax < r then s * sc.factor else s

/-- The rate lies in the band. -/
def InBand (sc : SConfig) (r : ℝ) : Prop := sc.accMin ≤ r ∧ r ≤ sc.accMax

theorem move_clock (env : Env n d) (cfg : PConfig) {p p' : Parts n d} {r : ℝ}
    (h : move env cfg p = .ok (p', r)) : p'.clock = p.clock + 1 ∧ p'.s = p.s := by
  obtain ⟨y, h1, h2⟩ := bind_ok h
  obtain ⟨v, h3, h4⟩ := bind_ok h2
  obtain ⟨rfl, rfl⟩ := Prod.mk.inj (Except.ok.inj h4)
  exact ⟨rfl, rfl⟩

/-- **C104** The controlled move makes at most the allowed number of moves, changes the
scale by the factor after each rate outside the band, and stops at the first rate inside
the band. -/
theorem controlledMove_spec (env : Env n d) (cfg : PConfig) (sc : SConfig)
    (k : ℕ) {p p' : Parts n d}
    (h : controlledMove env cfg sc k p = .ok p') :
    ∃ rates : List ℝ, rates.length ≤ k ∧ p'.clock = p.clock + rates.length ∧
      p'.s = rates.foldl (adjust sc) p.s ∧ (∀ r ∈ rates.dropLast, ¬ InBand sc r) ∧
      (rates.length < k → ∃ r, rates.getLast? = some r ∧ InBand sc r) := by
  classical
  induction k generalizing p with
  | zero =>
    obtain rfl := Except.ok.inj h
    exact ⟨[], le_refl _, rfl, rfl, by simp, fun h => absurd h (lt_irrefl _)⟩
  | succ k ih =>
    unfold controlledMove at h
    cases hmv : move env cfg p with
    | error e => rw [hmv] at h; cases h
    | ok r =>
      obtain ⟨p1, r⟩ := r
      obtain ⟨c1, s1⟩ := move_clock env cfg hmv
      rw [hmv] at h
      dsimp only at h
      have more : ∀ q : Parts n d, q.clock = p1.clock → q.s = adjust sc p.s r → ¬ InBand sc r →
          controlledMove env cfg sc k q = .ok p' →
          ∃ rates : List ℝ, rates.length ≤ k + 1 ∧ p'.clock = p.clock + rates.length ∧
            p'.s = rates.foldl (adjust sc) p.s ∧ (∀ r ∈ rates.dropLast, ¬ InBand sc r) ∧
            (rates.length < k + 1 → ∃ r, rates.getLast? = some r ∧ InBand sc r) := by
        intro q hq1 hq2 hnb hq
        obtain ⟨rates, a1, a2, a3, a4, a5⟩ := ih hq
        refine ⟨r :: rates, by simp only [List.length_cons]; omega, ?_, ?_, ?_, ?_⟩
        · rw [a2, hq1, c1, List.length_cons]; omega
        · rw [a3, hq2]; rfl
        · intro r' hr'
          cases rates with
          | nil => simp at hr'
          | cons a as =>
            rw [List.dropLast_cons_cons] at hr'
            rcases List.mem_cons.mp hr' with rfl | hr'
            · exact hnb
            · exact a4 _ hr'
        · intro hlen
          obtain ⟨r', b1, b2⟩ := a5 (by simp only [List.length_cons] at hlen; omega)
          exact ⟨r', by rw [List.getLast?_cons, b1]; rfl, b2⟩
      by_cases h1 : r < sc.accMin
      · rw [if_pos h1] at h
        exact more { p1 with s := p1.s / sc.factor } rfl (by simp only [adjust, if_pos h1, s1]) (fun hb => by
          exact absurd hb.1 (not_le.mpr h1)) h
      · rw [if_neg h1] at h
        by_cases h2 : sc.accMax < r
        · rw [if_pos h2] at h
          exact more { p1 with s := p1.s * sc.factor } rfl
            (by simp only [adjust, if_neg h1, if_pos h2, s1]) (fun hb => by
            exact absurd hb.2 (not_le.mpr h2)) h
        · rw [if_neg h2] at h
          obtain rfl := Except.ok.inj h
          refine ⟨[r], by simp, by simpa using c1, ?_, by simp, fun _ => ⟨r, rfl, not_lt.mp h1, not_lt.mp h2⟩⟩
          simp only [List.foldl_cons, List.foldl_nil, adjust, if_neg h1, if_neg h2, s1]

/-- **C104** A scale outside the configured bounds is refused with `ParticlesSetError`, and
that error arises in no other way. -/
theorem perturb_bounds (env : Env n d) (cfg : PConfig) (p : Parts n d)
    (hc : ∀ m x, env.cov m x ≠ .error particlesSetError)
    (hr : ∀ k C, env.rvs k C ≠ .error particlesSetError) :
    perturb env cfg p = .error particlesSetError ↔ cfg.sUpper < p.s ∨ p.s < cfg.sLower := by
  classical
  unfold perturb
  constructor
  · intro h
    by_contra hn
    simp only [if_neg hn] at h
    change (baseCov env cfg p.x >>= fun C => _) = _ at h
    cases hb : baseCov env cfg p.x with
    | error e =>
      rw [hb] at h
      obtain rfl := Except.error.inj h
      unfold baseCov at hb
      split at hb
      · cases hb
      · exact hc _ _ hb
    | ok C =>
      rw [hb] at h
      change (drawEps env cfg p.clock (p.s • C) >>= fun eps => _) = _ at h
      cases hd : drawEps env cfg p.clock (p.s • C) with
      | ok e => rw [hd] at h; cases h
      | error e =>
        rw [hd] at h
        obtain rfl := Except.error.inj h
        unfold drawEps at hd
        cases hv : env.rvs p.clock (p.s • C) with
        | ok e => rw [hv] at hd; cases hd
        | error e =>
          rw [hv] at hd
          dsimp only at hd
          split at hd
          · split at hd <;> cases hd
          · obtain rfl := Except.error.inj hd
            exact hr _ _ hv
  · intro h
    simp only [if_pos h]
    rfl

/-- No proposal made from this cloud is accepted, at any time and with any scale. -/
def Rejects (env : Env n d) (cfg : PConfig) (p : Parts n d) : Prop :=
  ∀ k s p' r, move env cfg { p with clock := k, s := s } = .ok (p', r) → r = 0

/-- A move without acceptance only advances the clock. -/
theorem move_rejected {env : Env n d} {cfg : PConfig} {p p' : Parts n d}
    (h : move env cfg p = .ok (p', 0)) : p' = { p with clock := p.clock + 1 } := by
  classical
  obtain ⟨y, _, h⟩ := bind_ok (show (perturb env cfg p >>= fun y => _) = _ from h)
  obtain ⟨v, _, h⟩ := bind_ok h
  obtain ⟨h1, h2⟩ := Prod.ext_iff.mp (Except.ok.inj h)
  change _ = p' at h1
  rcases Nat.eq_zero_or_pos n with rfl | hn
  · rw [← h1]
    dsimp only
    congr 1 <;> funext i <;> exact i.elim0
  · have hc : (Finset.univ.filter fun i => accepts env p v i).card = 0 := by
      have : ((n : ℕ) : ℝ) ≠ 0 := by positivity
      dsimp only at h2
      rw [div_eq_zero_iff, or_iff_left this] at h2
      exact_mod_cast h2
    have hr : ∀ i, ¬ accepts env p v i := fun i hi => by
      rw [Finset.card_eq_zero] at hc
      exact Finset.notMem_empty i (hc ▸ Finset.mem_filter.mpr ⟨Finset.mem_univ i, hi⟩)
    rw [← h1]
    simp only [hr, if_false]

/-- **C104** When no proposal is ever accepted, a controlled move that succeeds has only divided the
scale by `factor ^ k` and used `k` moves, and the scale stayed above its lower bound all the way. -/
theorem controlledMove_rejects (env : Env n d) (cfg : PConfig) (sc : SConfig)
    (hmin : 0 < sc.accMin) (k : ℕ) {p p' : Parts n d} (hrej : Rejects env cfg p)
    (h : controlledMove env cfg sc k p = .ok p') :
    p' = { p with s := p.s / sc.factor ^ k, clock := p.clock + k } ∧
      ∀ j < k, cfg.sLower ≤ p.s / sc.factor ^ j := by
  classical
  induction k generalizing p with
  | zero =>
    obtain rfl := Except.ok.inj h
    exact ⟨by simp, fun j hj => absurd hj (Nat.not_lt_zero _)⟩
  | succ k ih =>
    unfold controlledMove at h
    cases hmv : move env cfg p with
    | error e => rw [hmv] at h; cases h
    | ok r =>
      obtain ⟨p1, r⟩ := r
      obtain rfl := hrej p.clock p.s _ _ hmv
      have hp1 := move_rejected hmv
      rw [hmv] at h
      dsimp only at h
      rw [if_pos hmin, hp1] at h
      obtain ⟨a, b⟩ := ih (p := { p with clock := p.clock + 1, s := p.s / sc.factor })
        (fun k s => hrej k s) h
      dsimp only at a b
      refine ⟨by rw [a, div_div, ← pow_succ', add_assoc, add_comm 1], fun j hj => ?_⟩
      cases j with
      | zero =>
        obtain ⟨y, hy, _⟩ := bind_ok hmv
        unfold perturb at hy
        by_contra hlt
        rw [pow_zero, div_one, not_le] at hlt
        simp only [if_pos (Or.inr hlt : cfg.sUpper < p.s ∨ p.s < cfg.sLower)] at hy
        cases hy
      | succ j =>
        have := b j (by omega)
        rwa [div_div, ← pow_succ'] at this

/-- The external routines of a move return. -/
structure Returns (env : Env n d) (cfg : PConfig) (l : (Fin n → Pt d) → Py (Fin n → Flt)) : Prop where
  kind : cfg.cov ≠ .other
  cov : ∀ m x, ∃ C, env.cov m x = .ok C
  rvs : ∀ k C, ∃ e, env.rvs k C = .ok e
  logpdf : ∀ x, ∃ v, l x = .ok v

/-- Then a move only fails because of its scale. -/
theorem move_returns {env : Env n d} {cfg : PConfig} {p : Parts n d} (h : Returns env cfg p.logpdf) :
    (∃ p' r, move env cfg p = .ok (p', r) ∧ p'.logpdf = p.logpdf) ∨ move env cfg p = .error particlesSetError := by
  classical
  by_cases hb : cfg.sUpper < p.s ∨ p.s < cfg.sLower
  · right
    have := (perturb_bounds env cfg p (fun m x => by obtain ⟨C, hC⟩ := h.cov m x; simp [hC])
      fun k C => by obtain ⟨e, he⟩ := h.rvs k C; simp [he]).mpr hb
    unfold move
    rw [this]
    rfl
  · left
    obtain ⟨C, hC⟩ := h.cov cfg.cov p.x
    obtain ⟨e, he⟩ := h.rvs p.clock (p.s • C)
    have hy : perturb env cfg p = .ok fun i => p.x i + e i := by
      unfold perturb
      simp only [if_neg hb]
      have hbc : baseCov env cfg p.x = .ok C := by
        unfold baseCov
        cases hcv : cfg.cov with
        | other => exact absurd hcv h.kind
        | normal => rw [hcv] at hC; exact hC
        | knn => rw [hcv] at hC; exact hC
      change (baseCov env cfg p.x >>= fun C => _) = _
      rw [hbc]
      change (drawEps env cfg p.clock (p.s • C) >>= fun eps => _) = _
      unfold drawEps
      rw [he]
      rfl
    obtain ⟨v, hv⟩ := h.logpdf fun i => p.x i + e i
    have hm : ∃ q, move env cfg p = .ok q ∧ q.1.logpdf = p.logpdf := by
      unfold move
      rw [hy]
      change ∃ q, (p.logpdf _ >>= fun v => _) = _ ∧ _
      rw [hv]
      exact ⟨_, rfl, rfl⟩
    obtain ⟨⟨p', r⟩, h1, h2⟩ := hm
    exact ⟨p', r, h1, h2⟩

/-- **C104** Then a controlled move only fails because of its scale. -/
theorem controlledMove_returns {env : Env n d} {cfg : PConfig} {sc : SConfig} (k : ℕ) {p : Parts n d}
    (h : Returns env cfg p.logpdf) :
    (∃ p', controlledMove env cfg sc k p = .ok p') ∨
      controlledMove env cfg sc k p = .error particlesSetError := by
  classical
  induction k generalizing p with
  | zero => exact Or.inl ⟨p, rfl⟩
  | succ k ih =>
    unfold controlledMove
    rcases move_returns h with ⟨p1, r, hm, hl⟩ | hm
    · rw [hm]
      dsimp only
      by_cases h1 : r < sc.accMin
      · rw [if_pos h1]
        exact ih (by dsimp only; rw [hl]; exact h)
      · rw [if_neg h1]
        by_cases h2 : sc.accMax < r
        · rw [if_pos h2]
          exact ih (by dsimp only; rw [hl]; exact h)
        · rw [if_neg h2]
          exact Or.inl ⟨_, rfl⟩
    · rw [hm]
      exact Or.inr rfl

/-- **C104** With the default settings the limit of 50 iterations is never reached by
shrinking: permanent rejection ends in an error, `ParticlesSetError` when the routines called return. -/
theorem controlledMove_rejects_default (env : Env n d) (p : Parts n d) (hrej : Rejects env {} p)
    (hs : p.s = ({} : PConfig).s0) :
    (∃ e, controlledMove env {} {} ({} : SConfig).maxIter p = .error e) ∧
      (Returns env {} p.logpdf →
        controlledMove env {} {} ({} : SConfig).maxIter p = .error particlesSetError) := by
  have key : ∀ p', controlledMove env {} {} ({} : SConfig).maxIter p ≠ .ok p' := fun p' h => by
    obtain ⟨_, b⟩ := controlledMove_rejects env {} {} (by norm_num) _ hrej h
    have := b 19 (by decide)
    rw [hs] at this
    norm_num at this
  refine ⟨?_, fun hr => ?_⟩
  · cases h : controlledMove env {} {} ({} : SConfig).maxIter p with
    | error e => exact ⟨e, rfl⟩
    | ok p' => exact absurd h (key p')
  · rcases controlledMove_returns (sc := {}) ({} : SConfig).maxIter hr with ⟨p', h⟩ | h
    · exact absurd h (key p')
    · exact h

/-- **C105** False: a covariance that the Gaussian sampler refuses should be repaired by
adding jitter to its diagonal; the repair raises `NameError`. -/
theorem perturb_repair_false (env : Env n d) (cfg : PConfig) (hj : cfg.jitterIter ≠ 0)
    (p : Parts n d) (hs : cfg.sLower ≤ p.s) (hs' : p.s ≤ cfg.sUpper) (C : Matrix (Fin d) (Fin d) ℝ)
    (hc : cfg.cov ≠ .other) (hC : env.cov cfg.cov p.x = .ok C) (e : PyErr)
    (he : e = .valueError ∨ e = .linAlgError) (hr : env.rvs p.clock (p.s • C) = .error e) :
    perturb env cfg p = .error .nameError := by
  classical
  unfold perturb
  have hn : ¬ (cfg.sUpper < p.s ∨ p.s < cfg.sLower) := by
    rintro (h | h) <;> linarith
  simp only [if_neg hn]
  have hb : baseCov env cfg p.x = .ok C := by
    unfold baseCov
    cases hcv : cfg.cov with
    | other => exact absurd hcv hc
    | normal => rw [hcv] at hC; exact hC
    | knn => rw [hcv] at hC; exact hC
  change (baseCov env cfg p.x >>= fun C => _) = _
  rw [hb]
  change (drawEps env cfg p.clock (p.s • C) >>= fun eps => _) = _
  have : drawEps env cfg p.clock (p.s • C) = .error .nameError := by
    unfold drawEps
    rw [hr]
    dsimp only
    rcases he with rfl | rfl
    · rw [if_pos (by rfl), if_neg hj]
    · rw [if_pos (by rfl), if_neg hj]
  rw [this]
  rfl

/-- **C105** An accepted covariance is used as it is. -/
theorem perturb_partial (env : Env n d) (cfg : PConfig) (p : Parts n d) (y : Fin n → Pt d)
    (h : perturb env cfg p = .ok y) :
    ∃ C eps, env.cov cfg.cov p.x = .ok C ∧ env.rvs p.clock (p.s • C) = .ok eps ∧
      ∀ i, y i = p.x i + eps i := by
  classical
  unfold perturb at h
  by_cases hn : cfg.sUpper < p.s ∨ p.s < cfg.sLower
  · simp only [if_pos hn] at h; cases h
  · simp only [if_neg hn] at h
    obtain ⟨C, h1, h2⟩ := bind_ok (show (baseCov env cfg p.x >>= fun C => _) = _ from h)
    obtain ⟨eps, h3, h4⟩ := bind_ok h2
    obtain rfl := Except.ok.inj h4
    refine ⟨C, eps, ?_, ?_, fun i => rfl⟩
    · unfold baseCov at h1
      split at h1
      · cases h1
      · exact h1
    · unfold drawEps at h3
      split at h3
      · next e => rw [e]; exact h3
      · split at h3
        · split at h3 <;> cases h3
        · cases h3

/-- **C107** A proposal with log-density `-inf` or NaN is never accepted. -/
theorem bot_rejected (env : Env n d) (p : Parts n d) (logpy : Fin n → Flt) (i : Fin n)
    (h : logpy i = .num ⊥ ∨ logpy i = .nan) : ¬ accepts env p logpy i := by
  unfold accepts
  rcases h with h | h
  · rw [h]
    rcases Flt.bot_sub (p.logpx i) with e | e <;> rw [e]
    · unfold Flt.logU; split <;> simp [Flt.fin]
    · simp
  · rw [h]; simp

/-- **C107** The rule with finite values and a positive draw is the Metropolis rule. -/
theorem accepts_fin (env : Env n d) (p : Parts n d) (logpy : Fin n → Flt) (i : Fin n) (a b : ℝ)
    (h1 : logpy i = .fin a) (h2 : p.logpx i = .fin b) (hu : 0 < env.unif p.clock i) :
    accepts env p logpy i ↔ env.unif p.clock i < Real.exp (a - b) := by
  unfold accepts
  rw [h1, h2, Flt.logU_pos hu.ne', Flt.sub_fin, Flt.fin_lt, Real.log_lt_iff_lt_exp hu]

/-- **C107** False for the indicator densities of subset simulation: a proposal outside the
set is accepted when the uniform draw is 0 (`rand` draws from `[0, 1)`). -/
theorem outside_rejected_false : ∃ (env : Env 1 1) (p : Parts 1 1) (f : Pt 1 → Flt) (y : Fin 1 → Pt 1)
    (v : Fin 1 → Flt), logIndicator f (fun _ => .fin 0) true (.fin 0) y = .ok v ∧
      ¬ (Flt.fin 0).lt (f (y 0)) ∧ p.logpx 0 = .fin 0 ∧ 0 ≤ env.unif p.clock 0 ∧
      env.unif p.clock 0 < 1 ∧ accepts env p v 0 := by
  classical
  let env : Env 1 1 := { quietEnv 1 1 0 with unif := fun _ _ => 0 }
  let p : Parts 1 1 :=
    { x := fun _ _ => 1, logpx := fun _ => .fin 0, w := uniformW 1, wtmp := uniformW 1, s := 1,
      logpdf := logIndicator (fun y => .fin (y 0)) (fun _ => .fin 0) true (.fin 0), clock := 0 }
  refine ⟨env, p, fun y => .fin (y 0), fun _ _ => -1, _, rfl, ?_, rfl, le_refl _, one_pos, ?_⟩
  · rw [Flt.fin_lt]; norm_num
  · unfold accepts
    simp only [env, p, if_true]
    rw [if_neg (by rw [Flt.fin_lt]; norm_num), Flt.logU_zero, Flt.sub_fin]
    exact EReal.bot_lt_coe _

/-! ## C54, C101: subset simulation -/

/-- Does a value pass the threshold? -/
def Passes (upper : Bool) (u v : Flt) : Prop := if upper = true then u.lt v else v.lt u

open Classical in
theorem logIndicator_apply (f logPx : Pt d → Flt) (upper : Bool) (u : Flt) (x : Fin n → Pt d) :
    logIndicator f logPx upper u x
      = .ok fun i => if Passes upper u (f (x i)) then logPx (x i) else .fin (-(10 : ℝ) ^ 100) := by
  unfold logIndicator Passes
  congr 1
  funext i
  cases upper <;> simp

open Classical in
/-- The log-density of a level at one point. -/
noncomputable def levelEll (f : Pt d → Flt) (logPx : Pt d → ℝ) (upper : Bool) (u : Flt) (y : Pt d) : ℝ :=
  if Passes upper u (f y) then logPx y else -(10 : ℝ) ^ 100

open Classical in
theorem logIndicator_fin (f : Pt d → Flt) (logPx : Pt d → ℝ) (upper : Bool) (u : Flt)
    (x : Fin n → Pt d) :
    logIndicator f (fun y => .fin (logPx y)) upper u x
      = .ok fun i => .fin (levelEll f logPx upper u (x i)) := by
  rw [logIndicator_apply]
  congr 1
  funext i
  unfold levelEll
  split <;> rfl

/-- One level: its probability is the mean of the density ratios, and afterwards the
cached values are those of the level and the weights uniform. -/
theorem subsetLevel_spec (env : Env n d) (hm : MultContract env) (cfg : PConfig) (sc : SConfig)
    (f : Pt d → Flt) (logPx : Pt d → ℝ) (upper : Bool) (u : Flt) (p p' : Parts n d) (v : Flt)
    (lp : Fin n → ℝ) (hlp : p.logpx = fun i => .fin (lp i)) (hw : p.w = uniformW n)
    (h : subsetLevel env cfg sc f (fun y => .fin (logPx y)) upper u p = .ok (p', v)) :
    v = .fin (∑ i, 1 / (n : ℝ) * Real.exp (levelEll f logPx upper u (p.x i) - lp i)) ∧
      p'.w = uniformW n ∧ ∀ i, p'.logpx i = .fin (levelEll f logPx upper u (p'.x i)) := by
  classical
  obtain ⟨p1, h1, h2⟩ := bind_ok h
  obtain ⟨p2, h3, h4⟩ := bind_ok h2
  obtain ⟨rfl, rfl⟩ := Prod.mk.inj (Except.ok.inj h4)
  obtain ⟨nv, h5, h6⟩ := bind_ok h1
  have h5' : logIndicator f (fun y => .fin (logPx y)) upper u p.x = .ok nv := h5
  rw [logIndicator_fin] at h5'
  obtain rfl := Except.ok.inj h5'
  obtain rfl := Except.ok.inj h6
  have e : (fun i => (p.w i).mul ((Flt.fin (levelEll f logPx upper u (p.x i))).sub (p.logpx i)).exp)
      = fun i => .fin (1 / (n : ℝ) * Real.exp (levelEll f logPx upper u (p.x i) - lp i)) := by
    funext i
    rw [hw, hlp]
    simp only [uniformW, Flt.sub_fin, Flt.exp_fin, Flt.mul_fin]
  have hrow : Rowwise (logIndicator (n := n) f (fun y => .fin (logPx y)) upper u)
      (fun y => .fin (levelEll f logPx upper u y)) := by
    intro x v hv i
    rw [logIndicator_fin] at hv
    obtain rfl := Except.ok.inj hv
    rfl
  obtain ⟨c1, c2, c3, c4⟩ := mutate_cached env hm cfg sc
    (ell := fun y => .fin (levelEll f logPx upper u y)) (p' := p2) ⟨hrow, fun i => rfl⟩
    (fun _ => ⟨fun i => 1 / (n : ℝ) * Real.exp (levelEll f logPx upper u (p.x i) - lp i), e,
      fun i => by positivity⟩) h3
  refine ⟨?_, c3, c1.2⟩
  dsimp only [setLogpdf]
  rw [e, Flt.sum_fin]

/-- **C101** At a level reached from particles that pass the previous one, the level
probability is the fraction of particles that pass the new threshold, up to the weight
`exp(-1e100 - log p)` of the others. -/
theorem level_fraction (env : Env n d) (hm : MultContract env) (cfg : PConfig) (sc : SConfig)
    (f : Pt d → Flt) (logPx : Pt d → ℝ) (upper : Bool) (u : Flt) (p p' : Parts n d) (v : Flt)
    (hlp : p.logpx = fun i => .fin (logPx (p.x i))) (hw : p.w = uniformW n) (B : ℝ)
    (hB : ∀ i, -B ≤ logPx (p.x i)) (hn : n ≠ 0)
    (h : subsetLevel env cfg sc f (fun y => .fin (logPx y)) upper u p = .ok (p', v)) :
    open Classical in
    ∃ r : ℝ, v = .fin r ∧
      ((Finset.univ.filter fun i => Passes upper u (f (p.x i))).card : ℝ) / n ≤ r ∧
      r ≤ ((Finset.univ.filter fun i => Passes upper u (f (p.x i))).card : ℝ) / n
        + Real.exp (B - (10 : ℝ) ^ 100) := by
  classical
  obtain ⟨hv, -, -⟩ := subsetLevel_spec env hm cfg sc f logPx upper u p p' v _ hlp hw h
  have hcard : ((Finset.univ.filter fun i => Passes upper u (f (p.x i))).card : ℝ) / n
      = ∑ i, 1 / (n : ℝ) * ((if Passes upper u (f (p.x i)) then 1 else 0 : ℕ) : ℝ) := by
    rw [div_eq_mul_one_div, mul_comm, Finset.card_filter, Nat.cast_sum, Finset.mul_sum]
  refine ⟨_, hv, ?_, ?_⟩
  · rw [hcard]
    refine Finset.sum_le_sum fun i _ => ?_
    refine mul_le_mul_of_nonneg_left ?_ (by positivity)
    unfold levelEll
    split
    · simp
    · simpa using (Real.exp_pos _).le
  · have hb : Real.exp (B - (10 : ℝ) ^ 100)
        = ∑ _i : Fin n, 1 / (n : ℝ) * Real.exp (B - (10 : ℝ) ^ 100) := by
      rw [Finset.sum_const, Finset.card_univ, Fintype.card_fin, nsmul_eq_mul]
      have : (n : ℝ) ≠ 0 := by exact_mod_cast hn
      field_simp
    rw [hb, hcard, ← Finset.sum_add_distrib]
    refine Finset.sum_le_sum fun i _ => ?_
    rw [← mul_add]
    refine mul_le_mul_of_nonneg_left ?_ (by positivity)
    unfold levelEll
    split
    · simp only [sub_self, Real.exp_zero, Nat.cast_one]
      linarith [Real.exp_pos (B - (10 : ℝ) ^ 100)]
    · simp only [Nat.cast_zero, zero_add]
      exact Real.exp_le_exp.mpr (by linarith [hB i])

/-- Levels that every point passes, for a constant density `exp c`. -/
theorem subsetLoop_certain (env : Env n d) (hm : MultContract env) (cfg : PConfig) (sc : SConfig)
    (hn : n ≠ 0) (f : Pt d → Flt) (c : ℝ) (upper : Bool) (us : List Flt)
    (hf : ∀ u ∈ us, ∀ y, Passes upper u (f y)) (p p' : Parts n d) (vs : List Flt) (a : ℝ)
    (hlp : p.logpx = fun _ => .fin a) (hw : p.w = uniformW n)
    (h : subsetLoop env cfg sc f (fun _ => .fin c) upper us p = .ok (p', vs)) :
    (us = [] → vs = []) ∧
      (us ≠ [] → vs = (Real.exp (c - a) :: List.replicate (us.length - 1) 1).map Flt.fin) := by
  classical
  induction us generalizing p p' vs a with
  | nil =>
    obtain ⟨-, rfl⟩ := Prod.mk.inj (Except.ok.inj h)
    exact ⟨fun _ => rfl, fun h => absurd rfl h⟩
  | cons u us ih =>
    refine ⟨fun h => (by cases h), fun _ => ?_⟩
    obtain ⟨⟨p1, v⟩, h1, h2⟩ := bind_ok h
    obtain ⟨⟨p2, vs2⟩, h3, h4⟩ := bind_ok h2
    obtain ⟨rfl, rfl⟩ := Prod.mk.inj (Except.ok.inj h4)
    have hell : ∀ y, levelEll f (fun _ => c) upper u y = c := fun y => by
      unfold levelEll; rw [if_pos (hf u (List.mem_cons_self ..) y)]
    obtain ⟨e1, e2, e3⟩ := subsetLevel_spec env hm cfg sc f (fun _ => c) upper u p p1 v (fun _ => a)
      hlp hw h1
    simp only [hell] at e1 e3
    have hv : v = .fin (Real.exp (c - a)) := by
      rw [e1, Finset.sum_const, Finset.card_univ, Fintype.card_fin, nsmul_eq_mul]
      congr 1
      have : (n : ℝ) ≠ 0 := by exact_mod_cast hn
      field_simp
    obtain ⟨i1, i2⟩ := ih (fun u hu => hf u (List.mem_cons_of_mem _ hu)) p1 p2 vs2 c (funext e3) e2 h3
    dsimp only at *
    rw [hv]
    cases us with
    | nil => rw [i1 rfl]; rfl
    | cons w ws =>
      rw [i2 (by simp)]
      simp [List.replicate_succ]

/-- **C54** The estimate of a certain event is the constant value of the density given as
`log_px`, whatever the volume of the box. -/
theorem subset_certain (env : Env n d) (hm : MultContract env) (cfg : PConfig) (sc : SConfig)
    (hn : n ≠ 0) (f : Pt d → Flt) (c : ℝ) (upper : Bool) (u0 : Flt) (us : List Flt)
    (hf : ∀ u ∈ us, ∀ y, Passes upper u (f y)) (lo hi : Pt d) (est : Flt) (vs : List Flt)
    (p : Parts n d)
    (h : subsetSimulation env cfg sc f (fun _ => .fin c) upper (u0 :: us) lo hi = .ok (est, vs, p)) :
    est = .fin (Real.exp c) := by
  classical
  unfold subsetSimulation at h
  dsimp only at h
  by_cases hu0 : u0 = (if upper = true then .num ⊥ else .num ⊤)
  · rw [if_pos hu0] at h
    obtain ⟨p1, h1, h2⟩ := bind_ok h
    obtain ⟨p2, h3, h4⟩ := bind_ok h2
    by_cases hu : us = []
    · simp only [if_pos hu] at h4; cases h4
    · simp only [if_neg hu] at h4
      obtain ⟨⟨p3, vs'⟩, h5, h6⟩ := bind_ok (show (subsetLoop env cfg sc f (fun _ => .fin c) upper us p2
        >>= fun r => _) = _ from h4)
      obtain ⟨rfl, h7⟩ := Prod.mk.inj (Except.ok.inj h6)
      obtain ⟨x, h8, h9⟩ := bind_ok (show (scaleBox (env.init p1.clock) lo hi >>= fun x => _) = _ from h3)
      obtain rfl := Except.ok.inj h9
      obtain ⟨_, i2⟩ := subsetLoop_certain env hm cfg sc hn f c upper us hf _ p3 vs' 0 rfl rfl h5
      dsimp only
      rw [i2 hu, Flt.prod_fin]
      simp
  · rw [if_neg hu0] at h; cases h

/-- **C54** On a box of volume one (constant log-density 0) a certain event gets the
estimate one. -/
theorem subset_certain_partial (env : Env n d) (hm : MultContract env) (cfg : PConfig) (sc : SConfig)
    (hn : n ≠ 0) (f : Pt d → Flt) (upper : Bool) (u0 : Flt) (us : List Flt)
    (hf : ∀ u ∈ us, ∀ y, Passes upper u (f y)) (lo hi : Pt d) (est : Flt) (vs : List Flt)
    (p : Parts n d)
    (h : subsetSimulation env cfg sc f (fun _ => .fin 0) upper (u0 :: us) lo hi = .ok (est, vs, p)) :
    est = .fin 1 := by
  rw [subset_certain env hm cfg sc hn f 0 upper u0 us hf lo hi est vs p h, Real.exp_zero]

theorem quiet_move (u c : ℝ) (p : Parts 4 1) (hs : p.s = 1 / 2)
    (hl : ∀ x, p.logpdf x = .ok fun _ => .fin c) (hp : ∀ i, p.logpx i = .fin c) :
    ∃ p', move (quietEnv 4 1 u) {} p = .ok (p', 1 / 4) := by
  classical
  have hpert : perturb (quietEnv 4 1 u) {} p = .ok p.x := by
    have h1 : ¬ ((({} : PConfig).sUpper < p.s) ∨ p.s < ({} : PConfig).sLower) := by
      rw [hs]; norm_num
    unfold perturb
    simp only [if_neg h1, baseCov, drawEps, quietEnv, bind, Except.bind, pure, Except.pure]
    congr 1
    funext i
    simp
  have ha : ∀ i : Fin 4, accepts (quietEnv 4 1 u) p (fun _ => .fin c) i ↔ i = 0 := by
    intro i
    unfold accepts
    rw [hp i, Flt.sub_fin, sub_self]
    simp only [quietEnv]
    by_cases hi : i = 0
    · subst hi
      simp only [Fin.val_zero, if_true, iff_true]
      rw [Flt.logU_pos (by norm_num), Flt.fin_lt]
      exact Real.log_neg (by norm_num) (by norm_num)
    · rw [if_neg (show ¬ (i : ℕ) = 0 from fun h => hi (Fin.ext h)), Flt.logU_pos one_ne_zero, Flt.fin_lt, Real.log_one]
      simp [hi]
  unfold move
  rw [hpert]
  simp only [bind, Except.bind, hl, pure, Except.pure, ha]
  have hcard : ((Finset.univ.filter fun x : Fin 4 => x = 0).card : ℝ) / ((4 : ℕ) : ℝ) = 1 / 4 := by
    rw [show (Finset.univ.filter fun x : Fin 4 => x = 0) = {0} by ext; simp]
    simp
  rw [hcard]
  exact ⟨_, rfl⟩

/-- **C54** False in general: with the uniform density on a box of volume 2 (log-density
`log (1/2)`) the estimate of a certain event is 1/2. -/
theorem subset_certain_false : ∃ (env : Env 4 1) (vs : List Flt) (p : Parts 4 1),
    MultContract env ∧
      subsetSimulation env {} { mhSteps := 1 } (fun _ => .fin 1) (fun _ => .fin (Real.log (1 / 2)))
        true [.num ⊥, .fin 0] (fun _ => 0) (fun _ => 2) = .ok (.fin (1 / 2), vs, p) := by
  classical
  let env := quietEnv 4 1 (1 / 2)
  have hm : MultContract env := quietEnv_mult 4 1 (by norm_num) _
  suffices h : ∃ r, subsetSimulation env {} { mhSteps := 1 } (fun _ => .fin 1)
      (fun _ => .fin (Real.log (1 / 2))) true [.num ⊥, .fin 0] (fun _ => 0) (fun _ => 2) = .ok r by
    obtain ⟨⟨est, vs, p⟩, h⟩ := h
    have := subset_certain env hm {} { mhSteps := 1 } (by norm_num) _ _ true _ [.fin 0] (by
      intro u hu y
      rw [List.mem_singleton] at hu
      subst hu
      unfold Passes
      simp) _ _ _ _ _ h
    rw [Real.exp_log (by norm_num)] at this
    exact ⟨env, vs, p, hm, by rw [h, this]⟩
  have hbox : ∀ j : Fin 1, (fun _ : Fin 1 => (0 : ℝ)) j < (fun _ : Fin 1 => (2 : ℝ)) j :=
    fun _ => two_pos
  have hpass : (Flt.fin 0).lt (.fin 1) := by rw [Flt.fin_lt]; exact one_pos
  have hli : ∀ x : Fin 4 → Pt 1, logIndicator (fun _ => .fin 1)
      (fun _ => .fin (Real.log (1 / 2))) true (.fin 0) x = .ok fun _ => .fin (Real.log (1 / 2)) := by
    intro x
    rw [logIndicator_apply]
    congr 1
    funext i
    rw [if_pos (by unfold Passes; simp)]
  have hmut : ∀ q : Parts 4 1, q.s = 1 / 2 →
      (∀ x, q.logpdf x = .ok fun _ => .fin (Real.log (1 / 2))) →
      (∀ i, q.logpx i = .fin (Real.log (1 / 2))) →
      ∃ q', mutate env {} { mhSteps := 1 } q = .ok q' := by
    intro q h1 h2 h3
    have hc : ∑ j : Fin 4, (if (j : ℕ) = 0 then 4 else 0) = 4 := by decide
    obtain ⟨q1, a1, ⟨σ, a2, _⟩, _, _, a5, a6⟩ := copyParts_ok env _ hc q
    have hres : resample env {} q = .ok q1 := by
      unfold resample multinomialCounts
      exact a1
    obtain ⟨q2, b1⟩ := quiet_move (1 / 2) (Real.log (1 / 2)) q1 (a6.trans h1)
      (fun x => by rw [a5]; exact h2 x) (fun i => by rw [(a2 i).2]; exact h3 _)
    have hcm : controlledMove env {} { mhSteps := 1 } 50 q1 = .ok q2 := by
      unfold controlledMove
      rw [b1]
      dsimp only
      rw [if_neg (by norm_num), if_neg (by norm_num)]
    refine ⟨q2, ?_⟩
    unfold mutate
    rw [hres]
    change (controlledMove env {} { mhSteps := 1 } 50 q1 >>= fun p => _) = _
    rw [hcm]
    rfl
  unfold subsetSimulation
  simp only [if_true, newParts, particlesInit, scaleBox, if_pos hbox, bind, Except.bind, pure,
    Except.pure, Bool.not_true, Bool.false_eq_true, if_false, List.cons_ne_nil, subsetLoop,
    subsetLevel, reweight, setLogpdf, hli]
  obtain ⟨q', hq'⟩ := hmut
    { x := fun i j => 0 + env.init (0 + 1) i j * (2 - 0)
      logpx := fun x => Flt.fin (Real.log (1 / 2))
      w := fun i => ((uniformW 4 i).mul ((Flt.fin (Real.log (1 / 2))).sub (Flt.fin 0)).exp).div
        (Flt.sum fun i => (uniformW 4 i).mul ((Flt.fin (Real.log (1 / 2))).sub (Flt.fin 0)).exp)
      wtmp := fun i => (uniformW 4 i).mul ((Flt.fin (Real.log (1 / 2))).sub (Flt.fin 0)).exp
      s := 0.5
      logpdf := logIndicator (fun x => Flt.fin 1) (fun x => Flt.fin (Real.log (1 / 2))) true (.fin 0)
      clock := 0 + 1 + 1 } (by norm_num) (fun x => hli x) (fun i => rfl)
  rw [hq']
  exact ⟨_, rfl⟩

/-- The temperature chosen between 0 and -4 for a density `exp t`. -/
example : ∃ k t, nextP0 (n := 1) (d := 1) k (fun _ t => .ok fun _ => .fin t) (fun _ _ => 0) 0 (-4) (1 / 2) =
    .ok (some t) :=
  nextP0_ends_partial _ _ 0 (-4) (1 / 2) Real.exp (fun t => by
      simp [pValue, bind, Except.bind, pure, Except.pure, Flt.sum]
      rw [Flt.div_fin one_ne_zero, div_one])
    Real.continuous_exp.continuousOn (by norm_num)

/-- A target that is zero away from the point where the particles are, and jumps of 1. -/
example : controlledMove ({ quietEnv 2 1 0 with rvs := fun _ _ => .ok fun _ _ => 1 }) {} {}
    ({} : SConfig).maxIter
    (⟨fun _ _ => 0, fun _ => .fin 0, uniformW 2, uniformW 2, ({} : PConfig).s0,
      pointwise fun x => if x 0 = 0 then .fin 0 else .num ⊥, 0⟩ : Parts 2 1) = .error particlesSetError := by
  refine (controlledMove_rejects_default _ _ (fun k s p' r h => ?_) rfl).2
    ⟨by simp, fun m x => ⟨_, rfl⟩, fun k C => ⟨_, rfl⟩, fun x => ⟨_, rfl⟩⟩
  classical
  obtain ⟨y, hy, h⟩ := bind_ok (show (perturb _ _ _ >>= fun y => _) = _ from h)
  obtain ⟨C, e, _, he, hye⟩ := perturb_partial _ _ _ _ hy
  obtain rfl := Except.ok.inj he
  obtain ⟨v, hv, h⟩ := bind_ok h
  obtain rfl := Except.ok.inj hv
  obtain ⟨_, h2⟩ := Prod.ext_iff.mp (Except.ok.inj h)
  change _ = r at h2
  rw [← h2]
  rw [Finset.filter_false_of_mem, Finset.card_empty, Nat.cast_zero, zero_div]
  intro i _
  refine bot_rejected _ _ _ i (Or.inl ?_)
  have : y i 0 = 1 := by rw [hye]; simp
  simp [this]

end Verif.SMC
