import Verif.Mcmc.PropsMHRun
import Mathlib.Analysis.SpecialFunctions.Trigonometric.Deriv
import Mathlib.Data.Fintype.Prod
import Mathlib.Algebra.Order.Chebyshev

/-!
# C47, C48, C49, C50, C97: adaptation schedule, burn-in, convergence checks
-/

set_option autoImplicit false

namespace Verif.MH

open Verif Verif.Data

variable {d m : ℕ} {W : Type} {o : Opts d} {env : Env d m W}

/-! ## C47 -/

/-- **C47** What holds: the schedule starts at `base`, never increases, and is refused
only for an empty adaptation phase. -/
theorem schedule_partial (N : ℕ) (hN : N ≠ 0) (base f : ℝ) (hb : 0 ≤ base) (hf : f ≤ 1) :
    schedule 0 N base f = .ok base ∧
    ∀ n n', n ≤ n' → n' ≤ N → ∃ v v', schedule n N base f = .ok v ∧ schedule n' N base f = .ok v' ∧
      v' ≤ v := by
  have hN' : (0 : ℝ) < N := by exact_mod_cast Nat.pos_of_ne_zero hN
  constructor
  · unfold schedule
    rw [if_neg hN]
    simp
  · intro n n' h1 h2
    unfold schedule
    simp only [if_neg hN]
    refine ⟨_, _, rfl, rfl, ?_⟩
    have h1' : (n : ℝ) ≤ n' := by exact_mod_cast h1
    have h2' : (n' : ℝ) ≤ N := by exact_mod_cast h2
    have hc : Real.cos (Real.pi * n' / N) ≤ Real.cos (Real.pi * n / N) := by
      refine Real.cos_le_cos_of_nonneg_of_le_pi (by positivity) ?_ ?_
      · rw [div_le_iff₀ hN']
        exact mul_le_mul_of_nonneg_left h2' Real.pi_pos.le
      · gcongr
    have : (1 - f) * Real.cos (Real.pi * n' / N) ≤ (1 - f) * Real.cos (Real.pi * n / N) :=
      mul_le_mul_of_nonneg_left hc (by linarith)
    exact mul_le_mul_of_nonneg_left (by linarith) hb

/-- **C47** False: at the end the rate is `base (2 f - 1)`, not `base f`; with the
fraction `0.1` used by the code it is `-0.8 base`. -/
theorem schedule_end_false (N : ℕ) (hN : N ≠ 0) (base : ℝ) (hb : 0 < base) :
    (∀ f, schedule N N base f = .ok (base * (2 * f - 1))) ∧
    ∃ v, schedule N N base 0.1 = .ok v ∧ v = -0.8 * base ∧ v ≠ base * 0.1 ∧ v < 0 := by
  have hN' : (N : ℝ) ≠ 0 := by exact_mod_cast hN
  have key : ∀ f, schedule N N base f = .ok (base * (2 * f - 1)) := by
    intro f
    unfold schedule
    rw [if_neg hN, mul_div_assoc, div_self hN', mul_one, Real.cos_pi]
    congr 1
    ring
  refine ⟨key, _, key 0.1, by ring, ?_, ?_⟩ <;> intros <;> nlinarith

/-- **C47** Consequence in `run_adaptive_RM`: in the last third of burn-in the
adaptation is reversed — a chain accepting less than the target gets larger proposals,
one accepting more gets smaller ones. -/
theorem rm_reversed_false {n : ℕ} {s s' : St d m} (h : runRM o env n true s = .ok s')
    (hb : 0 < o.rmFactor) (h1 : 2 * s'.burnin ≤ 3 * s'.iter) (h2 : s'.iter ≤ s'.burnin)
    (c : Fin m) :
    ∃ k : ℝ, 0 < k ∧ s'.params c = (s.params c).scale k ∧
      (blockRate s' n c < o.target → 1 < k) ∧ (o.target < blockRate s' n c → k < 1) := by
  obtain ⟨s1, h3, h4⟩ := bind_ok h
  obtain ⟨g, h5, h6⟩ := bind_ok h4
  obtain ⟨_, _, hp, _⟩ := runSamples_ok h3
  obtain rfl := Except.ok.inj h6
  simp only at h1 h2 ⊢
  have hg : g < 0 := by
    unfold rmGamma schedule at h5
    simp only [if_true] at h5
    by_cases hz : s1.burnin = 0
    · rw [if_pos hz] at h5; cases h5
    · rw [if_neg hz] at h5
      obtain rfl := Except.ok.inj h5
      have hN : (0 : ℝ) < s1.burnin := by exact_mod_cast Nat.pos_of_ne_zero hz
      have h1' : 2 * (s1.burnin : ℝ) ≤ 3 * s1.iter := by exact_mod_cast h1
      have h2' : (s1.iter : ℝ) ≤ s1.burnin := by exact_mod_cast h2
      have hc : Real.cos (Real.pi * s1.iter / s1.burnin) ≤ Real.cos (Real.pi - Real.pi / 3) := by
        refine Real.cos_le_cos_of_nonneg_of_le_pi (by linarith [Real.pi_pos]) ?_ ?_
        · rw [div_le_iff₀ hN]
          exact mul_le_mul_of_nonneg_left h2' Real.pi_pos.le
        · rw [le_div_iff₀ hN]
          nlinarith [Real.pi_pos]
      rw [Real.cos_pi_sub, Real.cos_pi_div_three] at hc
      refine mul_neg_of_pos_of_neg hb ?_
      linarith
  refine ⟨_, Real.exp_pos (g * (blockRate s1 n c - o.target)), by rw [hp], ?_, ?_⟩
  · intro hr
    refine Real.one_lt_exp_iff.mpr (mul_pos_of_neg_of_neg hg ?_)
    change blockRate s1 n c < o.target at hr
    linarith
  · intro hr
    rw [Real.exp_lt_one_iff]
    refine mul_neg_of_neg_of_pos hg ?_
    change o.target < blockRate s1 n c at hr
    linarith

example : ∃ v, schedule 10 10 1 0.1 = .ok v ∧ v = -0.8 * 1 ∧ v ≠ 1 * 0.1 ∧ v < 0 :=
  (schedule_end_false 10 (by decide) 1 one_pos).2

/-! ## C48 -/

/-- Runs in which nothing outside the diagnostics raises. -/
structure Sane (o : Opts d) (env : Env d m W) : Prop where
  prop : ∀ par x w, ∃ y, env.prop par x w = .ok y
  logProp : o.symmetric = false → ∀ par x y, ∃ v, env.logProp par x y = .ok v
  method : o.method ≠ .other
  interval : o.interval ≠ 0
  pool : o.method = .haario → o.nPool ≠ 0 ∧ m % o.nPool = 0

theorem mhStep_total (hs : Sane o env) (par : PropPar d) (x : Pt d) (cached : Option Flt) (w : W)
    (u : ℝ) : ∃ r, mhStep env.logTarget o.symmetric (env.logProp par) x cached (env.prop par x w) u =
      .ok r := by
  classical
  obtain ⟨y, hy⟩ := hs.prop par x w
  rw [hy]
  have hla : ∀ lx ly, ∃ la, logA o.symmetric (env.logProp par) x y lx ly = .ok la := by
    intro lx ly
    cases h : o.symmetric with
    | true => exact ⟨_, rfl⟩
    | false =>
      obtain ⟨b, hb⟩ := hs.logProp h par y x
      obtain ⟨f, hf⟩ := hs.logProp h par x y
      exact ⟨_, by simp only [logA, Bool.false_eq_true, if_false, hb, hf, bind, Except.bind, pure,
        Except.pure]; rfl⟩
  obtain ⟨la, hla⟩ := hla (currentTarget env.logTarget x cached) (evalTarget env.logTarget y)
  unfold mhStep
  simp only [bind, Except.bind, hla, pure, Except.pure]
  split <;> exact ⟨_, rfl⟩

theorem chains_total (hs : Sane o env) {t : ℕ} (L : List (Fin m)) (s : St d m) (ht : t < s.size) :
    ∃ s', L.foldlM (stepChain o env t) s = .ok s' := by
  induction L generalizing s with
  | nil => exact ⟨s, rfl⟩
  | cons c L ih =>
    obtain ⟨r, hr⟩ := mhStep_total hs (s.params c) (s.x c (t - 1)) (some (s.logT c (t - 1)))
      (env.noise t c).1 (env.noise t c).2
    have h1 : stepChain o env t s c = .ok { s with
        x := set2 s.x c t r.1
        accept := set2 s.accept c t r.2.1
        logT := set2 s.logT c t r.2.2.1 } := by
      unfold stepChain
      simp only [if_neg (not_le.mpr ht), hr, bind, Except.bind, pure, Except.pure]
    rw [List.foldlM_cons, h1]
    exact ih _ ht

theorem runSamples_total (hs : Sane o env) (n : ℕ) (s : St d m) (h : s.iter + n < s.size) :
    ∃ s', runSamples o env n s = .ok s' := by
  unfold runSamples
  induction n generalizing s with
  | zero => exact ⟨s, rfl⟩
  | succ n ih =>
    obtain ⟨s1, h1⟩ := chains_total hs (t := s.iter + 1) (List.finRange m) s (by omega)
    have h2 : stepAll o env s (s.iter + 1) = .ok { s1 with iter := s1.iter + 1 } := by
      unfold stepAll
      simp only [h1, bind, Except.bind, pure, Except.pure]
    have hst := (stepAll_ok h2).1
    rw [List.range'_succ, List.foldlM_cons, h2]
    obtain ⟨s', hs'⟩ := ih { s1 with iter := s1.iter + 1 } (by
      rw [hst.size, hst.iter]; omega)
    refine ⟨s', ?_⟩
    rw [hst.iter] at hs'
    exact hs'

theorem runBlock_total (hs : Sane o env) (dim : Bool) (s : St d m)
    (h : s.iter + o.interval < s.size) (hb : dim = true → s.burnin ≠ 0) :
    ∃ s', runBlock o env dim s = .ok s' := by
  obtain ⟨s1, h1⟩ := runSamples_total hs o.interval s h
  have hbb := (runSamples_ok h1).2.1
  unfold runBlock
  cases hm : o.method with
  | other => exact absurd hm hs.method
  | rm =>
    simp only [runRM, h1, bind, Except.bind, pure, Except.pure]
    have : ∃ g, rmGamma o dim s1 = .ok g := by
      unfold rmGamma schedule
      cases dim with
      | false => exact ⟨_, rfl⟩
      | true =>
        simp only [if_true]
        rw [if_neg (by rw [hbb]; exact hb rfl)]
        exact ⟨_, rfl⟩
    obtain ⟨g, hg⟩ := this
    rw [hg]
    exact ⟨_, rfl⟩
  | haario =>
    obtain ⟨hp, hq⟩ := hs.pool hm
    simp only [runHaario, h1, bind, Except.bind, pure, Except.pure, if_neg hp,
      if_neg (not_not.mpr hq)]
    exact ⟨_, rfl⟩

/-- The diagnostic needs two chains and two samples. -/
theorem rhat_ok (s : St d m) (b : ℕ) (last : Option ℕ) :
    (∃ r, rhat s b last = .ok r) ↔ 2 ≤ m ∧ 1 < s.iter - sliceStart s b last := by
  unfold rhat
  by_cases h1 : m < 2
  · rw [if_pos h1]
    constructor
    · rintro ⟨r, hr⟩; cases hr
    · intro h; omega
  · rw [if_neg h1]
    by_cases h2 : s.iter - sliceStart s b last ≤ 1
    · rw [if_pos h2]
      constructor
      · rintro ⟨r, hr⟩; cases hr
      · intro h; omega
    · rw [if_neg h2]
      exact ⟨fun _ => ⟨by omega, by omega⟩, fun _ => ⟨_, rfl⟩⟩

theorem checkGR_ok (s : St d m) (b : ℕ) (last : Option ℕ) (thr : ℝ) (h : 2 ≤ m)
    (h' : 1 < s.iter - sliceStart s b last) : ∃ r, checkGR s b last thr = .ok r := by
  obtain ⟨r, hr⟩ := (rhat_ok s b last).2 ⟨h, h'⟩
  unfold checkGR
  rw [hr]
  exact ⟨_, rfl⟩

theorem checkGR_one (s : St d m) (b : ℕ) (last : Option ℕ) (thr : ℝ) (h : m < 2) :
    checkGR s b last thr = .error .valueError := by
  unfold checkGR rhat
  rw [if_pos h]
  rfl

theorem burninBlocks_total (hs : Sane o env) (hm : 2 ≤ m) (diag : Bool) (nDiag : ℕ)
    (hD : 2 ≤ nDiag) (k : ℕ) (s : St d m) (h : s.iter + k * o.interval < s.size)
    (hb : o.rmDiminishing = true → k ≠ 0 → s.burnin ≠ 0) :
    ∃ r, burninBlocks o env diag nDiag k s = .ok r := by
  induction k generalizing s with
  | zero => exact ⟨_, rfl⟩
  | succ k ih =>
    have hk : (k + 1) * o.interval = k * o.interval + o.interval := by ring
    obtain ⟨s1, h1⟩ := runBlock_total hs o.rmDiminishing s (by omega)
      (fun h => hb h (Nat.succ_ne_zero k))
    obtain ⟨hr, hbb⟩ := runBlock_ok h1
    obtain ⟨hi, hz⟩ := hr.iter
    obtain ⟨r, hrr⟩ := ih s1 (by rw [hi, hz]; omega)
      (fun h _ => by rw [hbb]; exact hb h (Nat.succ_ne_zero k))
    unfold burninBlocks
    rw [h1]
    simp only [bind, Except.bind]
    by_cases hd : (diag && decide (nDiag ≤ s1.iter)) = true
    · simp only [if_pos hd]
      have hle : nDiag ≤ s1.iter := by
        have : diag = true ∧ nDiag ≤ s1.iter := by simpa using hd
        exact this.2
      obtain ⟨g, hg⟩ := checkGR_ok s1 0 (some nDiag) 1.1 hm (by
        simp only [sliceStart]; omega)
      unfold earlyStop
      rw [hg]
      simp only [bind, Except.bind, pure, Except.pure]
      split
      · exact ⟨_, rfl⟩
      · exact ⟨r, hrr⟩
    · simp only [if_neg hd]
      exact ⟨r, hrr⟩

theorem runBlock_iter {dim : Bool} {s s' : St d m} (h : runBlock o env dim s = .ok s') :
    s'.iter = s.iter + o.interval := (runBlock_ok h).1.iter.1

/-- With one chain the loop raises at the block where the diagnostic is reached. -/
theorem burninBlocks_one (hs : Sane o env) (hm : m < 2) (nDiag : ℕ) (k : ℕ) (s : St d m)
    (h : s.iter + k * o.interval < s.size)
    (hb : o.rmDiminishing = true → k ≠ 0 → s.burnin ≠ 0) :
    (k ≠ 0 → nDiag ≤ s.iter + k * o.interval →
      burninBlocks o env true nDiag k s = .error .valueError) ∧
    ((k = 0 ∨ s.iter + k * o.interval < nDiag) →
      ∃ s', burninBlocks o env true nDiag k s = .ok (s', false)) := by
  induction k generalizing s with
  | zero => exact ⟨fun h => absurd rfl h, fun _ => ⟨s, rfl⟩⟩
  | succ k ih =>
    have hk : (k + 1) * o.interval = k * o.interval + o.interval := by ring
    obtain ⟨s1, h1⟩ := runBlock_total hs o.rmDiminishing s (by omega)
      (fun h => hb h (Nat.succ_ne_zero k))
    obtain ⟨hr, hbb⟩ := runBlock_ok h1
    obtain ⟨hi, hz⟩ := hr.iter
    obtain ⟨ih1, ih2⟩ := ih s1 (by rw [hi, hz]; omega)
      (fun h _ => by rw [hbb]; exact hb h (Nat.succ_ne_zero k))
    unfold burninBlocks
    rw [h1]
    simp only [bind, Except.bind, Bool.true_and, decide_eq_true_eq]
    by_cases hd : nDiag ≤ s1.iter
    · simp only [if_pos hd, earlyStop, checkGR_one s1 0 (some nDiag) 1.1 hm, bind, Except.bind]
      refine ⟨fun _ _ => by trivial, ?_⟩
      rintro (h | h)
      · exact absurd h (Nat.succ_ne_zero k)
      · have : k * o.interval ≥ 0 := Nat.zero_le _
        omega
    · simp only [if_neg hd]
      refine ⟨fun _ h => ih1 ?_ (by omega), fun h => ih2 (Or.inr ?_)⟩
      · rintro rfl
        rw [Nat.zero_mul] at hk
        omega
      · rcases h with h | h
        · exact absurd h (Nat.succ_ne_zero k)
        · omega

theorem burninRest_total (hs : Sane o env) (burnin : ℕ) (r : St d m × Bool)
    (h : r.2 = false → r.1.iter + burnin % o.interval < r.1.size) :
    ∃ s', burninRest o env burnin r = .ok s' := by
  unfold burninRest
  split
  · rename_i hc
    have : r.2 = false ∧ 0 < burnin % o.interval := by simpa using hc
    exact runSamples_total hs _ _ (h this.1)
  · exact ⟨_, rfl⟩

theorem checkAccept_total (s : St d m) (b nDiag : ℕ) (rates : Fin m → ℕ → ℝ) (lo hi : ℝ)
    (hD : 2 ≤ nDiag) (hi' : ¬ s.iter ≤ 1) :
    ∃ r, checkAccept s b (some nDiag) rates lo hi = .ok r := by
  unfold checkAccept
  rw [if_neg]
  · exact ⟨_, rfl⟩
  · simp only [sliceStart]; omega

theorem burninDiag_total (diag : Bool) (nDiag : ℕ) (hD : 2 ≤ nDiag) (s : St d m) :
    burninDiag o diag nDiag s = .ok () := by
  unfold burninDiag
  split
  · rename_i hc
    have hc' : diag = true ∧ ¬ s.iter ≤ 1 := by
      simpa only [Bool.and_eq_true, decide_eq_true_eq] using hc
    obtain ⟨r, hr⟩ := checkAccept_total s s.burnin nDiag (fun c t => slidingRate s o.width c t)
      (o.target - o.tol) (o.target + o.tol) hD hc'.2
    simp only [hr, bind, Except.bind]
    by_cases hm : 2 ≤ m
    · obtain ⟨g, hg⟩ := checkGR_ok s 0 (some nDiag) 1.1 hm (by simp only [sliceStart]; omega)
      simp only [if_pos hm, hg, pure, Except.pure]
    · simp only [if_neg hm, pure, Except.pure]
  · rfl

/-- **C48** What holds: with at least two chains `run_burnin` (default arguments) never
raises, for any burn-in length that fits, any target and any draws. -/
theorem burnin_partial (hs : Sane o env) (hm : 2 ≤ m) (burnin : ℕ) (s : St d m)
    (hsz : s.iter + burnin < s.size) (hb : s.burnin = burnin) :
    ∃ s', runBurnin o env burnin true 20 s = .ok s' := by
  have hi := Nat.pos_of_ne_zero hs.interval
  have hn := Nat.div_add_mod burnin o.interval
  have hc : burnin / o.interval * o.interval = o.interval * (burnin / o.interval) := Nat.mul_comm _ _
  obtain ⟨⟨s1, e⟩, h1⟩ := burninBlocks_total hs hm true (20 * o.interval) (by omega)
    (burnin / o.interval) s (by omega) (fun _ h => by
      rw [hb]; rintro rfl; simp at h)
  obtain ⟨j, hj, hr, hf, _⟩ := burninBlocks_ok h1
  obtain ⟨s2, h2⟩ := burninRest_total hs burnin (s1, e) (by
    intro he
    obtain ⟨rfl, _⟩ := hf he
    obtain ⟨i1, i2⟩ := hr.iter
    simp only [i1, i2]; omega)
  refine ⟨s2, ?_⟩
  unfold runBurnin
  simp only [if_neg hs.interval, h1, h2, burninDiag_total true (20 * o.interval) (by omega) s2, bind,
    Except.bind, pure, Except.pure]

/-- **C48** False for the default single chain: `run_burnin` raises `ValueError` as soon
as the burn-in is long enough to reach the Gelman-Rubin diagnostic, and only then. -/
theorem burnin_one_chain_false (hs : Sane o env) (hm : m < 2) (burnin : ℕ) (s : St d m)
    (hsz : s.iter + burnin < s.size) (hb : s.burnin = burnin) (h0 : s.iter = 0) :
    (20 * o.interval ≤ burnin → runBurnin o env burnin true 20 s = .error .valueError) ∧
    (burnin < 20 * o.interval → ∃ s', runBurnin o env burnin true 20 s = .ok s') := by
  have hi := Nat.pos_of_ne_zero hs.interval
  have hn := Nat.div_add_mod burnin o.interval
  have hc : burnin / o.interval * o.interval = o.interval * (burnin / o.interval) := Nat.mul_comm _ _
  have hmod := Nat.mod_lt burnin hi
  obtain ⟨k1, k2⟩ := burninBlocks_one hs hm (20 * o.interval) (burnin / o.interval) s (by omega)
    (fun _ h => by rw [hb]; rintro rfl; simp at h)
  constructor
  · intro h
    have h20 : 20 ≤ burnin / o.interval := (Nat.le_div_iff_mul_le hi).2 h
    have h21 : 20 * o.interval ≤ burnin / o.interval * o.interval := Nat.mul_le_mul_right _ h20
    have := k1 (by omega) (by omega)
    unfold runBurnin
    simp only [if_neg hs.interval, this, bind, Except.bind, pure, Except.pure]
  · intro h
    have h20 : burnin / o.interval < 20 := (Nat.div_lt_iff_lt_mul hi).2 h
    obtain ⟨s1, h1⟩ := k2 (Or.inr (by
      have : burnin / o.interval * o.interval ≤ burnin := by omega
      omega))
    obtain ⟨j, hj, hr, hf, _⟩ := burninBlocks_ok h1
    obtain ⟨s2, h2⟩ := burninRest_total hs burnin (s1, false) (by
      intro he
      obtain ⟨rfl, _⟩ := hf he
      obtain ⟨i1, i2⟩ := hr.iter
      simp only [i1, i2]; omega)
    refine ⟨s2, ?_⟩
    unfold runBurnin
    simp only [if_neg hs.interval, h1, h2, burninDiag_total true (20 * o.interval) (by omega) s2,
      bind, Except.bind, pure, Except.pure]

/-- Concrete runs: two-dimensional walk with deterministic steps, default options. -/
noncomputable def shiftEnv (m : ℕ) : Env 2 m Unit where
  logTarget := fun x => .ok (.fin (-(x 0) ^ 2))
  prop := fun _ x _ => .ok (x + 1)
  logProp := fun _ _ _ => .ok (.fin 0)
  noise := fun _ _ => ((), 1 / 2)
  junk := fun _ _ => 0

theorem shiftEnv_sane (m : ℕ) : Sane ({} : Opts 2) (shiftEnv m) :=
  ⟨fun _ x _ => ⟨x + 1, rfl⟩, fun _ _ _ _ => ⟨_, rfl⟩, by decide, by decide,
    fun _ => ⟨by decide, Nat.mod_one m⟩⟩

example : runBurnin ({} : Opts 2) (shiftEnv 1) 5000 true 20
    (initSt {} (shiftEnv 1) (fun _ => 0) (fun _ => .diag 1) (fun _ => 1) 10000 5000) =
      .error .valueError :=
  (burnin_one_chain_false (shiftEnv_sane 1) (by decide) 5000 _ (by simp [initSt]) rfl rfl).1
    (by decide)

example : ∃ s, runBurnin ({} : Opts 2) (shiftEnv 2) 5000 true 20
    (initSt {} (shiftEnv 2) (fun _ => 0) (fun _ => .diag 1) (fun _ => 1) 10000 5000) = .ok s :=
  burnin_partial (shiftEnv_sane 2) (by decide) 5000 _ (by simp [initSt]) rfl

/-! ## C49 -/

open Classical in
theorem ksFraction_ge {B : ℕ} (hd : 0 < d) (hB : 0 < B) (pv : Fin d → Fin B → Fin B → ℝ)
    (alpha : ℝ) (ha : 0 < alpha) : ∃ f, ksFraction .numpy pv alpha = .ok f ∧ 1 / B ≤ f ∧
      ((∀ j a b, a ≠ b → alpha ≤ pv j a b) → f = 1 / B) := by
  refine ⟨_, rfl, ?_, ?_⟩
  all_goals
    have hd' : (0 : ℝ) < d := by exact_mod_cast hd
    have hB' : (0 : ℝ) < B := by exact_mod_cast hB
    have hcard : (Finset.univ.image fun t : Fin d × Fin B => (t.1, t.2, t.2)).card = d * B := by
      rw [Finset.card_image_of_injective _ (by
        rintro ⟨a, b⟩ ⟨a', b'⟩ h; simp only [Prod.mk.injEq] at h ⊢; exact ⟨h.1, h.2.1⟩)]
      simp
    have hsub : (Finset.univ.image fun t : Fin d × Fin B => (t.1, t.2, t.2)) ⊆
        Finset.univ.filter fun t : Fin d × Fin B × Fin B =>
          ksSignificant (pv t.1) alpha t.2.1 t.2.2 := by
      intro t ht
      obtain ⟨⟨a, b⟩, _, rfl⟩ := Finset.mem_image.mp ht
      refine Finset.mem_filter.mpr ⟨Finset.mem_univ _, ?_⟩
      simp only [ksSignificant, lt_irrefl, if_false]
      exact ha
  · have := Finset.card_le_card hsub
    rw [hcard] at this
    have h' : ((d * B : ℕ) : ℝ) ≤ ((Finset.univ.filter fun t : Fin d × Fin B × Fin B =>
        ksSignificant (pv t.1) alpha t.2.1 t.2.2).card : ℝ) := by exact_mod_cast this
    rw [div_le_div_iff₀ hB' (by positivity), one_mul]
    push_cast at h' ⊢
    nlinarith
  · intro hp
    have heq : (Finset.univ.filter fun t : Fin d × Fin B × Fin B =>
        ksSignificant (pv t.1) alpha t.2.1 t.2.2) =
        Finset.univ.image fun t : Fin d × Fin B => (t.1, t.2, t.2) := by
      refine Finset.Subset.antisymm ?_ hsub
      rintro ⟨j, a, b⟩ ht
      have ht' := (Finset.mem_filter.mp ht).2
      simp only [ksSignificant] at ht'
      rcases lt_trichotomy a b with h | h | h
      · rw [if_pos h] at ht'
        exact absurd ht' (not_lt.mpr (hp j a b h.ne))
      · subst h
        exact Finset.mem_image.mpr ⟨(j, a), Finset.mem_univ _, rfl⟩
      · rw [if_neg (not_lt.mpr h.le), if_pos h] at ht'
        exact absurd ht' (not_lt.mpr (hp j b a h.ne))
    rw [heq, hcard]
    push_cast
    field_simp

/-- **C49** False with one or two chains: the zero diagonal of the p-value matrix counts
as significant, so the single-block fraction is at least one half and the check never
succeeds at the default threshold, whatever the chains. -/
theorem ks_never_ok_false (d m nSteps nBlocks blockSize : ℕ) (hd : 0 < d) (hm0 : 0 < m)
    (hm : m ≤ 2) (hnb : 0 < nBlocks) (single : Option ℕ)
    (pv : (k : ℕ) → Fin d → Fin (k * m) → Fin (k * m) → ℝ) (alpha : ℝ) (ha : 0 < alpha)
    (be : Backend) : checkKS be d m nSteps nBlocks blockSize single pv alpha 0.5 ≠ .ok true := by
  intro h
  unfold checkKS at h
  by_cases h1 : nSteps < nBlocks * blockSize
  · simp only [if_pos h1, bind, Except.bind] at h; cases h
  simp only [if_neg h1, bind, Except.bind, pure, Except.pure] at h
  cases be with
  | torch => simp only [ksFraction] at h; cases h
  | numpy =>
    obtain ⟨fm, hfm, _⟩ := ksFraction_ge hd (Nat.mul_pos hnb hm0) (pv nBlocks) alpha ha
    obtain ⟨fs, hfs, hge, _⟩ := ksFraction_ge hd (Nat.mul_pos one_pos hm0) (pv 1) alpha ha
    rw [hfm] at h
    simp only at h
    by_cases h2 : nSteps < single.getD (nBlocks * blockSize)
    · simp only [if_pos h2] at h; cases h
    simp only [if_neg h2, hfs] at h
    have h3 : decide (fm < 0.5 ∧ fs < 0.5) = true := Except.ok.inj h
    have h4 := (of_decide_eq_true h3).2
    have hm2 : ((1 * m : ℕ) : ℝ) ≤ 2 := by rw [one_mul]; exact_mod_cast hm
    have hmp : (0 : ℝ) < ((1 * m : ℕ) : ℝ) := by rw [one_mul]; exact_mod_cast hm0
    have : (1 : ℝ) / 2 ≤ 1 / ((1 * m : ℕ) : ℝ) := one_div_le_one_div_of_le hmp hm2
    norm_num at h4
    linarith

/-- **C49** False on torch for any number of chains: `size` of a tensor is a method. -/
theorem ks_torch_false (d m nSteps nBlocks blockSize : ℕ) (single : Option ℕ)
    (pv : (k : ℕ) → Fin d → Fin (k * m) → Fin (k * m) → ℝ) (alpha thr : ℝ)
    (h : nBlocks * blockSize ≤ nSteps) :
    checkKS .torch d m nSteps nBlocks blockSize single pv alpha thr = .error .typeError := by
  unfold checkKS
  simp only [if_neg (not_lt.mpr h), ksFraction, bind, Except.bind, pure, Except.pure]

/-- **C49** What holds: on numpy with three or more chains the check succeeds when no two
blocks differ significantly. -/
theorem ks_ok_partial (d m nSteps nBlocks blockSize : ℕ) (hd : 0 < d) (hm : 3 ≤ m)
    (hnb : 0 < nBlocks) (single : Option ℕ)
    (pv : (k : ℕ) → Fin d → Fin (k * m) → Fin (k * m) → ℝ) (alpha : ℝ) (ha : 0 < alpha)
    (h1 : nBlocks * blockSize ≤ nSteps) (h2 : single.getD (nBlocks * blockSize) ≤ nSteps)
    (hp : ∀ k j a b, a ≠ b → alpha ≤ pv k j a b) :
    checkKS .numpy d m nSteps nBlocks blockSize single pv alpha 0.5 = .ok true := by
  have hfrac : ∀ k, 0 < k → ∃ f, ksFraction .numpy (pv k) alpha = .ok f ∧ f < 0.5 := by
    intro k hk
    have hB : 0 < k * m := Nat.mul_pos hk (by omega)
    obtain ⟨f, hf, _, he⟩ := ksFraction_ge hd hB (pv k) alpha ha
    refine ⟨f, hf, ?_⟩
    rw [he (hp k)]
    have : (3 : ℝ) ≤ ((k * m : ℕ) : ℝ) := by
      have : 3 ≤ k * m := hm.trans (Nat.le_mul_of_pos_left m hk)
      exact_mod_cast this
    rw [div_lt_iff₀ (by linarith)]
    have h5 : (0.5 : ℝ) = 1 / 2 := by norm_num
    rw [h5]
    linarith
  obtain ⟨fm, hfm, hm'⟩ := hfrac nBlocks hnb
  obtain ⟨fs, hfs, hs'⟩ := hfrac 1 one_pos
  unfold checkKS
  simp only [if_neg (not_lt.mpr h1), if_neg (not_lt.mpr h2), hfm, hfs, bind, Except.bind, pure,
    Except.pure]
  congr 1
  exact decide_eq_true ⟨hm', hs'⟩

example : checkKS .numpy 1 2 100 2 50 none (fun _ _ _ _ => 1) 0.05 0.5 ≠ .ok true :=
  ks_never_ok_false 1 2 100 2 50 (by decide) (by decide) (by decide) (by decide) none _ 0.05
    (by norm_num) .numpy

example : checkKS .numpy 1 4 100 2 50 none (fun _ _ _ _ => 1) 0.05 0.5 = .ok true :=
  ks_ok_partial 1 4 100 2 50 (by decide) (by decide) (by decide) none _ 0.05 (by norm_num)
    (by decide) (by decide) (fun _ _ _ _ _ => by norm_num)

/-! ## C50 -/

theorem meanOver_affine {i0 i1 : ℕ} (h : i0 < i1) (f : ℕ → ℝ) (a b : ℝ) :
    meanOver i0 i1 (fun t => a * f t + b) = a * meanOver i0 i1 f + b := by
  have hn : ((i1 - i0 : ℕ) : ℝ) ≠ 0 := by
    have : 0 < i1 - i0 := by omega
    exact_mod_cast this.ne'
  unfold meanOver
  rw [Finset.sum_add_distrib, ← Finset.mul_sum, Finset.sum_const, Nat.card_Ico, nsmul_eq_mul]
  field_simp

theorem varOver_affine {i0 i1 : ℕ} (h : i0 < i1) (f : ℕ → ℝ) (a b : ℝ) :
    varOver i0 i1 (fun t => a * f t + b) = a ^ 2 * varOver i0 i1 f := by
  unfold varOver
  rw [meanOver_affine h, mul_div_assoc', Finset.mul_sum]
  congr 1
  exact Finset.sum_congr rfl fun t _ => by ring

theorem meanChains_affine (hm : 0 < m) (f : Fin m → ℝ) (a b : ℝ) :
    meanChains (fun c => a * f c + b) = a * meanChains f + b := by
  have hn : (m : ℝ) ≠ 0 := by exact_mod_cast hm.ne'
  unfold meanChains
  rw [Finset.sum_add_distrib, ← Finset.mul_sum, Finset.sum_const, Finset.card_univ,
    Fintype.card_fin, nsmul_eq_mul]
  field_simp

theorem varChains_affine (hm : 0 < m) (f : Fin m → ℝ) (a b : ℝ) :
    varChains (fun c => a * f c + b) = a ^ 2 * varChains f := by
  unfold varChains
  rw [meanChains_affine hm, mul_div_assoc', Finset.mul_sum]
  congr 1
  exact Finset.sum_congr rfl fun t _ => by ring

theorem divNonneg_mul (k a b : ℝ) (hk : k ≠ 0) : divNonneg (k * a) (k * b) = divNonneg a b := by
  unfold divNonneg
  by_cases hb : b = 0
  · subst hb
    by_cases ha : a = 0
    · subst ha; simp
    · simp [ha, hk]
  · rw [if_neg (mul_ne_zero hk hb), if_neg hb, mul_div_mul_left _ _ hk]

/-- **C50** R-hat does not change under an affine change of the coordinate. -/
theorem rhat_affine {i0 i1 : ℕ} (h : i0 < i1) (hm : 0 < m) (x : Fin m → ℕ → ℝ) (a b : ℝ)
    (ha : a ≠ 0) : rhat1 i0 i1 (fun c t => a * x c t + b) = rhat1 i0 i1 x := by
  have hw : meanChains (fun c => varOver i0 i1 fun t => a * x c t + b) =
      a ^ 2 * meanChains fun c => varOver i0 i1 (x c) := by
    have := meanChains_affine hm (fun c => varOver i0 i1 (x c)) (a ^ 2) 0
    simp only [add_zero] at this
    simp only [varOver_affine h]
    exact this
  unfold rhat1
  simp only [hw, meanOver_affine h, varChains_affine hm]
  conv_rhs => rw [← divNonneg_mul (a ^ 2) _ _ (pow_ne_zero 2 ha)]
  congr 2
  ring

theorem varOver_nonneg {i0 i1 : ℕ} (h : i0 < i1) (f : ℕ → ℝ) : 0 ≤ varOver i0 i1 f := by
  have hn : (1 : ℝ) ≤ ((i1 - i0 : ℕ) : ℝ) := by
    have : 1 ≤ i1 - i0 := by omega
    exact_mod_cast this
  exact div_nonneg (Finset.sum_nonneg fun _ _ => sq_nonneg _) (by linarith)

theorem varChains_nonneg (hm : 2 ≤ m) (f : Fin m → ℝ) : 0 ≤ varChains f ∧
    (varChains f = 0 ↔ ∀ c c', f c = f c') := by
  have hm' : (2 : ℝ) ≤ m := by exact_mod_cast hm
  have h1 : (0 : ℝ) < (m : ℝ) - 1 := by linarith
  refine ⟨div_nonneg (Finset.sum_nonneg fun _ _ => sq_nonneg _) h1.le, ?_⟩
  unfold varChains
  rw [div_eq_zero_iff, or_iff_left h1.ne', Finset.sum_eq_zero_iff_of_nonneg fun _ _ => sq_nonneg _]
  constructor
  · intro h c c'
    have e1 := pow_eq_zero_iff (two_ne_zero) |>.mp (h c (Finset.mem_univ _))
    have e2 := pow_eq_zero_iff (two_ne_zero) |>.mp (h c' (Finset.mem_univ _))
    linarith
  · intro h c _
    have : meanChains f = f c := by
      unfold meanChains
      rw [Finset.sum_congr rfl fun c' _ => h c' c, Finset.sum_const, Finset.card_univ,
        Fintype.card_fin, nsmul_eq_mul]
      field_simp
    rw [this, sub_self]
    norm_num

/-- **C50** With some within-chain variation R-hat is a number, at least
`sqrt((n-1)/n)`, with equality exactly when all chain means agree. -/
theorem rhat_lower {i0 i1 : ℕ} (h : i0 + 1 < i1) (hm : 2 ≤ m) (x : Fin m → ℕ → ℝ)
    (hw : meanChains (fun c => varOver i0 i1 (x c)) ≠ 0) :
    ∃ r, rhat1 i0 i1 x = .fin r ∧
      Real.sqrt ((((i1 - i0 : ℕ) : ℝ) - 1) / ((i1 - i0 : ℕ) : ℝ)) ≤ r ∧
      (r = Real.sqrt ((((i1 - i0 : ℕ) : ℝ) - 1) / ((i1 - i0 : ℕ) : ℝ)) ↔
        ∀ c c', meanOver i0 i1 (x c) = meanOver i0 i1 (x c')) := by
  set n : ℝ := ((i1 - i0 : ℕ) : ℝ) with hn
  have hn2 : (2 : ℝ) ≤ n := by
    have : 2 ≤ i1 - i0 := by omega
    rw [hn]; exact_mod_cast this
  set w := meanChains (fun c => varOver i0 i1 (x c)) with hwd
  have hw0 : 0 ≤ w := by
    rw [hwd]
    exact div_nonneg (Finset.sum_nonneg fun c _ => varOver_nonneg (by omega) _) (Nat.cast_nonneg m)
  have hwp : 0 < w := lt_of_le_of_ne hw0 (Ne.symm hw)
  obtain ⟨hb0, hbz⟩ := varChains_nonneg hm fun c => meanOver i0 i1 (x c)
  set B := varChains fun c => meanOver i0 i1 (x c) with hBd
  have hval : rhat1 i0 i1 x = .fin (Real.sqrt (((n - 1) / n * w + 1 / n * (n * B)) / w)) := by
    unfold rhat1
    simp only [← hn, ← hwd, ← hBd, divNonneg, if_neg hw]
    rfl
  have e : ((n - 1) / n * w + 1 / n * (n * B)) / w = (n - 1) / n + B / w := by
    field_simp
  refine ⟨_, hval, ?_, ?_⟩
  · rw [e]
    exact Real.sqrt_le_sqrt (by have := div_nonneg hb0 hw0; linarith)
  · rw [e, ← hbz]
    have hpos : 0 ≤ (n - 1) / n := div_nonneg (by linarith) (by linarith)
    rw [Real.sqrt_inj (by have := div_nonneg hb0 hw0; linarith) hpos]
    constructor
    · intro h
      have : B / w = 0 := by linarith
      rcases div_eq_zero_iff.mp this with h | h
      · exact h
      · exact absurd h hw
    · intro h; rw [h]; simp

example : ∃ r, rhat1 (m := 2) 0 2 (fun _ t => (t : ℝ)) = .fin r ∧ Real.sqrt (1 / 2) ≤ r := by
  obtain ⟨r, h1, h2, _⟩ := rhat_lower (m := 2) (i0 := 0) (i1 := 2) (by decide) le_rfl
    (fun _ t => (t : ℝ)) (by
      simp only [meanChains, varOver, meanOver, Finset.sum_Ico_succ_top, Nat.zero_le, Finset.Ico_self,
        Finset.sum_empty]
      norm_num [Finset.sum_range_succ])
  refine ⟨r, h1, ?_⟩
  norm_num at h2 ⊢
  exact h2

/-- **C50** Chains that never move within the window never pass the check: R-hat is NaN
or infinite. -/
theorem rhat_constant {i0 i1 : ℕ} (x : Fin m → ℕ → ℝ)
    (hw : meanChains (fun c => varOver i0 i1 (x c)) = 0) (thr : ℝ) :
    (rhat1 i0 i1 x = .nan ∨ rhat1 i0 i1 x = .num ⊤) ∧ ¬ (rhat1 i0 i1 x).lt (.fin thr) := by
  have : rhat1 i0 i1 x = .nan ∨ rhat1 i0 i1 x = .num ⊤ := by
    unfold rhat1
    simp only [hw, divNonneg, if_true]
    split
    · left; rfl
    · right; rfl
  refine ⟨this, ?_⟩
  rcases this with h | h
  · rw [h]; simp
  · rw [h]
    intro h'
    exact absurd (show (⊤ : EReal) < (thr : EReal) from h') not_top_lt

end Verif.MH
