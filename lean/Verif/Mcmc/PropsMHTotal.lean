import Verif.Mcmc.PropsMHRun

/-!
# When the Metropolis-Hastings scheduler succeeds (C120)

The proposal is symmetric and never raises.
-/

set_option autoImplicit false

namespace Verif.MH

open Verif

variable {d m : ℕ} {W : Type} {o : Opts d} {env : Env d m W}

/-- Proposals never raise. -/
def TotalProp (env : Env d m W) : Prop := ∀ par x w, ∃ y, env.prop par x w = .ok y

theorem mhStep_returns {X : Type} (lt : X → Py Flt) (lq : X → X → Py Flt) (x y : X)
    (cached : Option Flt) (u : ℝ) : ∃ r, mhStep lt true lq x cached (.ok y) u = .ok r := by
  classical
  unfold mhStep
  simp only [bind, Except.bind, logA, if_true, pure, Except.pure]
  split_ifs
  · exact ⟨_, rfl⟩
  · exact ⟨_, rfl⟩

theorem stepChain_total (hp : TotalProp env) (hs : o.symmetric = true) (t : ℕ) (s : St d m) (c : Fin m)
    (ht : t < s.size) : ∃ s', stepChain o env t s c = .ok s' ∧ s'.size = s.size ∧ s'.iter = s.iter := by
  obtain ⟨y, hy⟩ := hp (s.params c) (s.x c (t - 1)) (env.noise t c).1
  obtain ⟨r, hr⟩ := mhStep_returns env.logTarget (env.logProp (s.params c)) (s.x c (t - 1)) y
    (some (s.logT c (t - 1))) (env.noise t c).2
  unfold stepChain
  rw [if_neg (not_le.mpr ht), hy, hs, hr]
  exact ⟨_, rfl, rfl, rfl⟩

theorem stepAll_total (hp : TotalProp env) (hs : o.symmetric = true) (t : ℕ) (s : St d m)
    (ht : t < s.size) : ∃ s', stepAll o env s t = .ok s' ∧ s'.size = s.size ∧ s'.iter = s.iter + 1 := by
  have key : ∀ (L : List (Fin m)) (s : St d m), t < s.size →
      ∃ s', L.foldlM (stepChain o env t) s = .ok s' ∧ s'.size = s.size ∧ s'.iter = s.iter := by
    intro L
    induction L with
    | nil => intro s _; exact ⟨s, rfl, rfl, rfl⟩
    | cons c L ih =>
      intro s ht
      obtain ⟨s1, h1, e1, e2⟩ := stepChain_total hp hs t s c ht
      obtain ⟨s2, h2, e3, e4⟩ := ih s1 (by omega)
      refine ⟨s2, ?_, by omega, by omega⟩
      rw [List.foldlM_cons, h1]
      exact h2
  obtain ⟨s1, h1, e1, e2⟩ := key (List.finRange m) s ht
  unfold stepAll
  rw [h1]
  exact ⟨_, rfl, e1, by simp only [e2]⟩

theorem runPhase_total (hp : TotalProp env) (hs : o.symmetric = true) (n : ℕ) (s : St d m)
    (hn : n = 0 ∨ s.iter + n < s.size) : ∃ s', runSamples o env n s = .ok s' := by
  have key : ∀ (n i : ℕ) (s : St d m), (n = 0 ∨ i + n ≤ s.size) →
      ∃ s', (List.range' i n).foldlM (stepAll o env) s = .ok s' := by
    intro n
    induction n with
    | zero => intro i s _; exact ⟨s, rfl⟩
    | succ n ih =>
      intro i s h
      obtain ⟨s1, h1, e1, _⟩ := stepAll_total hp hs i s (by omega)
      obtain ⟨s2, h2⟩ := ih (i + 1) s1 (by omega)
      refine ⟨s2, ?_⟩
      rw [List.range'_succ, List.foldlM_cons, h1]
      exact h2
  exact key n (s.iter + 1) s (by omega)

/-- Pools of chains of equal size. -/
def Pools (o : Opts d) (m : ℕ) : Prop := o.nPool ≠ 0 ∧ m % o.nPool = 0

theorem runHaario_total (hp : TotalProp env) (hs : o.symmetric = true) (hpool : Pools o m) (n : ℕ)
    (s : St d m) (hn : n = 0 ∨ s.iter + n < s.size) : ∃ s', runHaario o env n s = .ok s' := by
  obtain ⟨s1, h1⟩ := runPhase_total hp hs n s hn
  unfold runHaario
  rw [h1]
  simp only [bind, Except.bind]
  rw [if_neg hpool.1, if_neg (not_not.mpr hpool.2)]
  exact ⟨_, rfl⟩

theorem runHaario_pools {n : ℕ} {s s' : St d m} (h : runHaario o env n s = .ok s') : Pools o m := by
  unfold runHaario at h
  obtain ⟨s1, _, h⟩ := bind_ok h
  by_cases h1 : o.nPool = 0
  · rw [if_pos h1] at h; cases h
  rw [if_neg h1] at h
  by_cases h2 : m % o.nPool ≠ 0
  · rw [if_pos h2] at h; cases h
  exact ⟨h1, not_not.mp h2⟩

theorem runBlock_haario (hm : o.method = .haario) (dim : Bool) (s : St d m) :
    runBlock o env dim s = runHaario o env o.interval s := by
  unfold runBlock
  rw [hm]

theorem adaptBlocks_total (hp : TotalProp env) (hs : o.symmetric = true) (hm : o.method = .haario)
    (hpool : Pools o m) : ∀ (k : ℕ) (s : St d m), s.iter + k * o.interval < s.size →
      ∃ s', adaptBlocks o env k s = .ok s'
  | 0, s, _ => ⟨s, rfl⟩
  | k + 1, s, h => by
    have e : (k + 1) * o.interval = k * o.interval + o.interval := by ring
    obtain ⟨s1, h1⟩ := runHaario_total hp hs hpool o.interval s (by omega)
    have h1' : runBlock o env false s = .ok s1 := by rw [runBlock_haario hm, h1]
    have hi := (runBlock_ok h1').1.iter
    obtain ⟨s2, h2⟩ := adaptBlocks_total hp hs hm hpool k s1 (by omega)
    refine ⟨s2, ?_⟩
    unfold adaptBlocks
    rw [h1']
    exact h2

theorem adaptBlocks_pools (hm : o.method = .haario) {k : ℕ} {s s' : St d m} (hk : 0 < k)
    (h : adaptBlocks o env k s = .ok s') : Pools o m := by
  cases k with
  | zero => omega
  | succ k =>
    unfold adaptBlocks at h
    obtain ⟨s1, h1, _⟩ := bind_ok h
    rw [runBlock_haario hm] at h1
    exact runHaario_pools h1

/-- `run_adaptive` succeeds exactly when there is no full block or the pools are right. -/
theorem runAdaptive_iff (hp : TotalProp env) (hs : o.symmetric = true) (hm : o.method = .haario)
    (hint : 0 < o.interval) (n : ℕ) (s : St d m) (hn : s.iter + n < s.size) :
    (∃ s', runAdaptive o env n s = .ok s') ↔ (o.interval ≤ n → Pools o m) := by
  have hdiv : n / o.interval * o.interval + n % o.interval = n := by
    rw [Nat.mul_comm]; exact Nat.div_add_mod n o.interval
  constructor
  · rintro ⟨s', h⟩ hle
    unfold runAdaptive at h
    rw [if_neg hint.ne'] at h
    obtain ⟨s1, h1, _⟩ := bind_ok h
    exact adaptBlocks_pools hm (Nat.div_pos hle hint) h1
  · intro h
    have h1 : ∃ s1, adaptBlocks o env (n / o.interval) s = .ok s1 := by
      by_cases hle : o.interval ≤ n
      · exact adaptBlocks_total hp hs hm (h hle) _ s (by omega)
      · rw [Nat.div_eq_of_lt (by omega)]; exact ⟨s, rfl⟩
    obtain ⟨s1, h1⟩ := h1
    have hi := (adaptBlocks_ok h1).1.iter
    unfold runAdaptive
    rw [if_neg hint.ne', h1]
    simp only [bind, Except.bind]
    by_cases hr : 0 < n % o.interval
    · rw [if_pos hr]
      exact runPhase_total hp hs _ _ (by omega)
    · rw [if_neg hr]
      exact ⟨_, rfl⟩

theorem earlyStop_iff (nDiag : ℕ) (s : St d m) (hn : 1 < nDiag) (hi : nDiag ≤ s.iter) :
    (∃ b, earlyStop o nDiag s = .ok b) ↔ 2 ≤ m := by
  unfold earlyStop checkGR rhat sliceStart
  by_cases h : m < 2
  · simp [h, bind, Except.bind]
  · simp only [if_neg h]
    rw [if_neg (by omega)]
    simp only [bind, Except.bind, pure, Except.pure]
    exact ⟨fun _ => by omega, fun _ => ⟨_, rfl⟩⟩

/-- The blocks of the burn-in succeed exactly when there is none, or the pools are right and
the convergence test is never reached by fewer than two chains. -/
theorem burninBlocks_iff (hp : TotalProp env) (hs : o.symmetric = true) (hm : o.method = .haario)
    (nDiag : ℕ) (hn : 1 < nDiag) : ∀ (k : ℕ) (s : St d m), s.iter + k * o.interval < s.size →
    ((∃ r, burninBlocks o env true nDiag k s = .ok r) ↔
      (0 < k → Pools o m ∧ (nDiag ≤ s.iter + k * o.interval → 2 ≤ m)))
  | 0, s, _ => by simp [burninBlocks]
  | k + 1, s, h => by
    have e : (k + 1) * o.interval = k * o.interval + o.interval := by ring
    by_cases hpool : Pools o m
    · obtain ⟨s1, h1⟩ := runHaario_total hp hs hpool o.interval s (by omega)
      have h1' : runBlock o env o.rmDiminishing s = .ok s1 := by rw [runBlock_haario hm, h1]
      have hi := (runBlock_ok h1').1.iter
      have ih := burninBlocks_iff hp hs hm nDiag hn k s1 (by omega)
      unfold burninBlocks
      rw [h1']
      simp only [bind, Except.bind]
      by_cases hd : nDiag ≤ s1.iter
      · simp only [hd, decide_true, Bool.and_true, if_true]
        have hst := earlyStop_iff (o := o) nDiag s1 hn hd
        constructor
        · rintro ⟨r, hr⟩ _
          refine ⟨hpool, fun _ => hst.mp ?_⟩
          cases he : earlyStop o nDiag s1 with
          | error e => rw [he] at hr; cases hr
          | ok b => exact ⟨b, rfl⟩
        · intro hc
          have h2 := (hc (by omega)).2 (by omega)
          obtain ⟨b, hb⟩ := hst.mpr h2
          rw [hb]
          cases b with
          | true => exact ⟨_, rfl⟩
          | false =>
            simp only [Bool.false_eq_true, if_false]
            exact ih.mpr fun _ => ⟨hpool, fun _ => h2⟩
      · simp only [hd, decide_false, Bool.and_false, Bool.false_eq_true, if_false]
        rw [ih]
        constructor
        · intro hc _
          refine ⟨hpool, fun hle => ?_⟩
          rcases Nat.eq_zero_or_pos k with rfl | hk
          · omega
          · exact (hc hk).2 (by omega)
        · intro hc _
          exact ⟨hpool, fun hle => (hc (by omega)).2 (by omega)⟩
    · constructor
      · rintro ⟨r, hr⟩ _
        unfold burninBlocks at hr
        obtain ⟨s1, h1, _⟩ := bind_ok hr
        rw [runBlock_haario hm] at h1
        exact absurd (runHaario_pools h1) hpool
      · intro hc
        exact absurd (hc (by omega)).1 hpool

theorem checkAccept_iff (s : St d m) (burnin : ℕ) (last : Option ℕ) (rates : Fin m → ℕ → ℝ) (lo hi : ℝ) :
    (∃ b, checkAccept s burnin last rates lo hi = .ok b) ↔ 2 ≤ s.iter - sliceStart s burnin last := by
  unfold checkAccept
  by_cases h : s.iter - sliceStart s burnin last ≤ 1
  · rw [if_pos h]
    exact ⟨fun ⟨_, h'⟩ => (by cases h'), fun h' => by omega⟩
  · rw [if_neg h]
    exact ⟨fun _ => by omega, fun _ => ⟨_, rfl⟩⟩

theorem checkGR_iff (s : St d m) (burnin : ℕ) (last : Option ℕ) (thr : ℝ) :
    (∃ b, checkGR s burnin last thr = .ok b) ↔ 2 ≤ m ∧ 2 ≤ s.iter - sliceStart s burnin last := by
  unfold checkGR rhat
  by_cases hm : m < 2
  · rw [if_pos hm]
    exact ⟨fun ⟨_, h'⟩ => (by cases h'), fun h' => by omega⟩
  rw [if_neg hm]
  by_cases h : s.iter - sliceStart s burnin last ≤ 1
  · rw [if_pos h]
    exact ⟨fun ⟨_, h'⟩ => (by cases h'), fun h' => by omega⟩
  · rw [if_neg h]
    exact ⟨fun _ => by omega, fun _ => ⟨_, rfl⟩⟩

theorem burninDiag_returns (diag : Bool) (nDiag : ℕ) (hn : 1 < nDiag) (s : St d m) :
    burninDiag o diag nDiag s = .ok () := by
  unfold burninDiag
  by_cases h : (diag && decide (¬ s.iter ≤ 1)) = true
  · rw [if_pos h]
    have hi : 1 < s.iter := by
      cases diag with
      | false => cases h
      | true => simpa using h
    obtain ⟨b, hb⟩ := (checkAccept_iff s s.burnin (some nDiag) (fun c t => slidingRate s o.width c t)
      (o.target - o.tol) (o.target + o.tol)).mpr (by simp only [sliceStart]; omega)
    rw [hb]
    by_cases h2 : 2 ≤ m
    · obtain ⟨b', hb'⟩ := (checkGR_iff s 0 (some nDiag) 1.1).mpr ⟨h2, by simp only [sliceStart]; omega⟩
      simp only [bind, Except.bind, if_pos h2, hb']
      rfl
    · simp only [bind, Except.bind, if_neg h2]
      rfl
  · rw [if_neg h]; rfl

theorem runBurnin_iff (hp : TotalProp env) (hs : o.symmetric = true) (hm : o.method = .haario)
    (hint : 0 < o.interval) (burnin : ℕ) (s : St d m) (h0 : s.iter = 0) (hsz : burnin < s.size) :
    (∃ s', runBurnin o env burnin true 20 s = .ok s') ↔
      (o.interval ≤ burnin → Pools o m) ∧ (20 * o.interval ≤ burnin → 2 ≤ m) := by
  have hdiv : burnin / o.interval * o.interval + burnin % o.interval = burnin := by
    rw [Nat.mul_comm]; exact Nat.div_add_mod burnin o.interval
  have hmod := Nat.mod_lt burnin hint
  have hb := burninBlocks_iff hp hs hm (20 * o.interval) (by omega) (burnin / o.interval) s (by omega)
  have hk : 0 < burnin / o.interval ↔ o.interval ≤ burnin := Nat.div_pos_iff.trans ⟨fun h => h.2, fun h => ⟨hint, h⟩⟩
  have h20 : 20 * o.interval ≤ burnin / o.interval * o.interval ↔ 20 * o.interval ≤ burnin := by
    rw [Nat.mul_le_mul_right_iff hint, Nat.le_div_iff_mul_le hint]
  have hc : (0 < burnin / o.interval → Pools o m ∧
      (20 * o.interval ≤ s.iter + burnin / o.interval * o.interval → 2 ≤ m)) ↔
      (o.interval ≤ burnin → Pools o m) ∧ (20 * o.interval ≤ burnin → 2 ≤ m) := by
    rw [hk, h0, Nat.zero_add, h20]
    constructor
    · intro h
      exact ⟨fun h1 => (h h1).1, fun h1 => (h (by omega)).2 h1⟩
    · rintro ⟨h1, h2⟩ h3
      exact ⟨h1 h3, h2⟩
  rw [← hc, ← hb]
  unfold runBurnin
  rw [if_neg hint.ne']
  constructor
  · rintro ⟨s', h⟩
    obtain ⟨r, hr, _⟩ := bind_ok h
    exact ⟨r, hr⟩
  · rintro ⟨r, hr⟩
    obtain ⟨s1, e⟩ := r
    obtain ⟨j, hj, hre, _, _⟩ := burninBlocks_ok hr
    have hrest : ∃ s2, burninRest o env burnin (s1, e) = .ok s2 := by
      unfold burninRest
      by_cases hc : (!e && decide (0 < burnin % o.interval)) = true
      · simp only [if_pos hc]
        refine runPhase_total hp hs _ _ ?_
        have hi := hre.iter
        have : j * o.interval ≤ burnin / o.interval * o.interval := Nat.mul_le_mul_right _ hj
        omega
      · simp only [if_neg hc]
        exact ⟨_, rfl⟩
    obtain ⟨s2, h2⟩ := hrest
    simp only [hr, h2, bind, Except.bind, burninDiag_returns true (20 * o.interval) (by omega) s2]
    exact ⟨_, rfl⟩

/-- **C120** When the default scheduler (symmetric proposals that never raise, Haario
adaptation, no frozen adaptation) succeeds: the initial array has the right shape, the
burn-in is not longer than the run, the chains divide into pools unless no phase has a full
adaptation block, and there are two chains if the burn-in is long enough for the
convergence test (20 blocks). -/
theorem scheduler_iff (hp : TotalProp env) (hs : o.symmetric = true) (hm : o.method = .haario)
    (hf : o.freeze = false) (hint : 0 < o.interval) (a : InitArr) (rep : Bool)
    (params : Fin m → PropPar d) (scale : Fin m → ℝ) (n burnin : ℕ) :
    (∃ r, scheduler o env a rep params scale n burnin = .ok r) ↔
      (∃ x0, initStates m d a rep = .ok x0) ∧ burnin ≤ n ∧
      ((o.interval ≤ burnin ∨ o.interval ≤ n - burnin) → Pools o m) ∧
      (20 * o.interval ≤ burnin → 2 ≤ m) := by
  have hrun : (∃ r, scheduler o env a rep params scale n burnin = .ok r) ↔
      ∃ s, schedulerRun o env a rep params scale n burnin = .ok s := by
    unfold scheduler
    constructor
    · rintro ⟨r, h⟩
      obtain ⟨s, h, _⟩ := bind_ok h
      exact ⟨s, h⟩
    · rintro ⟨s, h⟩
      rw [h]
      exact ⟨_, rfl⟩
  rw [hrun]
  constructor
  · rintro ⟨s, h⟩
    unfold schedulerRun at h
    obtain ⟨x0, hx0, h⟩ := bind_ok h
    by_cases hn : n < burnin
    · simp only [if_pos hn, bind, Except.bind] at h; cases h
    simp only [if_neg hn] at h
    obtain ⟨s1, h1, h2⟩ := bind_ok h
    have hb := (runBurnin_iff hp hs hm hint burnin (initSt o env x0 params scale n burnin) rfl
      (by simp only [initSt]; omega)).mp ⟨s1, h1⟩
    obtain ⟨k, hk, hr, _⟩ := runBurnin_ok h1
    have hi := hr.iter
    simp only [initSt] at hi
    simp only [hf, Bool.false_eq_true, if_false] at h2
    have ha := (runAdaptive_iff hp hs hm hint (n - burnin) { s1 with hFactor := o.hSampling }
      (by simp only; omega)).mp ⟨s, h2⟩
    refine ⟨⟨x0, hx0⟩, by omega, ?_, hb.2⟩
    rintro (h | h)
    · exact hb.1 h
    · exact ha h
  · rintro ⟨⟨x0, hx0⟩, hn, hpool, h2⟩
    obtain ⟨s1, h1⟩ := (runBurnin_iff hp hs hm hint burnin (initSt o env x0 params scale n burnin) rfl
      (by simp only [initSt]; omega)).mpr ⟨fun h => hpool (Or.inl h), h2⟩
    obtain ⟨k, hk, hr, _⟩ := runBurnin_ok h1
    have hi := hr.iter
    simp only [initSt] at hi
    obtain ⟨s2, hs2⟩ := (runAdaptive_iff hp hs hm hint (n - burnin) { s1 with hFactor := o.hSampling }
      (by simp only; omega)).mpr fun h => hpool (Or.inr h)
    refine ⟨s2, ?_⟩
    unfold schedulerRun
    simp only [hx0, bind, Except.bind, if_neg (not_lt.mpr hn), h1, hf, Bool.false_eq_true, if_false, hs2]

/-- The conditions hold for the default options and two chains, and fail for one chain after
a burn-in of 1000 steps. -/
example (env : Env 1 2 ℝ) (hp : TotalProp env) (env1 : Env 1 1 ℝ) (hp1 : TotalProp env1)
    (par : Fin 2 → PropPar 1) (par1 : Fin 1 → PropPar 1) :
    (∃ r, scheduler { freeze := false } env ⟨1, 1, fun _ _ => 0⟩ true par (fun _ => 1) 3000 1000 = .ok r) ∧
    ¬ ∃ r, scheduler { freeze := false } env1 ⟨1, 1, fun _ _ => 0⟩ true par1 (fun _ => 1) 3000 1000 = .ok r := by
  constructor
  · rw [scheduler_iff hp rfl rfl rfl (by norm_num)]
    exact ⟨⟨_, rfl⟩, by norm_num, fun _ => ⟨by norm_num, by norm_num⟩, fun _ => le_refl _⟩
  · rw [scheduler_iff hp1 rfl rfl rfl (by norm_num)]
    rintro ⟨_, _, _, h⟩
    exact absurd (h (by norm_num)) (by norm_num)

end Verif.MH
