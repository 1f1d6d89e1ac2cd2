import Verif.Mcmc.PropsPosterior
import Verif.Mcmc.PropsMHTotal

/-!
# Posterior sampling by Metropolis-Hastings (C63)
-/

set_option autoImplicit false

namespace Verif.Posterior

open Verif
open Verif.MH (bind_ok)

variable {W : Type}

theorem toInit_ok {m d : ℕ} (x : Fin m → Pt d) : MH.initStates m d (toInit x) true = .ok x := by
  unfold MH.initStates
  have h : ¬ ((toInit x).rows = 1 ∧ (toInit x).cols = d ∧ True ∧ 1 < m) := by
    rintro ⟨h, _, _, h'⟩
    simp only [toInit] at h
    omega
  simp only [true_and] at h ⊢
  rw [if_neg h, if_pos ⟨rfl, rfl⟩]
  congr 1
  funext c j
  simp [toInit, c.2, j.2]

/-- The environment with the log-density of the posterior. -/
noncomputable def withTarget {d m : ℕ} (env : MH.Env d m W) (lp : Pt d → Py Flt) : MH.Env d m W :=
  { env with logTarget := lp }

/-- The sampler run behind a successful call. -/
theorem runMH_ok {k : MHArgs} {s : Setup k.nChains} {env : ∀ d, MH.Env d k.nChains W}
    {r : MHResult k.nChains} (h : runMH k s env = .ok r) :
    k.burnin ≤ k.nSteps ∧ ∃ lp st out, logProb s.crit s.box k.temperature = .ok lp ∧
      MH.scheduler (mhOpts s.d k.nPool) (withTarget (env s.d) lp) (toInit s.theta0) true
        (fun _ => .diag fun _ => 0.1) (MH.initScale (mhOpts s.d k.nPool)) k.nSteps k.burnin =
          .ok (st, out) ∧
      mhReport k.silent (mhOpts s.d k.nPool) st = .ok () ∧
      r = ⟨s.d, st, fun c => (out c).drop st.burnin⟩ := by
  unfold runMH at h
  by_cases hn : k.nSteps < k.burnin
  · rw [if_pos hn] at h; cases h
  rw [if_neg hn] at h
  obtain ⟨lp, hlp, h⟩ := bind_ok h
  obtain ⟨⟨st, out⟩, hs, h⟩ := bind_ok h
  obtain ⟨_, hrep, h⟩ := bind_ok h
  injection h with h
  exact ⟨not_lt.mp hn, lp, st, out, hlp, hs, hrep, h.symm⟩

/-- **C63** A successful call returns, for each chain, `n_steps_total - burnin_period` states
of the chain that starts at its initial state and moves by Metropolis-Hastings steps for
the density `exp(-J/T)` truncated to the box.  Every returned state is the initial one or
is in the box at a point where the criterion has a value. -/
theorem mh_samples {a : Args} {k : MHArgs} {u : ∀ d, Fin k.nChains → Pt d}
    {env : ∀ d, MH.Env d k.nChains W} {r : MHResult k.nChains} (h : sampleMH a k u env = .ok r) :
    ∃ s lp st smp, setup a false k.nChains u = .ok s ∧ r = ⟨s.d, st, smp⟩ ∧
      logProb s.crit s.box k.temperature = .ok lp ∧ k.burnin ≤ k.nSteps ∧
      (∀ c, (smp c).length = k.nSteps - k.burnin) ∧
      (∀ c, st.x c 0 = s.theta0 c) ∧
      (∀ c t, 1 ≤ t → t ≤ st.iter → ∃ par q, MH.mhStep lp true ((env s.d).logProp par) (st.x c (t - 1))
        (some (st.logT c (t - 1))) ((env s.d).prop par (st.x c (t - 1)) ((env s.d).noise t c).1)
        ((env s.d).noise t c).2 = .ok q ∧ st.x c t = q.1) ∧
      (∀ c t, t < k.nSteps - k.burnin → (smp c)[t]? = some (st.x c (st.burnin + t))) ∧
      st.burnin ≤ k.burnin ∧ st.iter = st.burnin + (k.nSteps - k.burnin) ∧
      ∀ c, ∀ p ∈ smp c, p = s.theta0 c ∨
        (¬ Outside s.box p ∧ ∃ w, s.crit s.d p = .ok w ∧ w ≠ .nan) := by
  unfold sampleMH at h
  obtain ⟨s, hs, h⟩ := bind_ok h
  obtain ⟨hn, lp, st, out, hlp, hrun, _, rfl⟩ := runMH_ok h
  have hret := fun c => (MH.scheduler_returns_partial hrun c).1 rfl
  obtain ⟨st', hrun', hst⟩ := bind_ok hrun
  obtain ⟨rfl, _⟩ := Prod.mk.inj (Except.ok.inj hst)
  obtain ⟨_, x0, b, hx, hb, hr, hi, hbb, _⟩ := MH.schedulerRun_ok hrun'
  have hx0 : x0 = s.theta0 := by
    have h1 := hx
    rw [toInit_ok] at h1
    injection h1 with h1
    exact h1.symm
  have hfirst : ∀ c, st'.x c 0 = s.theta0 c := fun c => by
    rw [(hr.frame c 0 (Nat.zero_le _)).1, ← hx0]; rfl
  have hstep := fun c t h0 h1 => MH.scheduler_steps hrun' c t h0 h1
  have hgood : ∀ c t, t ≤ st'.iter → st'.x c t = s.theta0 c ∨
      (¬ Outside s.box (st'.x c t) ∧ ∃ w, s.crit s.d (st'.x c t) = .ok w ∧ w ≠ .nan) := by
    intro c t
    induction t with
    | zero => intro _; exact Or.inl (hfirst c)
    | succ t ih =>
      intro ht
      obtain ⟨par, q, hq, e1, _, _⟩ := hstep c (t + 1) (by omega) ht
      rw [Nat.add_sub_cancel] at hq
      rw [e1]
      rcases MH.mhStep_out hq with ⟨hacc, hprop, _⟩ | ⟨_, hx', _⟩
      · right
        have hbad : ¬ (lp q.1 = .ok .nan ∨ lp q.1 = .ok (.num ⊥) ∨ ∃ e, lp q.1 = .error e) := by
          intro hbad
          rw [hprop] at hq
          have := (MH.mhStep_rejects_bad _ _ _ _ _ _ _ hbad q hq).2
          rw [this] at hacc
          cases hacc
        push Not at hbad
        obtain ⟨b1, b2, b3⟩ := hbad
        cases hv : lp q.1 with
        | error e => exact absurd hv (b3 e)
        | ok v =>
          cases v with
          | nan => exact absurd hv b1
          | num v =>
            exact logProb_proper hlp hv (by rintro rfl; exact b2 hv)
      · rw [hx']
        exact ih (by omega)
  have hlen : ∀ c, ((out c).drop st'.burnin).length = k.nSteps - k.burnin := fun c => by
    rw [List.length_drop, (hret c).1]; omega
  have hget : ∀ c t, t < k.nSteps - k.burnin →
      ((out c).drop st'.burnin)[t]? = some (st'.x c (st'.burnin + t)) := fun c t ht => by
    rw [List.getElem?_drop]
    exact (hret c).2 _ (by omega)
  refine ⟨s, lp, st', fun c => (out c).drop st'.burnin, hs, rfl, hlp, hn, hlen, hfirst, ?_, hget,
    by omega, by omega, ?_⟩
  · intro c t h0 h1
    obtain ⟨par, q, hq, e1, _⟩ := hstep c t h0 h1
    exact ⟨par, q, hq, e1⟩
  · intro c p hp
    obtain ⟨t, ht, rfl⟩ := List.getElem_of_mem hp
    have h1 := hget c t (by rw [← hlen c]; exact ht)
    rw [List.getElem?_eq_getElem ht] at h1
    injection h1 with h1
    rw [h1]
    have ht' : t < k.nSteps - k.burnin := by rw [← hlen c]; exact ht
    exact hgood c _ (by omega)

/-- **C63** Chains that start in the box stay in it. -/
theorem mh_in_box {a : Args} {k : MHArgs} {u : ∀ d, Fin k.nChains → Pt d}
    {env : ∀ d, MH.Env d k.nChains W} {s : Setup k.nChains} (hs : setup a false k.nChains u = .ok s)
    {st : MH.St s.d k.nChains} {smp : Fin k.nChains → List (Pt s.d)}
    (h : sampleMH a k u env = .ok ⟨s.d, st, smp⟩) (h0 : ∀ c, ¬ Outside s.box (s.theta0 c)) :
    ∀ c, ∀ p ∈ smp c, ¬ Outside s.box p := by
  obtain ⟨s', lp, st', smp', hs', hr, _, _, _, _, _, _, _, _, hall⟩ := mh_samples h
  rw [hs] at hs'
  injection hs' with hs'
  subst hs'
  simp only [MHResult.mk.injEq, heq_eq_eq, true_and] at hr
  obtain ⟨rfl, rfl⟩ := hr
  intro c p hp
  rcases hall c p hp with rfl | ⟨h1, _⟩
  · exact h0 c
  · exact h1

/-- **C63** Exactly when sampling succeeds, for proposals that never raise: the preparation
succeeds, the temperature is positive, the burn-in is not longer than the run, the chains
divide into pools as soon as a phase has 50 steps, there are two chains if the burn-in has
1000 steps, and, unless silent, there are two chains and two returned samples. -/
theorem mh_succeeds_iff (a : Args) (k : MHArgs) (u : ∀ d, Fin k.nChains → Pt d)
    (env : ∀ d, MH.Env d k.nChains W) (hp : ∀ d, MH.TotalProp (env d)) :
    (∃ r, sampleMH a k u env = .ok r) ↔
      (∃ s, setup a false k.nChains u = .ok s) ∧ 0 < k.temperature ∧ k.burnin ≤ k.nSteps ∧
      ((50 ≤ k.burnin ∨ 50 ≤ k.nSteps - k.burnin) → k.nPool ≠ 0 ∧ k.nChains % k.nPool = 0) ∧
      (1000 ≤ k.burnin → 2 ≤ k.nChains) ∧
      (k.silent = false → 2 ≤ k.nChains ∧ 2 ≤ k.nSteps - k.burnin) := by
  constructor
  · rintro ⟨r, h⟩
    unfold sampleMH at h
    obtain ⟨s, hs, h⟩ := bind_ok h
    obtain ⟨hn, lp, st, out, hlp, hrun, hrep, _⟩ := runMH_ok h
    have hT : 0 < k.temperature := by
      by_contra hT
      rw [(logProb_spec s.crit s.box k.temperature).1 (not_lt.mp hT)] at hlp
      cases hlp
    have hc := (MH.scheduler_iff (o := mhOpts s.d k.nPool) (env := withTarget (env s.d) lp)
      (fun par x w => hp s.d par x w) rfl rfl rfl (by norm_num [mhOpts]) _ _ _ _ _ _).mp ⟨_, hrun⟩
    refine ⟨⟨s, hs⟩, hT, hn, hc.2.2.1, fun h => hc.2.2.2 (by simpa [mhOpts] using h), fun hsil => ?_⟩
    unfold mhReport at hrep
    rw [hsil] at hrep
    simp only [Bool.false_eq_true, if_false] at hrep
    obtain ⟨b, hb, hrep⟩ := bind_ok hrep
    obtain ⟨b', hb', _⟩ := bind_ok hrep
    have h2 := (MH.checkGR_iff _ _ _ _).mp ⟨b', hb'⟩
    obtain ⟨st', hrun', hst⟩ := bind_ok hrun
    obtain ⟨rfl, _⟩ := Prod.mk.inj (Except.ok.inj hst)
    obtain ⟨_, x0, b, _, _, _, hi, hbb, _⟩ := MH.schedulerRun_ok hrun'
    simp only [MH.sliceStart] at h2
    exact ⟨h2.1, by omega⟩
  · rintro ⟨⟨s, hs⟩, hT, hn, hpool, h1000, hsil⟩
    obtain ⟨lp, hlp, _⟩ := (logProb_spec s.crit s.box k.temperature).2 hT
    obtain ⟨⟨st, out⟩, hrun⟩ := (MH.scheduler_iff (o := mhOpts s.d k.nPool) (env := withTarget (env s.d) lp)
      (fun par x w => hp s.d par x w) rfl rfl rfl (by norm_num [mhOpts]) (toInit s.theta0) true
      (fun _ => .diag fun _ => 0.1) (MH.initScale (mhOpts s.d k.nPool)) k.nSteps k.burnin).mpr
      ⟨⟨_, toInit_ok s.theta0⟩, hn, hpool, fun h => h1000 (by simpa [mhOpts] using h)⟩
    have hrep : mhReport k.silent (mhOpts s.d k.nPool) st = .ok () := by
      unfold mhReport
      cases hv : k.silent with
      | true => rfl
      | false =>
        obtain ⟨c1, c2⟩ := hsil hv
        obtain ⟨st', hrun', hst⟩ := bind_ok hrun
        obtain ⟨rfl, _⟩ := Prod.mk.inj (Except.ok.inj hst)
        obtain ⟨_, x0, b, _, _, _, hi, hbb, _⟩ := MH.schedulerRun_ok hrun'
        obtain ⟨b1, hb1⟩ := (MH.checkAccept_iff st' st'.burnin none
          (fun c t => MH.slidingRate st' (mhOpts s.d k.nPool).width c t) 0.15 0.40).mpr
            (by simp only [MH.sliceStart]; omega)
        obtain ⟨b2, hb2⟩ := (MH.checkGR_iff st' st'.burnin none 1.1).mpr
          ⟨c1, by simp only [MH.sliceStart]; omega⟩
        simp only [Bool.false_eq_true, if_false, hb1, hb2, bind, Except.bind]
        rfl
    refine ⟨⟨s.d, st, fun c => (out c).drop st.burnin⟩, ?_⟩
    have hrun2 : MH.scheduler (mhOpts s.d k.nPool) { env s.d with logTarget := lp } (toInit s.theta0) true
        (fun _ => .diag fun _ => 0.1) (MH.initScale (mhOpts s.d k.nPool)) k.nSteps k.burnin =
          .ok (st, out) := hrun
    unfold sampleMH runMH
    simp only [hs, bind, Except.bind, if_neg (not_lt.mpr hn), hlp, hrun2, hrep, pure, Except.pure]

/-- **C63** With the default pooling factor 2 a single chain cannot be sampled as soon as one
phase has 50 steps; and whatever the pooling factor it cannot with a burn-in of 1000 steps
(the default is 4000), nor when not silent. -/
theorem mh_single_chain_false (a : Args) (k : MHArgs) (u : ∀ d, Fin k.nChains → Pt d)
    (env : ∀ d, MH.Env d k.nChains W) (hp : ∀ d, MH.TotalProp (env d)) (h1 : k.nChains = 1)
    (h : (k.nPool = 2 ∧ 50 ≤ k.burnin) ∨ 1000 ≤ k.burnin ∨ k.silent = false) :
    ∀ r, sampleMH a k u env ≠ .ok r := by
  intro r hr
  obtain ⟨_, _, _, c1, c2, c3⟩ := (mh_succeeds_iff a k u env hp).mp ⟨r, hr⟩
  rcases h with ⟨h, hb⟩ | h | h
  · have := (c1 (Or.inl hb)).2
    rw [h1, h] at this
    norm_num at this
  · have := c2 h; omega
  · have := (c3 h).1; omega

/-- The defaults with a given criterion and a starting point succeed. -/
theorem mh_defaults (f : Crit) (d : ℕ) (x : ℕ → ℝ) (u : ∀ d, Fin 2 → Pt d)
    (env : ∀ d, MH.Env d 2 W) (hp : ∀ d, MH.TotalProp (env d)) :
    ∃ r, sampleMH ⟨none, some f, some (.one d x), false, none, none⟩
      ⟨1, 10000, 4000, 2, 2, false⟩ u env = .ok r := by
  have hset := (setup_accepts ⟨none, some f, some (.one d x), false, none, none⟩ false 2 d u f rfl rfl
      ⟨none, rfl⟩ none rfl).1 x rfl
  refine (mh_succeeds_iff _ ⟨1, 10000, 4000, 2, 2, false⟩ u env hp).mpr ⟨⟨_, hset⟩, ?_, ?_, ?_, ?_, ?_⟩
  · norm_num
  · norm_num
  · intro _; norm_num
  · intro _; norm_num
  · intro _; norm_num

/-- **C63** The returned samples can be outside of `sampling_box`: a chain that starts outside
returns its starting point. -/
theorem mh_in_box_false (f : Crit) (u : ∀ d, Fin 2 → Pt d)
    (env : ∀ d, MH.Env d 2 W) (hp : ∀ d, MH.TotalProp (env d)) :
    ∃ st smp, sampleMH ⟨none, some f, some (.one 1 fun _ => 5), false, none, some [.scalar 0, .scalar 1]⟩
      ⟨1, 1, 0, 2, 2, true⟩ u env = .ok ⟨1, st, smp⟩ ∧
      ∀ c, ∃ p ∈ smp c, Outside (some (fun _ => 0, fun _ => 1)) p := by
  have hset := (setup_accepts ⟨none, some f, some (.one 1 fun _ => 5), false, none,
    some [.scalar 0, .scalar 1]⟩ false 2 1 u f rfl rfl ⟨none, rfl⟩ (some (fun _ => 0, fun _ => 1)) rfl).1 _ rfl
  obtain ⟨r, hr⟩ := (mh_succeeds_iff _ ⟨1, 1, 0, 2, 2, true⟩ u env hp).mpr
    ⟨⟨_, hset⟩, by norm_num, by norm_num, by norm_num, by norm_num, by simp⟩
  obtain ⟨s, lp, st, smp, hs, rfl, _, _, hlen, hfirst, _, hget, hb, _, _⟩ := mh_samples hr
  rw [hset] at hs
  injection hs with hs
  subst hs
  refine ⟨st, smp, hr, fun c => ⟨fun _ => 5, ?_, ⟨_, _, rfl, 0, Or.inr (by norm_num)⟩⟩⟩
  have h0 := hget c 0 (by norm_num)
  have hb0 : st.burnin = 0 := Nat.le_zero.mp hb
  rw [hb0, hfirst c] at h0
  exact List.mem_of_getElem? h0

/-! ## Stored log-densities -/

/-- **C63** The stored log-densities line up with the returned samples: entry `t` after the
burn-in is the log-density of returned sample `t` (except at the initial state, whose entry
is NaN).  There is one entry more than the number of returned samples, for the final
state; after early stopping more entries follow, all NaN. -/
theorem logTargetValues_aligned {a : Args} {k : MHArgs} {u : ∀ d, Fin k.nChains → Pt d}
    {env : ∀ d, MH.Env d k.nChains W} {s : Setup k.nChains} (hs : setup a false k.nChains u = .ok s)
    {lp : Pt s.d → Py Flt} (hlp : logProb s.crit s.box k.temperature = .ok lp)
    {st : MH.St s.d k.nChains} {smp : Fin k.nChains → List (Pt s.d)}
    (h : sampleMH a k u env = .ok ⟨s.d, st, smp⟩) (c : Fin k.nChains) :
    ∃ v w, logTargetValues st true = .ok v ∧ logTargetValues st false = .ok w ∧
      (v c).length = 1 + k.nSteps - st.burnin ∧ (w c).length = 1 + k.nSteps ∧
      (v c) = (w c).drop st.burnin ∧ (w c)[0]? = some .nan ∧
      (∀ t p, (smp c)[t]? = some p → 1 ≤ st.burnin + t →
        (v c)[t]? = some (match lp p with | .ok x => x | .error _ => .num ⊥)) := by
  obtain ⟨s', lp', st', smp', hs', hr, hlp', hn, hlen, _, _, hget, hb, hi, _⟩ := mh_samples h
  rw [hs] at hs'
  injection hs' with hs'
  subst hs'
  rw [hlp] at hlp'
  injection hlp' with hlp'
  subst hlp'
  simp only [MHResult.mk.injEq, heq_eq_eq, true_and] at hr
  obtain ⟨rfl, rfl⟩ := hr
  unfold sampleMH at h
  rw [hs] at h
  change runMH k s env = _ at h
  obtain ⟨_, lp2, st2, out, hlp2, hrun, _, hr2⟩ := runMH_ok h
  rw [hlp] at hlp2
  injection hlp2 with hlp2
  subst hlp2
  simp only [MHResult.mk.injEq, heq_eq_eq, true_and] at hr2
  obtain ⟨rfl, _⟩ := hr2
  obtain ⟨st3, hrun', hst⟩ := bind_ok hrun
  obtain ⟨rfl, _⟩ := Prod.mk.inj (Except.ok.inj hst)
  obtain ⟨hbook, hsize, _⟩ := MH.scheduler_bookkeeping hrun'
  unfold logTargetValues
  simp only [Bool.not_true, Bool.not_false, if_true, Bool.false_eq_true, if_false]
  rw [if_neg (by omega)]
  refine ⟨_, _, rfl, rfl, ?_, ?_, rfl, ?_, ?_⟩
  · simp [hsize]
  · simp [hsize]
  · rw [List.getElem?_map, List.getElem?_range (by omega)]
    simp [hbook.first c]
  · intro t p hp h1
    have ht : t < k.nSteps - k.burnin := by
      rw [← hlen c]
      exact (List.getElem?_eq_some_iff.mp hp).1
    rw [hget c t ht] at hp
    injection hp with hp
    rw [List.getElem?_drop, List.getElem?_map, List.getElem?_range (by omega)]
    simp only [Option.map_some]
    rw [hbook.cached c _ h1 (by omega), hp]
    rfl

/-- **C63** Values after the burn-in are refused exactly when the burn-in exceeds what is
stored, for whatever sampler is given. -/
theorem logTargetValues_raises {d m : ℕ} (s : MH.St d m) (discard : Bool) :
    (∀ e, logTargetValues s discard = .error e → e = .valueError) ∧
    ((∃ v, logTargetValues s discard = .ok v) ↔ discard = false ∨ s.burnin ≤ s.size) := by
  unfold logTargetValues
  cases discard
  · exact ⟨(by intro e h; cases h), ⟨fun _ => Or.inl rfl, fun _ => ⟨_, rfl⟩⟩⟩
  · simp only [Bool.not_true, Bool.false_eq_true, if_false, Bool.true_eq_false, false_or]
    by_cases h : s.size < s.burnin
    · rw [if_pos h]
      refine ⟨(by intro e h; injection h with h; exact h.symm), ⟨?_, fun h' => absurd h (not_lt.mpr h')⟩⟩
      rintro ⟨v, hv⟩
      cases hv
    · rw [if_neg h]
      exact ⟨(by intro e h; cases h), ⟨fun _ => not_lt.mp h, fun _ => ⟨_, rfl⟩⟩⟩

/-- **C63** The documented number of columns, `n_steps - burnin_period`, is not the one
returned. -/
theorem logTargetValues_shape_false {a : Args} {k : MHArgs} {u : ∀ d, Fin k.nChains → Pt d}
    {env : ∀ d, MH.Env d k.nChains W} {s : Setup k.nChains} (hs : setup a false k.nChains u = .ok s)
    {st : MH.St s.d k.nChains} {smp : Fin k.nChains → List (Pt s.d)}
    (h : sampleMH a k u env = .ok ⟨s.d, st, smp⟩) (c : Fin k.nChains) :
    ∃ v w, logTargetValues st true = .ok v ∧ logTargetValues st false = .ok w ∧
      (v c).length ≠ k.nSteps - k.burnin ∧ (w c).length ≠ k.nSteps := by
  obtain ⟨s', lp, st', smp', hs', hr, hlp, hn, _, _, _, _, hb, _, _⟩ := mh_samples h
  rw [hs] at hs'
  injection hs' with hs'
  subst hs'
  simp only [MHResult.mk.injEq, heq_eq_eq, true_and] at hr
  obtain ⟨rfl, rfl⟩ := hr
  obtain ⟨v, w, hv, hw, l1, l2, _⟩ := logTargetValues_aligned hs hlp h c
  exact ⟨v, w, hv, hw, by omega, by omega⟩

/-- The defaults with a proposal that always succeeds. -/
example : ∃ r, sampleMH (W := Unit) ⟨none, some fun _ _ => .ok (.fin 0), some (.one 2 fun _ => 1), false, none, none⟩
    ⟨1, 10000, 4000, 2, 2, false⟩ (fun _ _ _ => 0) (fun _ =>
      { logTarget := fun _ => .ok (.fin 0)
        prop := fun _ x _ => .ok x
        logProp := fun _ _ _ => .ok (.fin 0)
        noise := fun _ _ => ((), 1 / 2)
        junk := fun _ _ _ => 0 }) = .ok r :=
  mh_defaults _ 2 _ _ _ fun _ _ x _ => ⟨x, rfl⟩

end Verif.Posterior
