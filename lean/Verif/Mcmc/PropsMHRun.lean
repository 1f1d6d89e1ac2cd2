import Verif.Mcmc.MH

/-!
# C46, C48, C97: bookkeeping of the Metropolis-Hastings sampler
-/

set_option autoImplicit false

namespace Verif.MH

open Verif

variable {d m : ℕ} {W : Type}

/-! ## Specification -/

/-- What one iteration does: column `iter + 1` of every chain is the outcome of an MH
step from column `iter`; nothing else changes. -/
structure Step (o : Opts d) (env : Env d m W) (s s' : St d m) : Prop where
  iter : s'.iter = s.iter + 1
  room : 0 < m → s.iter + 1 < s.size
  size : s'.size = s.size
  frame : ∀ c t, t ≠ s.iter + 1 →
    s'.x c t = s.x c t ∧ s'.accept c t = s.accept c t ∧ s'.logT c t = s.logT c t
  col : ∀ c, ∃ prop lp u r,
    (∃ par, prop = env.prop par (s.x c s.iter) (env.noise (s.iter + 1) c).1 ∧
      lp = env.logProp par) ∧ u = (env.noise (s.iter + 1) c).2 ∧
    mhStep env.logTarget o.symmetric lp (s.x c s.iter) (some (s.logT c s.iter)) prop u = .ok r ∧
    s'.x c (s.iter + 1) = r.1 ∧ s'.accept c (s.iter + 1) = r.2.1 ∧
    s'.logT c (s.iter + 1) = r.2.2.1

/-- `k` iterations, with any changes of the tuning attributes in between. -/
inductive Reach (o : Opts d) (env : Env d m W) (s : St d m) : St d m → ℕ → Prop where
  | refl : Reach o env s s 0
  | step {s' s'' : St d m} {k : ℕ} : Reach o env s s' k → Step o env s' s'' →
      Reach o env s s'' (k + 1)
  | tune {s' s'' : St d m} {k : ℕ} : Reach o env s s' k → s''.x = s'.x →
      s''.accept = s'.accept → s''.logT = s'.logT → s''.size = s'.size → s''.iter = s'.iter →
      Reach o env s s'' k

variable {o : Opts d} {env : Env d m W}

theorem Reach.trans {s s' s'' : St d m} {k l : ℕ} (h : Reach o env s s' k)
    (h' : Reach o env s' s'' l) : Reach o env s s'' (k + l) := by
  induction h' with
  | refl => exact h
  | step _ hs ih => exact ih.step hs
  | tune _ h1 h2 h3 h4 h5 ih => exact ih.tune h1 h2 h3 h4 h5

theorem Reach.iter {s s' : St d m} {k : ℕ} (h : Reach o env s s' k) :
    s'.iter = s.iter + k ∧ s'.size = s.size := by
  induction h with
  | refl => exact ⟨rfl, rfl⟩
  | step _ hs ih => exact ⟨by rw [hs.iter, ih.1]; rfl, hs.size.trans ih.2⟩
  | tune _ _ _ _ h4 h5 ih => exact ⟨h5.trans ih.1, h4.trans ih.2⟩

/-- The columns already written stay. -/
theorem Reach.frame {s s' : St d m} {k : ℕ} (h : Reach o env s s' k) (c : Fin m) (t : ℕ)
    (ht : t ≤ s.iter) :
    s'.x c t = s.x c t ∧ s'.accept c t = s.accept c t ∧ s'.logT c t = s.logT c t := by
  induction h with
  | refl => exact ⟨rfl, rfl, rfl⟩
  | step h hs ih =>
    have := (Reach.iter h).1
    obtain ⟨h1, h2, h3⟩ := hs.frame c t (by omega)
    exact ⟨h1.trans ih.1, h2.trans ih.2.1, h3.trans ih.2.2⟩
  | tune _ h1 h2 h3 _ _ ih => rw [h1, h2, h3]; exact ih

/-! ## The code refines it -/

theorem stepChain_ok {t : ℕ} {s s' : St d m} {c : Fin m} (h : stepChain o env t s c = .ok s') :
    t < s.size ∧ ∃ r, mhStep env.logTarget o.symmetric (env.logProp (s.params c)) (s.x c (t - 1))
      (some (s.logT c (t - 1))) (env.prop (s.params c) (s.x c (t - 1)) (env.noise t c).1)
      (env.noise t c).2 = .ok r ∧
      s' = { s with
        x := set2 s.x c t r.1
        accept := set2 s.accept c t r.2.1
        logT := set2 s.logT c t r.2.2.1 } := by
  unfold stepChain at h
  by_cases hsz : s.size ≤ t
  · simp only [if_pos hsz, bind, Except.bind] at h
    cases h
  · simp only [if_neg hsz, bind, Except.bind, pure, Except.pure] at h
    refine ⟨not_le.mp hsz, ?_⟩
    generalize mhStep env.logTarget o.symmetric (env.logProp (s.params c)) (s.x c (t - 1))
      (some (s.logT c (t - 1))) (env.prop (s.params c) (s.x c (t - 1)) (env.noise t c).1)
      (env.noise t c).2 = res at h
    cases res with
    | error e => cases h
    | ok r => exact ⟨r, rfl, (Except.ok.inj h).symm⟩

theorem set2_ne {α : Type} (a : Fin m → ℕ → α) {c c' : Fin m} {t t' : ℕ} (v : α)
    (h : c' ≠ c ∨ t' ≠ t) : set2 a c t v c' t' = a c' t' := by
  unfold set2
  rw [if_neg]
  rintro ⟨h1, h2⟩
  rcases h with h | h
  · exact h h1
  · exact h h2

theorem set2_eq {α : Type} (a : Fin m → ℕ → α) (c : Fin m) (t : ℕ) (v : α) :
    set2 a c t v c t = v := by simp [set2]

theorem chains_ok {t : ℕ} (ht : 0 < t) (L : List (Fin m)) (hL : L.Nodup) {s s' : St d m}
    (h : L.foldlM (stepChain o env t) s = .ok s') :
    s'.iter = s.iter ∧ s'.size = s.size ∧ s'.burnin = s.burnin ∧ s'.params = s.params ∧
    s'.scale = s.scale ∧ s'.hFactor = s.hFactor ∧ (L ≠ [] → t < s.size) ∧
    (∀ c t', (c ∉ L ∨ t' ≠ t) →
      s'.x c t' = s.x c t' ∧ s'.accept c t' = s.accept c t' ∧ s'.logT c t' = s.logT c t') ∧
    (∀ c ∈ L, ∃ r, mhStep env.logTarget o.symmetric (env.logProp (s.params c)) (s.x c (t - 1))
      (some (s.logT c (t - 1))) (env.prop (s.params c) (s.x c (t - 1)) (env.noise t c).1)
      (env.noise t c).2 = .ok r ∧
      s'.x c t = r.1 ∧ s'.accept c t = r.2.1 ∧ s'.logT c t = r.2.2.1) := by
  induction L generalizing s with
  | nil =>
    obtain rfl := Except.ok.inj h
    simp
  | cons c L ih =>
    rw [List.foldlM_cons] at h
    cases h1 : stepChain o env t s c with
    | error e => rw [h1] at h; cases h
    | ok s1 =>
      rw [h1] at h
      obtain ⟨hsz, r, hr, hs1⟩ := stepChain_ok h1
      obtain ⟨hc, hL'⟩ := List.nodup_cons.mp hL
      obtain ⟨i1, i2, i3, i4, i5, i6, _, i8, i9⟩ := ih hL' h
      have ht1 : t - 1 ≠ t := by omega
      subst hs1
      refine ⟨i1, i2, i3, i4, i5, i6, fun _ => hsz, ?_, ?_⟩
      · intro c' t' hct
        have hor : c' ∉ L ∨ t' ≠ t := by
          rcases hct with h | h
          · exact Or.inl fun h' => h (List.mem_cons_of_mem _ h')
          · exact Or.inr h
        have hne : c' ≠ c ∨ t' ≠ t := by
          rcases hct with h | h
          · exact Or.inl fun h' => h (h' ▸ List.mem_cons_self)
          · exact Or.inr h
        obtain ⟨j1, j2, j3⟩ := i8 c' t' hor
        exact ⟨j1.trans (set2_ne _ _ hne), j2.trans (set2_ne _ _ hne), j3.trans (set2_ne _ _ hne)⟩
      · intro c' hc'
        rcases List.mem_cons.mp hc' with rfl | hmem
        · obtain ⟨j1, j2, j3⟩ := i8 c' t (Or.inl hc)
          exact ⟨r, hr, j1.trans (set2_eq _ _ _ _), j2.trans (set2_eq _ _ _ _),
            j3.trans (set2_eq _ _ _ _)⟩
        · obtain ⟨r', hr', j⟩ := i9 c' hmem
          dsimp only at hr'
          rw [set2_ne _ _ (Or.inr ht1), set2_ne _ _ (Or.inr ht1)] at hr'
          exact ⟨r', hr', j⟩

theorem stepAll_ok {s s' : St d m} (h : stepAll o env s (s.iter + 1) = .ok s') :
    Step o env s s' ∧ s'.burnin = s.burnin ∧ s'.params = s.params ∧ s'.scale = s.scale ∧
      s'.hFactor = s.hFactor := by
  unfold stepAll at h
  cases h1 : (List.finRange m).foldlM (stepChain o env (s.iter + 1)) s with
  | error e => rw [h1] at h; cases h
  | ok s1 =>
    rw [h1] at h
    simp only [bind, Except.bind, pure, Except.pure] at h
    obtain rfl := Except.ok.inj h
    obtain ⟨i1, i2, i3, i4, i5, i6, i7, i8, i9⟩ :=
      chains_ok (t := s.iter + 1) (Nat.succ_pos _) _ (List.nodup_finRange m) h1
    refine ⟨⟨by simp only [i1], ?_, i2, ?_, ?_⟩, i3, i4, i5, i6⟩
    · intro hm
      refine i7 fun h0 => ?_
      have := congrArg List.length h0
      simp at this
      omega
    · intro c t ht
      exact i8 c t (Or.inr ht)
    · intro c
      obtain ⟨r, hr, j⟩ := i9 c (List.mem_finRange c)
      rw [Nat.add_sub_cancel] at hr
      exact ⟨_, _, _, r, ⟨s.params c, rfl, rfl⟩, rfl, hr, j⟩

/-- Successful blocks of `n` steps. -/
theorem runSamples_ok {n : ℕ} {s s' : St d m} (h : runSamples o env n s = .ok s') :
    Reach o env s s' n ∧ s'.burnin = s.burnin ∧ s'.params = s.params ∧ s'.scale = s.scale ∧
      s'.hFactor = s.hFactor := by
  unfold runSamples at h
  induction n generalizing s with
  | zero =>
    obtain rfl := Except.ok.inj h
    exact ⟨.refl, rfl, rfl, rfl, rfl⟩
  | succ n ih =>
    rw [List.range'_succ, List.foldlM_cons] at h
    cases h1 : stepAll o env s (s.iter + 1) with
    | error e => rw [h1] at h; cases h
    | ok s1 =>
      rw [h1] at h
      obtain ⟨hs, b1, b2, b3, b4⟩ := stepAll_ok h1
      have h' : (List.range' (s1.iter + 1) n).foldlM (stepAll o env) s1 = .ok s' := by
        rw [hs.iter]; exact h
      obtain ⟨hr, c1, c2, c3, c4⟩ := ih h'
      refine ⟨?_, c1.trans b1, c2.trans b2, c3.trans b3, c4.trans b4⟩
      have := (Reach.refl.step hs).trans hr
      rw [Nat.zero_add, Nat.add_comm] at this
      exact this

/-- Chain a computation that succeeded. -/
theorem bind_ok {α β : Type} {a : Py α} {f : α → Py β} {b : β} (h : (a >>= f) = .ok b) :
    ∃ x, a = .ok x ∧ f x = .ok b := by
  cases a with
  | error e => cases h
  | ok x => exact ⟨x, rfl, h⟩

theorem runRM_ok {n : ℕ} {dim : Bool} {s s' : St d m} (h : runRM o env n dim s = .ok s') :
    Reach o env s s' n ∧ s'.burnin = s.burnin := by
  obtain ⟨s1, h1, h2⟩ := bind_ok h
  obtain ⟨g, _, h3⟩ := bind_ok h2
  obtain ⟨hr, hb, _⟩ := runSamples_ok h1
  obtain rfl := Except.ok.inj h3
  exact ⟨hr.tune rfl rfl rfl rfl rfl, hb⟩

theorem runHaario_ok {n : ℕ} {s s' : St d m} (h : runHaario o env n s = .ok s') :
    Reach o env s s' n ∧ s'.burnin = s.burnin ∧ o.nPool ≠ 0 ∧ m % o.nPool = 0 := by
  obtain ⟨s1, h1, h2⟩ := bind_ok h
  obtain ⟨hr, hb, _⟩ := runSamples_ok h1
  by_cases hp : o.nPool = 0
  · simp only [if_pos hp, bind, Except.bind] at h2; cases h2
  by_cases hq : m % o.nPool ≠ 0
  · simp only [if_neg hp, if_pos hq, bind, Except.bind, pure, Except.pure] at h2; cases h2
  simp only [if_neg hp, if_neg hq, bind, Except.bind, pure, Except.pure] at h2
  obtain rfl := Except.ok.inj h2
  exact ⟨hr.tune rfl rfl rfl rfl rfl, hb, hp, not_not.mp hq⟩

theorem runBlock_ok {dim : Bool} {s s' : St d m} (h : runBlock o env dim s = .ok s') :
    Reach o env s s' o.interval ∧ s'.burnin = s.burnin := by
  unfold runBlock at h
  cases hm : o.method with
  | rm => rw [hm] at h; exact runRM_ok h
  | haario => rw [hm] at h; exact ⟨(runHaario_ok h).1, (runHaario_ok h).2.1⟩
  | other => rw [hm] at h; cases h

theorem adaptBlocks_ok {k : ℕ} {s s' : St d m} (h : adaptBlocks o env k s = .ok s') :
    Reach o env s s' (k * o.interval) ∧ s'.burnin = s.burnin := by
  induction k generalizing s with
  | zero => obtain rfl := Except.ok.inj h; rw [Nat.zero_mul]; exact ⟨.refl, rfl⟩
  | succ k ih =>
    obtain ⟨s1, h1, h2⟩ := bind_ok h
    obtain ⟨r1, b1⟩ := runBlock_ok h1
    obtain ⟨r2, b2⟩ := ih h2
    refine ⟨?_, b2.trans b1⟩
    have := r1.trans r2
    rwa [show o.interval + k * o.interval = (k + 1) * o.interval by ring] at this

theorem runAdaptive_ok {n : ℕ} {s s' : St d m} (h : runAdaptive o env n s = .ok s') :
    Reach o env s s' n ∧ s'.burnin = s.burnin := by
  unfold runAdaptive at h
  by_cases hi : o.interval = 0
  · simp only [if_pos hi, bind, Except.bind] at h; cases h
  simp only [if_neg hi] at h
  obtain ⟨s1, h1, h2⟩ := bind_ok h
  obtain ⟨r1, b1⟩ := adaptBlocks_ok h1
  have hn := Nat.div_add_mod n o.interval
  by_cases hr : 0 < n % o.interval
  · rw [if_pos hr] at h2
    obtain ⟨r2, b2, _⟩ := runSamples_ok h2
    have := r1.trans r2
    rw [Nat.mul_comm, hn] at this
    exact ⟨this, b2.trans b1⟩
  · rw [if_neg hr] at h2
    obtain rfl := Except.ok.inj h2
    rw [show n / o.interval * o.interval = n by rw [Nat.mul_comm]; omega] at r1
    exact ⟨r1, b1⟩

theorem burninBlocks_ok {diag : Bool} {nDiag k : ℕ} {s s' : St d m} {e : Bool}
    (h : burninBlocks o env diag nDiag k s = .ok (s', e)) :
    ∃ j, j ≤ k ∧ Reach o env s s' (j * o.interval) ∧
      (e = false → j = k ∧ s'.burnin = s.burnin) ∧
      (e = true → s'.burnin = s'.iter ∧ diag = true ∧ nDiag ≤ s'.iter) := by
  induction k generalizing s with
  | zero =>
    have := Except.ok.inj h
    obtain ⟨rfl, rfl⟩ := Prod.mk.inj this
    exact ⟨0, le_refl _, by rw [Nat.zero_mul]; exact .refl, fun _ => ⟨rfl, rfl⟩, by simp⟩
  | succ k ih =>
    unfold burninBlocks at h
    obtain ⟨s1, h1, h2⟩ := bind_ok h
    obtain ⟨r1, b1⟩ := runBlock_ok h1
    have more : ∀ (h : burninBlocks o env diag nDiag k s1 = .ok (s', e)),
        ∃ j, j ≤ k + 1 ∧ Reach o env s s' (j * o.interval) ∧
          (e = false → j = k + 1 ∧ s'.burnin = s.burnin) ∧
          (e = true → s'.burnin = s'.iter ∧ diag = true ∧ nDiag ≤ s'.iter) := by
      intro h
      obtain ⟨j, hj, hr, hf, ht⟩ := ih h
      refine ⟨j + 1, by omega, ?_, fun he => ⟨by rw [(hf he).1], (hf he).2.trans b1⟩, ht⟩
      have := r1.trans hr
      rwa [show o.interval + j * o.interval = (j + 1) * o.interval by ring] at this
    by_cases hd : (diag && decide (nDiag ≤ s1.iter)) = true
    · simp only [if_pos hd] at h2
      obtain ⟨stop, _, h3⟩ := bind_ok h2
      cases stop with
      | true =>
        simp only [if_true] at h3
        obtain ⟨rfl, rfl⟩ := Prod.mk.inj (Except.ok.inj h3)
        have hd' : diag = true ∧ nDiag ≤ s1.iter := by simpa using hd
        refine ⟨1, by omega, ?_, by simp, fun _ => ⟨rfl, hd'⟩⟩
        rw [Nat.one_mul]
        exact r1.tune rfl rfl rfl rfl rfl
      | false =>
        simp only [Bool.false_eq_true, if_false] at h3
        exact more h3
    · simp only [if_neg hd] at h2
      exact more h2

theorem runBurnin_ok {burnin nb : ℕ} {diag : Bool} {s s' : St d m}
    (h : runBurnin o env burnin diag nb s = .ok s') :
    ∃ k, k ≤ burnin ∧ Reach o env s s' k ∧ ((k = burnin ∧ s'.burnin = s.burnin) ∨
      (diag = true ∧ s'.burnin = s'.iter ∧ nb * o.interval ≤ s'.iter)) := by
  unfold runBurnin at h
  by_cases hi : o.interval = 0
  · simp only [if_pos hi, bind, Except.bind] at h; cases h
  simp only [if_neg hi] at h
  obtain ⟨⟨s1, e⟩, h1, h2⟩ := bind_ok h
  obtain ⟨s2, h3, h4⟩ := bind_ok h2
  obtain ⟨_, _, h5⟩ := bind_ok h4
  obtain rfl := Except.ok.inj h5
  unfold burninRest at h3
  obtain ⟨j, hj, hr, hf, ht⟩ := burninBlocks_ok h1
  have hn := Nat.div_add_mod burnin o.interval
  have hjb : j * o.interval ≤ burnin :=
    (Nat.mul_le_mul_right _ hj).trans (by rw [Nat.mul_comm]; omega)
  cases e with
  | true =>
    simp only [Bool.not_true, Bool.false_and, Bool.false_eq_true, if_false] at h3
    obtain rfl := Except.ok.inj h3
    exact ⟨j * o.interval, hjb, hr, Or.inr ⟨(ht rfl).2.1, (ht rfl).1, (ht rfl).2.2⟩⟩
  | false =>
    obtain ⟨rfl, hb⟩ := hf rfl
    by_cases h0 : 0 < burnin % o.interval
    · simp only [Bool.not_false, Bool.true_and, decide_eq_true_eq, if_pos h0] at h3
      obtain ⟨r2, b2, _⟩ := runSamples_ok h3
      have := hr.trans r2
      rw [Nat.mul_comm, hn] at this
      exact ⟨burnin, le_refl _, this, Or.inl ⟨rfl, b2.trans hb⟩⟩
    · simp only [Bool.not_false, Bool.true_and, decide_eq_true_eq, if_neg h0] at h3
      obtain rfl := Except.ok.inj h3
      rw [show burnin / o.interval * o.interval = burnin by rw [Nat.mul_comm]; omega] at hr
      exact ⟨burnin, le_refl _, hr, Or.inl ⟨rfl, hb⟩⟩

/-- **C46** A scheduler run that returns has made `burnin` (or fewer, after early
stopping) plus `n - burnin` steps from the initial states, the recorded burn-in being the
number of burn-in steps made. -/
theorem schedulerRun_ok {a : InitArr} {rep : Bool} {params : Fin m → PropPar d}
    {scale : Fin m → ℝ} {n burnin : ℕ} {s : St d m}
    (h : schedulerRun o env a rep params scale n burnin = .ok s) :
    burnin ≤ n ∧ ∃ x0 b, initStates m d a rep = .ok x0 ∧ b ≤ burnin ∧
      Reach o env (initSt o env x0 params scale n burnin) s (b + (n - burnin)) ∧
      s.iter = b + (n - burnin) ∧ s.burnin = b ∧ (b < burnin → 20 * o.interval ≤ b) := by
  unfold schedulerRun at h
  obtain ⟨x0, hx0, h⟩ := bind_ok h
  by_cases hn : n < burnin
  · simp only [if_pos hn, bind, Except.bind] at h; cases h
  simp only [if_neg hn] at h
  obtain ⟨s1, h1, h2⟩ := bind_ok h
  obtain ⟨k, hk, hr, hc⟩ := runBurnin_ok h1
  have hit := hr.iter.1
  have hit0 : s1.iter = k := by rw [hit]; exact Nat.zero_add k
  have hs : Reach o env (initSt o env x0 params scale n burnin) s (k + (n - burnin)) ∧
      s.burnin = s1.burnin := by
    cases hf : o.freeze with
    | true =>
      simp only [hf, if_true] at h2
      obtain ⟨r2, b2, _⟩ := runSamples_ok h2
      exact ⟨hr.trans r2, b2⟩
    | false =>
      simp only [hf, Bool.false_eq_true, if_false] at h2
      obtain ⟨r2, b2⟩ := runAdaptive_ok h2
      exact ⟨(hr.tune (s'' := { s1 with hFactor := o.hSampling }) rfl rfl rfl rfl rfl).trans r2, b2⟩
  refine ⟨not_lt.mp hn, x0, k, hx0, hk, hs.1, ?_, ?_, ?_⟩
  · rw [hs.1.iter.1]; exact Nat.zero_add _
  · rcases hc with ⟨rfl, hb⟩ | ⟨_, hb, _⟩
    · exact hs.2.trans hb
    · rw [hs.2, hb, hit0]
  · intro hlt
    rcases hc with ⟨rfl, _⟩ | ⟨_, _, hb⟩
    · exact absurd hlt (lt_irrefl _)
    · rw [hit0] at hb; exact hb

/-! ## C46: the bookkeeping invariant -/

/-- The invariant. -/
structure Book (env : Env d m W) (s : St d m) : Prop where
  first : ∀ c, s.logT c 0 = .nan
  cached : ∀ c t, 1 ≤ t → t ≤ s.iter → s.logT c t = evalTarget env.logTarget (s.x c t)
  moved : ∀ c t, 1 ≤ t → t ≤ s.iter →
    (s.accept c t = false → s.x c t = s.x c (t - 1)) ∧
    (s.accept c t = true → ∃ par, env.prop par (s.x c (t - 1)) (env.noise t c).1 = .ok (s.x c t))

theorem mhStep_out {X : Type} {lt : X → Py Flt} {sym : Bool} {lq : X → X → Py Flt} {x : X}
    {cached : Option Flt} {prop : Py X} {u : ℝ} {r : X × Bool × Flt × Flt}
    (h : mhStep lt sym lq x cached prop u = .ok r) :
    (r.2.1 = true ∧ prop = .ok r.1 ∧ r.2.2.1 = evalTarget lt r.1) ∨
    (r.2.1 = false ∧ r.1 = x ∧ r.2.2.1 = currentTarget lt x cached) := by
  classical
  unfold mhStep at h
  obtain ⟨y, hy, h⟩ := bind_ok h
  obtain ⟨la, _, h⟩ := bind_ok h
  dsimp only at h
  by_cases hl : (Flt.fin (Real.log (max u uFloor))).lt la
  · simp only [if_pos hl, pure, Except.pure] at h
    obtain rfl := Except.ok.inj h
    exact Or.inl ⟨rfl, hy, rfl⟩
  · simp only [if_neg hl, pure, Except.pure, bind, Except.bind] at h
    obtain rfl := Except.ok.inj h
    exact Or.inr ⟨rfl, rfl, rfl⟩

theorem Book.step {s s' : St d m} (hb : Book env s) (hs : Step o env s s') : Book env s' := by
  have hne : ∀ {t}, t ≤ s.iter → t ≠ s.iter + 1 := by intro t h; omega
  refine ⟨fun c => ?_, fun c t h1 h2 => ?_, fun c t h1 h2 => ?_⟩
  · rw [(hs.frame c 0 (by omega)).2.2]; exact hb.first c
  · rw [hs.iter] at h2
    rcases Nat.lt_or_ge s.iter t with hlt | hle
    · obtain rfl : t = s.iter + 1 := by omega
      obtain ⟨prop, lp, u, r, _, _, hr, e1, e2, e3⟩ := hs.col c
      rw [e1, e3]
      rcases mhStep_out hr with ⟨_, _, h⟩ | ⟨_, hx, h⟩
      · exact h
      · rw [h, hx]
        rcases Nat.eq_zero_or_pos s.iter with h0 | h0
        · rw [h0, hb.first c]; rfl
        · have := hb.cached c s.iter h0 (le_refl _)
          rw [this]
          cases hv : evalTarget env.logTarget (s.x c s.iter) with
          | nan => simp only [currentTarget]; exact hv
          | num v => rfl
    · obtain ⟨f1, _, f3⟩ := hs.frame c t (hne hle)
      rw [f1, f3]; exact hb.cached c t h1 hle
  · rw [hs.iter] at h2
    rcases Nat.lt_or_ge s.iter t with hlt | hle
    · obtain rfl : t = s.iter + 1 := by omega
      obtain ⟨prop, lp, u, r, ⟨par, hp, _⟩, _, hr, e1, e2, e3⟩ := hs.col c
      rw [Nat.add_sub_cancel, (hs.frame c s.iter (by omega)).1, e1, e2]
      rcases mhStep_out hr with ⟨ha, hy, h⟩ | ⟨ha, hx, h⟩
      · rw [ha]
        exact ⟨by simp, fun _ => ⟨par, by rw [← hp, hy]⟩⟩
      · rw [ha]
        exact ⟨fun _ => hx, by simp⟩
    · obtain ⟨f1, f2, _⟩ := hs.frame c t (hne hle)
      rw [f1, f2, (hs.frame c (t - 1) (by omega)).1]
      exact hb.moved c t h1 hle

theorem Book.reach {s s' : St d m} {k : ℕ} (hb : Book env s) (h : Reach o env s s' k) :
    Book env s' := by
  induction h with
  | refl => exact hb
  | step _ hs ih => exact ih.step hs
  | tune _ h1 h2 h3 _ h5 ih =>
    exact ⟨by rw [h3]; exact ih.first, by rw [h1, h3, h5]; exact ih.cached,
      by rw [h1, h2, h5]; exact ih.moved⟩

theorem Book.init (x0 : Fin m → Pt d) (params : Fin m → PropPar d) (scale : Fin m → ℝ)
    (n burnin : ℕ) : Book env (initSt o env x0 params scale n burnin) :=
  ⟨fun _ => rfl, fun _ t h1 h2 => by simp only [initSt] at h2; omega,
    fun _ t h1 h2 => by simp only [initSt] at h2; omega⟩

/-- **C46** After any sequence of sampling blocks (and any retuning in between) from a
fresh sampler: the counter is the number of steps; every stored state after the initial
one has its own log-target cached (the initial one has NaN); a state differs from the
previous one only at accepted steps, where it is the proposal; the initial state and
all earlier columns are kept. -/
theorem runs_bookkeeping (x0 : Fin m → Pt d) (params : Fin m → PropPar d) (scale : Fin m → ℝ)
    (n burnin : ℕ) (blocks : List (ℕ × (Fin m → PropPar d))) (s : St d m)
    (h : blocks.foldlM (fun s b => runSamples o env b.1 { s with params := b.2 })
      (initSt o env x0 params scale n burnin) = .ok s) :
    s.iter = (blocks.map Prod.fst).sum ∧ Book env s ∧ ∀ c, s.x c 0 = x0 c := by
  have key : ∀ (blocks : List (ℕ × (Fin m → PropPar d))) (s0 s : St d m),
      blocks.foldlM (fun s b => runSamples o env b.1 { s with params := b.2 }) s0 = .ok s →
      Reach o env s0 s (blocks.map Prod.fst).sum := by
    intro blocks
    induction blocks with
    | nil => intro s0 s h; obtain rfl := Except.ok.inj h; exact .refl
    | cons b bs ih =>
      intro s0 s h
      rw [List.foldlM_cons] at h
      obtain ⟨s1, h1, h2⟩ := bind_ok h
      have r0 : Reach o env s0 { s0 with params := b.2 } 0 := Reach.refl.tune rfl rfl rfl rfl rfl
      have r1 := r0.trans (runSamples_ok h1).1
      have := r1.trans (ih s1 s h2)
      rw [Nat.zero_add] at this
      simpa using this
  have hr := key blocks _ s h
  refine ⟨?_, (Book.init x0 params scale n burnin).reach hr, fun c => ?_⟩
  · rw [hr.iter.1]; exact Nat.zero_add _
  · exact (hr.frame c 0 (Nat.zero_le _)).1

/-- **C46** The same for `scheduler`. -/
theorem scheduler_bookkeeping {a : InitArr} {rep : Bool} {params : Fin m → PropPar d}
    {scale : Fin m → ℝ} {n burnin : ℕ} {s : St d m}
    (h : schedulerRun o env a rep params scale n burnin = .ok s) :
    Book env s ∧ s.size = 1 + n ∧ s.iter ≤ n ∧ (burnin < 20 * o.interval → s.iter = n) ∧
      ∃ x0, initStates m d a rep = .ok x0 ∧ ∀ c, s.x c 0 = x0 c := by
  obtain ⟨hn, x0, b, hx, hb, hr, hi, _, hlt⟩ := schedulerRun_ok h
  refine ⟨(Book.init x0 params scale n burnin).reach hr, hr.iter.2, by omega, fun hbi => ?_,
    x0, hx, fun c => (hr.frame c 0 (Nat.zero_le _)).1⟩
  by_cases hlt' : b < burnin
  · have := hlt hlt'; omega
  · omega

/-- Each new column is the outcome of a Metropolis-Hastings step from the column before
it, with that column's cached value and the draws of that iteration. -/
theorem Reach.col {s s' : St d m} {k : ℕ} (h : Reach o env s s' k) (c : Fin m) (t : ℕ)
    (h0 : s.iter < t) (h1 : t ≤ s'.iter) :
    ∃ par r, mhStep env.logTarget o.symmetric (env.logProp par) (s'.x c (t - 1))
        (some (s'.logT c (t - 1))) (env.prop par (s'.x c (t - 1)) (env.noise t c).1)
        (env.noise t c).2 = .ok r ∧
      s'.x c t = r.1 ∧ s'.accept c t = r.2.1 ∧ s'.logT c t = r.2.2.1 := by
  induction h with
  | refl => omega
  | @step s1 s2 k hr hs ih =>
    rw [hs.iter] at h1
    obtain ⟨f1, _, f3⟩ := hs.frame c (t - 1) (by omega)
    by_cases ht : t = s1.iter + 1
    · subst ht
      obtain ⟨prop, lp, u, r, ⟨par, rfl, rfl⟩, rfl, hr, e⟩ := hs.col c
      rw [Nat.add_sub_cancel] at f1 f3 ⊢
      rw [f1, f3]
      exact ⟨par, r, hr, e⟩
    · obtain ⟨par, r, hr, e1, e2, e3⟩ := ih (by omega)
      obtain ⟨g1, g2, g3⟩ := hs.frame c t ht
      rw [f1, f3, g1, g2, g3]
      exact ⟨par, r, hr, e1, e2, e3⟩
  | tune _ g1 g2 g3 _ g5 ih =>
    rw [g5] at h1
    rw [g1, g2, g3]
    exact ih h1

/-- **C46** Every recorded state of a `scheduler` run after the initial one comes from
one Metropolis-Hastings step from the state before. -/
theorem scheduler_steps {a : InitArr} {rep : Bool} {params : Fin m → PropPar d}
    {scale : Fin m → ℝ} {n burnin : ℕ} {s : St d m}
    (h : schedulerRun o env a rep params scale n burnin = .ok s) (c : Fin m) (t : ℕ) (h0 : 1 ≤ t)
    (h1 : t ≤ s.iter) :
    ∃ par r, mhStep env.logTarget o.symmetric (env.logProp par) (s.x c (t - 1))
        (some (s.logT c (t - 1))) (env.prop par (s.x c (t - 1)) (env.noise t c).1)
        (env.noise t c).2 = .ok r ∧
      s.x c t = r.1 ∧ s.accept c t = r.2.1 ∧ s.logT c t = r.2.2.1 := by
  obtain ⟨hn, x0, b, hx, hb, hr, hi, _, _⟩ := schedulerRun_ok h
  exact hr.col c t h0 h1

/-- **C97** What `scheduler` returns with `discard_burnin=False`: the states at
iterations `0 … iter - 1`; the final state of each chain is left out. -/
theorem scheduler_returns_partial {a : InitArr} {rep : Bool} {params : Fin m → PropPar d}
    {scale : Fin m → ℝ} {n burnin : ℕ} {s : St d m} {out : Fin m → List (Pt d)}
    (h : scheduler o env a rep params scale n burnin = .ok (s, out)) (c : Fin m) :
    (o.discard = false → (out c).length = s.iter ∧ ∀ t, t < s.iter → (out c)[t]? = some (s.x c t)) ∧
    (o.discard = true → (out c).length = n - burnin ∧
      ∀ t, t < n - burnin → (out c)[t]? = some (s.x c (s.burnin + t))) := by
  obtain ⟨s1, h1, h2⟩ := bind_ok h
  obtain ⟨rfl, rfl⟩ := Prod.mk.inj (Except.ok.inj h2)
  obtain ⟨hn, x0, b, hx, hb, hr, hi, hbb, _⟩ := schedulerRun_ok h1
  constructor
  · intro hd
    rw [hd]
    simp only [Bool.false_eq_true, if_false, List.length_map, List.length_range', Nat.sub_zero,
      true_and]
    intro t ht
    simp [ht]
  · intro hd
    rw [hd]
    have : s1.iter - s1.burnin = n - burnin := by omega
    simp only [if_true, List.length_map, List.length_range', this, true_and]
    intro t ht
    simp [ht]

/-- **C46** The initial array is accepted exactly when it has one column per coordinate and
either one row per chain or, with replication on, a single row shared by all chains;
otherwise the error is `ValueError`. -/
theorem initStates_spec (m d : ℕ) (a : InitArr) (rep : Bool) :
    (∃ x0, initStates m d a rep = .ok x0 ∧ a.cols = d ∧
        ((a.rows = m ∧ ∀ c j, x0 c j = a.val c j) ∨
          (a.rows = 1 ∧ rep = true ∧ 1 < m ∧ ∀ c j, x0 c j = a.val 0 j))) ∨
      (initStates m d a rep = .error .valueError ∧
        ¬ (a.cols = d ∧ (a.rows = m ∨ (a.rows = 1 ∧ rep = true ∧ 1 < m)))) := by
  unfold initStates
  by_cases h : a.rows = 1 ∧ a.cols = d ∧ rep = true ∧ 1 < m
  · rw [if_pos h]
    exact Or.inl ⟨_, rfl, h.2.1, Or.inr ⟨h.1, h.2.2.1, h.2.2.2, fun _ _ => rfl⟩⟩
  · rw [if_neg h]
    by_cases h2 : a.rows = m ∧ a.cols = d
    · rw [if_pos h2]
      exact Or.inl ⟨_, rfl, h2.2, Or.inl ⟨h2.1, fun _ _ => rfl⟩⟩
    · rw [if_neg h2]
      refine Or.inr ⟨rfl, ?_⟩
      rintro ⟨h3, h4 | ⟨h4, h5, h6⟩⟩
      · exact h2 ⟨h4, h3⟩
      · exact h ⟨h4, h3, h5, h6⟩

/-- The three outcomes occur. -/
example : (∃ x0, initStates 2 1 ⟨2, 1, fun c _ => c⟩ false = .ok x0 ∧ x0 1 0 = 1) ∧
    (∃ x0, initStates 2 1 ⟨1, 1, fun _ _ => 5⟩ true = .ok x0 ∧ x0 1 0 = 5) ∧
    initStates 2 1 ⟨1, 1, fun _ _ => 5⟩ false = .error .valueError := by
  refine ⟨⟨fun c _ => c, by simp [initStates], by simp⟩, ⟨fun _ _ => 5, by simp [initStates], rfl⟩, by simp [initStates]⟩

end Verif.MH
