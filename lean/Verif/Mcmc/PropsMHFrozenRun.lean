import Verif.Mcmc.PropsMHFrozen
import Mathlib.Probability.Independence.InfinitePi

/-!
# C268: runs of the scheduler with frozen adaptation
-/

set_option autoImplicit false

namespace Verif.MH

open Verif Matrix MeasureTheory ProbabilityTheory
open scoped ENNReal

variable {d m : ℕ} {W : Type} {o : Opts d} {env env' : Env d m W}

/-! ## Burn-in uses the draws of its own iterations only, and no more room than it needs -/

/-- The same environment up to iteration `K`. -/
structure Agrees (K : ℕ) (env env' : Env d m W) : Prop where
  target : env'.logTarget = env.logTarget
  prop : env'.prop = env.prop
  logProp : env'.logProp = env.logProp
  noise : ∀ t ≤ K, env'.noise t = env.noise t

/-- The same state in arrays of another size. -/
def resize (k : ℕ) (s : St d m) : St d m := { s with size := k }

theorem stepChain_sim {K k t : ℕ} (ha : Agrees K env env') (ht : t ≤ K) (hk : t < k) {s s' : St d m} {c : Fin m}
    (h : stepChain o env t s c = .ok s') : stepChain o env' t (resize k s) c = .ok (resize k s') := by
  obtain ⟨_, r, hr, rfl⟩ := stepChain_ok h
  unfold stepChain
  have hsz : ¬ (resize k s).size ≤ t := not_le.mpr hk
  simp only [if_neg hsz, ha.target, ha.prop, ha.logProp, ha.noise t ht]
  change (do
    let r ← mhStep env.logTarget o.symmetric (env.logProp (s.params c)) (s.x c (t - 1))
      (some (s.logT c (t - 1))) (env.prop (s.params c) (s.x c (t - 1)) (env.noise t c).1) (env.noise t c).2
    return _) = _
  rw [hr]
  rfl

theorem chains_sim {K k t : ℕ} (ha : Agrees K env env') (ht : t ≤ K) (hk : t < k) (l : List (Fin m)) {s s' : St d m}
    (h : l.foldlM (stepChain o env t) s = .ok s') :
    l.foldlM (stepChain o env' t) (resize k s) = .ok (resize k s') := by
  induction l generalizing s with
  | nil =>
    obtain rfl := Except.ok.inj h
    rfl
  | cons c l ih =>
    rw [List.foldlM_cons] at h ⊢
    obtain ⟨s1, h1, h2⟩ := bind_ok h
    rw [stepChain_sim ha ht hk h1]
    exact ih h2

theorem stepAll_sim {K k t : ℕ} (ha : Agrees K env env') (ht : t ≤ K) (hk : t < k) {s s' : St d m}
    (h : stepAll o env s t = .ok s') : stepAll o env' (resize k s) t = .ok (resize k s') := by
  unfold stepAll at h ⊢
  obtain ⟨s1, h1, h2⟩ := bind_ok h
  rw [chains_sim ha ht hk _ h1]
  obtain rfl := Except.ok.inj h2
  rfl

theorem steps_sim {K k : ℕ} (ha : Agrees K env env') (l : List ℕ) (hl : ∀ t ∈ l, t ≤ K ∧ t < k) {s s' : St d m}
    (h : l.foldlM (stepAll o env) s = .ok s') : l.foldlM (stepAll o env') (resize k s) = .ok (resize k s') := by
  induction l generalizing s with
  | nil =>
    obtain rfl := Except.ok.inj h
    rfl
  | cons t l ih =>
    rw [List.foldlM_cons] at h ⊢
    obtain ⟨s1, h1, h2⟩ := bind_ok h
    rw [stepAll_sim ha (hl t (by simp)).1 (hl t (by simp)).2 h1]
    exact ih (fun t ht => hl t (by simp [ht])) h2

theorem runSamples_sim {K k n : ℕ} (ha : Agrees K env env') {s s' : St d m} (hn : s.iter + n ≤ K) (hk : s.iter + n < k)
    (h : runSamples o env n s = .ok s') : runSamples o env' n (resize k s) = .ok (resize k s') :=
  steps_sim ha _ (fun t ht => by
    have e : (resize k s).iter = s.iter := rfl
    rw [e, List.mem_range'_1] at ht
    omega) h

theorem runBlock_sim {K k : ℕ} (ha : Agrees K env env') {dim : Bool} {s s' : St d m} (hn : s.iter + o.interval ≤ K)
    (hk : s.iter + o.interval < k) (h : runBlock o env dim s = .ok s') :
    runBlock o env' dim (resize k s) = .ok (resize k s') := by
  unfold runBlock at h ⊢
  cases hm : o.method with
  | other => rw [hm] at h; cases h
  | rm =>
    rw [hm] at h
    obtain ⟨s1, h1, h2⟩ := bind_ok h
    obtain ⟨g, hg, h3⟩ := bind_ok h2
    dsimp only
    unfold runRM
    rw [runSamples_sim ha hn hk h1]
    change (do let gamma ← rmGamma o dim s1; return _) = _
    rw [hg]
    obtain rfl := Except.ok.inj h3
    rfl
  | haario =>
    rw [hm] at h
    obtain ⟨-, -, hp, hq⟩ := runHaario_ok h
    obtain ⟨s1, h1, h2⟩ := bind_ok h
    dsimp only
    unfold runHaario
    rw [runSamples_sim ha hn hk h1]
    have hq' : ¬ m % o.nPool ≠ 0 := not_not.mpr hq
    simp only [if_neg hp, if_neg hq', bind, Except.bind, pure, Except.pure] at h2 ⊢
    obtain rfl := Except.ok.inj h2
    rfl

theorem burninBlocks_sim {K k : ℕ} (ha : Agrees K env env') {diag : Bool} {nDiag j : ℕ} {s : St d m} {r : St d m × Bool}
    (hn : s.iter + j * o.interval ≤ K) (hk : s.iter + j * o.interval < k)
    (h : burninBlocks o env diag nDiag j s = .ok r) :
    burninBlocks o env' diag nDiag j (resize k s) = .ok (resize k r.1, r.2) := by
  induction j generalizing s with
  | zero =>
    obtain rfl := Except.ok.inj h
    rfl
  | succ j ih =>
    unfold burninBlocks at h ⊢
    obtain ⟨s1, h1, h2⟩ := bind_ok h
    have hi := (runBlock_ok h1).1.iter.1
    have e : (j + 1) * o.interval = o.interval + j * o.interval := by ring
    rw [e] at hn hk
    rw [runBlock_sim ha (by omega) (by omega) h1]
    have more : burninBlocks o env diag nDiag j s1 = .ok r →
        burninBlocks o env' diag nDiag j (resize k s1) = .ok (resize k r.1, r.2) :=
      ih (by omega) (by omega)
    simp only [bind, Except.bind]
    change (if (diag && decide (nDiag ≤ s1.iter)) = true then _ else _) = _
    by_cases hd : (diag && decide (nDiag ≤ s1.iter)) = true
    · simp only [if_pos hd] at h2 ⊢
      obtain ⟨stop, hs, h3⟩ := bind_ok h2
      have hs' : earlyStop o nDiag (resize k s1) = .ok stop := hs
      rw [hs']
      cases stop with
      | true =>
        simp only [if_true] at h3 ⊢
        obtain rfl := Except.ok.inj h3
        rfl
      | false =>
        simp only [Bool.false_eq_true, if_false] at h3 ⊢
        exact more h3
    · simp only [if_neg hd] at h2 ⊢
      exact more h2

theorem runBurnin_sim {K k : ℕ} (ha : Agrees K env env') {diag : Bool} {burnin nb : ℕ} {s s' : St d m}
    (hn : s.iter + burnin ≤ K) (hk : s.iter + burnin < k) (h : runBurnin o env burnin diag nb s = .ok s') :
    runBurnin o env' burnin diag nb (resize k s) = .ok (resize k s') := by
  unfold runBurnin at h ⊢
  by_cases hi : o.interval = 0
  · simp only [if_pos hi, bind, Except.bind] at h; cases h
  simp only [if_neg hi] at h ⊢
  obtain ⟨⟨s1, e⟩, h1, h2⟩ := bind_ok h
  obtain ⟨s2, h3, h4⟩ := bind_ok h2
  obtain ⟨u, h6, h5⟩ := bind_ok h4
  obtain rfl := Except.ok.inj h5
  have hdm := Nat.div_add_mod' burnin o.interval
  obtain ⟨j, hj, hr, -, -⟩ := burninBlocks_ok h1
  have hit := hr.iter.1
  have hle : j * o.interval ≤ burnin / o.interval * o.interval := Nat.mul_le_mul_right _ hj
  rw [burninBlocks_sim ha (by omega) (by omega) h1]
  have h3' : burninRest o env' burnin (resize k s1, e) = .ok (resize k s2) := by
    unfold burninRest at h3 ⊢
    dsimp only at h3 ⊢
    split_ifs at h3 ⊢
    · exact runSamples_sim ha (by omega) (by omega) h3
    · obtain rfl := Except.ok.inj h3
      rfl
  change (do
    let s ← burninRest o env' burnin (resize k s1, e)
    let _ ← burninDiag o diag (nb * o.interval) s
    return s) = _
  rw [h3']
  change (do
    let _ ← burninDiag o diag (nb * o.interval) s2
    return resize k s2) = _
  rw [h6]
  rfl

/-! ## The sampling phase -/

theorem chains_run {t : ℕ} (ht : 0 < t) (l : List (Fin m)) {s : St d m} (hsz : t < s.size)
    (h : ∀ c, ∃ r, mhStep env.logTarget o.symmetric (env.logProp (s.params c)) (s.x c (t - 1)) (some (s.logT c (t - 1)))
      (env.prop (s.params c) (s.x c (t - 1)) (env.noise t c).1) (env.noise t c).2 = .ok r) :
    ∃ s', l.foldlM (stepChain o env t) s = .ok s' := by
  induction l generalizing s with
  | nil => exact ⟨s, rfl⟩
  | cons c l ih =>
    obtain ⟨r, hr⟩ := h c
    have h1 : stepChain o env t s c = .ok { s with
        x := set2 s.x c t r.1
        accept := set2 s.accept c t r.2.1
        logT := set2 s.logT c t r.2.2.1 } := by
      unfold stepChain
      simp only [if_neg (not_le.mpr hsz)]
      rw [hr]
      rfl
    rw [List.foldlM_cons, h1]
    refine ih hsz fun c' => ?_
    dsimp only
    rw [set2_ne _ _ (Or.inr (by omega)), set2_ne _ _ (Or.inr (by omega))]
    exact h c'

/-- The state of the sampler at its last iteration: inside the domain, with a usable cached value. -/
def Live (env : Env d m W) (p : Pt d → ℝ) (s : St d m) : Prop :=
  ∀ c, 0 < p (s.x c s.iter) ∧ Cached env.logTarget (s.x c s.iter) (some (s.logT c s.iter))

variable {env : Env d m (Pt d)}

theorem stepAll_frozen {p : Pt d → ℝ} (hp : TargetOf env.logTarget p) (hsym : o.symmetric = true)
    {L : Fin m → Matrix (Fin d) (Fin d) ℝ} {s : St d m}
    (hL : ∀ c x w, env.prop (s.params c) x w = .ok (L c *ᵥ w + x)) (hs : Live env p s) (hsz : s.iter + 1 < s.size) :
    ∃ s', stepAll o env s (s.iter + 1) = .ok s' ∧ Live env p s' ∧
      ∀ c, s'.x c (s.iter + 1) = hop p (L c) (s.x c s.iter) (env.noise (s.iter + 1) c) ∧
        (s'.accept c (s.iter + 1) = true ↔ 0 < p (L c *ᵥ (env.noise (s.iter + 1) c).1 + s.x c s.iter) ∧
          Real.log (max (env.noise (s.iter + 1) c).2 uFloor) <
            Real.log (p (L c *ᵥ (env.noise (s.iter + 1) c).1 + s.x c s.iter)) - Real.log (p (s.x c s.iter))) := by
  have hstep : ∀ c, ∃ r, mhStep env.logTarget o.symmetric (env.logProp (s.params c)) (s.x c (s.iter + 1 - 1))
      (some (s.logT c (s.iter + 1 - 1)))
      (env.prop (s.params c) (s.x c (s.iter + 1 - 1)) (env.noise (s.iter + 1) c).1) (env.noise (s.iter + 1) c).2 = .ok r ∧
      r.1 = hop p (L c) (s.x c s.iter) (env.noise (s.iter + 1) c) ∧ r.2.2.1 = evalTarget env.logTarget r.1 ∧
      (r.2.1 = true ↔ 0 < p (L c *ᵥ (env.noise (s.iter + 1) c).1 + s.x c s.iter) ∧
          Real.log (max (env.noise (s.iter + 1) c).2 uFloor) <
            Real.log (p (L c *ᵥ (env.noise (s.iter + 1) c).1 + s.x c s.iter)) - Real.log (p (s.x c s.iter))) := fun c => by
    rw [Nat.add_sub_cancel, hsym, hL]
    exact mhStep_accept hp _ (hs c).1 _ _ (hs c).2
  obtain ⟨s1, h1⟩ := chains_run (Nat.succ_pos _) (List.finRange m) hsz fun c => by
    obtain ⟨r, hr, -⟩ := hstep c
    exact ⟨r, hr⟩
  obtain ⟨i1, -, -, -, -, -, -, -, i9⟩ := chains_ok (Nat.succ_pos s.iter) _ (List.nodup_finRange m) h1
  have hx : ∀ c, s1.x c (s.iter + 1) = hop p (L c) (s.x c s.iter) (env.noise (s.iter + 1) c) ∧
      s1.logT c (s.iter + 1) = evalTarget env.logTarget (s1.x c (s.iter + 1)) ∧
      (s1.accept c (s.iter + 1) = true ↔ 0 < p (L c *ᵥ (env.noise (s.iter + 1) c).1 + s.x c s.iter) ∧
          Real.log (max (env.noise (s.iter + 1) c).2 uFloor) <
            Real.log (p (L c *ᵥ (env.noise (s.iter + 1) c).1 + s.x c s.iter)) - Real.log (p (s.x c s.iter))) := fun c => by
    obtain ⟨r, hr, e1, e2, e3⟩ := hstep c
    obtain ⟨r', hr', j1, j2, j3⟩ := i9 c (List.mem_finRange c)
    obtain rfl := Except.ok.inj (hr.symm.trans hr')
    exact ⟨j1.trans e1, by rw [j3, j1]; exact e2, by rw [j2]; exact e3⟩
  refine ⟨{ s1 with iter := s1.iter + 1 }, ?_, ?_, fun c => ⟨(hx c).1, (hx c).2.2⟩⟩
  · unfold stepAll
    rw [h1]
    rfl
  · intro c
    dsimp only
    rw [i1]
    refine ⟨?_, Or.inr (Or.inr ?_)⟩
    · rw [(hx c).1]
      exact jump_pos (hs c).1 _ _
    · rw [(hx c).2.1]

/-- Sampling with the proposals as they are: every chain follows the walk of its own draws. -/
theorem runSamples_frozen {p : Pt d → ℝ} (hp : TargetOf env.logTarget p) (hsym : o.symmetric = true)
    {L : Fin m → Matrix (Fin d) (Fin d) ℝ} (n : ℕ) {s : St d m}
    (hL : ∀ c x w, env.prop (s.params c) x w = .ok (L c *ᵥ w + x)) (hs : Live env p s) (hsz : s.iter + n < s.size) :
    ∃ s', runSamples o env n s = .ok s' ∧ ∀ c, ∀ k ≤ n,
      s'.x c (s.iter + k) = walk p (L c) (s.x c s.iter) (fun i => env.noise (s.iter + 1 + i) c) k := by
  induction n generalizing s with
  | zero =>
    refine ⟨s, rfl, fun c k hk => ?_⟩
    obtain rfl : k = 0 := by omega
    rfl
  | succ n ih =>
    obtain ⟨s1, h1, hl, hx⟩ := stepAll_frozen hp hsym hL hs (by omega)
    obtain ⟨st, -, hpar, -, -⟩ := stepAll_ok h1
    have hsz1 : s1.iter + n < s1.size := by rw [st.iter, st.size]; omega
    obtain ⟨s', h2, hw⟩ := ih (by rw [hpar]; exact hL) hl hsz1
    have hr := (runSamples_ok h2).1
    refine ⟨s', ?_, fun c k hk => ?_⟩
    · unfold runSamples at h2 ⊢
      rw [List.range'_succ, List.foldlM_cons, h1]
      rw [st.iter] at h2
      exact h2
    · cases k with
      | zero =>
        rw [add_zero, (hr.frame c s.iter (by rw [st.iter]; omega)).1, (st.frame c s.iter (by omega)).1]
        rfl
      | succ k =>
        have := hw c k (by omega)
        rw [st.iter] at this
        rw [show s.iter + (k + 1) = s.iter + 1 + k by ring, this, (hx c).1, walk_shift]
        congr 1
        funext i
        congr 1
        ring

/-- The chains stay in the domain. -/
theorem reach_inside {p : Pt d → ℝ} (hp : TargetOf env.logTarget p) (hsym : o.symmetric = true) {s s' : St d m} {k : ℕ}
    (hb : Book env s) (h : Reach o env s s' k) (hs : ∀ c, ∀ t ≤ s.iter, 0 < p (s.x c t)) :
    ∀ c, ∀ t ≤ s'.iter, 0 < p (s'.x c t) := by
  have hb' := hb.reach h
  intro c t
  induction t with
  | zero =>
    intro _
    rw [(h.frame c 0 (Nat.zero_le _)).1]
    exact hs c 0 (Nat.zero_le _)
  | succ t ih =>
    intro ht
    by_cases h0 : t + 1 ≤ s.iter
    · rw [(h.frame c _ h0).1]
      exact hs c _ h0
    obtain ⟨par, r, hr, e1, -, -⟩ := h.col c (t + 1) (by omega) ht
    rw [Nat.add_sub_cancel, hsym] at hr
    have hpos := ih (by omega)
    obtain ⟨y, hy⟩ : ∃ y, env.prop par (s'.x c t) (env.noise (t + 1) c).1 = .ok y := by
      unfold mhStep at hr
      obtain ⟨y, hy, -⟩ := bind_ok hr
      exact ⟨y, hy⟩
    have hc : Cached env.logTarget (s'.x c t) (some (s'.logT c t)) := by
      rcases Nat.eq_zero_or_pos t with rfl | h1
      · rw [hb'.first c]
        exact Or.inr (Or.inl rfl)
      · rw [hb'.cached c t h1 (by omega)]
        exact Or.inr (Or.inr rfl)
    rw [hy] at hr
    obtain ⟨r', hr', e, -⟩ := mhStep_jump hp (env.logProp par) hpos y (env.noise (t + 1) c).2 hc
    obtain rfl := Except.ok.inj (hr'.symm.trans hr)
    rw [e1, e]
    exact jump_pos hpos _ _

/-- The walk from an intermediate time. -/
theorem walk_add (p : Pt d → ℝ) (L : Matrix (Fin d) (Fin d) ℝ) (x : Pt d) (w : ℕ → Pt d × ℝ) (e k : ℕ) :
    walk p L x w (e + k) = walk p L (walk p L x w e) (fun i => w (e + i)) k := by
  induction k with
  | zero => rfl
  | succ k ih => rw [← add_assoc, walk, ih, walk]

theorem walk_congr (p : Pt d → ℝ) (L : Matrix (Fin d) (Fin d) ℝ) (x : Pt d) {w w' : ℕ → Pt d × ℝ} (k : ℕ)
    (h : ∀ i < k, w i = w' i) : walk p L x w k = walk p L x w' k := by
  induction k with
  | zero => rfl
  | succ k ih => rw [walk, walk, ih fun i hi => h i (by omega), h k (by omega)]

/-- Averages are not changed in the limit by finitely many terms. -/
theorem avg_shift {a b : ℕ → ℝ} {v : ℝ} (e i0 g : ℕ) (hab : ∀ k, b (g + k) = a k)
    (h : Filter.Tendsto (fun n : ℕ => (∑ k ∈ Finset.range n, a k) / (n : ℝ)) Filter.atTop (nhds v)) (hg : i0 ≤ g) :
    Filter.Tendsto (fun n : ℕ => (∑ t ∈ Finset.Ico i0 (e + n), b t) / ((e + n - i0 : ℕ) : ℝ)) Filter.atTop (nhds v) := by
  -- in terms of the number of terms after `g`
  have h1 : Filter.Tendsto (fun n : ℕ => (∑ t ∈ Finset.Ico i0 (g + n), b t) / ((g + n - i0 : ℕ) : ℝ)) Filter.atTop
      (nhds v) := by
    have e1 : ∀ n : ℕ, ∑ t ∈ Finset.Ico i0 (g + n), b t = (∑ t ∈ Finset.Ico i0 g, b t) + ∑ k ∈ Finset.range n, a k :=
      fun n => by
        rw [← Finset.sum_Ico_consecutive _ hg (Nat.le_add_right g n)]
        congr 1
        rw [Finset.sum_Ico_eq_sum_range, Nat.add_sub_cancel_left]
        exact Finset.sum_congr rfl fun k _ => hab k
    have h2 : Filter.Tendsto (fun n : ℕ => (∑ t ∈ Finset.Ico i0 g, b t) / (n : ℝ) + (∑ k ∈ Finset.range n, a k) / (n : ℝ))
        Filter.atTop (nhds (0 + v)) := (tendsto_const_div_atTop_nhds_zero_nat _).add h
    have h3 : Filter.Tendsto (fun n : ℕ => ((n : ℝ) + ((g - i0 : ℕ) : ℝ)) / (n : ℝ)) Filter.atTop (nhds 1) := by
      have := (tendsto_const_div_atTop_nhds_zero_nat ((g - i0 : ℕ) : ℝ)).const_add 1
      rw [add_zero] at this
      refine this.congr' ?_
      filter_upwards [Filter.eventually_gt_atTop 0] with n hn
      have : (n : ℝ) ≠ 0 := by exact_mod_cast hn.ne'
      field_simp
    have h4 := h2.div h3 one_ne_zero
    rw [zero_add, div_one] at h4
    refine h4.congr' ?_
    filter_upwards [Filter.eventually_gt_atTop 0] with n hn
    have hn' : (0 : ℝ) < n := by exact_mod_cast hn
    rw [Pi.div_apply, e1, show g + n - i0 = n + (g - i0) by omega, Nat.cast_add, ← add_div, div_div_div_cancel_right₀ hn'.ne']
  rw [← Filter.tendsto_add_atTop_iff_nat g]
  have h5 : Filter.Tendsto (fun n : ℕ => n + e) Filter.atTop Filter.atTop := Filter.tendsto_add_atTop_nat e
  refine (h1.comp h5).congr fun n => ?_
  simp only [Function.comp]
  rw [show g + (n + e) = e + (n + g) by ring]

/-- The draws after burn-in replaced by `w`. -/
def fresh (env : Env d m (Pt d)) (burnin : ℕ) (w : ℕ → Fin m → Pt d × ℝ) : Env d m (Pt d) :=
  { env with noise := fun t c => if t ≤ burnin then env.noise t c else w (t - burnin - 1) c }

/-- Gaussian random walk proposals: with a positive definite covariance the proposal is the state plus a factor of the
covariance times the draw. -/
def Normal (env : Env d m (Pt d)) : Prop :=
  ∀ (par : PropPar d) (S : Matrix (Fin d) (Fin d) ℝ), par.cov = some S → S.PosDef →
    ∃ L : Matrix (Fin d) (Fin d) ℝ, L * Lᵀ = S ∧ ∀ x w, env.prop par x w = .ok (L *ᵥ w + x)

/-- The scheduler from the state at the end of burn-in. -/
theorem scheduler_frozen {C : Set (Pt d)} {J : Pt d → ℝ} (ht : BoxTarget C J env.logTarget) (hN : Normal env)
    (hsym : o.symmetric = true) (hfr : o.freeze = true) {a : InitArr} {rep : Bool} {params : Fin m → PropPar d}
    {scale : Fin m → ℝ} {burnin : ℕ} (hp : ∀ c, (params c).Good) (hs : ∀ c, 0 < scale c)
    (h2 : o.method = .haario → 2 ≤ o.interval * o.nPool) {x0 : Fin m → Pt d} (hx0 : initStates m d a rep = .ok x0)
    (hxC : ∀ c, x0 c ∈ C) {s0 : St d m} (hburn : schedulerRun o env a rep params scale burnin burnin = .ok s0) :
    ∃ (b i0 : ℕ) (S L : Fin m → Matrix (Fin d) (Fin d) ℝ), b ≤ burnin ∧ i0 ≤ b ∧
      (∀ c, (S c).PosDef ∧ L c * (L c)ᵀ = S c) ∧ (∀ c, ∀ t ≤ b, s0.x c t ∈ C) ∧
      ∀ (w : ℕ → Fin m → Pt d × ℝ) (n : ℕ), ∃ s : St d m,
        scheduler o (fresh env burnin w) a rep params scale (burnin + n) burnin =
          .ok (s, fun c => (List.range' i0 (b + n - i0)).map (s.x c)) ∧
        (∀ c, ∀ t ≤ b, s.x c t = s0.x c t) ∧ ∀ c, ∀ k ≤ n,
          s.x c (b + k) = walk (boxDens C J) (L c) (s0.x c b) (fun i => (fresh env burnin w).noise (b + 1 + i) c) k := by
  have hg := proposal_posDef hburn hp hs h2
  obtain ⟨-, x0', b, hx0', hb, hr, hit, hbu, -⟩ := schedulerRun_ok hburn
  obtain rfl := Except.ok.inj (hx0.symm.trans hx0')
  rw [Nat.sub_self, add_zero] at hit hr
  have hbook := (Book.init (o := o) (env := env) x0 params scale burnin burnin).reach hr
  have hin := reach_inside ht.target hsym (Book.init x0 params scale burnin burnin) hr (fun c t htt => by
    obtain rfl : t = 0 := Nat.le_zero.mp htt
    exact boxDens_pos.mpr (hxC c))
  have hfac : ∀ c, ∃ S L : Matrix (Fin d) (Fin d) ℝ, S.PosDef ∧ L * Lᵀ = S ∧
      ∀ x w, env.prop (s0.params c) x w = .ok (L *ᵥ w + x) := fun c => by
    obtain ⟨S, hS, hpd⟩ := (hg c).1
    obtain ⟨L, hL, hpr⟩ := hN _ S hS hpd
    exact ⟨S, L, hpd, hL, hpr⟩
  choose S L hSpd hSL hLp using hfac
  refine ⟨b, if o.discard then b else 0, S, L, hb, by split_ifs <;> omega, fun c => ⟨hSpd c, hSL c⟩,
    fun c t htb => boxDens_pos.mp (hin c t (by omega)), fun w n => ?_⟩
  -- the burn-in of the longer run
  have hbi : runBurnin o env burnin true 20 (initSt o env x0 params scale burnin burnin) = .ok s0 := by
    unfold schedulerRun at hburn
    obtain ⟨x0', hx0', h⟩ := bind_ok hburn
    obtain rfl := Except.ok.inj (hx0.symm.trans hx0')
    simp only [if_neg (lt_irrefl burnin)] at h
    obtain ⟨s1, h1, h3⟩ := bind_ok h
    simp only [hfr, if_true, Nat.sub_self] at h3
    obtain rfl := Except.ok.inj h3
    exact h1
  have hag : Agrees burnin env (fresh env burnin w) :=
    ⟨rfl, rfl, rfl, fun t htb => by funext c; exact if_pos htb⟩
  have hsim := runBurnin_sim (k := 1 + (burnin + n)) hag (le_of_eq (Nat.zero_add _))
    (show 0 + burnin < 1 + (burnin + n) by omega) hbi
  have hlive : Live (fresh env burnin w) (boxDens C J) (resize (1 + (burnin + n)) s0) := fun c => by
    refine ⟨hin c s0.iter le_rfl, ?_⟩
    change Cached env.logTarget (s0.x c s0.iter) (some (s0.logT c s0.iter))
    rcases Nat.eq_zero_or_pos s0.iter with h0 | h0
    · rw [h0, hbook.first c]
      exact Or.inr (Or.inl rfl)
    · rw [hbook.cached c _ h0 le_rfl]
      exact Or.inr (Or.inr rfl)
  obtain ⟨s, hs1, hs2⟩ := runSamples_frozen (env := fresh env burnin w) (p := boxDens C J) ht.target hsym n (L := L) (s := resize (1 + (burnin + n)) s0)
    hLp hlive (show s0.iter + n < 1 + (burnin + n) by omega)
  obtain ⟨hr2, hb2, -⟩ := runSamples_ok hs1
  have hrun : schedulerRun o (fresh env burnin w) a rep params scale (burnin + n) burnin = .ok s := by
    unfold schedulerRun
    rw [hx0]
    have hnb : ¬ burnin + n < burnin := by omega
    change (if burnin + n < burnin then (.error .valueError : Py (St d m)) else do
      let s ← runBurnin o (fresh env burnin w) burnin true 20 (resize (1 + (burnin + n)) (initSt o env x0 params scale burnin burnin))
      if o.freeze then runSamples o (fresh env burnin w) (burnin + n - burnin) s
      else runAdaptive o (fresh env burnin w) (burnin + n - burnin) { s with hFactor := o.hSampling }) = _
    rw [if_neg hnb, hsim]
    change (if o.freeze = true then _ else _) = _
    rw [if_pos hfr, Nat.add_sub_cancel_left]
    exact hs1
  have hsi : s.iter = b + n := by
    rw [hr2.iter.1]
    change s0.iter + n = _
    rw [hit]
  have hsb : s.burnin = b := hb2.trans hbu
  refine ⟨s, ?_, fun c t htb => (hr2.frame c t (show t ≤ s0.iter by omega)).1, fun c k hk => ?_⟩
  · unfold scheduler
    rw [hrun]
    change Except.ok (s, fun c => (List.range' (if o.discard then s.burnin else 0)
      (s.iter - if o.discard then s.burnin else 0)).map (s.x c)) = _
    rw [hsi, hsb]
  · have := hs2 c k hk
    change s.x c (s0.iter + k) = walk _ _ (s0.x c s0.iter) (fun i => (fresh env burnin w).noise (s0.iter + 1 + i) c) k at this
    rwa [hit] at this

/-- **C268** Frozen adaptation is sound: whatever the draws of the burn-in phase and whatever the proposals it ends with
(early stopping included), with probability one over the draws after it, every longer run of `scheduler` returns, and for
every chain the averages of a function over the returned states converge to its mean under the target, as the number of
sampling steps grows; the returned states may include those of the burn-in phase. -/
theorem scheduler_frozen_converges {C : Set (Pt d)} {J : Pt d → ℝ} (hb : BoxCrit C J) (ht : BoxTarget C J env.logTarget)
    (hN : Normal env) (hsym : o.symmetric = true) (hfr : o.freeze = true) {a : InitArr} {rep : Bool}
    {params : Fin m → PropPar d} {scale : Fin m → ℝ} {burnin : ℕ} (hp : ∀ c, (params c).Good) (hs : ∀ c, 0 < scale c)
    (h2 : o.method = .haario → 2 ≤ o.interval * o.nPool) {x0 : Fin m → Pt d} (hx0 : initStates m d a rep = .ok x0)
    (hxC : ∀ c, x0 c ∈ C) (hburn : ∃ s0, schedulerRun o env a rep params scale burnin burnin = .ok s0)
    {Ω : Type} [MeasurableSpace Ω] {P : Measure Ω} [IsProbabilityMeasure P] {w : ℕ → Fin m → Ω → Pt d × ℝ}
    (hw : ∀ c, Draws P fun k ω => w k c ω) {f : Pt d → ℝ} (hf : Measurable f) {B : ℝ} (hfB : ∀ x ∈ C, |f x| ≤ B) :
    ∀ᵐ ω ∂P, ∃ ret : ℕ → Fin m → List (Pt d),
      (∀ n, ∃ s, scheduler o (fresh env burnin fun k c => w k c ω) a rep params scale (burnin + n) burnin = .ok (s, ret n)) ∧
      ∀ c, Filter.Tendsto (fun n => ((ret n c).map f).sum / ((ret n c).length : ℝ)) Filter.atTop
        (nhds (∫ y, f y ∂targetLaw volume (boxDens C J))) := by
  obtain ⟨s0, hburn⟩ := hburn
  obtain ⟨b, i0, S, L, hbb, hi0, hSL, hin, hrun⟩ :=
    scheduler_frozen ht hN hsym hfr hp hs h2 hx0 hxC hburn
  -- where each chain is after `burnin` iterations
  set y : Fin m → Pt d := fun c => walk (boxDens C J) (L c) (s0.x c b) (fun i => env.noise (b + 1 + i) c) (burnin - b)
    with hy
  have hyC : ∀ c, y c ∈ C := fun c => boxDens_pos.mp (walk_pos (boxDens_pos.mpr (hin c b le_rfl)) _ _)
  have herg : ∀ c, ∀ᵐ ω ∂P, Filter.Tendsto (fun n : ℕ => (∑ k ∈ Finset.range n,
      f (walk (boxDens C J) (L c) (y c) (fun k => w k c ω) k)) / (n : ℝ)) Filter.atTop
      (nhds (∫ y, f y ∂targetLaw volume (boxDens C J))) := fun c =>
    walk_ergodic hb (hSL c).1 (hSL c).2 (hw c) (hyC c) hf hfB
  filter_upwards [ae_all_iff.mpr herg] with ω hω
  choose s hs1 hs2 hs3 using hrun fun k c => w k c ω
  refine ⟨fun n c => (List.range' i0 (b + n - i0)).map ((s n).x c), fun n => ⟨s n, hs1 n⟩, fun c => ?_⟩
  set env' := fresh env burnin fun k c => w k c ω with henv
  set path : ℕ → Pt d := fun t => if t ≤ b then s0.x c t else
    walk (boxDens C J) (L c) (s0.x c b) (fun i => env'.noise (b + 1 + i) c) (t - b) with hpath
  have hpath1 : ∀ n, ∀ t < b + n, (s n).x c t = path t := fun n t htn => by
    simp only [hpath]
    split_ifs with h
    · exact hs2 n c t h
    · have := hs3 n c (t - b) (by omega)
      rwa [show b + (t - b) = t by omega] at this
  have hpath2 : ∀ k, path (burnin + k) = walk (boxDens C J) (L c) (y c) (fun k => w k c ω) k := fun k => by
    have e1 : path (burnin + k) = walk (boxDens C J) (L c) (s0.x c b) (fun i => env'.noise (b + 1 + i) c)
        (burnin - b + k) := by
      simp only [hpath]
      split_ifs with h
      · obtain rfl : k = 0 := by omega
        have : burnin = b := by omega
        subst this
        rw [Nat.sub_self]
        rfl
      · rw [show burnin + k - b = burnin - b + k by omega]
    rw [e1, walk_add]
    have e2 : walk (boxDens C J) (L c) (s0.x c b) (fun i => env'.noise (b + 1 + i) c) (burnin - b) = y c :=
      walk_congr _ _ _ _ fun i hi => if_pos (by omega)
    rw [e2]
    refine walk_congr _ _ _ _ fun i _ => ?_
    change (if b + 1 + (burnin - b + i) ≤ burnin then _ else w (b + 1 + (burnin - b + i) - burnin - 1) c ω) = _
    rw [if_neg (by omega)]
    congr 1
    omega
  have := avg_shift (a := fun k => f (walk (boxDens C J) (L c) (y c) (fun k => w k c ω) k)) (b := fun t => f (path t))
    b i0 burnin (fun k => by rw [hpath2]) (hω c) (hi0.trans hbb)
  refine this.congr fun n => ?_
  rw [List.length_map, List.length_range', List.map_map]
  congr 1
  rw [show (List.range' i0 (b + n - i0)).map (f ∘ (s n).x c) = (List.range' i0 (b + n - i0)).map fun t => f (path t) from
    List.map_congr_left fun t htm => by
      rw [List.mem_range'_1] at htm
      simp only [Function.comp]
      rw [hpath1 n t (by omega)]]
  rfl

/-! ## The hypotheses can be met -/

open Classical in
/-- A Gaussian random walk proposal with the Cholesky factor. -/
noncomputable def gaussProp (par : PropPar d) (x w : Pt d) : Py (Pt d) :=
  if h : ∃ L : Matrix (Fin d) (Fin d) ℝ, ∃ S, par.cov = some S ∧ L * Lᵀ = S then .ok (h.choose *ᵥ w + x) else .ok x

theorem gaussProp_normal (env : Env d m (Pt d)) (h : env.prop = gaussProp) : Normal env := by
  intro par S hS hpd
  obtain ⟨K, hK⟩ := Core.exists_chol _ hpd
  have hex : ∃ L : Matrix (Fin d) (Fin d) ℝ, ∃ S, par.cov = some S ∧ L * Lᵀ = S := ⟨K, S, hS, hK.mul⟩
  obtain ⟨S', hS', e⟩ := hex.choose_spec
  obtain rfl := Option.some.inj (hS.symm.trans hS')
  refine ⟨hex.choose, e, fun x w => ?_⟩
  rw [h, gaussProp, dif_pos hex]

/-- Two chains with the default options on the unit square, a criterion that is not constant, a burn-in of 100 steps with
two adaptations; and draws with the right law exist. -/
example (noise : ℕ → Fin 2 → Pt 2 × ℝ) (f : Pt 2 → ℝ) (hf : Measurable f) (hf1 : ∀ x, |f x| ≤ 1) :
    ∃ (Ω : Type) (_ : MeasurableSpace Ω) (P : Measure Ω) (_ : IsProbabilityMeasure P) (w : ℕ → Fin 2 → Ω → Pt 2 × ℝ)
      (env : Env 2 2 (Pt 2)), env.noise = noise ∧ BoxTarget (Set.Icc 0 1) (fun x => x 0 ^ 2) env.logTarget ∧
      ∀ᵐ ω ∂P, ∃ ret : ℕ → Fin 2 → List (Pt 2),
        (∀ n, ∃ s, scheduler {} (fresh env 100 fun k c => w k c ω) ⟨1, 2, fun _ _ => 1 / 2⟩ true
          (fun _ => .diag fun _ => 1) (initScale ({} : Opts 2)) (100 + n) 100 = .ok (s, ret n)) ∧
        ∀ c, Filter.Tendsto (fun n => ((ret n c).map f).sum / ((ret n c).length : ℝ)) Filter.atTop
          (nhds (∫ y, f y ∂targetLaw volume (boxDens (Set.Icc 0 1) fun x : Pt 2 => x 0 ^ 2))) := by
  classical
  let env : Env 2 2 (Pt 2) :=
    { logTarget := fun x => if x ∈ Set.Icc (0 : Pt 2) 1 then .ok (.fin (-(x 0 ^ 2))) else .ok (.num ⊥)
      prop := gaussProp
      logProp := fun _ _ _ => .error .valueError
      noise := noise
      junk := fun _ _ => 0 }
  have hbt : BoxTarget (Set.Icc 0 1) (fun x => x 0 ^ 2) env.logTarget :=
    ⟨fun x hx => if_pos hx, fun x hx => Or.inl (if_neg hx)⟩
  refine ⟨ℕ × Fin 2 → Pt 2 × ℝ, inferInstance, Measure.infinitePi fun _ => drawLaw 2, inferInstance,
    fun k c ω => ω (k, c), env, rfl, hbt, ?_⟩
  have hTot : TotalProp env := fun par x w => by
    change ∃ y, gaussProp par x w = .ok y
    unfold gaussProp
    split_ifs <;> exact ⟨_, rfl⟩
  have hbox : BoxCrit (Set.Icc (0 : Pt 2) 1) fun x => x 0 ^ 2 := by
    refine ⟨isCompact_Icc, ?_, by fun_prop, fun x hx y hy => ?_⟩
    · rw [Real.volume_Icc_pi]
      simp
    · have h1 := hx.1 0
      have h2 := hy.2 0
      have h3 := hy.1 0
      simp only [Pi.zero_apply, Pi.one_apply] at h1 h2 h3
      nlinarith
  refine scheduler_frozen_converges (o := {}) hbox hbt (gaussProp_normal env rfl) rfl rfl
    (x0 := fun _ _ => 1 / 2) (fun c => ⟨_, rfl, by simpa using Matrix.PosDef.one⟩) (fun c => by simp [initScale]) (by norm_num)
    rfl (fun c => ⟨fun i => by norm_num, fun i => by norm_num⟩) ?_ (fun c => ⟨?_, ?_, ?_⟩) hf (B := 1) fun x _ => hf1 x
  · obtain ⟨s1, h1⟩ := (runBurnin_iff (o := {}) hTot rfl rfl (by norm_num) 100
      (initSt {} env (fun _ _ => 1 / 2) (fun _ => .diag fun _ => 1) (initScale ({} : Opts 2)) 100 100) rfl
      (by simp only [initSt]; omega)).mpr ⟨fun _ => ⟨by norm_num, by norm_num⟩, fun h => by norm_num at h⟩
    refine ⟨s1, ?_⟩
    unfold schedulerRun
    change (do
      let s ← runBurnin {} env 100 true 20 (initSt {} env (fun _ _ => 1 / 2) (fun _ => .diag fun _ => 1) (initScale ({} : Opts 2)) 100 100)
      if true = true then runSamples {} env (100 - 100) s else _) = _
    rw [h1]
    rfl
  · exact fun k => measurable_pi_apply _
  · exact (iIndepFun_infinitePi (P := fun _ : ℕ × Fin 2 => drawLaw 2) (X := fun _ x => x) fun _ => measurable_id).precomp
      (g := fun k : ℕ => (k, c)) fun i j h => (Prod.mk.inj h).1
  · intro k
    exact Measure.infinitePi_map_eval _ (k, c)

end Verif.MH
