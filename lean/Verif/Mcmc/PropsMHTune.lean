import Verif.Mcmc.PropsMHDiag
import Verif.Mcmc.PropsMH
import Mathlib.LinearAlgebra.Matrix.PosDef
import Mathlib.Data.Real.StarOrdered

/-!
# C97-C100: returned states, proposal covariances, sliding rates, jittered sampling
-/

set_option autoImplicit false

namespace Verif.MH

open Verif Matrix

variable {d m : ℕ} {W : Type} {o : Opts d} {env : Env d m W}

/-! ## C98: proposal covariances -/

/-- The covariance is a positive definite matrix of numbers. -/
def PropPar.Good (p : PropPar d) : Prop := ∃ M, p.cov = some M ∧ M.PosDef

/-- Every chain has a positive definite proposal and a positive scaling factor. -/
def GoodTune (s : St d m) : Prop := ∀ c, (s.params c).Good ∧ 0 < s.scale c

theorem PropPar.Good.scale {p : PropPar d} (h : p.Good) {k : ℝ} (hk : 0 < k) :
    (p.scale k).Good := by
  obtain ⟨M, hM, hp⟩ := h
  cases p with
  | diag v =>
    obtain rfl := Option.some.inj hM
    refine ⟨_, rfl, ?_⟩
    rw [Matrix.diagonal_smul]
    exact hp.smul hk
  | full M' =>
    obtain rfl := Option.some.inj hM
    exact ⟨_, rfl, hp.smul hk⟩
  | nanMat => cases hM

theorem covRows_psd {l : List (Pt d)} {C : Matrix (Fin d) (Fin d) ℝ} (h : covRows l = some C) :
    C.PosSemidef := by
  unfold covRows at h
  by_cases hl : l.length < 2
  · rw [if_pos hl] at h; cases h
  rw [if_neg hl] at h
  obtain rfl := Option.some.inj h
  refine Matrix.PosSemidef.smul ?_ ?_
  · generalize meanRows l = mu
    clear h hl
    induction l with
    | nil => simpa using Matrix.PosSemidef.zero
    | cons r l ih =>
      rw [List.map_cons, List.sum_cons]
      refine Matrix.PosSemidef.add ?_ ih
      have := Matrix.posSemidef_vecMulVec_self_star (R := ℝ) (fun i => r i - mu i)
      convert this using 1
      ext i j
      simp [Matrix.vecMulVec_apply]
  · rw [inv_nonneg]
    have : (2 : ℝ) ≤ l.length := by exact_mod_cast not_lt.mp hl
    linarith

theorem haarioCov_good {k eps : ℝ} (hk : 0 ≤ k) (he : 0 < eps) {C : Matrix (Fin d) (Fin d) ℝ}
    (hC : C.PosSemidef) : (haarioCov k eps (some C)).Good := by
  refine ⟨_, rfl, ?_⟩
  rw [add_comm]
  exact (Matrix.PosDef.one.smul he).add_posSemidef (hC.smul hk)

theorem groupRows_length (s : St d m) (i0 i1 start nPool : ℕ) :
    (groupRows s i0 i1 start nPool).length = min nPool (m - start) * (i1 - i0) := by
  unfold groupRows
  simp [List.length_flatMap]

/-- A block keeps the proposals good, provided a Haario group has at least two rows. -/
theorem runBlock_good {dim : Bool} {s s' : St d m} (h : runBlock o env dim s = .ok s')
    (hg : GoodTune s) (h2 : o.method = .haario → 2 ≤ o.interval * o.nPool) : GoodTune s' := by
  unfold runBlock at h
  cases hm : o.method with
  | other => rw [hm] at h; cases h
  | rm =>
    rw [hm] at h
    obtain ⟨s1, h1, h3⟩ := bind_ok h
    obtain ⟨g, _, h4⟩ := bind_ok h3
    obtain ⟨_, _, hp, hsc, _⟩ := runSamples_ok h1
    obtain rfl := Except.ok.inj h4
    intro c
    refine ⟨?_, ?_⟩
    · simp only [hp]
      exact (hg c).1.scale (Real.exp_pos _)
    · simp only [hsc]
      exact (hg c).2
  | haario =>
    rw [hm] at h
    obtain ⟨hr, _, hp0, hdiv⟩ := runHaario_ok h
    obtain ⟨s1, h1, h3⟩ := bind_ok h
    obtain ⟨hr1, _, hp, hsc, _⟩ := runSamples_ok h1
    have hq : ¬ (m % o.nPool ≠ 0) := not_not.mpr hdiv
    simp only [if_neg hp0, if_neg hq, bind, Except.bind, pure, Except.pure] at h3
    obtain rfl := Except.ok.inj h3
    intro c
    have hsp : 0 < s1.scale c * Real.exp (s1.hFactor * (blockRate s1 o.interval c - o.target)) := by
      rw [hsc]; exact mul_pos (hg c).2 (Real.exp_pos _)
    refine ⟨?_, hsp⟩
    dsimp only
    set l := groupRows s1 (s1.iter - o.interval + 1) (s1.iter + 1) (c / o.nPool * o.nPool) o.nPool
      with hl
    have hlen : 2 ≤ l.length := by
      rw [hl, groupRows_length]
      have hit := hr1.iter.1
      have e1 : s1.iter + 1 - (s1.iter - o.interval + 1) = o.interval := by omega
      rw [e1]
      have hpos := Nat.pos_of_ne_zero hp0
      have e2 : o.nPool ≤ m - c / o.nPool * o.nPool := by
        obtain ⟨q, hq⟩ := Nat.dvd_of_mod_eq_zero hdiv
        have hlt : (c : ℕ) / o.nPool < q := by
          rw [Nat.div_lt_iff_lt_mul hpos, Nat.mul_comm, ← hq]
          exact c.2
        have : (c / o.nPool + 1) * o.nPool ≤ q * o.nPool := Nat.mul_le_mul_right _ hlt
        rw [Nat.add_mul, Nat.one_mul, Nat.mul_comm q, ← hq] at this
        omega
      rw [min_eq_left e2, Nat.mul_comm]
      exact h2 hm
    have hsome : ∃ C, covRows l = some C := by
      unfold covRows
      rw [if_neg (not_lt.mpr hlen)]
      exact ⟨_, rfl⟩
    obtain ⟨C, hC⟩ := hsome
    rw [hC]
    exact haarioCov_good hsp.le (by norm_num) (covRows_psd hC)

theorem adaptBlocks_good {k : ℕ} {s s' : St d m} (h : adaptBlocks o env k s = .ok s')
    (hg : GoodTune s) (h2 : o.method = .haario → 2 ≤ o.interval * o.nPool) : GoodTune s' := by
  induction k generalizing s with
  | zero => obtain rfl := Except.ok.inj h; exact hg
  | succ k ih =>
    obtain ⟨s1, h1, h3⟩ := bind_ok h
    exact ih h3 (runBlock_good h1 hg h2)

theorem runSamples_good {n : ℕ} {s s' : St d m} (h : runSamples o env n s = .ok s')
    (hg : GoodTune s) : GoodTune s' := by
  obtain ⟨_, _, hp, hsc, _⟩ := runSamples_ok h
  intro c
  rw [hp, hsc]
  exact hg c

theorem burninBlocks_good {diag : Bool} {nDiag k : ℕ} {s : St d m} {r : St d m × Bool}
    (h : burninBlocks o env diag nDiag k s = .ok r)
    (hg : GoodTune s) (h2 : o.method = .haario → 2 ≤ o.interval * o.nPool) : GoodTune r.1 := by
  induction k generalizing s with
  | zero => obtain rfl := Except.ok.inj h; exact hg
  | succ k ih =>
    unfold burninBlocks at h
    obtain ⟨s1, h1, h3⟩ := bind_ok h
    have g1 := runBlock_good h1 hg h2
    by_cases hd : (diag && decide (nDiag ≤ s1.iter)) = true
    · simp only [if_pos hd] at h3
      obtain ⟨stop, _, h4⟩ := bind_ok h3
      cases stop with
      | true =>
        simp only [if_true] at h4
        obtain rfl := Except.ok.inj h4
        exact g1
      | false =>
        simp only [Bool.false_eq_true, if_false] at h4
        exact ih h4 g1
    · simp only [if_neg hd] at h3
      exact ih h3 g1

/-- **C98** Through a whole run, whatever the target, the draws and the acceptances, the
proposal covariance of every chain stays positive definite and every Haario scaling
factor positive, if they are so at the start and pooled blocks have at least two
samples. -/
theorem proposal_posDef {a : InitArr} {rep : Bool} {params : Fin m → PropPar d}
    {scale : Fin m → ℝ} {n burnin : ℕ} {s : St d m}
    (h : schedulerRun o env a rep params scale n burnin = .ok s)
    (hp : ∀ c, (params c).Good) (hs : ∀ c, 0 < scale c)
    (h2 : o.method = .haario → 2 ≤ o.interval * o.nPool) : GoodTune s := by
  obtain ⟨x0, h0, h1⟩ := bind_ok h
  by_cases hn : n < burnin
  · simp only [if_pos hn, bind, Except.bind] at h1; cases h1
  simp only [if_neg hn] at h1
  obtain ⟨s1, h3, h4⟩ := bind_ok h1
  have g0 : GoodTune (initSt o env x0 params scale n burnin) := fun c => ⟨hp c, hs c⟩
  have g1 : GoodTune s1 := by
    unfold runBurnin at h3
    by_cases hi : o.interval = 0
    · simp only [if_pos hi, bind, Except.bind] at h3; cases h3
    simp only [if_neg hi] at h3
    obtain ⟨r, h5, h6⟩ := bind_ok h3
    obtain ⟨s2, h7, h8⟩ := bind_ok h6
    obtain ⟨_, _, h9⟩ := bind_ok h8
    obtain rfl := Except.ok.inj h9
    have g2 := burninBlocks_good h5 g0 h2
    unfold burninRest at h7
    split at h7
    · exact runSamples_good h7 g2
    · obtain rfl := Except.ok.inj h7; exact g2
  split at h4
  · exact runSamples_good h4 g1
  · unfold runAdaptive at h4
    by_cases hi : o.interval = 0
    · simp only [if_pos hi, bind, Except.bind] at h4; cases h4
    simp only [if_neg hi] at h4
    obtain ⟨s2, h5, h6⟩ := bind_ok h4
    have g2 := adaptBlocks_good h5 (s := { s1 with hFactor := o.hSampling }) g1 h2
    split at h6
    · exact runSamples_good h6 g2
    · obtain rfl := Except.ok.inj h6; exact g2

/-- The initial scaling factors are positive for the default options. -/
example : ∀ c : Fin 3, 0 < initScale ({} : Opts 2) c := fun _ => by simp [initScale]

example : (PropPar.diag (fun _ : Fin 2 => (1 : ℝ))).Good :=
  ⟨_, rfl, by simpa using Matrix.PosDef.one⟩

/-- **C98** With one sample per group the update is NaN. -/
theorem haario_one_sample (s : St d m) (i start : ℕ) (k : ℝ) :
    haarioCov k 1e-6 (covRows (groupRows s i (i + 1) start 1)) = .nanMat := by
  have : (groupRows s i (i + 1) start 1).length < 2 := by
    rw [groupRows_length]
    have := min_le_left 1 (m - start)
    have e : i + 1 - i = 1 := by omega
    rw [e]
    omega
  unfold covRows
  rw [if_pos this]
  rfl

/-! ## C99: sliding acceptance rates -/

theorem acceptCount_add (s : St d m) (c : Fin m) {i0 i1 i2 : ℕ} (h : i0 ≤ i1) (h' : i1 ≤ i2) :
    acceptCount s c i0 i2 = acceptCount s c i0 i1 + acceptCount s c i1 i2 := by
  unfold acceptCount
  rw [← List.length_append, ← List.filter_append]
  congr 2
  have := List.range'_append_1 (s := i0) (m := i1 - i0) (n := i2 - i1)
  rw [show i0 + (i1 - i0) = i1 by omega, show i1 - i0 + (i2 - i1) = i2 - i0 by omega] at this
  exact this.symm

theorem acceptCount_le (s : St d m) (c : Fin m) (i0 i1 : ℕ) : acceptCount s c i0 i1 ≤ i1 - i0 := by
  unfold acceptCount
  exact (List.length_filter_le _ _).trans (by simp)

theorem acceptCount_eq (s : St d m) (c : Fin m) (i0 i1 : ℕ) :
    acceptCount s c i0 i1 = ((Finset.Ico i0 i1).filter fun t => s.accept c t = true).card := by
  unfold acceptCount
  have hnd : ((List.range' i0 (i1 - i0)).filter fun t => s.accept c t).Nodup :=
    (List.nodup_range').filter _
  rw [← List.toFinset_card_of_nodup hnd]
  congr 1
  ext t
  simp only [List.mem_toFinset, List.mem_filter, List.mem_range'_1, Finset.mem_filter,
    Finset.mem_Ico]
  constructor
  · rintro ⟨⟨h1, h2⟩, h3⟩; exact ⟨⟨h1, by omega⟩, h3⟩
  · rintro ⟨⟨h1, h2⟩, h3⟩; exact ⟨⟨h1, by omega⟩, h3⟩

/-- **C99** A sliding rate is the mean of the acceptance flags over the last
`min(width, t+1)` iterations, and lies in `[0, 1]`. -/
theorem slidingRate_spec (s : St d m) (width : ℤ) (hw : 1 ≤ width) (c : Fin m) (t : ℕ)
    (ht : t < s.iter) :
    slidingRate s width c t =
      ((Finset.Ico (t + 1 - min width.toNat (t + 1)) (t + 1)).filter
        fun i => s.accept c i = true).card / ((min width.toNat (t + 1) : ℕ) : ℝ) ∧
    0 ≤ slidingRate s width c t ∧ slidingRate s width c t ≤ 1 := by
  have hW : (max 1 width).toNat = width.toNat := by rw [max_eq_right hw]
  have key : slidingRate s width c t =
      ((Finset.Ico (t + 1 - min width.toNat (t + 1)) (t + 1)).filter
        fun i => s.accept c i = true).card / ((min width.toNat (t + 1) : ℕ) : ℝ) := by
    rw [← acceptCount_eq]
    unfold slidingRate rateWindow
    rw [hW]
    by_cases h : t < min width.toNat s.iter
    · simp only [if_pos h]
      have : min width.toNat (t + 1) = t + 1 := by omega
      rw [this, Nat.sub_self]
      push_cast
      rfl
    · simp only [if_neg h]
      have h1 : min width.toNat s.iter = width.toNat := by omega
      have h2 : min width.toNat (t + 1) = width.toNat := by omega
      have h3 : t + 1 - width.toNat = t - width.toNat + 1 := by omega
      rw [h1, h2, h3, acceptCount_add s c (Nat.zero_le (t - width.toNat + 1)) (i2 := t + 1) (by omega)]
      push_cast
      ring_nf
  have hpos : 0 < min width.toNat (t + 1) := by omega
  refine ⟨key, ?_, ?_⟩
  · rw [key]; positivity
  · rw [key, div_le_one (by exact_mod_cast hpos)]
    have : ((Finset.Ico (t + 1 - min width.toNat (t + 1)) (t + 1)).filter
        fun i => s.accept c i = true).card ≤ min width.toNat (t + 1) := by
      refine (Finset.card_filter_le _ _).trans ?_
      rw [Nat.card_Ico]; omega
    exact_mod_cast this

/-! ## C100: jittered sampling -/

/-- The jitter of attempt `k`: none, then `initial · 10^(k-1)`. -/
noncomputable def jitterAt (initial : ℝ) : ℕ → ℝ
  | 0 => 0
  | k + 1 => initial * 10 ^ k

theorem sampleJitterLoop_spec (rvs : Matrix (Fin d) (Fin d) ℝ → ℕ → Py (Pt d))
    (cov : Matrix (Fin d) (Fin d) ℝ) (init : ℝ) (hi : init ≠ 0) (k i : ℕ) :
    sampleJitterLoop rvs cov init k i (jitterAt init i) =
      match (List.range' i k).findSome? fun j =>
          (rvs (cov + jitterAt init j • 1) j).toOption with
      | some x => .ok x
      | none => .error .runtimeError := by
  induction k generalizing i with
  | zero => rfl
  | succ k ih =>
    unfold sampleJitterLoop
    have hj : (if jitterAt init i = 0 then cov else cov + jitterAt init i • (1 : Matrix _ _ ℝ)) =
        cov + jitterAt init i • 1 := by
      split
      · rename_i h; rw [h]; simp
      · rfl
    have hn : (if jitterAt init i = 0 then init else 10 * jitterAt init i) =
        jitterAt init (i + 1) := by
      cases i with
      | zero => simp [jitterAt]
      | succ i =>
        have : jitterAt init (i + 1) ≠ 0 := mul_ne_zero hi (by positivity)
        rw [if_neg this]
        simp only [jitterAt]
        ring
    rw [hj, hn, List.range'_succ, List.findSome?_cons]
    cases h : rvs (cov + jitterAt init i • 1) i with
    | ok x => simp [Except.toOption]
    | error e => simpa [Except.toOption] using ih (i + 1)

/-- **C100** The draw is the first successful one among attempts with jitters
`0, j, 10 j, …, 10^(max-1) j`; `RuntimeError` exactly when all of them fail. -/
theorem sampleJitter_spec (rvs : Matrix (Fin d) (Fin d) ℝ → ℕ → Py (Pt d))
    (cov : Matrix (Fin d) (Fin d) ℝ) (init : ℝ) (hi : init ≠ 0) (n : ℕ) :
    (∀ x, sampleJitter rvs cov init n = .ok x ↔ ∃ k ≤ n, rvs (cov + jitterAt init k • 1) k = .ok x ∧
      ∀ j < k, ∃ e, rvs (cov + jitterAt init j • 1) j = .error e) ∧
    ((∀ e, sampleJitter rvs cov init n = .error e → e = .runtimeError) ∧
      ((∃ e, sampleJitter rvs cov init n = .error e) ↔
        ∀ k ≤ n, ∃ e, rvs (cov + jitterAt init k • 1) k = .error e)) := by
  have h0 : sampleJitter rvs cov init n = _ := sampleJitterLoop_spec rvs cov init hi (n + 1) 0
  have hfind : ∀ (k i : ℕ) x, ((List.range' i k).findSome? fun j =>
      (rvs (cov + jitterAt init j • 1) j).toOption) = some x ↔
      ∃ q, i ≤ q ∧ q < i + k ∧ rvs (cov + jitterAt init q • 1) q = .ok x ∧
        ∀ j, i ≤ j → j < q → ∃ e, rvs (cov + jitterAt init j • 1) j = .error e := by
    intro k
    induction k with
    | zero =>
      intro i x
      constructor
      · intro h; cases h
      · rintro ⟨q, h1, h2, _⟩; omega
    | succ k ih =>
      intro i x
      rw [List.range'_succ, List.findSome?_cons]
      cases h : rvs (cov + jitterAt init i • 1) i with
      | ok y =>
        simp only [Except.toOption]
        constructor
        · intro hx
          obtain rfl := Option.some.inj hx
          exact ⟨i, le_refl _, by omega, h, fun j h1 h2 => by omega⟩
        · rintro ⟨q, h1, h2, h3, h4⟩
          by_cases hq : q = i
          · subst hq; rw [h] at h3; rw [Except.ok.inj h3]
          · obtain ⟨e, he⟩ := h4 i (le_refl _) (by omega)
            rw [h] at he; cases he
      | error e =>
        simp only [show (Except.error e : Py (Pt d)).toOption = none from rfl]
        rw [ih (i + 1) x]
        constructor
        · rintro ⟨q, h1, h2, h3, h4⟩
          refine ⟨q, by omega, by omega, h3, fun j j1 j2 => ?_⟩
          by_cases hj : j = i
          · subst hj; exact ⟨e, h⟩
          · exact h4 j (by omega) j2
        · rintro ⟨q, h1, h2, h3, h4⟩
          have : q ≠ i := by rintro rfl; rw [h] at h3; cases h3
          exact ⟨q, by omega, by omega, h3, fun j j1 j2 => h4 j (by omega) j2⟩
  have hspec : ∀ x, sampleJitter rvs cov init n = .ok x ↔
      ∃ k ≤ n, rvs (cov + jitterAt init k • 1) k = .ok x ∧
      ∀ j < k, ∃ e, rvs (cov + jitterAt init j • 1) j = .error e := by
    intro x
    have : sampleJitter rvs cov init n = .ok x ↔ ((List.range' 0 (n + 1)).findSome? fun j =>
        (rvs (cov + jitterAt init j • 1) j).toOption) = some x := by
      rw [h0]
      cases ((List.range' 0 (n + 1)).findSome? fun j =>
        (rvs (cov + jitterAt init j • 1) j).toOption) with
      | none => simp
      | some y => simp
    rw [this, hfind]
    constructor
    · rintro ⟨q, _, h2, h3, h4⟩
      exact ⟨q, by omega, h3, fun j hj => h4 j (Nat.zero_le _) hj⟩
    · rintro ⟨q, h2, h3, h4⟩
      exact ⟨q, Nat.zero_le _, by omega, h3, fun j _ hj => h4 j hj⟩
  refine ⟨hspec, ?_, ?_⟩
  · intro e he
    rw [h0] at he
    cases hf : ((List.range' 0 (n + 1)).findSome? fun j =>
        (rvs (cov + jitterAt init j • 1) j).toOption) with
    | none => rw [hf] at he; exact (Except.error.inj he).symm
    | some y => rw [hf] at he; cases he
  · constructor
    · rintro ⟨e, he⟩ k
      induction k using Nat.strong_induction_on with
      | _ k ih =>
        intro hk
        cases hr : rvs (cov + jitterAt init k • 1) k with
        | error e' => exact ⟨e', rfl⟩
        | ok x =>
          have := (hspec x).2 ⟨k, hk, hr, fun j hj => ih j hj (by omega)⟩
          rw [this] at he; cases he
    · intro hall
      cases hr : sampleJitter rvs cov init n with
      | error e => exact ⟨e, rfl⟩
      | ok x =>
        obtain ⟨k, hk, hx, _⟩ := (hspec x).1 hr
        obtain ⟨e, he⟩ := hall k hk
        rw [he] at hx; cases hx

/-! ## C97: the last state is not returned -/

/-- A one-chain target and proposal: flat log-density, steps of `+1`, draws `1/2`. -/
noncomputable def walkEnv : Env 1 1 Unit where
  logTarget := fun _ => .ok (.fin 0)
  prop := fun _ x _ => .ok (x + 1)
  logProp := fun _ _ _ => .ok (.fin 0)
  noise := fun _ _ => ((), 1 / 2)
  junk := fun _ _ => 0

/-- **C97** False: a run of one step from `0` moves to `1`, and only the initial state is
returned. -/
theorem scheduler_drops_last_false :
    ∃ s out, scheduler ({} : Opts 1) walkEnv ⟨1, 1, fun _ _ => 0⟩ true (fun _ => .diag 1)
        (fun _ => 1) 1 0 = .ok (s, out) ∧ s.iter = 1 ∧ s.accept 0 1 = true ∧ s.x 0 1 = 1 ∧
      out 0 = [0] ∧ s.x 0 s.iter ∉ out 0 := by
  classical
  have sane : Sane ({} : Opts 1) walkEnv :=
    ⟨fun _ x _ => ⟨x + 1, rfl⟩, fun _ _ _ _ => ⟨_, rfl⟩, by decide, by decide, fun _ => by decide⟩
  have hrun : ∃ s, schedulerRun ({} : Opts 1) walkEnv ⟨1, 1, fun _ _ => 0⟩ true (fun _ => .diag 1)
      (fun _ => 1) 1 0 = .ok s := by
    have hx : initStates 1 1 ⟨1, 1, fun _ _ => 0⟩ true = .ok (fun _ _ => 0) := by
      simp [initStates]
    obtain ⟨s1, h1⟩ := (burnin_one_chain_false sane (by decide) 0
      (initSt ({} : Opts 1) walkEnv (fun _ _ => 0) (fun _ => .diag 1) (fun _ => 1) 1 0)
      (by simp [initSt]) rfl rfl).2 (by decide)
    obtain ⟨k, hk, hr, _⟩ := runBurnin_ok h1
    obtain ⟨s2, h2⟩ := runSamples_total sane 1 s1 (by
      obtain ⟨i1, i2⟩ := hr.iter
      rw [i1, i2]
      simp only [initSt]
      omega)
    refine ⟨s2, ?_⟩
    unfold schedulerRun
    simp only [hx, h1, h2, bind, Except.bind, pure, Except.pure, Nat.sub_zero, if_true,
      if_neg (show ¬ (1 < 0) by decide)]
  obtain ⟨s, hs⟩ := hrun
  obtain ⟨hbk, _, _, h4, x0, hx0, hxx⟩ := scheduler_bookkeeping hs
  have hi : s.iter = 1 := h4 (by decide)
  have e0 : s.x 0 0 = 0 := by
    rw [hxx]
    have : x0 = fun _ _ => 0 := by
      have : initStates 1 1 ⟨1, 1, fun _ _ => 0⟩ true = .ok (fun _ _ => 0) := by simp [initStates]
      rw [this] at hx0
      exact (Except.ok.inj hx0).symm
    rw [this]; rfl
  obtain ⟨par, r, h1, h2, h3, _⟩ := scheduler_steps hs 0 1 le_rfl hi.ge
  have hcol : s.x 0 1 = 1 ∧ s.accept 0 1 = true := by
    rw [e0] at h1
    have hl : Real.log (max (1 / 2) uFloor) < 0 := by
      have hf : uFloor ≤ 1 / 2 := by
        unfold uFloor
        exact (pow_le_of_le_one (by norm_num) (by norm_num) (by norm_num)).trans (by norm_num)
      rw [max_eq_left hf]
      exact Real.log_neg (by norm_num) (by norm_num)
    have h5 := mhStep_accept_iff walkEnv.logTarget (walkEnv.logProp par) 0 (0 + 1) 0 0 (1 / 2) rfl
      rfl (some (s.logT 0 0)) (by
        rcases hbk.first 0 with h
        exact Or.inr (Or.inl (by rw [h])))
    rw [sub_zero, if_pos hl] at h5
    have h6 : r = _ := Except.ok.inj (h1.symm.trans h5)
    rw [h2, h3, h6]
    simp
  refine ⟨s, fun c => [s.x c 0], ?_, hi, hcol.2, hcol.1, by simp [e0], ?_⟩
  · unfold scheduler
    rw [hs]
    simp [bind, Except.bind, pure, Except.pure, hi]
  · rw [hi, hcol.1]
    dsimp only
    rw [e0]
    intro h
    have := congrFun (List.mem_singleton.mp h) 0
    norm_num at this

end Verif.MH
