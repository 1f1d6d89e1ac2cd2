import Verif.Mcmc.PropsMHHelpers

/-!
# C195, C196: statistics of whole chains, and memory that was never written
-/

set_option autoImplicit false

namespace Verif.MH

open Verif Matrix

variable {d m : ℕ} {W : Type} {o : Opts d} {env : Env d m W}

/-! ## C195 -/

/-- The rows of all chains after the burn-in, chain by chain. -/
def allRows (s : St d m) (burnin : ℕ) : List (Pt d) :=
  (List.finRange m).flatMap fun c => (List.range' burnin (s.size - burnin)).map (s.x c)

theorem chunks_flatten {α : Type} (k n : ℕ) (l : List α) (h : l.length = n * k) :
    ((List.range n).flatMap fun g => (l.drop (g * k)).take k) = l := by
  induction n generalizing l with
  | zero =>
    simp only [Nat.zero_mul, List.length_eq_zero_iff] at h
    simp [h]
  | succ n ih =>
    rw [List.range_succ_eq_map, List.flatMap_cons, List.flatMap_map]
    have e : ((List.range n).flatMap fun g => (l.drop ((g + 1) * k)).take k) = l.drop k := by
      refine Eq.trans ?_ (ih (l.drop k) (by rw [List.length_drop, h]; rw [Nat.add_mul]; omega))
      congr 1
      funext g
      rw [List.drop_drop, show k + g * k = (g + 1) * k by ring]
    simp only [Nat.zero_mul, List.drop_zero, Nat.succ_eq_add_one]
    rw [e, List.take_append_drop]

/-- **C195** The pooled samples: as many groups as `n_chains / n_pool`, which one after the other are
all rows after the burn-in, each with `n_pool` chains' rows; the errors. -/
theorem pooledSamples_spec (s : St d m) (burnin nPool : ℕ) :
    (∀ l, pooledSamples true s burnin nPool = .ok l →
      l.length * nPool = m ∧ l.flatten = allRows s burnin ∧ ∀ g ∈ l, g.length = nPool * (s.size - burnin)) ∧
    ((∃ l, pooledSamples true s burnin nPool = .ok l) ↔ nPool ≠ 0 ∧ nPool ∣ m) ∧
    pooledSamples false s burnin nPool = .error .valueError := by
  refine ⟨?_, ?_, rfl⟩
  · intro l h
    unfold pooledSamples at h
    simp only [Bool.true_eq_false, if_false] at h
    by_cases h0 : nPool = 0
    · rw [if_pos h0] at h; cases h
    rw [if_neg h0] at h
    by_cases h1 : m % nPool ≠ 0
    · rw [if_pos h1] at h; cases h
    rw [if_neg h1] at h
    obtain rfl := Except.ok.inj h
    have hm : m / nPool * nPool = m := Nat.div_mul_cancel (Nat.dvd_of_mod_eq_zero (not_not.mp h1))
    refine ⟨by simpa using hm, ?_, ?_⟩
    · rw [← List.flatMap_def]
      unfold groupRows allRows
      rw [← List.flatMap_assoc, chunks_flatten nPool _ _ (by simpa using hm.symm)]
    · intro g hg
      obtain ⟨i, hi, rfl⟩ := List.mem_map.mp hg
      rw [groupRows_length]
      congr 1
      have hi := List.mem_range.mp hi
      have : (i + 1) * nPool ≤ m / nPool * nPool := Nat.mul_le_mul_right _ hi
      rw [hm, Nat.add_mul] at this
      omega
  · unfold pooledSamples
    simp only [Bool.true_eq_false, if_false]
    by_cases h0 : nPool = 0
    · simp [h0]
    rw [if_neg h0]
    by_cases h1 : m % nPool ≠ 0
    · rw [if_pos h1]
      simp [h0, Nat.dvd_iff_mod_eq_zero, h1]
    · rw [if_neg h1]
      exact ⟨fun _ => ⟨h0, Nat.dvd_of_mod_eq_zero (not_not.mp h1)⟩, fun _ => ⟨_, rfl⟩⟩

/-- **C195** All chains pooled is the case of one group, and every covariance is positive semidefinite. -/
theorem wholeCov_spec (hm : 0 < m) (s : St d m) (burnin : Option ℕ) (nPool : ℕ) :
    wholeCov true s burnin true nPool = wholeCov true s burnin false m ∧
    wholeCov true s burnin true nPool = .ok [covRows (allRows s (burnin.getD s.burnin))] ∧
    ∀ pooled l, wholeCov true s burnin pooled nPool = .ok l → ∀ C, some C ∈ l → C.PosSemidef := by
  have e1 : groupRows s (burnin.getD s.burnin) s.size 0 m = allRows s (burnin.getD s.burnin) := by
    unfold groupRows allRows
    rw [List.drop_zero, List.take_of_length_le (by simp)]
  have e2 : wholeCov true s burnin true nPool = .ok [covRows (allRows s (burnin.getD s.burnin))] := by
    simp [wholeCov, e1]
  refine ⟨?_, e2, ?_⟩
  · rw [e2]
    simp [wholeCov, pooledSamples, hm.ne', Nat.div_self hm, e1, Except.map]
  · intro pooled l h C hC
    have key : ∃ L : List (List (Pt d)), l = L.map covRows := by
      cases pooled with
      | true => rw [e2] at h; exact ⟨[_], (Except.ok.inj h).symm⟩
      | false =>
        simp only [wholeCov, Bool.true_eq_false, if_false, Bool.false_eq_true] at h
        cases hp : pooledSamples true s (burnin.getD s.burnin) nPool with
        | error e => rw [hp] at h; cases h
        | ok L => rw [hp] at h; exact ⟨L, (Except.ok.inj h).symm⟩
    obtain ⟨L, rfl⟩ := key
    obtain ⟨r, _, hr⟩ := List.mem_map.mp hC
    exact covRows_psd hr

/-- **C195** Recomputing sets every chain's proposal to the scaled covariance of its own rows plus
`epsilon` on the diagonal, positive definite as soon as two rows are left; nothing else changes. -/
theorem recompute_spec (s : St d m) (burnin : Option ℕ) (scaling : Option ℝ) (eps : ℝ) :
    ∃ s', recompute true s burnin scaling eps = .ok s' ∧ s'.x = s.x ∧ s'.iter = s.iter ∧ s'.scale = s.scale ∧
      (∀ c, s'.params c = haarioCov (scaling.getD (2.38 ^ 2 / d)) eps
        (covRows ((List.range' (burnin.getD s.burnin) (s.size - burnin.getD s.burnin)).map (s.x c)))) ∧
      (burnin.getD s.burnin + 2 ≤ s.size → 0 < eps → (∀ k ∈ scaling, 0 ≤ k) → ∀ c, (s'.params c).Good) ∧
      (s.size < burnin.getD s.burnin + 2 → ∀ c, s'.params c = .nanMat) := by
  refine ⟨_, rfl, rfl, rfl, rfl, fun _ => rfl, ?_, ?_⟩
  · intro h2 he hk c
    have hl : ¬ ((List.range' (burnin.getD s.burnin) (s.size - burnin.getD s.burnin)).map (s.x c)).length < 2 := by
      simp; omega
    have hsome : ∃ C, covRows ((List.range' (burnin.getD s.burnin) (s.size - burnin.getD s.burnin)).map (s.x c)) =
        some C := by
      unfold covRows
      rw [if_neg hl]
      exact ⟨_, rfl⟩
    obtain ⟨C, hC⟩ := hsome
    simp only [hC]
    refine haarioCov_good ?_ he (covRows_psd hC)
    cases scaling with
    | none => simp; positivity
    | some k => exact hk k rfl
  · intro h c
    have hl : ((List.range' (burnin.getD s.burnin) (s.size - burnin.getD s.burnin)).map (s.x c)).length < 2 := by
      simp; omega
    simp only [covRows, if_pos hl]
    rfl

/-- **C195** The blocks compared by the Kolmogorov-Smirnov statistics: block `b` of chain `c` is made
of the `size` rows that end `n_blocks - b - 1` blocks before the last allocated row. -/
theorem ksBlocks_spec (s : St d m) (nBlocks size : ℕ) (h : nBlocks * size ≤ s.size) :
    ∃ l, ksBlocks s nBlocks size = .ok l ∧ l.length = m * nBlocks ∧
      ∀ (c : Fin m) (b : ℕ), b < nBlocks → ∃ blk, l[(c : ℕ) * nBlocks + b]? = some blk ∧ blk.length = size ∧
        ∀ i < size, blk[i]? = some (s.x c (s.size - (nBlocks - b) * size + i)) := by
  refine ⟨_, if_neg (not_lt.mpr h), by simp [List.length_flatMap], ?_⟩
  intro c b hb
  have gen : ∀ (L : List (Fin m)) (i : ℕ) (c : Fin m), L[i]? = some c →
      (L.flatMap fun c => (List.range nBlocks).map fun b =>
        (List.range' (s.size - nBlocks * size + b * size) size).map (s.x c))[i * nBlocks + b]? =
      some ((List.range' (s.size - nBlocks * size + b * size) size).map (s.x c)) := by
    intro L
    induction L with
    | nil => intro i c h; simp at h
    | cons a L ih =>
      intro i c h
      rw [List.flatMap_cons]
      cases i with
      | zero =>
        simp only [List.getElem?_cons_zero, Option.some.injEq] at h
        subst h
        rw [Nat.zero_mul, Nat.zero_add, List.getElem?_append_left (by simpa using hb)]
        simp [hb]
      | succ i =>
        rw [List.getElem?_append_right (by simp; nlinarith)]
        simp only [List.length_map, List.length_range]
        rw [show (i + 1) * nBlocks + b - nBlocks = i * nBlocks + b by rw [Nat.add_mul]; omega]
        exact ih i c (by simpa using h)
  refine ⟨_, gen (List.finRange m) c c (by simp), by simp, ?_⟩
  intro i hi
  have e1 : (nBlocks - b) * size + b * size = nBlocks * size := by
    rw [← Nat.add_mul, Nat.sub_add_cancel hb.le]
  have e : s.size - nBlocks * size + b * size = s.size - (nBlocks - b) * size := by omega
  simp [hi, e]

/-- **C195** The matrices of `ks_statistics` are symmetric with a zero diagonal. -/
theorem ksMatrix_symm (test : List ℝ → List ℝ → ℝ) (blocks : List (List (Pt d))) (k : Fin d) (i j : ℕ) :
    ksMatrix test blocks k i j = ksMatrix test blocks k j i ∧ ksMatrix test blocks k i i = 0 := by
  constructor
  · unfold ksMatrix
    rcases lt_trichotomy i j with h | h | h
    · simp [h, h.le, not_lt.mpr h.le]
    · simp [h]
    · simp [h, h.le, not_lt.mpr h.le]
  · simp [ksMatrix]

/-! ## C196: memory that was never written -/

/-- Both raise the same error, or both return related values. -/
def RelPy {α β : Type} (R : α → β → Prop) : Py α → Py β → Prop
  | .ok a, .ok b => R a b
  | .error e, .error e' => e = e'
  | _, _ => False

theorem RelPy.bind {α β γ δ : Type} {R : α → β → Prop} {S : γ → δ → Prop} {a : Py α} {b : Py β}
    {f : α → Py γ} {g : β → Py δ} (h : RelPy R a b) (hf : ∀ x y, R x y → RelPy S (f x) (g y)) :
    RelPy S (a >>= f) (b >>= g) := by
  cases a with
  | error e =>
    cases b with
    | error e' => exact h
    | ok b => exact h.elim
  | ok a =>
    cases b with
    | error e' => exact h.elim
    | ok b => exact hf a b h

/-- Two samplers that agree on everything but states not yet computed (`done` are the chains already
advanced to the next iteration). -/
structure AgreeIn (done : Fin m → Prop) (s s' : St d m) : Prop where
  accept : s.accept = s'.accept
  logT : s.logT = s'.logT
  size : s.size = s'.size
  iter : s.iter = s'.iter
  burnin : s.burnin = s'.burnin
  params : s.params = s'.params
  scale : s.scale = s'.scale
  hFactor : s.hFactor = s'.hFactor
  x : ∀ c t, (t ≤ s.iter ∨ (t = s.iter + 1 ∧ done c)) → s.x c t = s'.x c t

abbrev Agree (s s' : St d m) : Prop := AgreeIn (fun _ => False) s s'

theorem stepChain_agree {done : Fin m → Prop} {s s' : St d m} (h : AgreeIn done s s') (c : Fin m) :
    RelPy (AgreeIn fun c' => done c' ∨ c' = c) (stepChain o env (s.iter + 1) s c)
      (stepChain o env (s.iter + 1) s' c) := by
  unfold stepChain
  rw [← h.size, ← h.params, ← h.logT, Nat.add_sub_cancel, ← h.x c s.iter (Or.inl le_rfl)]
  by_cases hs : s.size ≤ s.iter + 1
  · simp only [if_pos hs, bind, Except.bind]; rfl
  · simp only [if_neg hs]
    cases mhStep env.logTarget o.symmetric (env.logProp (s.params c)) (s.x c s.iter) (some (s.logT c s.iter))
        (env.prop (s.params c) (s.x c s.iter) (env.noise (s.iter + 1) c).1) (env.noise (s.iter + 1) c).2 with
    | error e => exact rfl
    | ok r =>
      refine ⟨?_, rfl, rfl, h.iter, h.burnin, rfl, h.scale, h.hFactor, ?_⟩
      · change set2 s.accept _ _ _ = set2 s'.accept _ _ _
        rw [h.accept]
      · intro c' t ht
        change t ≤ s.iter ∨ _ at ht
        change set2 s.x _ _ _ c' t = set2 s'.x _ _ _ c' t
        unfold set2
        split
        · rfl
        · rename_i hne
          refine h.x c' t ?_
          rcases ht with ht | ⟨ht, hd | hd⟩
          · exact Or.inl ht
          · exact Or.inr ⟨ht, hd⟩
          · exact absurd ⟨hd, ht⟩ hne

theorem chains_agree (L : List (Fin m)) {done : Fin m → Prop} {s s' : St d m} (h : AgreeIn done s s') :
    RelPy (AgreeIn fun c => done c ∨ c ∈ L) (L.foldlM (stepChain o env (s.iter + 1)) s)
      (L.foldlM (stepChain o env (s.iter + 1)) s') := by
  induction L generalizing done s s' with
  | nil =>
    refine ⟨h.accept, h.logT, h.size, h.iter, h.burnin, h.params, h.scale, h.hFactor, fun c t ht => h.x c t ?_⟩
    rcases ht with ht | ⟨ht, hd | hd⟩
    · exact Or.inl ht
    · exact Or.inr ⟨ht, hd⟩
    · simp at hd
  | cons c L ih =>
    rw [List.foldlM_cons, List.foldlM_cons]
    cases h1 : stepChain o env (s.iter + 1) s c with
    | error e =>
      have := stepChain_agree (o := o) (env := env) h c
      rw [h1] at this
      cases h2 : stepChain o env (s.iter + 1) s' c with
      | error e' => rw [h2] at this; exact this
      | ok r => rw [h2] at this; exact this.elim
    | ok r =>
      have := stepChain_agree (o := o) (env := env) h c
      rw [h1] at this
      cases h2 : stepChain o env (s.iter + 1) s' c with
      | error e' => rw [h2] at this; exact this.elim
      | ok r' =>
        rw [h2] at this
        have hi : r.iter = s.iter := by
          unfold stepChain at h1
          by_cases hs : s.size ≤ s.iter + 1
          · simp only [if_pos hs, bind, Except.bind] at h1; cases h1
          · simp only [if_neg hs] at h1
            obtain ⟨q, _, h3⟩ := bind_ok h1
            obtain rfl := Except.ok.inj h3
            rfl
        have key := ih (done := fun c' => done c' ∨ c' = c) this
        rw [hi] at key
        simp only [bind, Except.bind]
        have e : (fun c' => (done c' ∨ c' = c) ∨ c' ∈ L) = fun c' => done c' ∨ c' ∈ c :: L := by
          funext c'
          simp only [List.mem_cons, or_assoc]
        rw [e] at key
        exact key

theorem stepAll_agree {s s' : St d m} (h : Agree s s') :
    RelPy Agree (stepAll o env s (s.iter + 1)) (stepAll o env s' (s.iter + 1)) := by
  unfold stepAll
  refine (chains_agree (List.finRange m) h).bind ?_
  intro r r' hr
  refine ⟨hr.accept, hr.logT, hr.size, by change r.iter + 1 = r'.iter + 1; rw [hr.iter], hr.burnin, hr.params,
    hr.scale, hr.hFactor, ?_⟩
  intro c t ht
  change t ≤ r.iter + 1 ∨ _ at ht
  refine hr.x c t ?_
  rcases ht with ht | ⟨_, hd⟩
  · rcases Nat.lt_or_ge r.iter t with h1 | h1
    · exact Or.inr ⟨by omega, Or.inr (List.mem_finRange c)⟩
    · exact Or.inl h1
  · exact hd.elim

theorem runSamples_agree (n : ℕ) {s s' : St d m} (h : Agree s s') :
    RelPy Agree (runSamples o env n s) (runSamples o env n s') := by
  unfold runSamples
  rw [← h.iter]
  induction n generalizing s s' with
  | zero => exact h
  | succ n ih =>
    rw [List.range'_succ, List.foldlM_cons, List.foldlM_cons]
    have hs := stepAll_agree (o := o) (env := env) h
    cases h1 : stepAll o env s (s.iter + 1) with
    | error e =>
      rw [h1] at hs
      cases h2 : stepAll o env s' (s.iter + 1) with
      | error e' => rw [h2] at hs; exact hs
      | ok r => rw [h2] at hs; exact hs.elim
    | ok r =>
      rw [h1] at hs
      cases h2 : stepAll o env s' (s.iter + 1) with
      | error e' => rw [h2] at hs; exact hs.elim
      | ok r' =>
        rw [h2] at hs
        have hi := (stepAll_ok h1).1.iter
        simp only [bind, Except.bind]
        have := ih hs
        rw [hi] at this
        exact this

theorem acceptCount_agree {s s' : St d m} (h : Agree s s') (c : Fin m) (i0 i1 : ℕ) :
    acceptCount s c i0 i1 = acceptCount s' c i0 i1 := by
  unfold acceptCount; rw [h.accept]

theorem blockRate_agree {s s' : St d m} (h : Agree s s') (n : ℕ) (c : Fin m) :
    blockRate s n c = blockRate s' n c := by
  unfold blockRate; rw [acceptCount_agree h, h.iter]

theorem slidingRate_agree {s s' : St d m} (h : Agree s s') (w : ℤ) (c : Fin m) (t : ℕ) :
    slidingRate s w c t = slidingRate s' w c t := by
  unfold slidingRate; simp only [acceptCount_agree h, h.iter]

theorem RelPy.of_eq {α : Type} {a b : Py α} (h : a = b) : RelPy (· = ·) a b := by
  subst h
  cases a with
  | error e => exact rfl
  | ok a => exact rfl

theorem runRM_agree (n : ℕ) (dim : Bool) {s s' : St d m} (h : Agree s s') :
    RelPy Agree (runRM o env n dim s) (runRM o env n dim s') := by
  unfold runRM
  refine (runSamples_agree n h).bind fun r r' hr => ?_
  refine RelPy.bind (RelPy.of_eq (show rmGamma o dim r = rmGamma o dim r' by
    unfold rmGamma; rw [hr.iter, hr.burnin])) ?_
  rintro g _ rfl
  refine ⟨hr.accept, hr.logT, hr.size, hr.iter, hr.burnin, ?_, hr.scale, hr.hFactor, hr.x⟩
  funext c
  change (r.params c).scale _ = (r'.params c).scale _
  rw [hr.params, blockRate_agree hr]

theorem groupRows_agree {s s' : St d m} (h : Agree s s') (i0 i1 start nPool : ℕ) (hi : i1 ≤ s.iter + 1) :
    groupRows s i0 i1 start nPool = groupRows s' i0 i1 start nPool := by
  unfold groupRows
  congr 1
  funext c
  refine List.map_congr_left fun t ht => h.x c t (Or.inl ?_)
  have := (List.mem_range'_1.mp ht)
  omega

theorem runHaario_agree (n : ℕ) {s s' : St d m} (h : Agree s s') :
    RelPy Agree (runHaario o env n s) (runHaario o env n s') := by
  unfold runHaario
  refine (runSamples_agree n h).bind fun r r' hr => ?_
  by_cases h0 : o.nPool = 0
  · simp only [if_pos h0, bind, Except.bind]; rfl
  simp only [if_neg h0]
  by_cases h1 : m % o.nPool ≠ 0
  · simp only [if_pos h1, bind, Except.bind]; rfl
  simp only [if_neg h1]
  have es : (fun c => r.scale c * Real.exp (r.hFactor * (blockRate r n c - o.target))) =
      fun c => r'.scale c * Real.exp (r'.hFactor * (blockRate r' n c - o.target)) := by
    funext c
    rw [hr.scale, hr.hFactor, blockRate_agree hr]
  refine ⟨hr.accept, hr.logT, hr.size, hr.iter, hr.burnin, ?_, es, hr.hFactor, hr.x⟩
  funext c
  have e2 := congrFun es c
  change haarioCov _ _ _ = haarioCov _ _ _
  rw [groupRows_agree hr _ _ _ _ le_rfl, ← hr.iter]
  exact congrArg (fun k => haarioCov k _ _) e2

theorem runBlock_agree (dim : Bool) {s s' : St d m} (h : Agree s s') :
    RelPy Agree (runBlock o env dim s) (runBlock o env dim s') := by
  unfold runBlock
  cases o.method with
  | rm => exact runRM_agree _ _ h
  | haario => exact runHaario_agree _ h
  | other => exact rfl

theorem adaptBlocks_agree (k : ℕ) {s s' : St d m} (h : Agree s s') :
    RelPy Agree (adaptBlocks o env k s) (adaptBlocks o env k s') := by
  induction k generalizing s s' with
  | zero => exact h
  | succ k ih =>
    unfold adaptBlocks
    exact (runBlock_agree false h).bind fun r r' hr => ih hr

theorem runAdaptive_agree (n : ℕ) {s s' : St d m} (h : Agree s s') :
    RelPy Agree (runAdaptive o env n s) (runAdaptive o env n s') := by
  unfold runAdaptive
  by_cases h0 : o.interval = 0
  · simp only [if_pos h0, bind, Except.bind]; rfl
  simp only [if_neg h0]
  refine (adaptBlocks_agree _ h).bind fun r r' hr => ?_
  split
  · exact runSamples_agree _ hr
  · exact hr

theorem rhat1_congr {i0 i1 : ℕ} {x y : Fin m → ℕ → ℝ} (h : ∀ c t, t < i1 → x c t = y c t) :
    rhat1 i0 i1 x = rhat1 i0 i1 y := by
  have e1 : ∀ c, meanOver i0 i1 (x c) = meanOver i0 i1 (y c) := by
    intro c
    unfold meanOver
    rw [Finset.sum_congr rfl fun t ht => h c t (Finset.mem_Ico.mp ht).2]
  have e2 : ∀ c, varOver i0 i1 (x c) = varOver i0 i1 (y c) := by
    intro c
    unfold varOver
    rw [e1, Finset.sum_congr rfl fun t ht => by rw [h c t (Finset.mem_Ico.mp ht).2]]
  unfold rhat1
  simp only [e1, e2]

theorem rhat_agree {s s' : St d m} (h : Agree s s') (b : ℕ) (last : Option ℕ) : rhat s b last = rhat s' b last := by
  have e : sliceStart s b last = sliceStart s' b last := by
    unfold sliceStart; rw [h.iter]
  unfold rhat
  rw [e, ← h.iter]
  congr 2
  congr 1
  funext j
  refine rhat1_congr fun c t ht => ?_
  rw [h.x c t (Or.inl ht.le)]

theorem checkGR_agree {s s' : St d m} (h : Agree s s') (b : ℕ) (last : Option ℕ) (thr : ℝ) :
    checkGR s b last thr = checkGR s' b last thr := by
  unfold checkGR; rw [rhat_agree h]

theorem earlyStop_agree {s s' : St d m} (h : Agree s s') (n : ℕ) : earlyStop o n s = earlyStop o n s' := by
  unfold earlyStop
  simp only [checkGR_agree h, slidingRate_agree h, h.iter]

/-- The results of the burn-in loop agree. -/
theorem burninBlocks_agree (diag : Bool) (nDiag k : ℕ) {s s' : St d m} (h : Agree s s') :
    RelPy (fun r r' : St d m × Bool => Agree r.1 r'.1 ∧ r.2 = r'.2) (burninBlocks o env diag nDiag k s)
      (burninBlocks o env diag nDiag k s') := by
  induction k generalizing s s' with
  | zero => exact ⟨h, rfl⟩
  | succ k ih =>
    unfold burninBlocks
    refine (runBlock_agree _ h).bind fun r r' hr => ?_
    rw [← hr.iter, ← earlyStop_agree hr]
    by_cases hd : (diag && decide (nDiag ≤ r.iter)) = true
    · simp only [if_pos hd]
      cases earlyStop o nDiag r with
      | error e => exact rfl
      | ok b =>
        cases b with
        | true => exact ⟨⟨hr.accept, hr.logT, hr.size, rfl, rfl, hr.params, hr.scale, hr.hFactor, hr.x⟩, rfl⟩
        | false => exact ih hr
    · simp only [if_neg hd]
      exact ih hr

theorem burninDiag_agree (diag : Bool) (nDiag : ℕ) {s s' : St d m} (h : Agree s s') :
    burninDiag o diag nDiag s = burninDiag o diag nDiag s' := by
  have e : ∀ b last f g lo hi, (∀ c t, f c t = g c t) → checkAccept s b last f lo hi = checkAccept s' b last g lo hi := by
    intro b last f g lo hi hfg
    have : f = g := by funext c t; exact hfg c t
    subst this
    unfold checkAccept sliceStart
    rw [h.iter]
  unfold burninDiag
  rw [h.iter, h.burnin, checkGR_agree h, e _ _ _ (fun c t => slidingRate s' o.width c t) _ _ fun c t =>
    slidingRate_agree h _ c t]

theorem runBurnin_agree (burnin : ℕ) (diag : Bool) (nb : ℕ) {s s' : St d m} (h : Agree s s') :
    RelPy Agree (runBurnin o env burnin diag nb s) (runBurnin o env burnin diag nb s') := by
  unfold runBurnin
  by_cases h0 : o.interval = 0
  · simp only [if_pos h0, bind, Except.bind]; rfl
  simp only [if_neg h0]
  refine (burninBlocks_agree diag _ _ h).bind fun r r' hr => ?_
  refine RelPy.bind (R := Agree) ?_ fun q q' hq => ?_
  · unfold burninRest
    rw [← hr.2]
    split
    · exact runSamples_agree _ hr.1
    · exact hr.1
  · rw [← burninDiag_agree diag _ hq]
    cases burninDiag o diag (nb * o.interval) q with
    | error e => exact rfl
    | ok u => exact hq

theorem adaptBlocks_junk (j : Fin m → ℕ → Pt d) (k : ℕ) (s : St d m) :
    adaptBlocks o { env with junk := j } k s = adaptBlocks o env k s := by
  induction k generalizing s with
  | zero => rfl
  | succ k ih =>
    unfold adaptBlocks
    simp only [ih]
    rfl

theorem burninBlocks_junk (j : Fin m → ℕ → Pt d) (diag : Bool) (nDiag k : ℕ) (s : St d m) :
    burninBlocks o { env with junk := j } diag nDiag k s = burninBlocks o env diag nDiag k s := by
  induction k generalizing s with
  | zero => rfl
  | succ k ih =>
    unfold burninBlocks
    simp only [ih]
    rfl

theorem runBurnin_junk (j : Fin m → ℕ → Pt d) (burnin : ℕ) (diag : Bool) (nb : ℕ) (s : St d m) :
    runBurnin o { env with junk := j } burnin diag nb s = runBurnin o env burnin diag nb s := by
  unfold runBurnin
  simp only [burninBlocks_junk]
  rfl

theorem runAdaptive_junk (j : Fin m → ℕ → Pt d) (n : ℕ) (s : St d m) :
    runAdaptive o { env with junk := j } n s = runAdaptive o env n s := by
  unfold runAdaptive
  simp only [adaptBlocks_junk]
  rfl

/-- **C196** A run does not depend on memory that was not written: with other initial contents of the
array of states, it raises the same error or ends with the same attributes, the same states up to the
last iteration, and returns the same. -/
theorem scheduler_memory (j : Fin m → ℕ → Pt d) (a : InitArr) (rep : Bool) (params : Fin m → PropPar d)
    (scale : Fin m → ℝ) (n burnin : ℕ) :
    RelPy (fun r r' : St d m × (Fin m → List (Pt d)) => Agree r.1 r'.1 ∧ r.2 = r'.2)
      (scheduler o env a rep params scale n burnin)
      (scheduler o { env with junk := j } a rep params scale n burnin) := by
  unfold scheduler
  refine RelPy.bind (R := Agree) ?_ fun r r' hr => ⟨hr, ?_⟩
  · unfold schedulerRun
    cases initStates m d a rep with
    | error e => exact rfl
    | ok x0 =>
      simp only [bind, Except.bind]
      by_cases hn : n < burnin
      · simp only [if_pos hn]; rfl
      simp only [if_neg hn]
      have h0 : Agree (initSt o env x0 params scale n burnin)
          (initSt o { env with junk := j } x0 params scale n burnin) := by
        refine ⟨rfl, rfl, rfl, rfl, rfl, rfl, rfl, rfl, ?_⟩
        intro c t ht
        rcases ht with ht | ⟨_, hd⟩
        · have : t = 0 := Nat.le_zero.mp ht
          subst this; rfl
        · exact hd.elim
      rw [runBurnin_junk (env := env) j]
      refine RelPy.bind (runBurnin_agree (o := o) (env := env) burnin true 20 h0) fun r r' hr => ?_
      rw [runAdaptive_junk (env := env) j]
      split
      · exact runSamples_agree (o := o) (env := env) _ hr
      · exact runAdaptive_agree (o := o) (env := env) _
          ⟨hr.accept, hr.logT, hr.size, hr.iter, hr.burnin, hr.params, hr.scale, rfl, hr.x⟩
  · funext c
    change (List.range' _ _).map (r.x c) = (List.range' _ _).map (r'.x c)
    rw [hr.iter, hr.burnin]
    refine List.map_congr_left fun t ht => hr.x c t (Or.inl ?_)
    have := List.mem_range'_1.mp ht
    rw [hr.iter]
    split at this <;> omega

/-- **C196** When every requested step was made, the statistics of whole chains do not depend on that
memory either. -/
theorem whole_chain_memory_partial {s s' : St d m} (h : Agree s s') (hfull : s.size = s.iter + 1) (burnin nPool : ℕ)
    (b : Option ℕ) (pooled : Bool) (nBlocks size : ℕ) (scaling : Option ℝ) (eps : ℝ) :
    pooledSamples true s burnin nPool = pooledSamples true s' burnin nPool ∧
    wholeCov true s b pooled nPool = wholeCov true s' b pooled nPool ∧
    ksBlocks s nBlocks size = ksBlocks s' nBlocks size ∧
    RelPy Agree (recompute true s b scaling eps) (recompute true s' b scaling eps) := by
  have eg : ∀ i0 start k, groupRows s i0 s.size start k = groupRows s' i0 s'.size start k := by
    intro i0 start k
    rw [← h.size]
    exact groupRows_agree h _ _ _ _ hfull.le
  have ep : ∀ burnin nPool, pooledSamples true s burnin nPool = pooledSamples true s' burnin nPool := by
    intro burnin nPool
    unfold pooledSamples
    simp only [eg]
  have em : ∀ (c : Fin m) (i0 k : ℕ), i0 + k ≤ s.size → (List.range' i0 k).map (s.x c) = (List.range' i0 k).map (s'.x c) := by
    intro c i0 k hk
    refine List.map_congr_left fun t ht => h.x c t (Or.inl ?_)
    have := List.mem_range'_1.mp ht
    omega
  refine ⟨ep _ _, ?_, ?_, ?_⟩
  · unfold wholeCov
    simp only [eg, ep, h.burnin]
  · unfold ksBlocks
    rw [← h.size]
    by_cases hs : s.size < nBlocks * size
    · rw [if_pos hs, if_pos hs]
    · rw [if_neg hs, if_neg hs]
      congr 2
      funext c
      refine List.map_congr_left fun b hb => em c _ _ ?_
      have hb := List.mem_range.mp hb
      have : (b + 1) * size ≤ nBlocks * size := Nat.mul_le_mul_right _ hb
      rw [Nat.add_mul] at this
      omega
  · refine ⟨h.accept, h.logT, h.size, h.iter, h.burnin, ?_, h.scale, h.hFactor, h.x⟩
    funext c
    change haarioCov _ _ _ = haarioCov _ _ _
    rw [h.burnin, ← h.size]
    by_cases hb : b.getD s'.burnin ≤ s.size
    · rw [em c _ _ (by omega)]
    · rw [show s.size - b.getD s'.burnin = 0 by omega]
      rfl

/-! ### A run that stops early -/

/-- Two chains that take the values 1, 0, 1, 0, …, every proposal being accepted. -/
noncomputable def flipEnv (j : Fin 2 → ℕ → Pt 1) : Env 1 2 (Pt 1) where
  logTarget := fun _ => .ok (.fin 0)
  prop := fun _ _ w => .ok w
  logProp := fun _ _ _ => .ok (.fin 0)
  noise := fun t _ => (fun _ => ((t % 2 : ℕ) : ℝ), 1 / 2)
  junk := j

/-- All acceptance rates above one half are wanted. -/
noncomputable def flipOpts : Opts 1 := { target := 1, tol := 1 / 2, interval := 1 }

theorem flip_sane (j : Fin 2 → ℕ → Pt 1) : Sane flipOpts (flipEnv j) :=
  ⟨fun _ _ w => ⟨w, rfl⟩, fun _ _ _ _ => ⟨_, rfl⟩, by decide, by decide, fun _ => by decide⟩

/-- What the states and acceptances of such a run are. -/
def Flips (s : St 1 2) : Prop :=
  ∀ c t, t ≤ s.iter → s.x c t = (fun _ => ((t % 2 : ℕ) : ℝ)) ∧ s.accept c t = true ∧ (s.logT c t = .nan ∨ s.logT c t = .fin 0)

theorem Flips.step {j : Fin 2 → ℕ → Pt 1} {s s' : St 1 2} (h : Flips s) (hs : Step flipOpts (flipEnv j) s s') :
    Flips s' := by
  intro c t ht
  rw [hs.iter] at ht
  by_cases h1 : t = s.iter + 1
  · subst h1
    obtain ⟨prop, lp, u, r, ⟨par, rfl, rfl⟩, rfl, hr, e1, e2, e3⟩ := hs.col c
    have h5 := mhStep_accept_iff (flipEnv j).logTarget ((flipEnv j).logProp par) (s.x c s.iter)
      (fun _ => (((s.iter + 1) % 2 : ℕ) : ℝ)) 0 0 (1 / 2) rfl rfl (some (s.logT c s.iter)) (by
        rcases (h c s.iter le_rfl).2.2 with h | h
        · exact Or.inr (Or.inl (by rw [h]))
        · exact Or.inr (Or.inr (by rw [h])))
    have hl : Real.log (max (1 / 2) uFloor) < 0 - 0 := by
      have hf : uFloor ≤ 1 / 2 := by
        unfold uFloor
        exact (pow_le_of_le_one (by norm_num) (by norm_num) (by norm_num)).trans (by norm_num)
      rw [max_eq_left hf, sub_zero]
      exact Real.log_neg (by norm_num) (by norm_num)
    rw [if_pos hl] at h5
    have h6 : r = _ := Except.ok.inj (hr.symm.trans h5)
    rw [e1, e2, e3, h6]
    exact ⟨rfl, rfl, Or.inr rfl⟩
  · obtain ⟨f1, f2, f3⟩ := hs.frame c t h1
    rw [f1, f2, f3]
    exact h c t (by omega)

theorem Flips.reach {j : Fin 2 → ℕ → Pt 1} {s s' : St 1 2} {k : ℕ} (h : Flips s)
    (hr : Reach flipOpts (flipEnv j) s s' k) : Flips s' := by
  induction hr with
  | refl => exact h
  | step _ hs ih => exact ih.step hs
  | tune _ h1 h2 h3 _ h5 ih =>
    intro c t ht
    rw [h5] at ht
    rw [h1, h2, h3]
    exact ih c t ht

theorem Flips.early {s : St 1 2} (h : Flips s) (hi : s.iter = 20) : earlyStop flipOpts 20 s = .ok true := by
  classical
  have hrate : ∀ c t, t < 20 → slidingRate s flipOpts.width c t = 1 := by
    intro c t ht
    have hw : rateWindow flipOpts.width s.iter = 20 := by
      rw [hi]; rfl
    unfold slidingRate
    simp only [hw, if_pos ht]
    have : acceptCount s c 0 (t + 1) = t + 1 := by
      unfold acceptCount
      rw [List.filter_eq_self.mpr]
      · simp
      · intro q hq
        exact (h c q (by have := List.mem_range'_1.mp hq; omega)).2.1
    rw [this]
    push_cast
    exact div_self (by positivity)
  have hmean : ∀ c, meanOver 0 20 (fun t => s.x c t 0) = 1 / 2 := by
    intro c
    unfold meanOver
    rw [Finset.sum_congr rfl (g := fun t => ((t % 2 : ℕ) : ℝ)) fun t ht => by
      beta_reduce
      rw [(h c t (by have := (Finset.mem_Ico.mp ht).2; omega)).1]]
    norm_num [Finset.sum_Ico_succ_top]
  have hvar : ∀ c, varOver 0 20 (fun t => s.x c t 0) = 5 / 19 := by
    intro c
    unfold varOver
    rw [hmean, Finset.sum_congr rfl (g := fun t => (((t % 2 : ℕ) : ℝ) - 1 / 2) ^ 2) fun t ht => by
      beta_reduce
      rw [(h c t (by have := (Finset.mem_Ico.mp ht).2; omega)).1]]
    norm_num [Finset.sum_Ico_succ_top]
  have hr : rhat1 0 20 (fun c t => s.x c t 0) = .fin (Real.sqrt (19 / 20)) := by
    unfold rhat1
    simp only [hmean, hvar]
    norm_num [meanChains, varChains, divNonneg]
    rw [← Real.sqrt_div (by norm_num)]
    rfl
  have hgr : checkGR s 0 (some 20) 1.1 = .ok true := by
    unfold checkGR rhat sliceStart
    rw [hi]
    norm_num [bind, Except.bind, pure, Except.pure]
    rw [hr, Flt.fin_lt, Real.sqrt_lt' (by norm_num)]
    norm_num
  unfold earlyStop
  rw [hgr]
  simp only [bind, Except.bind, pure, Except.pure, Bool.and_true, hi]
  congr 1
  rw [decide_eq_true_eq]
  intro c t ht
  rw [hrate c t (by have := (Finset.mem_Ico.mp ht).2; omega)]
  norm_num [flipOpts]

theorem flip_blocks {j : Fin 2 → ℕ → Pt 1} (k : ℕ) {s : St 1 2} (h : Flips s) (hi : s.iter < 20)
    (hk : 20 ≤ s.iter + k) (hs : 20 < s.size) (hb : s.burnin ≠ 0) :
    ∃ s', burninBlocks flipOpts (flipEnv j) true 20 k s = .ok (s', true) ∧ s'.iter = 20 := by
  induction k generalizing s with
  | zero => omega
  | succ k ih =>
    obtain ⟨s1, h1⟩ := runBlock_total (flip_sane j) flipOpts.rmDiminishing s (by
      change s.iter + 1 < s.size; omega) fun _ => hb
    obtain ⟨r1, b1⟩ := runBlock_ok h1
    have hi1 := r1.iter
    have e1 : s1.iter = s.iter + 1 := hi1.1
    have f1 : Flips s1 := h.reach r1
    unfold burninBlocks
    rw [h1]
    simp only [bind, Except.bind, Bool.true_and, decide_eq_true_eq]
    by_cases h20 : 20 ≤ s1.iter
    · have : s1.iter = 20 := by omega
      rw [if_pos h20, f1.early this]
      exact ⟨_, rfl, this⟩
    · rw [if_neg h20]
      exact ih f1 (by omega) (by omega) (by rw [hi1.2]; exact hs) (by rw [b1]; exact hb)

/-- **C196** is false after a burn-in that stops early: the arrays keep rows that were never written,
and the pooled samples, the blocks of the Kolmogorov-Smirnov statistics and the recomputed covariances
read them. Whatever the memory contained is in the result. -/
theorem whole_chain_memory_false (j : Fin 2 → ℕ → Pt 1) :
    ∃ s out, scheduler flipOpts (flipEnv j) ⟨2, 1, fun _ _ => 0⟩ true (fun _ => .diag 1) (fun _ => 1) 21 21 =
        .ok (s, out) ∧ s.iter = 20 ∧ s.size = 22 ∧
      pooledSamples true s s.burnin 1 = .ok [[fun _ => 0, j 0 21], [fun _ => 0, j 1 21]] ∧
      ksBlocks s 1 1 = .ok [[j 0 21], [j 1 21]] ∧
      ∃ s', recompute true s none none 0 = .ok s' ∧
        s'.params 0 = .full (fun _ _ => 2.38 ^ 2 * (j 0 21 0) ^ 2 / 2) := by
  have hx : initStates 2 1 ⟨2, 1, fun _ _ => 0⟩ true = .ok (fun _ _ => 0) := by
    simp [initStates]
  let s0 := initSt flipOpts (flipEnv j) (fun _ _ => 0) (fun _ => .diag 1) (fun _ => 1) 21 21
  have hf : Flips s0 := by
    intro c t ht
    have : t = 0 := Nat.le_zero.mp ht
    subst this
    refine ⟨?_, rfl, Or.inl rfl⟩
    funext q
    simp [s0, initSt]
  obtain ⟨s1, h1, hi⟩ := flip_blocks (j := j) 21 hf (show 0 < 20 by decide) (show 20 ≤ 0 + 21 by decide)
    (show 20 < 1 + 21 by decide) (show 21 ≠ 0 by decide)
  obtain ⟨q, hq, hr, _, ht⟩ := burninBlocks_ok h1
  have hsz : s1.size = 22 := hr.iter.2
  have hjunk : ∀ c, s1.x c 21 = j c 21 := by
    have key : ∀ {s' : St 1 2} {k : ℕ}, Reach flipOpts (flipEnv j) s0 s' k → s'.iter ≤ 20 → ∀ c, s'.x c 21 = j c 21 := by
      intro s' k h
      induction h with
      | refl => intro _ c; rfl
      | step _ hs ih =>
        intro hle c
        have := hs.iter
        rw [(hs.frame c 21 (by omega)).1]
        exact ih (by omega) c
      | tune _ g1 _ _ _ g5 ih =>
        intro hle c
        rw [g1]
        exact ih (by omega) c
    exact key hr hi.le
  have h20 : ∀ c, s1.x c 20 = fun _ => 0 := by
    intro c
    rw [((hf.reach hr) c 20 (by omega)).1]
    funext _
    norm_num
  have hb : s1.burnin = 20 := ((ht rfl).1).trans hi
  have hdiag : burninDiag flipOpts true 20 s1 = .ok () := burninDiag_total true 20 (by decide) s1
  have hrun : schedulerRun flipOpts (flipEnv j) ⟨2, 1, fun _ _ => 0⟩ true (fun _ => .diag 1) (fun _ => 1) 21 21 = .ok s1 := by
    have hbn : runBurnin flipOpts (flipEnv j) 21 true 20 s0 = .ok s1 := by
      unfold runBurnin
      rw [if_neg (show ¬ flipOpts.interval = 0 by decide)]
      have e : burninBlocks flipOpts (flipEnv j) true (20 * flipOpts.interval) (21 / flipOpts.interval) s0 =
          .ok (s1, true) := h1
      have e2 : burninDiag flipOpts true (20 * flipOpts.interval) s1 = .ok () := hdiag
      rw [e]
      simp only [bind, Except.bind, burninRest, Bool.not_true, Bool.false_and, Bool.false_eq_true, if_false, e2,
        pure, Except.pure]
    unfold schedulerRun
    rw [hx]
    simp only [bind, Except.bind, lt_irrefl, if_false]
    rw [show runBurnin flipOpts (flipEnv j) 21 true 20 (initSt flipOpts (flipEnv j) (fun _ _ => 0)
      (fun _ => .diag 1) (fun _ => 1) 21 21) = .ok s1 from hbn]
    rfl
  refine ⟨s1, _, by unfold scheduler; rw [hrun]; rfl, hi, hsz, ?_, ?_, ?_⟩
  · rw [hb]
    simp [pooledSamples, groupRows, hsz, List.range_succ, List.finRange_succ, List.range'_succ, hjunk, h20]
  · simp [ksBlocks, hsz, List.finRange_succ, List.range'_succ, hjunk]
  · refine ⟨_, rfl, ?_⟩
    simp [hb, hsz, List.range'_succ, hjunk, h20, covRows, meanRows, haarioCov]
    congr 1
    funext a b
    have ha : a = 0 := Subsingleton.elim _ _
    have hb : b = 0 := Subsingleton.elim _ _
    subst ha hb
    simp only [Matrix.of_apply, Pi.add_apply, Pi.smul_apply, smul_eq_mul]
    ring

end Verif.MH
