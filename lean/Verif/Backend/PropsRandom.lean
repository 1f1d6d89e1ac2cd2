import Verif.Backend.Random

/-!
# C197-C199: seeds and reproducibility
-/

set_option autoImplicit false

namespace Verif.Random

open Verif

variable {σ Req V A B : Type}

/-! ## Vocabulary -/

/-- The program draws only from the generators in `S`. -/
def Prog.Within (lib : Lib) (S : Src → Prop) : Prog Req V A → Prop
  | .stop _ => True
  | .setSeed _ k => k.Within lib S
  | .draw f _ k => S (source lib f) ∧ ∀ v, (k v).Within lib S

/-- The program does not call `set_seed`. -/
def Prog.NoSeed : Prog Req V A → Prop
  | .stop _ => True
  | .setSeed _ _ => False
  | .draw _ _ k => ∀ v, (k v).NoSeed

theorem run_bind (lib : Lib) (G : Gen σ Req V) (f : A → Prog Req V B) (p : Prog Req V A) (w : World σ) :
    (p.bind f).run lib G w = (f (p.run lib G w).1).run lib G (p.run lib G w).2 := by
  induction p generalizing w with
  | stop a => rfl
  | setSeed s k ih => exact ih _
  | draw g r k ih => exact ih _ _

theorem within_bind {lib : Lib} {S : Src → Prop} {f : A → Prog Req V B} {p : Prog Req V A}
    (hp : p.Within lib S) (hf : ∀ a, (f a).Within lib S) : (p.bind f).Within lib S := by
  induction p with
  | stop a => exact hf a
  | setSeed s k ih => exact ih hp
  | draw g r k ih => exact ⟨hp.1, fun v => ih v (hp.2 v)⟩

theorem noSeed_bind {f : A → Prog Req V B} {p : Prog Req V A} (hp : p.NoSeed) (hf : ∀ a, (f a).NoSeed) :
    (p.bind f).NoSeed := by
  induction p with
  | stop a => exact hf a
  | setSeed s k ih => exact hp.elim
  | draw g r k ih => exact fun v => ih v (hp v)

theorem within_maybeSeed {lib : Lib} {S : Src → Prop} {seed : Option ℤ} {p : Prog Req V A}
    (hp : p.Within lib S) : (maybeSeed seed p).Within lib S := by
  cases seed <;> exact hp

/-! ## Reproducibility -/

/-- Two worlds that agree on the generators a program uses give the same result. -/
theorem run_agree {lib : Lib} {S : Src → Prop} (G : Gen σ Req V) {p : Prog Req V A} (hp : p.Within lib S)
    {w w' : World σ} (h : ∀ s, S s → w s = w' s) :
    (p.run lib G w).1 = (p.run lib G w').1 ∧
      ∀ s, S s → (p.run lib G w).2 s = (p.run lib G w').2 s := by
  induction p generalizing w w' with
  | stop a => exact ⟨rfl, h⟩
  | setSeed s k ih =>
    refine ih hp fun t ht => ?_
    by_cases hg : t = .gnp
    · subst hg; simp
    · simp [Function.update_of_ne hg, h t ht]
  | draw f r k ih =>
    simp only [Prog.run, h _ hp.1]
    refine ih _ (hp.2 _) fun t ht => ?_
    by_cases hg : t = source lib f
    · subst hg; simp
    · simp [Function.update_of_ne hg, h t ht]

/-- **C197** After `set_seed(s)`, whatever happened before, a program that draws with `rand`, `randn`,
`choice` and `permutation` only has one possible result, and leaves the generator in one possible
state. -/
theorem seed_reproducible_partial {lib : Lib} (G : Gen σ Req V) {p : Prog Req V A}
    (hp : p.Within lib (· = .gnp)) (s : ℤ) (w w' : World σ) :
    ((Prog.setSeed s p).run lib G w).1 = ((Prog.setSeed s p).run lib G w').1 ∧
      ((Prog.setSeed s p).run lib G w).2 .gnp = ((Prog.setSeed s p).run lib G w').2 .gnp := by
  have h := run_agree (lib := lib) (S := (· = .gnp)) G hp
    (w := Function.update w .gnp (G.seed s)) (w' := Function.update w' .gnp (G.seed s))
    (fun t ht => by subst ht; simp)
  exact ⟨h.1, h.2 _ rfl⟩

/-- The functions of `gpmp.num` that draw, other than `multivariate_normal.rvs`. -/
def documented : Fn → Prop
  | .rand | .randn | .choice | .permutation => True
  | _ => False

/-- Programs that draw with these functions only. -/
def Prog.Documented : Prog Req V A → Prop
  | .stop _ => True
  | .setSeed _ k => k.Documented
  | .draw f _ k => documented f ∧ ∀ v, (k v).Documented

/-- **C197** The functions meant are `rand`, `randn`, `choice` and `permutation`, on both backends. -/
theorem documented_reproducible (lib : Lib) (G : Gen σ Req V) {p : Prog Req V A} (hp : p.Documented) (s : ℤ)
    (w w' : World σ) : ((Prog.setSeed s p).run lib G w).1 = ((Prog.setSeed s p).run lib G w').1 := by
  refine (seed_reproducible_partial (lib := lib) G ?_ s w w').1
  induction p with
  | stop a => trivial
  | setSeed s k ih => exact ih hp
  | draw f r k ih =>
    refine ⟨?_, fun v => ih v (hp.2 v)⟩
    cases f <;> first | rfl | exact hp.1.elim

/-- A counting generator: it answers with the number of requests since it was seeded. -/
def counter : Gen ℤ Unit ℤ := ⟨fun s => s, fun s _ => (s, s + 1)⟩

/-- **C197** The documentation says to use `set_seed` for reproducibility; but
`multivariate_normal.rvs` draws from generators that it does not reach, on both backends: the same
seed, then the same call, twice, with different results. -/
theorem seed_reproducible_false (lib : Lib) :
    ∃ w : World ℤ,
      let p : Prog Unit ℤ ℤ := .setSeed 42 (.draw .mvnRvs () .stop)
      (p.run lib counter w).1 ≠ (p.run lib counter (p.run lib counter w).2).1 := by
  refine ⟨fun _ => 0, ?_⟩
  cases lib <;> simp [Prog.run, counter, source]

/-- **C197** So are the chains of Metropolis-Hastings with the default proposal (here one step), the
designs and the samples of SMC objects made without a generator. -/
theorem callers_reproducible_false (lib : Lib) :
    (∃ w : World ℤ,
      let p : Prog Unit ℤ ℤ := .setSeed 42 (mhProg () () (fun x g _ => x + g) 1 0)
      (p.run lib counter w).1 ≠ (p.run lib counter (p.run lib counter w).2).1) ∧
    (∃ w : World ℤ,
      let p : Prog Unit ℤ ℤ := .setSeed 42 (.draw .designRand () .stop)
      (p.run lib counter w).1 ≠ (p.run lib counter (p.run lib counter w).2).1) ∧
    (∃ w : World ℤ,
      let p : Prog Unit ℤ (List ℤ) := .setSeed 42 (smcProg none [()])
      (p.run lib counter w).1 ≠ (p.run lib counter (p.run lib counter w).2).1) := by
  refine ⟨⟨fun _ => 0, ?_⟩, ⟨fun _ => 0, ?_⟩, ⟨fun _ => 0, ?_⟩⟩
  · cases lib <;> simp [Prog.run, Prog.bind, mhProg, mhStepProg, counter, source]
  · simp [Prog.run, counter, source]
  · simp [Prog.run, Prog.bind, smcProg, counter, source]

/-- **C197** Splits, folds, passes of a loader, sample paths and NUTS (whose body uses `rand` and `randn`
only) are reproducible. -/
theorem callers_within (lib : Lib) (perm : ℕ → Req) (seed : Option ℤ) (n : ℕ) :
    (shuffleProg (V := V) perm seed n).Within lib (· = .gnp) ∧
    (∀ r k, (repeatedFrom (V := V) perm seed n r k).Within lib (· = .gnp)) ∧
    (∀ epoch shuffle, (passProg (V := V) perm seed epoch shuffle n).Within lib (· = .gnp)) ∧
    (∀ (normals : Req) (make : V → A), (pathsProg normals make).Within lib (· = .gnp)) ∧
    (∀ body : Prog Req V A, body.Within lib (· = .gnp) → (nutsProg seed body).Within lib (· = .gnp)) := by
  have hs : ∀ seed : Option ℤ, (shuffleProg (V := V) perm seed n).Within lib (· = .gnp) := fun seed =>
    within_maybeSeed ⟨rfl, fun _ => trivial⟩
  refine ⟨hs _, ?_, ?_, ?_, fun body hb => within_maybeSeed hb⟩
  · intro r k
    induction k generalizing r with
    | zero => trivial
    | succ k ih => exact within_bind (hs _) fun v => within_bind (ih _) fun l => trivial
  · intro epoch shuffle
    refine within_maybeSeed ?_
    cases shuffle
    · trivial
    · exact ⟨rfl, fun _ => trivial⟩
  · intro normals make
    exact ⟨rfl, fun _ => trivial⟩

/-- Concrete case: a seeded split followed by two uniform numbers. -/
example : ((Prog.setSeed 7 ((shuffleProg (fun _ => ()) none 3).bind fun v =>
    .draw .rand () fun u => .stop (v, u)) : Prog Unit ℤ (ℤ × ℤ)).run .torch counter (fun _ => 100)).1
      = (7, 8) := by
  simp [Prog.run, Prog.bind, shuffleProg, maybeSeed, counter, source]

/-! ## Seeds given to one function act on all -/

/-- **C198** A seeded split, fold or pass of a loader puts the generator of the whole process in a state
that depends on the seed only: what is drawn afterwards (with the functions of `gpmp.num`) is the same
whatever was drawn before. -/
theorem seeded_call_resets {lib : Lib} (G : Gen σ Req V) (perm : ℕ → Req) (s : ℤ) (n : ℕ)
    (epoch : ℤ) (shuffle : Bool) {rest : Prog Req V B} (hr : rest.Within lib (· = .gnp)) (w w' : World σ) :
    (((shuffleProg perm (some s) n).bind fun _ => rest).run lib G w).1
        = (((shuffleProg perm (some s) n).bind fun _ => rest).run lib G w').1 ∧
    (((passProg perm (some s) epoch shuffle n).bind fun _ => rest).run lib G w).1
        = (((passProg perm (some s) epoch shuffle n).bind fun _ => rest).run lib G w').1 := by
  constructor
  · exact (seed_reproducible_partial (lib := lib) G
      (p := (Prog.draw .permutation (perm n) fun _ => rest)) ⟨rfl, fun _ => hr⟩ s w w').1
  · cases shuffle
    · exact (seed_reproducible_partial (lib := lib) G (p := rest) hr (s + epoch) w w').1
    · exact (seed_reproducible_partial (lib := lib) G
        (p := (Prog.draw .permutation (perm n) fun _ => rest)) ⟨rfl, fun _ => hr⟩ (s + epoch) w w').1

/-- **C198** So a seed given to a split or to a loader is not local: the numbers drawn by the program
around it change, and repeat themselves after each such call. -/
theorem seed_local_false (lib : Lib) :
    (∃ w : World ℤ,
      let rest : Prog Unit ℤ ℤ := .draw .rand () .stop
      let split : Prog Unit ℤ ℤ := shuffleProg (fun _ => ()) (some 5) 3
      let p := split.bind fun _ => rest
      (p.run lib counter w).1 = (p.run lib counter (p.run lib counter w).2).1 ∧
      (rest.run lib counter w).1 ≠ (rest.run lib counter (rest.run lib counter w).2).1) ∧
    (∃ w : World ℤ,
      let rest : Prog Unit ℤ ℤ := .draw .rand () .stop
      let pass : Prog Unit ℤ (Option ℤ) := passProg (fun _ => ()) (some 5) 0 false 3
      ((pass.bind fun _ => rest).run lib counter w).1 ≠ (rest.run lib counter w).1) := by
  refine ⟨⟨fun _ => 0, ?_, ?_⟩, ⟨fun _ => 0, ?_⟩⟩
  · simp [Prog.run, Prog.bind, shuffleProg, maybeSeed, counter, source]
  · simp [Prog.run, counter, source]
  · simp [Prog.run, Prog.bind, passProg, maybeSeed, counter, source]

/-- **C198** Without a seed these calls only advance the generator, and touch no other. -/
theorem unseeded_call_advances {lib : Lib} (G : Gen σ Req V) (perm : ℕ → Req) (n : ℕ) (epoch : ℤ)
    (w : World σ) :
    ((shuffleProg (V := V) perm none n).run lib G w).2 =
        Function.update w .gnp (G.next (w .gnp) (perm n)).2 ∧
    ((passProg (V := V) perm none epoch true n).run lib G w).2 =
        Function.update w .gnp (G.next (w .gnp) (perm n)).2 ∧
    ((passProg (V := V) perm none epoch false n).run lib G w) = (none, w) :=
  ⟨rfl, rfl, rfl⟩

theorem repeatedFrom_shift {lib : Lib} (G : Gen σ Req V) (perm : ℕ → Req) (s : ℤ) (n r k : ℕ)
    (w w' : World σ) :
    ((repeatedFrom perm (some s) n (r + 1) k).run lib G w).1
      = ((repeatedFrom perm (some (s + 1)) n r k).run lib G w').1 := by
  induction k generalizing r w w' with
  | zero => rfl
  | succ k ih =>
    have e : s + ((r + 1 : ℕ) : ℤ) = s + 1 + (r : ℤ) := by push_cast; ring
    simp only [repeatedFrom, Option.map_some, e]
    rw [run_bind, run_bind, run_bind, run_bind]
    have h2 := ih (r + 1)
      ((shuffleProg (V := V) perm (some (s + 1 + (r : ℤ))) n).run lib G w).2
      ((shuffleProg (V := V) perm (some (s + 1 + (r : ℤ))) n).run lib G w').2
    simp only [Prog.run]
    rw [h2]
    congr 1

/-- **C198** `repeated_k_fold_indices` says each repetition is shuffled independently; with a seed, all
repetitions but the first are those of the next seed. -/
theorem repeated_folds_shift {lib : Lib} (G : Gen σ Req V) (perm : ℕ → Req) (s : ℤ) (n k : ℕ)
    (w w' : World σ) :
    ((repeatedFrom perm (some s) n 0 (k + 1)).run lib G w).1.tail
      = ((repeatedFrom perm (some (s + 1)) n 0 k).run lib G w').1 := by
  simp only [repeatedFrom]
  rw [run_bind, run_bind]
  exact repeatedFrom_shift G perm s n 0 k _ _

/-- Concrete case: three repetitions from seed 5, two from seed 6. -/
example : ((repeatedFrom (fun _ => ()) (some 5) 3 0 3 : Prog Unit ℤ (List ℤ)).run .numpy counter
      (fun _ => 0)).1 = [5, 6, 7] ∧
    ((repeatedFrom (fun _ => ()) (some 6) 3 0 2 : Prog Unit ℤ (List ℤ)).run .numpy counter
      (fun _ => 0)).1 = [6, 7] := by
  constructor <;> simp [repeatedFrom, Prog.run, Prog.bind, shuffleProg, maybeSeed, counter, source]

/-! ## Independence of objects -/

theorem run_frame {lib : Lib} {S : Src → Prop} (G : Gen σ Req V) {p : Prog Req V A} (hp : p.Within lib S)
    (hn : p.NoSeed) (w : World σ) (t : Src) (ht : ¬ S t) : (p.run lib G w).2 t = w t := by
  induction p generalizing w with
  | stop a => rfl
  | setSeed s k ih => exact hn.elim
  | draw f r k ih =>
    simp only [Prog.run]
    rw [ih _ (hp.2 _) (hn _)]
    refine Function.update_of_ne ?_ _ _
    rintro rfl
    exact ht hp.1

/-- **C199** Programs that use different generators do not influence each other. -/
theorem run_independent {lib : Lib} {S T : Src → Prop} (G : Gen σ Req V) {p : Prog Req V A}
    {q : Prog Req V B} (hp : p.Within lib S) (hn : p.NoSeed) (hq : q.Within lib T)
    (hd : ∀ t, T t → ¬ S t) (w : World σ) :
    (q.run lib G (p.run lib G w).2).1 = (q.run lib G w).1 :=
  (run_agree G hq fun t ht => run_frame G hp hn w t (hd t ht)).1

theorem smcProg_within (lib : Lib) (rng : Option ℕ) (rs : List Req) :
    (smcProg (V := V) rng rs).Within lib (· = source lib (.smc rng)) ∧
      (smcProg (V := V) rng rs).NoSeed := by
  induction rs with
  | nil => exact ⟨trivial, trivial⟩
  | cons r rs ih =>
    exact ⟨⟨rfl, fun v => within_bind ih.1 fun l => trivial⟩,
      fun v => noSeed_bind ih.2 fun l => trivial⟩

/-- **C199** SMC objects with generators of their own: the draws of one do not depend on those of the
other, nor on any draws made with `gpmp.num`. -/
theorem smc_independent_partial {lib : Lib} (G : Gen σ Req V) {j k : ℕ} (hjk : j ≠ k) (rs rs' : List Req)
    {p : Prog Req V A} (hp : p.Within lib (· = .gnp)) (hn : p.NoSeed) (w : World σ) :
    ((smcProg (some k) rs).run lib G ((smcProg (some j) rs').run lib G w).2).1
        = ((smcProg (some k) rs).run lib G w).1 ∧
    ((smcProg (some k) rs).run lib G (p.run lib G w).2).1 = ((smcProg (some k) rs).run lib G w).1 := by
  constructor
  · refine run_independent G (smcProg_within lib _ rs').1 (smcProg_within lib _ rs').2
      (smcProg_within lib _ rs).1 ?_ w
    rintro t rfl h
    exact hjk (by simpa [source] using h.symm)
  · refine run_independent G hp hn (smcProg_within lib _ rs).1 ?_ w
    rintro t rfl h
    simp [source] at h

/-- **C199** SMC objects made without a generator share one (the default argument is evaluated once):
the draws of one depend on those of the other. -/
theorem smc_independent_false (lib : Lib) :
    ∃ w : World ℤ,
      ((smcProg none [()]).run lib counter ((smcProg none [(), ()] : Prog Unit ℤ (List ℤ)).run lib counter w).2).1
        ≠ ((smcProg none [()] : Prog Unit ℤ (List ℤ)).run lib counter w).1 := by
  refine ⟨fun _ => 0, ?_⟩
  simp [smcProg, Prog.run, Prog.bind, counter, source]

/-- Concrete case of the partial property: two objects with generators 1 and 2, and a draw of `rand`. -/
example : ((smcProg (some 1) [(), ()]).run .numpy counter
      ((smcProg (some 2) [()] : Prog Unit ℤ (List ℤ)).run .numpy counter (fun _ => 10)).2).1 = [10, 11] ∧
    (Prog.draw .rand () .stop : Prog Unit ℤ ℤ).Within .numpy (· = .gnp) := by
  refine ⟨?_, rfl, fun _ => trivial⟩
  simp [smcProg, Prog.run, Prog.bind, counter, source]

end Verif.Random
