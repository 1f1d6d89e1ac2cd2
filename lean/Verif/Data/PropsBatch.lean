import Verif.Data.Batch
import Mathlib.Data.List.Infix
import Mathlib.Tactic.Linarith

/-!
# C14: batched selection criteria
-/

namespace Verif.Data

open Verif

/-- Spec: the stream of batches obtained by going through the epochs
`c, c+1, …, c+N-1` one after the other. -/
def epochs {B : Type} (src : Nat → List B) (c N : Nat) : List B :=
  ((List.range N).map (fun k => src (c + k))).flatten

theorem epochs_succ {B : Type} (src : Nat → List B) (c N : Nat) :
    epochs src c (N + 1) = src c ++ epochs src (c + 1) N := by
  unfold epochs
  rw [List.range_succ_eq_map]
  simp only [List.map_cons, List.flatten_cons, Nat.add_zero, List.map_map]
  congr 3
  funext k
  simp only [Function.comp]; congr 1; omega

/-- Spec: what an evaluation over the list `l` of batches should return. -/
noncomputable def evalSpec {B : Type} (size : B → Nat) (φ : B → ℝ) (red : Reduction) (l : List B) : ℝ :=
  match red with
  | .sum => (l.map (fun b => φ b * size b)).sum
  | .mean => (l.map (fun b => φ b * size b)).sum / ((l.map size).sum : Nat)

theorem foldBatches_ok {B : Type} (size : B → Nat) (φ : B → ℝ) (l : List B) (t : ℝ) (n : Nat) :
    foldBatches size (fun b => .ok (φ b)) (t, n) l =
      .ok (t + (l.map (fun b => φ b * size b)).sum, n + (l.map size).sum) := by
  induction l generalizing t n with
  | nil => simp [foldBatches]
  | cons b l ih => simp [foldBatches, ih, add_assoc]

/-- The next batch is the head of the stream. -/
theorem nextBatch_stream {B : Type} (src : Nat → List B) (hne : ∀ k, src k ≠ [])
    (st : IterState B) (N : Nat) (hN : 1 ≤ N) :
    ∃ b st', nextBatch src st = (.ok b, st') ∧
      st.rest ++ epochs src st.calls N =
        b :: (st'.rest ++ epochs src st'.calls (N - (st'.calls - st.calls))) ∧
      st.calls ≤ st'.calls ∧ st'.calls ≤ st.calls + 1 := by
  unfold nextBatch
  cases h : st.rest with
  | cons b r => exact ⟨b, ⟨r, st.calls⟩, rfl, by simp, by simp, by simp⟩
  | nil =>
    cases hs : src st.calls with
    | nil => exact absurd hs (hne _)
    | cons b r =>
      refine ⟨b, ⟨r, st.calls + 1⟩, by simp only, ?_, by simp, by simp⟩
      obtain ⟨M, rfl⟩ : ∃ M, N = M + 1 := ⟨N - 1, by omega⟩
      rw [epochs_succ, hs]
      simp

/-- Drawing `k` batches consumes the next `k` elements of the stream. -/
theorem drawFold_stream {B : Type} (src : Nat → List B) (hne : ∀ k, src k ≠ [])
    (size : B → Nat) (φ : B → ℝ) (k : Nat) :
    ∀ (t : ℝ) (n : Nat) (st : IterState B), ∃ l st',
      drawFold src size (fun b => .ok (φ b)) k (t, n) st =
        (.ok (t + (l.map (fun b => φ b * size b)).sum, n + (l.map size).sum), st') ∧
      l.length = k ∧ st.calls ≤ st'.calls ∧ st'.calls ≤ st.calls + k ∧
      ∀ N, k ≤ N → st.rest ++ epochs src st.calls N =
        l ++ (st'.rest ++ epochs src st'.calls (N - (st'.calls - st.calls))) := by
  induction k with
  | zero => intro t n st; exact ⟨[], st, by simp [drawFold], rfl, le_refl _, by simp, by simp⟩
  | succ k ih =>
    intro t n st
    obtain ⟨b, st1, h1, _, h3, h4⟩ := nextBatch_stream src hne st 1 (le_refl _)
    obtain ⟨l, st2, g1, g2, g3, g4, g5⟩ := ih (t + φ b * size b) (n + size b) st1
    refine ⟨b :: l, st2, ?_, by simp [g2], by omega, by omega, ?_⟩
    · simp only [drawFold, h1, g1, List.map_cons, List.sum_cons]
      rw [add_assoc, add_assoc]
    · intro N hN
      obtain ⟨b', st1', h1', h2', _, _⟩ := nextBatch_stream src hne st N (by omega)
      rw [h1] at h1'
      obtain ⟨rfl, rfl⟩ : b = b' ∧ st1 = st1' := by
        simp only [Prod.mk.injEq, Except.ok.injEq] at h1'; exact h1'
      rw [h2', g5 _ (by omega)]
      simp only [List.cons_append, List.cons.injEq, true_and]
      congr 3
      omega

theorem pos_sum_of_pos {B : Type} (size : B → Nat) (hs : ∀ b, 0 < size b) (l : List B) (hl : l ≠ []) :
    (l.map size).sum ≠ 0 := by
  cases l with
  | nil => exact absurd rfl hl
  | cons b l => have := hs b; simp; omega

theorem finishEval_ok {B : Type} (size : B → Nat) (φ : B → ℝ) (red : Reduction) (l : List B)
    (h : (l.map size).sum ≠ 0) :
    finishEval red (.ok (0 + (l.map (fun b => φ b * size b)).sum, 0 + (l.map size).sum)) =
      .ok (evalSpec size φ red l) := by
  cases red <;> simp [finishEval, evalSpec, h]

/-- `evals m` successive evaluations with the same criterion. -/
noncomputable def evals {B : Type} (src : Nat → List B) (size : B → Nat) (crit : B → Py ℝ)
    (red : Reduction) (bpe : Nat) : Nat → IterState B → List (Py (WithTop ℝ)) × IterState B
  | 0, st => ([], st)
  | m + 1, st =>
    let r := evaluateNumpy src size crit red bpe st
    let rs := evals src size crit red bpe m r.2
    (r.1 :: rs.1, rs.2)

/-- **C14** With `batches_per_eval = k > 0` and epochs that are never empty,
`m` evaluations use, `k` at a time and in order, the first `m * k` batches of the
stream of epochs; each returns the size-weighted mean (or sum) over its own `k`
batches. -/
theorem evals_stream {B : Type} (src : Nat → List B) (hne : ∀ k, src k ≠ [])
    (size : B → Nat) (hs : ∀ b, 0 < size b) (φ : B → ℝ) (red : Reduction)
    (k : Nat) (hk : 0 < k) (m : Nat) :
    ∃ ls : List (List B), ls.length = m ∧ (∀ l ∈ ls, l.length = k) ∧
      (evals src size (fun b => .ok (φ b)) red k m (initIter src k)).1 =
        ls.map (fun l => .ok ((evalSpec size φ red l : ℝ) : WithTop ℝ)) ∧
      ls.flatten <+: epochs src 0 (m * k + 1) := by
  have gen : ∀ (m : Nat) (st : IterState B), ∃ (ls : List (List B)) (tail : Nat → List B),
      ls.length = m ∧ (∀ l ∈ ls, l.length = k) ∧
      (evals src size (fun b => .ok (φ b)) red k m st).1 =
        ls.map (fun l => .ok ((evalSpec size φ red l : ℝ) : WithTop ℝ)) ∧
      ∀ N, m * k ≤ N → st.rest ++ epochs src st.calls N = ls.flatten ++ tail N := by
    intro m
    induction m with
    | zero => intro st; exact ⟨[], fun N => st.rest ++ epochs src st.calls N, rfl, by simp, rfl, by simp⟩
    | succ m ih =>
      intro st
      obtain ⟨l, st1, g1, g2, g3, g4, g5⟩ := drawFold_stream src hne size φ k 0 0 st
      obtain ⟨ls, tail, i1, i2, i3, i4⟩ := ih st1
      have hl : l ≠ [] := by rintro rfl; simp at g2; omega
      have hev : evaluateNumpy src size (fun b => .ok (φ b)) red k st =
          (.ok ((evalSpec size φ red l : ℝ) : WithTop ℝ), st1) := by
        unfold evaluateNumpy sumBatches
        rw [if_neg (by omega), g1]
        simp only
        rw [finishEval_ok size φ red l (pos_sum_of_pos size hs l hl)]
      refine ⟨l :: ls, fun N => tail (N - (st1.calls - st.calls)), by simp [i1], ?_, ?_, ?_⟩
      · intro x hx
        rcases List.mem_cons.mp hx with rfl | hx
        · exact g2
        · exact i2 x hx
      · simp only [evals, hev, i3, List.map_cons]
      · intro N hN
        rw [Nat.add_mul] at hN
        rw [g5 N (by omega), i4 _ (by omega)]
        simp [List.append_assoc]
  obtain ⟨ls, tail, h1, h2, h3, h4⟩ := gen m (initIter src k)
  refine ⟨ls, h1, h2, h3, ?_⟩
  have := h4 (m * k) (le_refl _)
  have hi : initIter src k = ⟨src 0, 1⟩ := by unfold initIter; rw [if_neg (by omega)]
  rw [hi] at this
  rw [epochs_succ]
  simp only [Nat.zero_add]
  rw [this]
  exact List.prefix_append _ _

/-- **C14** (cycling) If every epoch is the same list `bs`, the stream is `bs`
repeated: the `i`-th batch used is `bs[i % len(bs)]`. -/
theorem epochs_const {B : Type} (bs : List B) (c N i : Nat) (hi : i < N * bs.length) :
    (epochs (fun _ => bs) c N)[i]? = bs[i % bs.length]? := by
  have hpos : 0 < bs.length := by
    rcases Nat.eq_zero_or_pos bs.length with h | h
    · rw [h] at hi; omega
    · exact h
  induction N generalizing c i with
  | zero => omega
  | succ N ih =>
    rw [epochs_succ]
    by_cases h : i < bs.length
    · rw [List.getElem?_append_left h, Nat.mod_eq_of_lt h]
    · rw [List.getElem?_append_right (by omega), ih (c + 1) (i - bs.length)
        (by rw [Nat.add_mul] at hi; omega)]
      congr 1
      exact (Nat.mod_eq_sub_mod (by omega)).symm

/-- **C14** With `batches_per_eval = 0` every evaluation is one full pass. -/
theorem evaluate_full_pass {B : Type} (src : Nat → List B) (size : B → Nat)
    (hs : ∀ b, 0 < size b) (φ : B → ℝ) (red : Reduction) (st : IterState B)
    (hne : src st.calls ≠ []) :
    evaluateNumpy src size (fun b => .ok (φ b)) red 0 st =
      (.ok ((evalSpec size φ red (src st.calls) : ℝ) : WithTop ℝ), ⟨st.rest, st.calls + 1⟩) := by
  unfold evaluateNumpy sumBatches
  simp only [if_true]
  rw [foldBatches_ok, finishEval_ok size φ red _ (pos_sum_of_pos size hs _ hne)]

/-- **C14** An empty loader raises: `ValueError` with `batches_per_eval = 0`,
`RuntimeError` otherwise.  In particular it never loops. -/
theorem evaluate_empty {B : Type} (size : B → Nat) (crit : B → Py ℝ) (red : Reduction) (k : Nat) :
    (evaluateNumpy (fun _ => ([] : List B)) size crit red k (initIter (fun _ => []) k)).1 =
      .error (if k = 0 then .valueError else .runtimeError) := by
  cases k with
  | zero => simp [evaluateNumpy, sumBatches, foldBatches, finishEval]
  | succ k => simp [evaluateNumpy, sumBatches, drawFold, initIter, nextBatch, finishEval]

/-- **C42** (batched criteria, numpy) A linear-algebra failure on a batch gives
`+inf`; any other exception propagates unchanged. -/
theorem evaluateNumpy_failure {B : Type} (src : Nat → List B) (size : B → Nat)
    (crit : B → Py ℝ) (red : Reduction) (k : Nat) (st : IterState B) (e : PyErr)
    (he : (sumBatches src size crit k st).1 = .error e) :
    (evaluateNumpy src size crit red k st).1 =
      if e = .linAlgError then .ok ⊤ else .error e := by
  simp only [evaluateNumpy, he]
  by_cases h : e = .linAlgError
  · subst h; rfl
  · rw [if_neg h]
    cases e <;> first | rfl | exact absurd rfl h

/-- **C42** is false for the batched criterion of the torch backend: the
failure is not turned into `+inf`. -/
theorem evaluateTorch_failure_false :
    ¬ (∀ (B : Type) (src : Nat → List B) (size : B → Nat) (crit : B → Py ℝ) (red : Reduction)
        (k : Nat) (st : IterState B),
        (sumBatches src size crit k st).1 = .error .linAlgError →
        (evaluateTorch src size crit red k st).1 = .ok ⊤) := by
  intro H
  have h := H Unit (fun _ => [()]) (fun _ => 1) (fun _ => .error .linAlgError) .mean 0 ⟨[], 0⟩
    (by simp [sumBatches, foldBatches])
  simp [evaluateTorch, sumBatches, foldBatches, finishEval] at h

/-- Apart from that, both backends compute the same thing. -/
theorem evaluate_backends_agree {B : Type} (src : Nat → List B) (size : B → Nat)
    (crit : B → Py ℝ) (red : Reduction) (k : Nat) (st : IterState B)
    (h : (sumBatches src size crit k st).1 ≠ .error .linAlgError) :
    evaluateTorch src size crit red k st = evaluateNumpy src size crit red k st := by
  simp only [evaluateTorch, evaluateNumpy]
  cases hr : (sumBatches src size crit k st).1 with
  | error e =>
    cases e <;> first | rfl | exact absurd hr h
  | ok v =>
    obtain ⟨t, n⟩ := v
    simp only [finishEval]
    by_cases hn : n = 0
    · rw [if_pos hn]
    · rw [if_neg hn]; cases red <;> rfl

/-- Non-vacuity: two epochs of different order, batches of 2 and 1 rows. -/
example : (∀ k, (fun k => if k % 2 = 0 then [2, 1] else [1, 2]) k ≠ ([] : List Nat)) ∧
    ∀ b : Nat, 0 < (fun b => b + 1) b := by
  constructor
  · intro k; simp only; split <;> simp
  · intro b; simp

end Verif.Data
