import Verif.Py
import Mathlib.Data.Real.Basic
import Mathlib.Order.WithBot
import Mathlib.Tactic.Ring

/-!
# Model of `BatchDifferentiableSelectionCriterion`

`/repo/gpmp/num/numpy_backend.py` 353-428 and
`/repo/gpmp/num/torch_backend.py` 607-716.

A batch is any type `B` with a number of rows `size`.  The loader is described
by `src k`, the list of batches produced by the `k`-th call of `iter(loader)`
(epochs may differ because of shuffling).  Both evaluators walk the loader
through the same generator `_batches`.
-/

namespace Verif.Data

open Verif

/-- Constructor checks, numpy_backend.py 382-385: reduction known,
`batches_per_eval ≥ 0`.  `reduction` is given as the recognised flag. -/
inductive Reduction where
  | mean | sum
  deriving DecidableEq

/-- State of the persistent iterator `_batch_iter`: batches left in it, and how
many times `iter(loader)` has been called so far. -/
structure IterState (B : Type) where
  rest : List B
  calls : Nat

/-- State after the constructor, numpy_backend.py 386-391: `iter(loader)` is
called once when `batches_per_eval > 0`. -/
def initIter {B : Type} (src : Nat → List B) (bpe : Nat) : IterState B :=
  if bpe = 0 then ⟨[], 0⟩ else ⟨src 0, 1⟩

/-- One turn of the `for _ in range(self.bpe)` loop, numpy_backend.py 399-404:
`next`, and on `StopIteration` a fresh iterator and `next` again; a second
`StopIteration` escapes the generator and becomes `RuntimeError` (PEP 479). -/
def nextBatch {B : Type} (src : Nat → List B) (st : IterState B) : Py B × IterState B :=
  match st.rest with
  | b :: r => (.ok b, ⟨r, st.calls⟩)
  | [] =>
    match src st.calls with
    | b :: r => (.ok b, ⟨r, st.calls + 1⟩)
    | [] => (.error .runtimeError, ⟨[], st.calls + 1⟩)

/-- The accumulation loop of `evaluate` over a given list of batches
(`bpe == 0`), numpy_backend.py 410-413: stops at the first exception of the
criterion. -/
def foldBatches {B : Type} (size : B → Nat) (crit : B → Py ℝ) :
    ℝ × Nat → List B → Py (ℝ × Nat)
  | acc, [] => .ok acc
  | acc, b :: bs =>
    match crit b with
    | .ok v => foldBatches size crit (acc.1 + v * size b, acc.2 + size b) bs
    | .error e => .error e

/-- The same loop for `bpe = k > 0`: batches are drawn one at a time, so an
exception leaves the iterator after the batch that failed. -/
def drawFold {B : Type} (src : Nat → List B) (size : B → Nat) (crit : B → Py ℝ) :
    Nat → ℝ × Nat → IterState B → Py (ℝ × Nat) × IterState B
  | 0, acc, st => (.ok acc, st)
  | k + 1, acc, st =>
    match nextBatch src st with
    | (.error e, st') => (.error e, st')
    | (.ok b, st') =>
      match crit b with
      | .error e => (.error e, st')
      | .ok v => drawFold src size crit k (acc.1 + v * size b, acc.2 + size b) st'

/-- Lines 414-418: empty check and reduction. -/
noncomputable def finishEval (red : Reduction) : Py (ℝ × Nat) → Py ℝ
  | .error e => .error e
  | .ok (total, n) =>
    if n = 0 then .error .valueError
    else match red with
      | .mean => .ok (total / n)
      | .sum => .ok total

/-- Sum over the batches selected by `_batches`, numpy_backend.py 395-413. -/
def sumBatches {B : Type} (src : Nat → List B) (size : B → Nat) (crit : B → Py ℝ)
    (bpe : Nat) (st : IterState B) : Py (ℝ × Nat) × IterState B :=
  if bpe = 0 then (foldBatches size crit (0, 0) (src st.calls), ⟨st.rest, st.calls + 1⟩)
  else drawFold src size crit bpe (0, 0) st

/-- `evaluate`, `evaluate_pre_grad`, `evaluate_no_grad` of the numpy class,
numpy_backend.py 406-428: linear-algebra failures give `+inf` (`⊤`), everything
else is re-raised.  (`_is_linalg_exception`, 158-162, also matches some message
texts; here those exceptions are the class `linAlgError`.) -/
noncomputable def evaluateNumpy {B : Type} (src : Nat → List B) (size : B → Nat)
    (crit : B → Py ℝ) (red : Reduction) (bpe : Nat) (st : IterState B) :
    Py (WithTop ℝ) × IterState B :=
  let r := sumBatches src size crit bpe st
  (match finishEval red r.1 with
    | .ok v => .ok (v : WithTop ℝ)
    | .error .linAlgError => .ok ⊤
    | .error e => .error e, r.2)

/-- `evaluate` / `evaluate_no_grad` of the torch class, torch_backend.py
667-691: no exception handling. -/
noncomputable def evaluateTorch {B : Type} (src : Nat → List B) (size : B → Nat)
    (crit : B → Py ℝ) (red : Reduction) (bpe : Nat) (st : IterState B) :
    Py (WithTop ℝ) × IterState B :=
  let r := sumBatches src size crit bpe st
  (match finishEval red r.1 with
    | .ok v => .ok (v : WithTop ℝ)
    | .error e => .error e, r.2)

end Verif.Data
