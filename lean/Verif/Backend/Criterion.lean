import Verif.Py
import Verif.Num
import Verif.Data.Batch
import Mathlib.Algebra.Module.Basic
import Mathlib.LinearAlgebra.Matrix.Defs

/-!
# The objects that hand criteria and gradients to the optimiser

`/repo/gpmp/num/numpy_backend.py` 329-350 and `/repo/gpmp/num/torch_backend.py`
547-779.  A torch criterion is described by what one call does: it raises, or it
returns a scalar together with what `torch.autograd.grad` would give for it
(`none` when the value does not depend on the parameter).  Tensors are compared by
identity by autograd; `evaluate_pre_grad` creates a new tensor each time, here a
fresh number.
-/

set_option autoImplicit false

namespace Verif.Backend

open Verif

/-- What a criterion does at a parameter: its value and the gradient autograd finds. -/
structure Crit (P G : Type) where
  value : P → Py Flt
  grad : P → Option G

/-! ## `DifferentiableSelectionCriterion`, torch -/

/-- The tensor stored in `_f_value`: the end of a graph that starts at the parameter
tensor number `leaf` (holding `at_`), possibly already consumed, or the constant `inf`
of the failure branch. -/
inductive Node (P : Type) where
  | graph (leaf : ℕ) (at_ : P) (freed : Bool)
  | inf

/-- The attributes `_p_value` (tensor number and content) and `_f_value`;
`next` numbers the tensors created so far.  torch_backend.py 547-555. -/
structure CritState (P : Type) where
  pValue : Option (ℕ × P)
  fValue : Option (Node P)
  next : ℕ

/-- `__init__`, torch_backend.py 550-555. -/
def CritState.init (P : Type) : CritState P := ⟨none, none, 0⟩

/-- `evaluate` and `__call__`, torch_backend.py 557-561: no state, exceptions pass. -/
def critEvaluate {P G : Type} (c : Crit P G) (p : P) : Py Flt := c.value p

/-- `evaluate_no_grad`, torch_backend.py 563-572. -/
noncomputable def critNoGrad {P G : Type} (c : Crit P G) (p : P) : Py Flt :=
  match c.value p with
  | .ok v => .ok v
  | .error e => if e = .linAlgError then .ok (.num ⊤) else .error e

/-- `evaluate_pre_grad`, torch_backend.py 574-583: `_p_value` is replaced before the
criterion is called, `_f_value` only when it returns or fails in linear algebra. -/
noncomputable def critPreGrad {P G : Type} (c : Crit P G) (p : P) (st : CritState P) :
    Py Flt × CritState P :=
  let st1 : CritState P := ⟨some (st.next, p), st.fValue, st.next + 1⟩
  match c.value p with
  | .ok v => (.ok v, { st1 with fValue := some (.graph st.next p false) })
  | .error e =>
    if e = .linAlgError then (.ok (.num ⊤), { st1 with fValue := some .inf })
    else (.error e, st1)

/-- `gradient`, torch_backend.py 585-604.  `refree` says whether a graph whose buffers
were released can be walked again (true only if it saved none); otherwise autograd
raises `RuntimeError`. -/
def critGradient {P G : Type} [DecidableEq P] (c : Crit P G) (refree : Bool) (p : P)
    (retain : Bool) (st : CritState P) : Py G × CritState P :=
  match st.fValue, st.pValue with
  | none, _ => (.error .valueError, st)
  | some _, none => (.error .typeError, st)
  | some nd, some (k, q) =>
    if p ≠ q then (.error .valueError, st)
    else match nd with
      | .inf => (.error .runtimeError, st)
      | .graph leaf a freed =>
        if freed && !refree then (.error .runtimeError, st)
        else
          let st' : CritState P := { st with fValue := some (.graph leaf a (freed || !retain)) }
          if leaf ≠ k then (.error .runtimeError, st')
          else match c.grad a with
            | none => (.error .runtimeError, st')
            | some g => (.ok g, st')

/-- The calls a client can make. -/
inductive CritOp (P : Type) where
  | evaluate (p : P)
  | noGrad (p : P)
  | preGrad (p : P)
  | gradient (p : P) (retain : Bool)

/-- Effect of one call on the object. -/
noncomputable def critStep {P G : Type} [DecidableEq P] (c : Crit P G) (refree : Bool) (st : CritState P) :
    CritOp P → CritState P
  | .evaluate _ => st
  | .noGrad _ => st
  | .preGrad p => (critPreGrad c p st).2
  | .gradient p r => (critGradient c refree p r st).2

/-! ## `DifferentiableSelectionCriterion`, numpy -/

/-- `evaluate_pre_grad`, numpy_backend.py 344-350. -/
noncomputable def critPreGradNumpy {P G : Type} (c : Crit P G) (p : P) : Py Flt :=
  match c.value p with
  | .ok v => .ok v
  | .error e => if e = .linAlgError then .ok (.num ⊤) else .error e

/-- `evaluate`, `evaluate_no_grad`, numpy_backend.py 338-342: exceptions pass. -/
def critNoGradNumpy {P G : Type} (c : Crit P G) (p : P) : Py Flt := c.value p

/-! ## The optimiser with gradients -/

/-- An optimiser that may ask for values and for gradients (`jac=gradient`,
parameter_selection.py 253-260). -/
inductive GSolver (P G : Type) where
  | stop (x : P) (f : Flt)
  | askF (p : P) (k : Flt → GSolver P G)
  | askG (p : P) (k : G → GSolver P G)

/-- The call of `minimize` with the torch object: values through
`criterion_with_history` (parameter_selection.py 222-231, the history is left out),
gradients straight from the object. -/
noncomputable def runG {P G : Type} [DecidableEq P] (c : Crit P G) (refree : Bool) :
    GSolver P G → CritState P → Py (P × Flt)
  | .stop x f, _ => .ok (x, f)
  | .askF p k, st =>
    match critPreGrad c p st with
    | (.ok v, st') => runG c refree (k v) st'
    | (.error e, st') => if e = .linAlgError then runG c refree (k (.num ⊤)) st' else .error e
  | .askG p k, st =>
    match critGradient c refree p false st with
    | (.ok g, st') => runG c refree (k g) st'
    | (.error e, _) => .error e

/-! ## `BatchDifferentiableSelectionCriterion`, torch, with gradients -/

open Verif.Data in
/-- The loop of `evaluate_pre_grad` over a list of batches (`bpe == 0`),
torch_backend.py 692-704.  A batch where autograd finds no gradient raises
`RuntimeError` (no `allow_unused`). -/
def foldBatchesG {B V : Type} [AddCommGroup V] [Module ℝ V] (size : B → ℕ)
    (crit : B → Py (ℝ × Option V)) :
    (ℝ × ℕ) × Option V → List B → Py ((ℝ × ℕ) × Option V)
  | acc, [] => .ok acc
  | acc, b :: bs =>
    match crit b with
    | .error e => .error e
    | .ok (_, none) => .error .runtimeError
    | .ok (v, some g) =>
      let gb := (size b : ℝ) • g
      foldBatchesG size crit
        ((acc.1.1 + v * size b, acc.1.2 + size b),
          some (match acc.2 with | none => gb | some a => a + gb)) bs

open Verif.Data in
/-- The same loop for `bpe = k > 0`, drawing from the persistent iterator,
torch_backend.py 654-665 and 692-704. -/
def drawFoldG {B V : Type} [AddCommGroup V] [Module ℝ V] (src : ℕ → List B) (size : B → ℕ)
    (crit : B → Py (ℝ × Option V)) :
    ℕ → (ℝ × ℕ) × Option V → IterState B → Py ((ℝ × ℕ) × Option V) × IterState B
  | 0, acc, st => (.ok acc, st)
  | k + 1, acc, st =>
    match nextBatch src st with
    | (.error e, st') => (.error e, st')
    | (.ok b, st') =>
      match crit b with
      | .error e => (.error e, st')
      | .ok (_, none) => (.error .runtimeError, st')
      | .ok (v, some g) =>
        let gb := (size b : ℝ) • g
        drawFoldG src size crit k
          ((acc.1.1 + v * size b, acc.1.2 + size b),
            some (match acc.2 with | none => gb | some a => a + gb)) st'

/-- State of the batch object: the iterator and `_gradient`. -/
structure BatchState (B V : Type) where
  iter : Data.IterState B
  gradient : Option V

open Verif.Data in
/-- `__init__`, torch_backend.py 626-645; `known` says that `reduction` is one of the
two names, `len` is `len(loader)`. -/
def batchInit {B V : Type} (src : ℕ → List B) (known : Bool) (bpe : ℤ) (len : ℕ) :
    Py (BatchState B V) :=
  if !known then .error .valueError
  else if bpe < 0 then .error .valueError
  else if len = 0 then .error .valueError
  else .ok ⟨initIter src bpe.toNat, none⟩

open Verif.Data in
/-- `evaluate_pre_grad`, torch_backend.py 692-712. -/
noncomputable def batchPreGrad {B V : Type} [AddCommGroup V] [Module ℝ V] (src : ℕ → List B)
    (size : B → ℕ) (crit : B → Py (ℝ × Option V)) (red : Reduction) (bpe : ℕ)
    (st : BatchState B V) : Py ℝ × BatchState B V :=
  let r := if bpe = 0 then
      (foldBatchesG size crit ((0, 0), none) (src st.iter.calls),
        (⟨st.iter.rest, st.iter.calls + 1⟩ : IterState B))
    else drawFoldG src size crit bpe ((0, 0), none) st.iter
  match r.1 with
  | .error e => (.error e, ⟨r.2, st.gradient⟩)
  | .ok ((total, n), g) =>
    if n = 0 then (.error .valueError, ⟨r.2, st.gradient⟩)
    else match red with
      | .mean => (.ok (total / n), ⟨r.2, g.map fun v => (n : ℝ)⁻¹ • v⟩)
      | .sum => (.ok total, ⟨r.2, g⟩)

/-- `gradient`, torch_backend.py 715-718: the argument is not looked at. -/
def batchGradient {B V P : Type} (_param : P) (st : BatchState B V) : Py V :=
  match st.gradient with
  | none => .error .runtimeError
  | some g => .ok g

/-! ## Aliasing in `_prepare_param` -/

/-- An argument as the caller holds it. -/
inductive ArgKind where
  /-- a float64 tensor: `asarray` returns the object itself -/
  | tensor
  /-- a numpy array, list or number: `asarray` makes a new tensor object -/
  | other
  deriving DecidableEq

/-- `_prepare_param`, torch_backend.py 648-652: what the caller's `requires_grad` flag is
afterwards (`none` for arguments that have no such flag); `leaf` says whether torch
allows the flag to be cleared (`RuntimeError` otherwise). -/
def prepareParam (kind : ArgKind) (flag leaf : Bool) (req : Bool) : Py Bool :=
  match kind with
  | .other => .ok flag
  | .tensor => if !leaf && !req then .error .runtimeError else .ok req

/-! ## `SecondOrderDifferentiableFunction`, torch -/

/-- A scalar function with the derivatives autograd finds; `hess x = none` when the
gradient does not depend on `x`. -/
structure Fun2 (n : ℕ) where
  value : (Fin n → ℝ) → Py ℝ
  grad : (Fin n → ℝ) → Option (Fin n → ℝ)
  hess : (Fin n → ℝ) → Option (Matrix (Fin n) (Fin n) ℝ)

/-- `_x`, `_y`, `_grad`: each remembers the number and content of the tensor it was
computed from. -/
structure Fun2State (n : ℕ) where
  x : Option (ℕ × (Fin n → ℝ))
  y : Option (ℕ × (Fin n → ℝ))
  grad : Option (ℕ × (Fin n → ℝ))
  next : ℕ

/-- `__init__`, torch_backend.py 724-734. -/
def Fun2State.init (n : ℕ) : Fun2State n := ⟨none, none, none, 0⟩

/-- `evaluate`, torch_backend.py 736-745 (for functions with scalar output): `_x` is
replaced first; `_grad` is not reset. -/
def fun2Eval {n : ℕ} (f : Fun2 n) (x : Fin n → ℝ) (st : Fun2State n) : Py ℝ × Fun2State n :=
  match f.value x with
  | .ok v => (.ok v, ⟨some (st.next, x), some (st.next, x), st.grad, st.next + 1⟩)
  | .error e => (.error e, ⟨some (st.next, x), st.y, st.grad, st.next + 1⟩)

/-- `gradient` with the default `retain=True`, torch_backend.py 747-756: autograd raises
`RuntimeError` when `_y` does not depend on `_x`. -/
def fun2Grad {n : ℕ} (f : Fun2 n) (st : Fun2State n) : Py (Fin n → ℝ) × Fun2State n :=
  match st.y, st.x with
  | some (k, a), some (j, _) =>
    if k ≠ j then (.error .runtimeError, st)
    else match f.grad a with
      | none => (.error .runtimeError, st)
      | some g => (.ok g, { st with grad := some (k, a) })
  | _, _ => (.error .runtimeError, st)

/-- `hessian`, torch_backend.py 758-779, for at least one parameter: one autograd call
per row, then symmetrisation. -/
noncomputable def fun2Hess {n : ℕ} (f : Fun2 n) (st : Fun2State n) :
    Py (Matrix (Fin n) (Fin n) ℝ) :=
  match st.grad, st.x with
  | some (k, a), some (j, _) =>
    if k ≠ j then .error .runtimeError
    else match f.hess a with
      | none => .error .runtimeError
      | some H => .ok fun i j => 0.5 * (H i j + H j i)
  | _, _ => .error .runtimeError

/-- The calls on a `SecondOrderDifferentiableFunction`. -/
inductive Fun2Op (n : ℕ) where
  | evaluate (x : Fin n → ℝ)
  | gradient

/-- Effect of one call. -/
def fun2Step {n : ℕ} (f : Fun2 n) (st : Fun2State n) : Fun2Op n → Fun2State n
  | .evaluate x => (fun2Eval f x st).2
  | .gradient => (fun2Grad f st).2

end Verif.Backend
