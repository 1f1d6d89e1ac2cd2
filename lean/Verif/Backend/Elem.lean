import Verif.Py
import Verif.PyLemmas
import Verif.Num
import Verif.Backend.Arrays
import Verif.Backend.Reduce

/-!
# Entry-by-entry functions and sorting in the two backends

`/repo/gpmp/num/torch_backend.py` 282-293 (`scalar_safe`), 363-371, 473-482 (`maximum`,
`minimum`), 495-497 (`sort`), against the numpy functions that
`/repo/gpmp/num/numpy_backend.py` 60-130 re-exports.

An array is an element type, a shape of any rank and a value (possibly NaN or infinite) at
each multi-index; there is no rounding.  Broadcasting, type promotion and the order that
sorting uses are those of the libraries (numpy 2; external).
-/

set_option autoImplicit false

namespace Verif.Backend.Elem

open Verif Verif.Backend

/-- An array of any rank. -/
structure A where
  dt : DT
  shape : List ℕ
  val : List ℕ → Flt

/-- What a caller passes: a Python number, a nested list (with the element type inferred for
it), a numpy array, or a tensor. -/
inductive Arg where
  | number (dt : DT) (v : Flt)
  | list (a : A)
  | nd (a : A)
  | tensor (a : A)

/-! ## Broadcasting (external, the same in both libraries) -/

/-- One axis: equal lengths, or one of them 1. -/
def axisLen (m n : ℕ) : Option ℕ :=
  if m = n then some m else if m = 1 then some n else if n = 1 then some m else none

/-- Common shape, last axis first. -/
def bcR : List ℕ → List ℕ → Option (List ℕ)
  | [], t => some t
  | s, [] => some s
  | m :: s, n :: t => do
    let d ← axisLen m n
    let u ← bcR s t
    some (d :: u)

/-- Common shape of two shapes. -/
def broadcast (s t : List ℕ) : Option (List ℕ) := (bcR s.reverse t.reverse).map List.reverse

/-- Multi-index of an operand of shape `s` read for a multi-index of the result, last axis
first: 0 along axes of length 1. -/
def pullR : List ℕ → List ℕ → List ℕ
  | [], _ => []
  | _ :: s, [] => 0 :: pullR s []
  | m :: s, i :: l => (if m = 1 then 0 else i) :: pullR s l

/-- Multi-index of an operand of shape `s` read for the multi-index `l` of the result. -/
def pull (s l : List ℕ) : List ℕ := (pullR s.reverse l.reverse).reverse

/-- A function of two entries applied to two arrays; shapes without a common shape raise
`e`. -/
def binary (op : Flt → Flt → Flt) (dt : DT) (e : PyErr) (x y : A) : Py A :=
  match broadcast x.shape y.shape with
  | none => .error e
  | some s => .ok ⟨dt, s, fun l => op (x.val (pull x.shape l)) (y.val (pull y.shape l))⟩

/-! ## Type promotion (external) -/

/-- `bool < int < float`. -/
def kind : DT → ℕ
  | .bool => 0
  | .int => 1
  | _ => 2

/-- `numpy.result_type` of two arrays: 64-bit integers and single precision give double. -/
def npJoin : DT → DT → DT
  | .float64, _ | _, .float64 => .float64
  | .float32, .int | .int, .float32 => .float64
  | .float32, _ | _, .float32 => .float32
  | .int, _ | _, .int => .int
  | .bool, .bool => .bool

/-- `torch.promote_types`. -/
def thJoin : DT → DT → DT
  | .float64, _ | _, .float64 => .float64
  | .float32, _ | _, .float32 => .float32
  | .int, _ | _, .int => .int
  | .bool, .bool => .bool

/-- An operand of a numpy function: the array, and whether it is a Python number (a "weak"
type).  Python floats, also in lists, are double precision. -/
def npOperand : Arg → A × Bool
  | .number dt v => (⟨if dt = .float32 then .float64 else dt, [], fun _ => v⟩, true)
  | .list a => (⟨if a.dt = .float32 then .float64 else a.dt, a.shape, a.val⟩, false)
  | .nd a => (a, false)
  | .tensor a => (a, false)

/-- Result type in numpy: a Python number only matters when its kind is higher. -/
def npType (x y : A × Bool) : DT :=
  if x.2 && !y.2 then (if kind x.1.dt ≤ kind y.1.dt then y.1.dt else x.1.dt)
  else if y.2 && !x.2 then (if kind y.1.dt ≤ kind x.1.dt then x.1.dt else y.1.dt)
  else npJoin x.1.dt y.1.dt

/-- Result type in torch: a 0-d tensor only matters against one with axes when its kind is
higher. -/
def thType (x y : A) : DT :=
  if x.shape = [] ∧ y.shape ≠ [] then (if kind x.dt ≤ kind y.dt then y.dt else x.dt)
  else if y.shape = [] ∧ x.shape ≠ [] then (if kind y.dt ≤ kind x.dt then x.dt else y.dt)
  else thJoin x.dt y.dt

/-! ## `maximum`, `minimum` -/

open Classical in
/-- The larger entry; NaN if either is NaN (both libraries). -/
noncomputable def larger : Flt → Flt → Flt
  | .num a, .num b => .num (max a b)
  | _, _ => .nan

open Classical in
/-- The smaller entry. -/
noncomputable def smaller : Flt → Flt → Flt
  | .num a, .num b => .num (min a b)
  | _, _ => .nan

/-- `numpy.maximum` or `numpy.minimum`, re-exported at numpy_backend.py 117-118. -/
def npBinary (op : Flt → Flt → Flt) (x1 x2 : Arg) : Py A :=
  let x := npOperand x1
  let y := npOperand x2
  binary op (npType x y) .valueError x.1 y.1

/-- `asarray(x)`, torch_backend.py 217-244, as a tensor (`asarrayTorch` is its type). -/
def thAsarray : Arg → A
  | .number dt v => ⟨(asarrayTorch (.number dt)).dt, [], fun _ => v⟩
  | .list a => ⟨(asarrayTorch (.list a.dt a.shape)).dt, a.shape, a.val⟩
  | .nd a => ⟨(asarrayTorch (.array a.dt a.shape)).dt, a.shape, a.val⟩
  | .tensor a => ⟨(asarrayTorch (.array a.dt a.shape)).dt, a.shape, a.val⟩

/-- `torch.maximum` or `torch.minimum` of two tensors. -/
def torchBinary (op : Flt → Flt → Flt) (x y : A) : Py A := binary op (thType x y) .runtimeError x y

/-- `maximum(x1, x2)` and `minimum(x1, x2)`, torch_backend.py 473-482: two tensors are used
as they are, otherwise both go through `asarray`. -/
def thBinary (op : Flt → Flt → Flt) : Arg → Arg → Py A
  | .tensor x, .tensor y => torchBinary op x y
  | x1, x2 => torchBinary op (thAsarray x1) (thAsarray x2)

/-! ## Functions of one entry -/

/-- Result type of `numpy.exp` and the like: integers give double precision.  (Booleans give
half precision, which is not represented; they are outside the theorems.) -/
def npUnaryType : DT → DT
  | .float32 => .float32
  | _ => .float64

/-- `numpy.exp(x)` and the like, re-exported at numpy_backend.py 92-101. -/
def npUnary (f : Flt → Flt) (x : Arg) : A :=
  let a := (npOperand x).1
  ⟨npUnaryType a.dt, a.shape, fun l => f (a.val l)⟩

/-- `torch.exp(t)` and the like: booleans and integers give the default type, which
torch_backend.py 58-59 sets to double precision. -/
def torchUnary (f : Flt → Flt) (a : A) : A :=
  ⟨match a.dt with | .float32 => .float32 | _ => .float64, a.shape, fun l => f (a.val l)⟩

/-- `exp = scalar_safe(torch.exp)` and the like, torch_backend.py 282-293 and 363-371:
tensors are used as they are, everything else is first read in double precision. -/
def thUnary (f : Flt → Flt) : Arg → A
  | .tensor a => torchUnary f a
  | .number _ v => torchUnary f ⟨.float64, [], fun _ => v⟩
  | .list a => torchUnary f ⟨.float64, a.shape, a.val⟩
  | .nd a => torchUnary f ⟨.float64, a.shape, a.val⟩

/-! ## `sort` -/

open Classical in
/-- The order of sorting: NaN after every number (both libraries). -/
noncomputable def before (a b : Flt) : Bool :=
  match a, b with
  | _, .nan => true
  | .nan, .num _ => false
  | .num a, .num b => decide (a ≤ b)

/-- The entries along position `k` through the multi-index `l`. -/
def A.line (x : A) (k : ℕ) (l : List ℕ) : List Flt :=
  (List.range (x.shape.getD k 0)).map fun t => x.val (l.set k t)

/-- Every line along position `k` sorted. -/
noncomputable def sortAlong (x : A) (k : ℕ) : A :=
  ⟨x.dt, x.shape, fun l => ((x.line k l).mergeSort before).getD (l.getD k 0) .nan⟩

/-- All entries in row-major order. -/
def A.entries (x : A) : List Flt := (Red.indices x.shape).map x.val

/-- `numpy.sort(x, axis=-1)`, re-exported at numpy_backend.py 112: `axis=None` flattens; a
0-d array or a number is an `AxisError`. -/
noncomputable def npSort (x : Arg) : Option ℤ → Py A
  | none =>
    let a := (npOperand x).1
    .ok ⟨a.dt, [a.entries.length], fun l => (a.entries.mergeSort before).getD (l.getD 0 0) .nan⟩
  | some d => do
    let a := (npOperand x).1
    let k ← Red.position a.shape.length d
    .ok (sortAlong a k)

/-- `sort(x, axis=-1)`, torch_backend.py 495-497: `torch.sort(x, dim=axis)` of anything but
a tensor, or with `dim=None`, is a `TypeError`; a 0-d tensor accepts 0 and -1. -/
noncomputable def thSort : Arg → Option ℤ → Py A
  | .tensor a, some d => do
    match ← Red.tPosition a.shape.length d with
    | none => .ok a
    | some k => .ok (sortAlong a k)
  | _, _ => .error .typeError

end Verif.Backend.Elem
