import Verif.Py
import Verif.PyLemmas
import Verif.Backend.Arrays

/-!
# Reductions and constructors of arrays in the two backends

`/repo/gpmp/num/torch_backend.py` 183-185, 357-359, 375-394, 495-497 and the functions that
`/repo/gpmp/num/numpy_backend.py` re-exports from numpy (60-130) or wraps (190-235).

An array is an element type, a shape of any rank and a value at each multi-index.  Values
are exact.  What numpy and torch compute for an axis (or `dim`) that they accept is the
textbook reduction; what is modelled here is which of their signatures the gpmp code calls.
Arrays of rank 0 reduced along an axis are outside the theorems (numpy accepts axis 0 and -1
there for some functions only).
-/

set_option autoImplicit false

namespace Verif.Backend.Red

open Verif Verif.Backend

/-- An array of any rank. -/
structure T where
  dt : DT
  shape : List ℕ
  val : List ℕ → ℝ

/-- The multi-indices of a shape in row-major order. -/
def indices : List ℕ → List (List ℕ)
  | [] => [[]]
  | n :: s => (List.range n).flatMap fun i => (indices s).map fun l => i :: l

/-- The entries in row-major order. -/
def T.entries (x : T) : List ℝ := (indices x.shape).map x.val

/-- Position of axis `a` among `r`, negative axes counting from the end; out of range is an
`IndexError` (`AxisError` of numpy is one too). -/
def position (r : ℕ) (a : ℤ) : Py ℕ :=
  if 0 ≤ a ∧ a < r then .ok a.toNat
  else if -(r : ℤ) ≤ a ∧ a < 0 then .ok (a + r).toNat
  else .error .indexError

/-- The entries of `x` along position `k` through the multi-index `l` of the other axes. -/
def T.line (x : T) (k : ℕ) (l : List ℕ) : List ℝ :=
  (List.range (x.shape.getD k 0)).map fun t => x.val (l.insertIdx k t)

/-- Element type of a sum or product: `bool` is counted as `int` (both libraries). -/
def countType : DT → DT
  | .bool => .int
  | dt => dt

/-- Element type of a mean in numpy: integers and booleans give `float64`. -/
def meanType : DT → DT
  | .float32 => .float32
  | _ => .float64

/-- A function from lists to numbers, applied to all entries. -/
def overAll (op : List ℝ → ℝ) (ty : DT → DT) (x : T) : T :=
  ⟨ty x.dt, [], fun _ => op x.entries⟩

/-- The same, applied along position `k`. -/
def overAxis (op : List ℝ → ℝ) (ty : DT → DT) (x : T) (k : ℕ) : T :=
  ⟨ty x.dt, x.shape.eraseIdx k, fun l => op (x.line k l)⟩

/-- Arithmetic mean. -/
noncomputable def avg (l : List ℝ) : ℝ := l.sum / l.length

open Classical in
/-- 1 if no entry is zero, else 0. -/
noncomputable def allNonzero (l : List ℝ) : ℝ := if ∀ v ∈ l, v ≠ 0 then 1 else 0

/-- Running totals along position `k`. -/
def runAxis (x : T) (k : ℕ) : T :=
  ⟨countType x.dt, x.shape, fun l =>
    (((List.range (l.getD k 0 + 1)).map fun t => x.val (l.set k t))).sum⟩

/-- Running totals of the flattened entries. -/
def runAll (x : T) : T :=
  ⟨countType x.dt, [x.entries.length], fun l => (x.entries.take (l.getD 0 0 + 1)).sum⟩

/-- Differences of neighbours along position `k`. -/
def diffAxis (x : T) (k : ℕ) : T :=
  ⟨x.dt, x.shape.set k (x.shape.getD k 0 - 1), fun l =>
    x.val (l.set k (l.getD k 0 + 1)) - x.val l⟩

/-! ## numpy -/

/-- `numpy.sum(x, axis)`, re-exported at numpy_backend.py 60-130; likewise below. -/
def npSum (x : T) : Option ℤ → Py T
  | none => .ok (overAll List.sum countType x)
  | some a => do let k ← position x.shape.length a; .ok (overAxis List.sum countType x k)

def npProd (x : T) : Option ℤ → Py T
  | none => .ok (overAll List.prod countType x)
  | some a => do let k ← position x.shape.length a; .ok (overAxis List.prod countType x k)

noncomputable def npAll (x : T) : Option ℤ → Py T
  | none => .ok (overAll allNonzero (fun _ => .bool) x)
  | some a => do
    let k ← position x.shape.length a
    .ok (overAxis allNonzero (fun _ => .bool) x k)

noncomputable def npMean (x : T) : Option ℤ → Py T
  | none => .ok (overAll avg meanType x)
  | some a => do let k ← position x.shape.length a; .ok (overAxis avg meanType x k)

/-- `numpy.cumsum(x, axis=None)` flattens. -/
def npCumsum (x : T) : Option ℤ → Py T
  | none => .ok (runAll x)
  | some a => do let k ← position x.shape.length a; .ok (runAxis x k)

/-- `numpy.diff(x, axis=-1)`; `none` is the call without an axis. A 0-d array is a
`ValueError`; booleans are compared instead of subtracted. -/
def npDiff (x : T) (axis : Option ℤ) : Py T :=
  if x.shape.length = 0 then .error .valueError
  else do let k ← position x.shape.length (axis.getD (-1)); .ok (diffAxis x k)

/-! ## torch -/

/-- `axis_to_dim(f)`, torch_backend.py 375-382: `f(x)` without an axis, `f(x, dim=axis)`
with one. -/
def axisToDim (f : T → Option ℤ → Py T) (x : T) : Option ℤ → Py T
  | none => f x none
  | some a => f x (some a)

/-- `torch.sum(x)` and `torch.sum(x, dim=a)`; a 0-d tensor accepts `dim` 0 and -1 (all torch
functions below). -/
def tPosition (r : ℕ) (a : ℤ) : Py (Option ℕ) :=
  if r = 0 then if a = 0 ∨ a = -1 then .ok none else .error .indexError
  else do let k ← position r a; .ok (some k)

/-- A torch reduction: all entries without `dim`, one position with it. -/
def torchReduce (op : List ℝ → ℝ) (ty : DT → DT) (x : T) : Option ℤ → Py T
  | none => .ok (overAll op ty x)
  | some a => do
    match ← tPosition x.shape.length a with
    | none => .ok (overAll op ty x)
    | some k => .ok (overAxis op ty x k)

/-- `sum = axis_to_dim(torch.sum)`, torch_backend.py 388. -/
def thSum : T → Option ℤ → Py T := axisToDim (torchReduce List.sum countType)

/-- `prod = axis_to_dim(torch.prod)`, torch_backend.py 390. -/
def thProd : T → Option ℤ → Py T := axisToDim (torchReduce List.prod countType)

/-- `all = axis_to_dim(torch.all)`, torch_backend.py 385. -/
noncomputable def thAll : T → Option ℤ → Py T :=
  axisToDim (torchReduce allNonzero fun _ => .bool)

/-- `torch.mean`: "could not infer output dtype. Input dtype must be either a floating point
or complex dtype" is a `RuntimeError`. -/
noncomputable def torchMean (x : T) (axis : Option ℤ) : Py T :=
  if x.dt.floating then torchReduce avg id x axis else .error .runtimeError

/-- `mean = axis_to_dim(torch.mean)`, torch_backend.py 391. -/
noncomputable def thMean : T → Option ℤ → Py T := axisToDim torchMean

/-- `torch.cumsum(x, dim)`: `dim` is required, without it a `TypeError`. -/
def torchCumsum (x : T) : Option ℤ → Py T
  | none => .error .typeError
  | some a => do
    match ← tPosition x.shape.length a with
    | none => .ok (overAll List.sum countType x)
    | some k => .ok (runAxis x k)

/-- `cumsum = axis_to_dim(torch.cumsum)`, torch_backend.py 389. -/
def thCumsum : T → Option ℤ → Py T := axisToDim torchCumsum

/-- `torch.diff(x, dim=-1)`; a 0-d tensor is a `RuntimeError`. -/
def torchDiff (x : T) (axis : Option ℤ) : Py T :=
  if x.shape.length = 0 then .error .runtimeError
  else do let k ← position x.shape.length (axis.getD (-1)); .ok (diffAxis x k)

/-- `diff = axis_to_dim(torch.diff)`, torch_backend.py 387. -/
def thDiff : T → Option ℤ → Py T := axisToDim torchDiff

/-! ## Constructors -/

/-- How the number of points is passed to `linspace`. -/
inductive NumArg where
  | omitted
  | positional (n : ℕ)
  | numKeyword (n : ℕ)
  | stepsKeyword (n : ℕ)

/-- Evenly spaced points from `a` to `b`. -/
noncomputable def spaced (a b : ℝ) (n : ℕ) : T :=
  ⟨.float64, [n], fun l => a + (l.getD 0 0 : ℕ) * ((b - a) / ((n : ℝ) - 1))⟩

/-- `linspace(start, stop, num=50, …)` of numpy_backend.py 214-223. -/
noncomputable def npLinspace (a b : ℝ) : NumArg → Py T
  | .omitted => .ok (spaced a b 50)
  | .positional n => .ok (spaced a b n)
  | .numKeyword n => .ok (spaced a b n)
  | .stepsKeyword _ => .error .typeError

/-- `torch.linspace(start, end, steps)`, re-exported at torch_backend.py 66-112; float64 is
the default type set at line 59. -/
noncomputable def thLinspace (a b : ℝ) : NumArg → Py T
  | .omitted => .error .typeError
  | .positional n => .ok (spaced a b n)
  | .numKeyword _ => .error .typeError
  | .stepsKeyword n => .ok (spaced a b n)

/-- `full(shape, fill_value)` of numpy_backend.py 199-202: the default type whatever the
value. -/
def npFull (s : List ℕ) (_ : DT) (v : ℝ) : T := ⟨.float64, s, fun _ => v⟩

/-- `torch.full(shape, fill_value)`, re-exported: the type follows the Python value
(`bool`, `int`, or the default type for a float). -/
def thFull (s : List ℕ) (ty : DT) (v : ℝ) : T :=
  ⟨match ty with | .bool => .bool | .int => .int | _ => .float64, s, fun _ => v⟩

/-- `numpy.meshgrid(x, y)`: `indexing="xy"`; vectors as lists. -/
def npMeshgrid (x y : List ℝ) : T × T :=
  (⟨.float64, [y.length, x.length], fun l => x.getD (l.getD 1 0) 0⟩,
    ⟨.float64, [y.length, x.length], fun l => y.getD (l.getD 0 0) 0⟩)

/-- `torch.meshgrid(x, y)`: `indexing="ij"` (with a warning). -/
def thMeshgrid (x y : List ℝ) : T × T :=
  (⟨.float64, [x.length, y.length], fun l => x.getD (l.getD 0 0) 0⟩,
    ⟨.float64, [x.length, y.length], fun l => y.getD (l.getD 1 0) 0⟩)

/-! ## Axes -/

/-- Position at which a new axis goes: among `r + 1`. -/
def expandAt (x : T) (k : ℕ) : T :=
  ⟨x.dt, x.shape.insertIdx k 1, fun l => x.val (l.eraseIdx k)⟩

/-- `numpy.expand_dims(x, axis)` with one axis or a tuple (here at most two axes), the
positions referring to the result. -/
def npExpandDims (x : T) : List ℤ → Py T
  | [a] => do let k ← position (x.shape.length + 1) a; .ok (expandAt x k)
  | [a, b] => do
    let i ← position (x.shape.length + 2) a
    let j ← position (x.shape.length + 2) b
    if i = j then .error .valueError
    else .ok (expandAt (expandAt x (min i j)) (max i j))
  | _ => .ok x

/-- `expand_dims(tensor, axis)`, torch_backend.py 183-184: `unsqueeze` takes one integer, a
tuple is a `TypeError`. -/
def thExpandDims (x : T) : List ℤ → Py T
  | [a] => do let k ← position (x.shape.length + 1) a; .ok (expandAt x k)
  | _ => .error .typeError

/-- Swap the entries at positions `i` and `j` of a list. -/
def swapPos (l : List ℕ) (i j : ℕ) : List ℕ := (l.set i (l.getD j 0)).set j (l.getD i 0)

/-- `transpose(x, dim0, dim1)`: `numpy.swapaxes`, numpy_backend.py 210-212. -/
def npTranspose (x : T) (a b : ℤ) : Py T := do
  let i ← position x.shape.length a
  let j ← position x.shape.length b
  .ok ⟨x.dt, swapPos x.shape i j, fun l => x.val (swapPos l i j)⟩

/-- `transpose(x, dim0, dim1)`: `torch.transpose`, torch_backend.py 357-359; a 0-d tensor
accepts 0 and -1. -/
def thTranspose (x : T) (a b : ℤ) : Py T :=
  if x.shape.length = 0 then
    if (a = 0 ∨ a = -1) ∧ (b = 0 ∨ b = -1) then .ok x else .error .indexError
  else do
    let i ← position x.shape.length a
    let j ← position x.shape.length b
    .ok ⟨x.dt, swapPos x.shape i j, fun l => x.val (swapPos l i j)⟩

end Verif.Backend.Red
