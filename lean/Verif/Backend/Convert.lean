import Verif.Py
import Mathlib.Data.Real.Basic
import Mathlib.Algebra.Order.Floor.Ring
import Mathlib.Data.Real.Archimedean

/-!
# Conversions of the two numerical backends, on shared memory

`/repo/gpmp/num/numpy_backend.py`, `/repo/gpmp/num/torch_backend.py`: `array`, `asarray`
(with its `dtype` argument), `copy`, `asdouble`, `asint`, `to_np`, `to_scalar`, `isarray`,
`_resolve_torch_dtype`.

Memory is a list of cells; an array object is the address of its cell, so two objects with
one address share their entries.  Shapes are left out (a cell is a flat list of numbers).
-/

set_option autoImplicit false

namespace Verif.Backend.Conv

open Verif

/-- Element types that the code names. -/
inductive El where
  | bool | int32 | int64 | float32 | float64
  deriving DecidableEq

/-- Is it a floating-point type? -/
def El.floating : El → Bool
  | .float32 | .float64 => true
  | _ => false

/-- What the machine does where exact numbers do not fit: rounding to single precision, and
integers outside 32 bits (the C conversion leaves the result open). -/
structure Machine where
  /-- rounding to float32 -/
  r32 : ℝ → ℝ
  /-- conversion of an integer to 32 bits -/
  w32 : ℤ → ℤ
  r32_idem : ∀ v, r32 (r32 v) = r32 v
  w32_range : ∀ k, -2 ^ 31 ≤ w32 k ∧ w32 k < 2 ^ 31
  w32_id : ∀ k, -2 ^ 31 ≤ k → k < 2 ^ 31 → w32 k = k

/-- Conversion to an integer: the fractional part is dropped. -/
noncomputable def trunc (v : ℝ) : ℤ := if 0 ≤ v then ⌊v⌋ else ⌈v⌉

open Classical in
/-- A number stored with an element type.  Numbers that do not fit in 64 bits and NaN are
not represented. -/
noncomputable def store (M : Machine) : El → ℝ → ℝ
  | .bool, v => if v = 0 then 0 else 1
  | .int32, v => M.w32 (trunc v)
  | .int64, v => trunc v
  | .float32, v => M.r32 v
  | .float64, v => v

/-- The entries of one array. -/
structure Cell where
  dt : El
  vals : List ℝ

/-- Memory. -/
abbrev Heap := List Cell

/-- What a caller passes and gets: a Python number, a list (with the element type that numpy
and torch infer for it; double precision is the default of both, torch_backend.py 58-59), a
numpy array, a tensor. -/
inductive Val where
  | int (k : ℤ)
  | float (v : ℝ)
  | list (dt : El) (vals : List ℝ)
  | nd (a : ℕ)
  | tensor (a : ℕ)

/-- A new cell at the end of memory. -/
def alloc (h : Heap) (c : Cell) : ℕ × Heap := (h.length, h ++ [c])

/-- `x.astype(dt, copy=False)` and `x.to(dtype=dt)`: the same memory when the type is right,
a converted copy otherwise.  (External.)  An address outside memory (`other 0`) stands for no
Python object. -/
noncomputable def recast (M : Machine) (h : Heap) (dt : El) (a : ℕ) : Py (ℕ × Heap) :=
  match h[a]? with
  | none => .error (.other 0)
  | some c => .ok (if c.dt = dt then (a, h) else alloc h ⟨dt, c.vals.map (store M dt)⟩)

/-- `astype(float64)` for floating types, nothing otherwise: numpy_backend.py 170-172, 178-180;
torch_backend.py 221-224. -/
noncomputable def widen (M : Machine) (h : Heap) (a : ℕ) : Py (ℕ × Heap) :=
  match h[a]? with
  | none => .error (.other 0)
  | some c => if c.dt.floating then recast M h .float64 a else .ok (a, h)

/-- The numpy array built from a number or a list: `numpy.array(x)`.  (External.) -/
noncomputable def build (h : Heap) : Val → Py (ℕ × Heap)
  | .int k => .ok (alloc h ⟨.int64, [(k : ℝ)]⟩)
  | .float v => .ok (alloc h ⟨.float64, [v]⟩)
  | .list dt l => .ok (alloc h ⟨dt, l⟩)
  | .nd a => match h[a]? with
    | none => .error (.other 0)
    | some c => .ok (alloc h c)
  | .tensor _ => .error .typeError

/-- The conversion that `array` and `asarray` end with, on both backends: to the type asked for,
or to double precision, numpy_backend.py 167-172, 175-188, torch_backend.py 219-224, 230-234,
239-244. -/
noncomputable def typed (M : Machine) (h : Heap) (a : ℕ) : Option El → Py (ℕ × Heap)
  | some dt => recast M h dt a
  | none => widen M h a

/-! ## numpy -/

/-- `array(x, dtype=None)`, numpy_backend.py 166-172: `numpy.array` copies. -/
noncomputable def arrayNp (M : Machine) (h : Heap) (x : Val) (dtype : Option El) : Py (Val × Heap) := do
  let (a, h1) ← build h x
  let (b, h2) ← typed M h1 a dtype
  return (.nd b, h2)

/-- `numpy.asarray(x)` before any conversion: an array is used as it is.  (External.) -/
noncomputable def own (h : Heap) : Val → Py (ℕ × Heap)
  | .nd a => .ok (a, h)
  | y => build h y

/-- `asarray(x, dtype=None)`, numpy_backend.py 174-188: arrays are used as they are when the
type is right. -/
noncomputable def asarrayNp (M : Machine) (h : Heap) (x : Val) (dtype : Option El) : Py (Val × Heap) := do
  let (a, h1) ← own h x
  let (b, h2) ← typed M h1 a dtype
  return (.nd b, h2)

/-- `copy(x)`: `numpy.copy` (re-exported, numpy_backend.py 63-65), which keeps the element type. -/
noncomputable def copyNp (h : Heap) (x : Val) : Py (Val × Heap) := do
  let (a, h1) ← build h x
  return (.nd a, h1)

/-- `asdouble(x)`, numpy_backend.py 233-234. -/
noncomputable def asdoubleNp (M : Machine) (h : Heap) (x : Val) : Py (Val × Heap) :=
  asarrayNp M h x (some .float64)

/-- `asint(x)`, numpy_backend.py 236-237: `astype(int)` is 64 bits.  (`numpy.asarray(x)` first
builds the array in its own type.) -/
noncomputable def asintNp (M : Machine) (h : Heap) (x : Val) : Py (Val × Heap) := do
  let (a, h1) ← own h x
  let (b, h2) ← recast M h1 .int64 a
  return (.nd b, h2)

/-- `to_np(x)`, numpy_backend.py 239-240: the argument itself. -/
def toNpNp (h : Heap) (x : Val) : Py (Val × Heap) := .ok (x, h)

/-- `isarray(x)`, numpy_backend.py 247-248. -/
def isarrayNp : Val → Bool
  | .nd _ => true
  | _ => false

/-- `x.item()` of an array: its only entry.  (External; torch raises `RuntimeError`.) -/
def item (h : Heap) (e : PyErr) (a : ℕ) : Py ℝ :=
  match h[a]? with
  | none => .error (.other 0)
  | some c => match c.vals with
    | [v] => .ok v
    | _ => .error e

/-- `to_scalar(x)`, numpy_backend.py 242-245. -/
def toScalarNp (h : Heap) : Val → Py ℝ
  | .int k => .ok k
  | .float v => .ok v
  | .list _ _ => .error .attributeError
  | .nd a => item h .valueError a
  | .tensor _ => .error .attributeError

/-! ## torch -/

/-- The tensor on the memory of `x` before any conversion: `torch.from_numpy` shares the memory
of a numpy array; `torch.as_tensor` and `torch.tensor` of lists and numbers make a new one.
(External.) -/
noncomputable def wrap (h : Heap) : Val → Py (ℕ × Heap)
  | .tensor a => .ok (a, h)
  | .nd a => .ok (a, h)
  | y => build h y

/-- `asarray(x, dtype=None)`, torch_backend.py 217-244, after `_resolve_torch_dtype`.  A Python
number is given the requested type at once (`torch.tensor(x, dtype=dtype)`, which refuses an
integer that does not fit; here it is converted). -/
noncomputable def asarrayTorch (M : Machine) (h : Heap) (x : Val) (dtype : Option El) : Py (Val × Heap) := do
  let (a, h1) ← wrap h x
  let (b, h2) ← typed M h1 a dtype
  return (.tensor b, h2)

/-- `array(x, dtype=None)`, torch_backend.py 188-189: the same as `asarray`. -/
noncomputable def arrayTorch (M : Machine) (h : Heap) (x : Val) (dtype : Option El) : Py (Val × Heap) :=
  asarrayTorch M h x dtype

/-- `copy(x)`, torch_backend.py 174-176: `asarray(x).clone().detach()`. -/
noncomputable def copyTorch (M : Machine) (h : Heap) (x : Val) : Py (Val × Heap) := do
  match ← asarrayTorch M h x none with
  | (.tensor a, h1) => match h1[a]? with
    | none => .error (.other 0)
    | some c => return (.tensor (alloc h1 c).1, (alloc h1 c).2)
  | _ => .error .attributeError

/-- `asarray(x).to(dt)`. -/
noncomputable def thenTo (M : Machine) (h : Heap) (x : Val) (dt : El) : Py (Val × Heap) := do
  match ← asarrayTorch M h x none with
  | (.tensor a, h1) => do
    let (b, h2) ← recast M h1 dt a
    return (.tensor b, h2)
  | _ => .error .attributeError

/-- `asdouble(x)`, torch_backend.py 247-248. -/
noncomputable def asdoubleTorch (M : Machine) (h : Heap) (x : Val) : Py (Val × Heap) :=
  thenTo M h x .float64

/-- `asint(x)`, torch_backend.py 251-252: `torch.int` is 32 bits. -/
noncomputable def asintTorch (M : Machine) (h : Heap) (x : Val) : Py (Val × Heap) :=
  thenTo M h x .int32

/-- `to_np(x)`, torch_backend.py 255-258: the numpy array on the memory of the tensor; anything
else is returned as it is. -/
def toNpTorch (h : Heap) : Val → Py (Val × Heap)
  | .tensor a => .ok (.nd a, h)
  | y => .ok (y, h)

/-- `isarray(x)`, torch_backend.py 269-270. -/
def isarrayTorch : Val → Bool
  | .tensor _ => true
  | _ => false

/-- `to_scalar(x)`, torch_backend.py 261-266. -/
def toScalarTorch (h : Heap) : Val → Py ℝ
  | .int k => .ok k
  | .float v => .ok v
  | .list _ _ => .error .attributeError
  | .nd a => item h .valueError a
  | .tensor a => item h .runtimeError a

/-! ## Writing -/

/-- `y[i] = v` on the array at address `a`: the number is stored with the type of the array. -/
noncomputable def write (M : Machine) (h : Heap) (a i : ℕ) (v : ℝ) : Heap :=
  h.modify a fun c => ⟨c.dt, c.vals.set i (store M c.dt v)⟩

/-- Several writes through one array. -/
noncomputable def writes (M : Machine) (h : Heap) (a : ℕ) : List (ℕ × ℝ) → Heap
  | [] => h
  | (i, v) :: ws => writes M (write M h a i v) a ws

/-! ## `_resolve_torch_dtype` -/

/-- What may be passed as `dtype`: nothing, a torch type, one of Python's `float`, `int`, `bool`,
or an object with a name (a string, a numpy type). -/
inductive DtArg where
  | none
  | torch (dt : El)
  | pyFloat | pyInt | pyBool
  | named (s : String)

/-- `sub in s` for strings, on their characters. -/
def hasSub (sub : List Char) : List Char → Bool
  | [] => sub.isEmpty
  | c :: t => sub.isPrefixOf (c :: t) || hasSub sub t

/-- `sub in s` for strings. -/
def contains (s sub : String) : Bool := hasSub sub.toList s.toList

/-- `_resolve_torch_dtype(dtype)`, torch_backend.py 192-214: no type, a torch type, or the
argument itself when no test matched (`.inr`), which torch then refuses.  `s` is the lower-case
name. -/
def resolve : DtArg → Option El ⊕ String
  | .none => .inl none
  | .torch dt => .inl (some dt)
  | .pyFloat => .inl (some .float64)
  | .pyInt => .inl (some .int64)
  | .pyBool => .inl (some .bool)
  | .named s =>
    if contains s "float32" then .inl (some .float32)
    else if contains s "float64" || contains s "double" then .inl (some .float64)
    else if contains s "int64" || contains s "long" then .inl (some .int64)
    else if contains s "int32" then .inl (some .int32)
    else if contains s "bool" then .inl (some .bool)
    else .inr s

/-- `asarray(x, dtype=d)` of torch with the resolution of the type, torch_backend.py 217-244:
`x.to(dtype="…")` and `torch.tensor(x, dtype="…")` raise `TypeError`. -/
noncomputable def asarrayTorchArg (M : Machine) (h : Heap) (x : Val) (d : DtArg) : Py (Val × Heap) :=
  match resolve d with
  | .inl dt => asarrayTorch M h x dt
  | .inr _ => .error .typeError

end Verif.Backend.Conv
