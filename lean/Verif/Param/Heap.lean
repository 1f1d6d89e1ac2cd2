import Verif.Param.Model
import Mathlib.Algebra.Order.Floor.Ring
import Mathlib.Data.Real.Archimedean

/-!
# Model of `Param` with shared arrays

`/repo/gpmp/parameter/param.py`.  `Verif.Param.Model` treats parameters as values.  Here the
array of values is an address in a heap, so that aliasing and integer arrays are visible: the
constructor and the `values` setter keep the array they are given (`gnp.asarray` does not copy an
array of the working type), indexing and concatenation copy, and a view is an address with an
offset.  Aliasing of the lists of names, paths, normalizations and bounds is not modelled.  Arrays
of floats have the working type (others are copied by `asarray`).
-/

set_option autoImplicit false

namespace Verif.Param

open Verif

/-- An array with one axis: integers or floats. -/
structure Arr where
  isInt : Bool
  data : List ℝ

/-- The number stored when `v` is assigned to an entry: integer arrays truncate towards zero. -/
noncomputable def Arr.coerce (a : Arr) (v : ℝ) : ℝ :=
  if a.isInt then (if 0 ≤ v then (⌊v⌋ : ℝ) else (⌈v⌉ : ℝ)) else v

/-- `a[i] = v`. -/
noncomputable def Arr.store (a : Arr) (i : Nat) (v : ℝ) : Py Arr :=
  if i < a.data.length then .ok { a with data := a.data.set i (a.coerce v) } else .error .indexError

/-- A `Param` object: `_values` is an address. -/
structure Obj where
  addr : Nat
  dim : Nat
  paths : List (List String)
  names : List String
  norms : List Norm
  bounds : List (Option (ℝ × ℝ))

/-- Arrays and objects. -/
structure Heap where
  arrs : List Arr
  objs : List Obj

/-- The array at an address. -/
def Heap.arr (h : Heap) (a : Nat) : Arr := h.arrs.getD a ⟨false, []⟩

/-- The value of an object. -/
def Heap.abs (h : Heap) (o : Obj) : Param :=
  ⟨(h.arr o.addr).data, o.dim, o.paths, o.names, o.norms, o.bounds⟩

/-- What is passed for `values`: a list of numbers, or an existing array. -/
inductive Src where
  | list (isInt : Bool) (xs : List ℝ)
  | arr (addr : Nat)

/-- `gnp.asarray` of values, param.py 57, 117; numpy_backend.py 174-188, torch_backend.py 217-244:
a list becomes a new array, an array is returned itself. -/
def Heap.asarray (h : Heap) : Src → Heap × Nat
  | .list b xs => ({ h with arrs := h.arrs ++ [⟨b, xs⟩] }, h.arrs.length)
  | .arr a => (h, a)

/-- The write loop of `set_by_path`, param.py 215-216. -/
noncomputable def storeAll : Arr → List (Nat × ℝ) → Py Unit × Arr
  | a, [] => (.ok (), a)
  | a, (i, v) :: rest =>
    match a.store i v with
    | .ok a' => storeAll a' rest
    | .error e => (.error e, a)

/-- The loop of `set_from_unnormalized`, param.py 218-221. -/
noncomputable def storeUnnorm (o : Obj) : Arr → List (String × ℝ) → Py Unit × Arr
  | a, [] => (.ok (), a)
  | a, (name, v) :: rest =>
    match nameIndex o.names name with
    | .error e => (.error e, a)
    | .ok i =>
      match pyGet o.norms i with
      | .error e => (.error e, a)
      | .ok nm =>
        match a.store i (normalize v nm) with
        | .error e => (.error e, a)
        | .ok a' => storeUnnorm o a' rest

/-- The mutations that write into the array of the object. -/
inductive Mut where
  | setByName (name : String) (v : ℝ)
  | setByPath (path : List String) (v : List ℝ) (prefixMatch : Bool)
  | setFromUnnormalized (kwargs : List (String × ℝ))

/-- `set_by_name`, `set_by_path`, `set_from_unnormalized` on the array, param.py 181-183, 203-221:
outcome and array afterwards. -/
noncomputable def Obj.mutate (o : Obj) (a : Arr) : Mut → Py Unit × Arr
  | .setByName n v =>
    match nameIndex o.names n with
    | .error e => (.error e, a)
    | .ok i =>
      match a.store i v with
      | .error e => (.error e, a)
      | .ok a' => (.ok (), a')
  | .setByPath path v m =>
    let idx := (⟨[], o.dim, o.paths, o.names, o.norms, o.bounds⟩ : Param).pathIndices path m
    if idx.length ≠ v.length then (.error .valueError, a) else storeAll a (idx.zip v)
  | .setFromUnnormalized kw => storeUnnorm o a kw

/-- Statements of a program with several `Param` variables. -/
inductive HOp where
  /-- `Param(values, paths, normalizations, names, bounds)` -/
  | new (src : Src) (paths : List (List String)) (norms : List Norm) (names : List String)
    (bounds : List (Option (ℝ × ℝ)))
  /-- `p.values = …` -/
  | setValues (k : Nat) (src : Src)
  /-- `p.denormalized_values = …` -/
  | setDenormalized (k : Nat) (v : List ℝ)
  /-- a call that writes entries -/
  | mutate (k : Nat) (m : Mut)
  /-- `p[index]` -/
  | pick (k : Nat) (index : List Int)
  /-- `p + q` -/
  | add (k l : Nat)
  /-- `a[i] = v` for an array held elsewhere -/
  | write (addr i : Nat) (v : ℝ)

/-- Bind a new object to a parameter with a new array. -/
def Heap.bind (h : Heap) (isInt : Bool) (p : Param) : Heap :=
  ⟨h.arrs ++ [⟨isInt, p.values⟩],
    h.objs ++ [⟨h.arrs.length, p.dim, p.paths, p.names, p.norms, p.bounds⟩]⟩

/-- One statement, param.py 42-74, 115-118, 129-139, 181-183, 203-252: outcome and heap
afterwards.  A variable that does not exist raises NameError. -/
noncomputable def Heap.step (h : Heap) : HOp → Py Unit × Heap
  | .new src paths norms names bounds =>
    let r := h.asarray src
    let n := (r.1.arr r.2).data.length
    if (⟨(r.1.arr r.2).data, n, paths, names, norms, bounds⟩ : Param).consistent then
      (.ok (), { r.1 with objs := r.1.objs ++ [⟨r.2, n, paths, names, norms, bounds⟩] })
    else (.error .valueError, r.1)
  | .setValues k src =>
    match h.objs[k]? with
    | none => (.error .nameError, h)
    | some o =>
      let r := h.asarray src
      (.ok (), { r.1 with objs := r.1.objs.set k { o with addr := r.2, dim := (r.1.arr r.2).data.length } })
  | .setDenormalized k v =>
    match h.objs[k]? with
    | none => (.error .nameError, h)
    | some o =>
      if v.length ≠ o.dim then (.error .valueError, h)
      else
        (.ok (), ⟨h.arrs ++ [⟨false, (v.zip o.norms).map fun x => normalize x.1 x.2⟩],
          h.objs.set k { o with addr := h.arrs.length }⟩)
  | .mutate k m =>
    match h.objs[k]? with
    | none => (.error .nameError, h)
    | some o =>
      let r := o.mutate (h.arr o.addr) m
      (r.1, { h with arrs := h.arrs.set o.addr r.2 })
  | .pick k index =>
    match h.objs[k]? with
    | none => (.error .nameError, h)
    | some o =>
      match (h.abs o).pick index with
      | .error e => (.error e, h)
      | .ok p => (.ok (), h.bind (h.arr o.addr).isInt p)
  | .add k l =>
    match h.objs[k]?, h.objs[l]? with
    | some o, some o' =>
      match concat [h.abs o, h.abs o'] with
      | .error e => (.error e, h)
      | .ok p => (.ok (), h.bind ((h.arr o.addr).isInt && (h.arr o'.addr).isInt) p)
    | _, _ => (.error .nameError, h)
  | .write a i v =>
    match (h.arr a).store i v with
    | .error e => (.error e, h)
    | .ok a' => (.ok (), { h with arrs := h.arrs.set a a' })

/-- A program: it goes on after an exception (every call is in a `try`). -/
noncomputable def Heap.run (h : Heap) : List HOp → List (Py Unit) × Heap
  | [] => ([], h)
  | op :: ops =>
    let r := h.step op
    let s := Heap.run r.2 ops
    (r.1 :: s.1, s.2)

/-- `get_by_name(name, return_view=True)`, param.py 175-179: the address and the offset. -/
def Heap.viewByName (h : Heap) (k : Nat) (name : String) : Py (Nat × Nat) :=
  match h.objs[k]? with
  | none => .error .nameError
  | some o => (nameIndex o.names name).map fun i => (o.addr, i)

/-- `get_by_path(path, prefix_match, return_view=True)`, param.py 185-199: address, offset and
length; `indices_array[0]` raises when nothing matches (`all` of nothing is true). -/
def Heap.viewByPath (h : Heap) (k : Nat) (path : List String) (prefixMatch : Bool) :
    Py (Nat × Nat × Nat) :=
  match h.objs[k]? with
  | none => .error .nameError
  | some o =>
    let idx := (h.abs o).pathIndices path prefixMatch
    if (idx.zip idx.tail).all (fun x => x.2 - x.1 == 1) then
      match idx with
      | [] => .error .indexError
      | i :: _ => .ok (o.addr, i, idx.getLastD 0 + 1 - i)
    else .error .valueError

/-- The numbers seen through a view: the slice is cut at the end of the array. -/
def Heap.readView (h : Heap) (v : Nat × Nat × Nat) : List ℝ :=
  ((h.arr v.1).data.drop v.2.1).take v.2.2

/-! ## Values -/

/-- The public mutations of `Param.step` with their outcome. -/
noncomputable def Param.act (p : Param) : Mut → Py Unit × Param
  | .setByName n v => match p.setByName n v with
    | .error e => (.error e, p)
    | .ok q => (.ok (), q)
  | .setByPath path v m => p.setByPath path v m
  | .setFromUnnormalized kw => p.setFromUnnormalized kw

/-- The same programs on values: assignments copy. -/
noncomputable def vstep (ps : List Param) : HOp → Py Unit × List Param
  | .new (.list _ xs) paths norms names bounds =>
    match mkParam (some xs) (some paths) (some (norms.map .enum)) (some names) (some bounds) "param_"
      Option.none with
    | .error e => (.error e, ps)
    | .ok p => (.ok (), ps ++ [p])
  | .setValues k (.list _ xs) =>
    match ps[k]? with
    | none => (.error .nameError, ps)
    | some p => (.ok (), ps.set k (p.setValues xs))
  | .setDenormalized k v =>
    match ps[k]? with
    | none => (.error .nameError, ps)
    | some p =>
      match p.setDenormalized v with
      | .error e => (.error e, ps)
      | .ok q => (.ok (), ps.set k q)
  | .mutate k m =>
    match ps[k]? with
    | none => (.error .nameError, ps)
    | some p => ((p.act m).1, ps.set k (p.act m).2)
  | .pick k index =>
    match ps[k]? with
    | none => (.error .nameError, ps)
    | some p =>
      match p.pick index with
      | .error e => (.error e, ps)
      | .ok q => (.ok (), ps ++ [q])
  | .add k l =>
    match ps[k]?, ps[l]? with
    | some p, some q =>
      match concat [p, q] with
      | .error e => (.error e, ps)
      | .ok r => (.ok (), ps ++ [r])
    | _, _ => (.error .nameError, ps)
  | _ => (.ok (), ps)

/-- Programs on values. -/
noncomputable def vrun (ps : List Param) : List HOp → List (Py Unit) × List Param
  | [] => ([], ps)
  | op :: ops =>
    let r := vstep ps op
    let s := vrun r.2 ops
    (r.1 :: s.1, s.2)

end Verif.Param
