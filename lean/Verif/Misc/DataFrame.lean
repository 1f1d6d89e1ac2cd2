import Verif.Py
import Verif.Num
import Mathlib.Analysis.SpecialFunctions.Log.Base
import Mathlib.Algebra.Order.Round

/-!
# Model of `misc/dataframe.py`

Names are kept in Python lists that may be shared between frames, so a frame holds
references to lists of a heap.  `np.array(data)` copies: data are not shared.  Data have one
or two axes, and all rows have the same length.  Conversion of assigned values to the type of
the array is left out.
-/

set_option autoImplicit false

namespace Verif.DataFrame

open Verif

/-! ## Numbers as strings -/

/-- What `ftos` prints.  `fixed k m` is the number `m / 10 ^ k` with `k` decimals, `sci k m e` is
`m / 10 ^ k` with `k` decimals, followed by `e` and the exponent. -/
inductive Shown where
  | text (s : String)
  | fixed (k : ℕ) (m : ℤ)
  | sci (k : ℕ) (m : ℤ) (e : ℤ)

open Classical in
/-- The nearest integer, ties to even. -/
noncomputable def nearest (x : ℝ) : ℤ :=
  if x - ⌊x⌋ = 1 / 2 then (if Even ⌊x⌋ then ⌊x⌋ else ⌊x⌋ + 1) else ⌊x + 1 / 2⌋

/-- `f"{x:.{k}f}"`. -/
noncomputable def fmt (k : ℕ) (x : ℝ) : ℤ := nearest (x * 10 ^ k)

open Classical in
/-- `ftos` of a finite number, dataframe.py 23-33. -/
noncomputable def ftosReal (fp : ℕ) (x : ℝ) : Shown :=
  if x = 0 then .text "0.0"
  else if 1 / 10 ≤ |x| ∧ |x| < 1000 then .fixed fp (fmt fp x)
  else if 1 / 100 ≤ |x| ∧ |x| < 1 / 10 then .fixed (fp + 1) (fmt (fp + 1) x)
  else
    let e := ⌊Real.logb 10 |x|⌋
    .sci fp (fmt fp (x / 10 ^ e)) e

open Classical in
/-- `ftos`, dataframe.py 15-33: `int(floor(log10(nan)))` raises. -/
noncomputable def ftos (fp : ℕ) (x : Flt) : Py Shown :=
  match x with
  | .nan => .error .valueError
  | .num v =>
    if v = ⊤ then .ok (.text "+Inf")
    else if v = ⊥ then .ok (.text "-Inf")
    else .ok (ftosReal fp v.toReal)

/-! ## Slices -/

/-- A Python slice. -/
structure Sl where
  start : Option ℤ
  stop : Option ℤ
  step : Option ℤ

/-- `:` -/
def Sl.all : Sl := ⟨none, none, none⟩

/-- An end of a slice, as in `slice.indices`. -/
def Sl.bound (n lower upper : ℤ) (dflt : ℤ) : Option ℤ → ℤ
  | none => dflt
  | some v => if v < 0 then max (v + n) lower else min v upper

/-- The positions selected in a sequence of length `n`. -/
def Sl.indices (s : Sl) (n : ℕ) : Py (List ℕ) :=
  let step := s.step.getD 1
  if step = 0 then .error .valueError
  else if 0 < step then
    let a := Sl.bound n 0 n 0 s.start
    let b := Sl.bound n 0 n n s.stop
    let cnt := if a < b then ((b - a - 1) / step + 1).toNat else 0
    .ok ((List.range cnt).map fun (k : ℕ) => (a + k * step).toNat)
  else
    let a := Sl.bound n (-1) (n - 1) (n - 1) s.start
    let b := Sl.bound n (-1) (n - 1) (-1) s.stop
    let cnt := if b < a then ((a - b - 1) / (-step) + 1).toNat else 0
    .ok ((List.range cnt).map fun (k : ℕ) => (a + k * step).toNat)

/-- The elements at the given positions. -/
def pick {β : Type} (l : List β) (idx : List ℕ) : List β := idx.filterMap fun i => l[i]?

/-- `seq[slice]`. -/
def Sl.get {β : Type} (s : Sl) (l : List β) : Py (List β) := do
  let idx ← s.indices l.length
  return pick l idx

/-! ## Frames -/

/-- An array with one axis, or with two axes and `c` columns. -/
inductive Arr (α : Type) where
  | vec (x : List α)
  | mat (c : ℕ) (rows : List (List α))

/-- The lists of names in memory. -/
structure Heap where
  next : ℕ
  get : ℕ → List String

/-- A new list. -/
def Heap.new (h : Heap) (l : List String) : ℕ × Heap :=
  (h.next, ⟨h.next + 1, Function.update h.get h.next l⟩)

/-- `lst.append(s)`. -/
def Heap.append (h : Heap) (r : ℕ) (s : String) : Heap :=
  { h with get := Function.update h.get r (h.get r ++ [s]) }

/-- `DataFrame`, dataframe.py 36-40: the data and the references of the two lists. -/
structure Frame (α : Type) where
  data : Arr α
  rows : ℕ
  cols : ℕ

variable {α : Type}

/-- `DataFrame(data, colnames, rownames)`, dataframe.py 37-40. -/
def Frame.init (data : Arr α) (colnames rownames : ℕ) : Frame α := ⟨data, rownames, colnames⟩

/-- `names.index(key)`. -/
def indexOf (l : List String) (s : String) : Py ℕ :=
  match l.findIdx? (· = s) with
  | some i => .ok i
  | none => .error .valueError

/-- One part of a pair used as key: a slice, a name, or another object, which is never in a list
of names. -/
inductive Sel where
  | sl (s : Sl)
  | name (s : String)
  | other

/-- A key. -/
inductive Key where
  | pair (r c : Sel)
  | tuple
  | str (s : String)
  | other

/-- `names.index(key)` for a key that is not a slice. -/
def Sel.index (l : List String) : Sel → Py ℕ
  | .name s => indexOf l s
  | _ => .error .valueError

/-- `[key]` for a key that is not a slice; a key that is not a string never gets this far. -/
def Sel.single : Sel → List String
  | .name s => [s]
  | _ => []

/-- `data[rs, cs]`. -/
def Arr.block (rs cs : Sl) : Arr α → Py (Arr α)
  | .vec _ => .error .indexError
  | .mat c rows => do
    let r ← rs.get rows
    let j ← cs.indices c
    return .mat j.length (r.map fun row => pick row j)

/-- `data[rs, j]`. -/
def Arr.column (rs : Sl) (j : ℕ) : Arr α → Py (Arr α)
  | .vec _ => .error .indexError
  | .mat c rows =>
    if c ≤ j then .error .indexError
    else do
      let r ← rs.get rows
      return .vec (r.filterMap fun row => row[j]?)

/-- `data[i, cs]`. -/
def Arr.row (i : ℕ) (cs : Sl) : Arr α → Py (Arr α)
  | .vec _ => .error .indexError
  | .mat c rows =>
    match rows[i]? with
    | none => .error .indexError
    | some row => do
      let j ← cs.indices c
      return .vec (pick row j)

/-- `data[i, j]`. -/
def Arr.entry (i j : ℕ) : Arr α → Py α
  | .vec _ => .error .indexError
  | .mat _ rows =>
    match rows[i]?.bind fun row => row[j]? with
    | none => .error .indexError
    | some a => .ok a

/-- What indexing returns: a frame or an entry. -/
inductive Item (α : Type) where
  | frame (f : Frame α)
  | entry (a : α)

/-- `DataFrame.__getitem__` with a pair, dataframe.py 43-52. -/
def getPair (h : Heap) (f : Frame α) (r c : Sel) : Py (Item α × Heap) :=
  match r, c with
  | .sl rs, .sl cs => do
    let d ← f.data.block rs cs
    let rn ← rs.get (h.get f.rows)
    let cn ← cs.get (h.get f.cols)
    let (a, h) := h.new rn
    let (b, h) := h.new cn
    return (.frame (.init d a b), h)
  | .sl rs, c => do
    let j ← c.index (h.get f.cols)
    let d ← f.data.column rs j
    let rn ← rs.get (h.get f.rows)
    let (a, h) := h.new rn
    let (b, h) := h.new c.single
    return (.frame (.init d a b), h)
  | r, .sl cs => do
    let i ← r.index (h.get f.rows)
    let d ← f.data.row i cs
    let cn ← cs.get (h.get f.cols)
    let (a, h) := h.new r.single
    let (b, h) := h.new cn
    return (.frame (.init d a b), h)
  | r, c => do
    let i ← r.index (h.get f.rows)
    let j ← c.index (h.get f.cols)
    let a ← f.data.entry i j
    return (.entry a, h)

/-- `DataFrame.__getitem__` with a string, dataframe.py 53-59: rows first; the list of names of
the other axis is shared with the result. -/
def getStr (h : Heap) (f : Frame α) (s : String) : Py (Item α × Heap) :=
  if s ∈ h.get f.rows then do
    let i ← indexOf (h.get f.rows) s
    let d ← f.data.row i .all
    let (a, h) := h.new [s]
    return (.frame (.init d a f.cols), h)
  else if s ∈ h.get f.cols then do
    let j ← indexOf (h.get f.cols) s
    let d ← f.data.column .all j
    let (b, h) := h.new [s]
    return (.frame (.init d f.rows b), h)
  else .error .keyError

/-- `DataFrame.__getitem__`, dataframe.py 42-61. -/
def getItem (h : Heap) (f : Frame α) : Key → Py (Item α × Heap)
  | .pair r c => getPair h f r c
  | .tuple => .error .valueError
  | .str s => getStr h f s
  | .other => .error .typeError

/-! ## Assignment -/

/-- An assigned value: a number or a vector. -/
inductive Val (α : Type) where
  | scalar (a : α)
  | vec (x : List α)

/-- The value put in position `k` of an assigned row. -/
def Val.at (v : Val α) (k : ℕ) (old : α) : α :=
  match v with
  | .scalar a => a
  | .vec [a] => a
  | .vec l => l.getD k old

/-- Whether the value can be broadcast to rows of length `n`. -/
def Val.fits (v : Val α) (n : ℕ) : Prop :=
  match v with
  | .scalar _ => True
  | .vec l => l.length = 1 ∨ l.length = n

instance (v : Val α) (n : ℕ) : Decidable (v.fits n) := by
  unfold Val.fits
  split <;> infer_instance

/-- `data[R, C] = v` for lists of positions: entry `(i, j)` is replaced when `i ∈ R` and
`j ∈ C`; the position in `C` (for a row) or in `R` (for a column) says which value it gets. -/
def assign (R C : List ℕ) (byRow : Bool) (v : Val α) (rows : List (List α)) : List (List α) :=
  rows.mapIdx fun i row => row.mapIdx fun j a =>
    if i ∈ R ∧ j ∈ C then v.at (if byRow then R.idxOf i else C.idxOf j) a else a

/-- `data[rs, cs] = v`. -/
def Arr.setBlock (rs cs : Sl) (v : Val α) : Arr α → Py (Arr α)
  | .vec _ => .error .indexError
  | .mat c rows => do
    let R ← rs.indices rows.length
    let C ← cs.indices c
    if v.fits C.length then return .mat c (assign R C false v rows) else .error .valueError

/-- `data[rs, j] = v`. -/
def Arr.setColumn (rs : Sl) (j : ℕ) (v : Val α) : Arr α → Py (Arr α)
  | .vec _ => .error .indexError
  | .mat c rows =>
    if c ≤ j then .error .indexError
    else do
      let R ← rs.indices rows.length
      if v.fits R.length then return .mat c (assign R [j] true v rows) else .error .valueError

/-- `data[i, cs] = v`. -/
def Arr.setRow (i : ℕ) (cs : Sl) (v : Val α) : Arr α → Py (Arr α)
  | .vec _ => .error .indexError
  | .mat c rows =>
    if rows.length ≤ i then .error .indexError
    else do
      let C ← cs.indices c
      if v.fits C.length then return .mat c (assign [i] C false v rows) else .error .valueError

/-- `data[i, j] = v` (a vector of length one is accepted). -/
def Arr.setEntry (i j : ℕ) (v : Val α) : Arr α → Py (Arr α)
  | .vec _ => .error .indexError
  | .mat c rows =>
    if rows.length ≤ i ∨ c ≤ j then .error .indexError
    else if v.fits 1 then .ok (.mat c (assign [i] [j] false v rows)) else .error .valueError

/-- `DataFrame.__setitem__`, dataframe.py 63-82: the new data. -/
def setItem (h : Heap) (f : Frame α) (k : Key) (v : Val α) : Py (Frame α) :=
  match k with
  | .pair (.sl rs) (.sl cs) => do return { f with data := ← f.data.setBlock rs cs v }
  | .pair (.sl rs) c => do
    let j ← c.index (h.get f.cols)
    return { f with data := ← f.data.setColumn rs j v }
  | .pair r (.sl cs) => do
    let i ← r.index (h.get f.rows)
    return { f with data := ← f.data.setRow i cs v }
  | .pair r c => do
    let i ← r.index (h.get f.rows)
    let j ← c.index (h.get f.cols)
    return { f with data := ← f.data.setEntry i j v }
  | .tuple => .error .valueError
  | .str s =>
    if s ∈ h.get f.rows then do
      let i ← indexOf (h.get f.rows) s
      return { f with data := ← f.data.setRow i .all v }
    else if s ∈ h.get f.cols then do
      let j ← indexOf (h.get f.cols) s
      return { f with data := ← f.data.setColumn .all j v }
    else .error .keyError
  | .other => .error .typeError

/-! ## Growing -/

/-- `np.vstack([a, b])`: vectors are rows. -/
def vstack (a b : Arr α) : Py (Arr α) :=
  let two : Arr α → ℕ × List (List α)
    | .vec x => (x.length, [x])
    | .mat c rows => (c, rows)
  if (two a).1 = (two b).1 then .ok (.mat (two a).1 ((two a).2 ++ (two b).2)) else .error .valueError

/-- `np.atleast_2d(a).T`. -/
def column2d : Arr α → Arr α
  | .vec x => .mat 1 (x.map fun a => [a])
  | .mat c rows => .mat rows.length ((List.range c).map fun j => rows.filterMap fun row => row[j]?)

/-- `np.hstack([a, b])` where `b` has two axes. -/
def hstack (a b : Arr α) : Py (Arr α) :=
  match a, b with
  | .mat c rows, .mat c' rows' =>
    if rows.length = rows'.length then .ok (.mat (c + c') (List.zipWith (· ++ ·) rows rows'))
    else .error .valueError
  | _, _ => .error .valueError

/-- `append_row`, dataframe.py 101-103. -/
def appendRow (h : Heap) (f : Frame α) (row : Arr α) (name : String) : Py (Frame α × Heap) := do
  let d ← vstack f.data row
  return ({ f with data := d }, h.append f.rows name)

/-- `append_col`, dataframe.py 105-107. -/
def appendCol (h : Heap) (f : Frame α) (col : Arr α) (name : String) : Py (Frame α × Heap) := do
  let d ← hstack f.data (column2d col)
  return ({ f with data := d }, h.append f.cols name)

/-- `np.concatenate([a, b], axis)` with `axis` 0 or 1. -/
def concatArr (a b : Arr α) (vertical : Bool) : Py (Arr α) :=
  match a, b with
  | .mat c rows, .mat c' rows' =>
    if vertical then
      (if c = c' then .ok (.mat c (rows ++ rows')) else .error .valueError)
    else hstack (.mat c rows) (.mat c' rows')
  | .vec x, .vec y => if vertical then .ok (.vec (x ++ y)) else .error (.other 1)
  | _, _ => .error .valueError

/-- `concat`, dataframe.py 109-123: the list of names of the common axis is that of `self`. -/
def concat (h : Heap) (f g : Frame α) (axis : ℤ) : Py (Frame α × Heap) :=
  if axis = 0 then
    if h.get f.cols ≠ h.get g.cols then .error .valueError
    else do
      let d ← concatArr f.data g.data true
      let (r, h) := h.new (h.get f.rows ++ h.get g.rows)
      return (.init d f.cols r, h)
  else if axis = 1 then
    if h.get f.rows ≠ h.get g.rows then .error .valueError
    else do
      let d ← concatArr f.data g.data false
      let (c, h) := h.new (h.get f.cols ++ h.get g.cols)
      return (.init d c f.rows, h)
  else .error .valueError

/-! ## Display -/

/-- The cells of a displayed row, dataframe.py 87-89. -/
def reprRow (fts : α → Py String) (name : String) (row : List α) : Py (List String) := do
  let l ← row.mapM fts
  return (name ++ ":") :: l

/-- The table, dataframe.py 85-89. -/
def reprTable (fts : α → Py String) (h : Heap) (f : Frame α) : Py (List (List String)) :=
  let header := "" :: h.get f.cols
  match f.data with
  | .vec x => if x.isEmpty then .ok [header] else .error .indexError
  | .mat _ rows => do
    let l ← (List.range rows.length).mapM fun (i : ℕ) => do
      let n ← pyGet (h.get f.rows) i
      reprRow fts n (rows.getD i [])
    return header :: l

/-- `s.rjust(w)`. -/
def rjust (s : String) (w : ℕ) : List Char := List.replicate (w - s.length) ' ' ++ s.toList

/-- The lines, dataframe.py 91-99; a row shorter than the header raises. -/
def reprLines (rows : List (List String)) : Py (List (List Char)) :=
  let k := (rows.headD []).length
  if ∃ r ∈ rows, r.length < k then .error .indexError
  else
    let width := fun j => max 8 ((rows.map fun r => (r.getD j "").length).foldl max 0)
    .ok (rows.map fun r =>
      List.intercalate [' '] ((List.range k).map fun j => rjust (r.getD j "") (width j)))

/-- `DataFrame.__repr__`, dataframe.py 84-99, before the lines are joined. -/
def reprFrame (fts : α → Py String) (h : Heap) (f : Frame α) : Py (List (List Char)) := do
  reprLines (← reprTable fts h f)

end Verif.DataFrame
