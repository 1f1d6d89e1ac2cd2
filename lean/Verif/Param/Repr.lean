import Verif.Param.Model
import Verif.Misc.DataFrame
import Verif.FltOps

/-!
# Model of the listings of `Param`

`/repo/gpmp/parameter/param.py`: `get_paths`, `names_by_path_prefix`, `to_dict`, `__repr__`.
Strings in the table are lists of characters.  How a number or a pair of bounds is written is a
parameter (`f"{x:.4g}"` and the text of what `ftos` shows).
-/

set_option autoImplicit false

namespace Verif.Param

open Verif

/-- `get_paths(prefix)`, param.py 155-159, with a prefix. -/
def Param.getPaths (p : Param) (pre : List String) : List (List String) :=
  p.paths.filter fun q => q.take pre.length == pre

/-- `get_paths()`, param.py 157-158: the elements of a set, in some order. -/
def Param.AllPaths (p : Param) (r : List (List String)) : Prop := r.Nodup ∧ ∀ q, q ∈ r ↔ q ∈ p.paths

/-- `names_by_path_prefix`, param.py 171-173. -/
def Param.namesByPrefix (p : Param) (pre : List String) : Py (List String) :=
  (p.pathIndices pre true).mapM fun (i : Nat) => pyGet p.names (i : Int)

/-- `select_by_path_prefix`, param.py 161-165, without a view. -/
def Param.selectByPrefix (p : Param) (pre : List String) : Py (List ℝ) := p.getByPath pre true

/-- An entry of `to_dict`. -/
structure Entry where
  value : ℝ
  path : List String
  normalization : String
  denormalized : ℝ
  bounds : Option (ℝ × ℝ)

/-- `Normalization.value`, param.py 35-38. -/
def Norm.value : Norm → String
  | .log => "log"
  | .logInv => "log_inv"
  | .none => "none"

/-- The entry at position `i`, param.py 257-261. -/
noncomputable def Param.entry (p : Param) (i : Nat) : Py (String × Entry) := do
  let n ← pyGet p.names (i : Int)
  let v ← pyGet p.values (i : Int)
  let q ← pyGet p.paths (i : Int)
  let nm ← pyGet p.norms (i : Int)
  let d ← pyGet p.denormalized (i : Int)
  let b ← pyGet p.bounds (i : Int)
  return (n, ⟨v, q, nm.value, d, b⟩)

/-- `to_dict`, param.py 254-264: the lookup of the dictionary. -/
noncomputable def Param.toDict (p : Param) : Py (String → Option Entry) := do
  let l ← (List.range p.dim).mapM p.entry
  return dictLookup l

/-! ## `__repr__` -/

/-- `_denormalize` with exceptional values, param.py 148-153. -/
noncomputable def denormFlt (v : Flt) : Norm → Flt
  | .log => v.exp
  | .logInv => v.neg.exp
  | .none => v

/-- What `__repr__` reads at one position. -/
structure Row where
  name : List Char
  path : List (List Char)
  norm : Norm
  bounds : Option (ℝ × ℝ)
  value : Flt

/-- `"->".join(path)`. -/
def joinArrow : List (List Char) → List Char
  | [] => []
  | [a] => a
  | a :: l => a ++ ['-', '>'] ++ joinArrow l

/-- The six cells of one row, param.py 271-284. -/
noncomputable def Row.cells (num : DataFrame.Shown → List Char) (bnd : ℝ × ℝ → List Char) (r : Row) :
    Py (List (List Char)) := do
  let v ← DataFrame.ftos 3 r.value
  let d ← DataFrame.ftos 3 (denormFlt r.value r.norm)
  return [r.name ++ [':'], joinArrow r.path, r.norm.value.toList,
    match r.bounds with
    | some b => bnd b
    | none => "(-inf, inf)".toList, num v, num d]

/-- `s.rjust(w)`. -/
def rjust (w : Nat) (s : List Char) : List Char := List.replicate (w - s.length) ' ' ++ s

/-- `"    ".join(cells)`. -/
def joinCells : List (List Char) → List Char
  | [] => []
  | [a] => a
  | a :: l => a ++ [' ', ' ', ' ', ' '] ++ joinCells l

/-- The headers, param.py 287. -/
def headers : List (List Char) :=
  ["Name:".toList, "Path".toList, "Norm".toList, "Bounds".toList, "Value".toList, "Denorm".toList]

/-- Column `j` of the cells. -/
def column (rows : List (List (List Char))) (j : Nat) : List (List Char) := rows.map fun r => r.getD j []

/-- The widths, param.py 288-292: `zip(*rows)` of no rows has no columns. -/
def widths (hd : List (List Char)) (rows : List (List (List Char))) : List Nat :=
  if rows.isEmpty then []
  else (List.range hd.length).map fun j =>
    max (hd.getD j []).length (((column rows j).map List.length).foldr max 0)

/-- One line, param.py 295, 300. -/
def line (ws : List Nat) (row : List (List Char)) : List Char :=
  joinCells ((row.zip ws).map fun x => rjust x.2 x.1)

/-- The lines of the table, param.py 294-301. -/
def tableLines (hd : List (List Char)) (rows : List (List (List Char))) : List (List Char) :=
  (hd :: rows).map (line (widths hd rows))

/-- `__repr__`, param.py 269-303: the lines. -/
noncomputable def reprLines (num : DataFrame.Shown → List Char) (bnd : ℝ × ℝ → List Char) (rows : List Row) :
    Py (List (List Char)) := do
  let cells ← rows.mapM (Row.cells num bnd)
  return tableLines headers cells

end Verif.Param
