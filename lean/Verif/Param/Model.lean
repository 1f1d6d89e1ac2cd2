import Verif.Py
import Mathlib.Analysis.SpecialFunctions.Log.Basic

/-!
# Model of `Param`

`/repo/gpmp/parameter/param.py`.  Values are exact reals.  `gnp.log` of a
nonpositive number is NaN/−inf in numpy; `Real.log` is total, so every theorem
about logarithmic entries asks for positive arguments.  Array aliasing (the
constructor keeps a reference to the lists and arrays it is given) is not
modelled: parameters are values.
-/

namespace Verif.Param

open Verif

/-- `Normalization`, param.py 35-38. -/
inductive Norm where
  | log | logInv | none
  deriving DecidableEq, Repr

/-- What a caller may put in the `normalizations` list. -/
inductive NormArg where
  | enum (n : Norm)
  | str (s : String)
  | other
  deriving DecidableEq, Repr

/-- One turn of the loop of `_parse_normalizations`, param.py 82-96. -/
def parseNorm : NormArg → Py Norm
  | .enum n => .ok n
  | .str s =>
    let s := s.toLower
    if s = "log" then .ok .log
    else if s = "log_inv" then .ok .logInv
    else if s = "none" then .ok .none
    else .error .valueError
  | .other => .error .typeError

/-- `_parse_normalizations`, param.py 76-97. -/
def parseNormalizations (dim : Nat) : Option (List NormArg) → Py (List Norm)
  | Option.none => .ok (List.replicate dim .none)
  | some l => l.mapM parseNorm

/-- The attributes of a `Param` object. -/
structure Param where
  values : List ℝ
  dim : Nat
  paths : List (List String)
  names : List String
  norms : List Norm
  bounds : List (Option (ℝ × ℝ))

/-- `_check_consistency`, param.py 99-109. -/
def Param.consistent (p : Param) : Bool :=
  p.paths.length = p.names.length && p.names.length = p.norms.length &&
    p.norms.length = p.bounds.length && p.bounds.length = p.dim

/-- `Param.__init__`, param.py 42-74. -/
def mkParam (values : Option (List ℝ)) (paths : Option (List (List String)))
    (normalizations : Option (List NormArg)) (names : Option (List String))
    (bounds : Option (List (Option (ℝ × ℝ)))) (namePrefix : String) (dim : Option Int) :
    Py Param := do
  let v ← (match values, dim with
    | some v, _ => .ok v
    | Option.none, Option.none => .ok []
    | Option.none, some d =>
      if d < 0 then .error .valueError else .ok (List.replicate d.toNat 0))
  let n := v.length
  let norms ← parseNormalizations n normalizations
  let p : Param :=
    { values := v, dim := n
      paths := paths.getD (List.replicate n ["param"])
      names := names.getD ((List.range n).map (fun i => namePrefix ++ toString i))
      norms := norms
      bounds := bounds.getD (List.replicate n Option.none) }
  if p.consistent then .ok p else .error .valueError

/-- `_normalize`, param.py 141-146. -/
noncomputable def normalize (v : ℝ) : Norm → ℝ
  | .log => Real.log v
  | .logInv => -Real.log v
  | .none => v

/-- `_denormalize`, param.py 148-153. -/
noncomputable def denormalize (v : ℝ) : Norm → ℝ
  | .log => Real.exp v
  | .logInv => Real.exp (-v)
  | .none => v

/-- `values` setter, param.py 115-118. -/
def Param.setValues (p : Param) (v : List ℝ) : Param :=
  { p with values := v, dim := v.length }

/-- `denormalized_values` getter, param.py 120-127. -/
noncomputable def Param.denormalized (p : Param) : List ℝ :=
  (p.values.zip p.norms).map (fun x => denormalize x.1 x.2)

/-- `denormalized_values` setter, param.py 129-139. -/
noncomputable def Param.setDenormalized (p : Param) (v : List ℝ) : Py Param :=
  if v.length ≠ p.dim then .error .valueError
  else .ok { p with values := (v.zip p.norms).map (fun x => normalize x.1 x.2) }

/-- `self.names.index(name)`: first occurrence, `ValueError` if absent. -/
def nameIndex (names : List String) (name : String) : Py Nat :=
  match names.idxOf? name with
  | some i => .ok i
  | Option.none => .error .valueError

/-- `self._values[idx] = v` for a nonnegative index. -/
def setAt (l : List ℝ) (i : Nat) (v : ℝ) : Py (List ℝ) :=
  if i < l.length then .ok (l.set i v) else .error .indexError

/-- `get_by_name(name)`, param.py 175-179 (`return_view=False`). -/
def Param.getByName (p : Param) (name : String) : Py ℝ := do
  let i ← nameIndex p.names name
  pyGet p.values i

/-- `set_by_name`, param.py 181-183. -/
def Param.setByName (p : Param) (name : String) (v : ℝ) : Py Param := do
  let i ← nameIndex p.names name
  let vs ← setAt p.values i v
  return { p with values := vs }

/-- The index comprehension of `get_by_path` / `set_by_path` /
`indices_by_path_prefix`, param.py 167-169, 188-191, 209-212. -/
def Param.pathIndices (p : Param) (path : List String) (prefixMatch : Bool) : List Nat :=
  (List.range p.paths.length).filter (fun i =>
    if prefixMatch then (p.paths.getD i []).take path.length == path
    else p.paths.getD i [] == path)

/-- `get_by_path(path, prefix_match)`, param.py 185-201 (`return_view=False`). -/
def Param.getByPath (p : Param) (path : List String) (prefixMatch : Bool) : Py (List ℝ) :=
  (p.pathIndices path prefixMatch).mapM (fun (i : Nat) => pyGet p.values (i : Int))

/-- The write loop of `set_by_path`, param.py 215-216.  The pair is the outcome
and the values left in the object, also when a write raises. -/
def writeAll : List ℝ → List (Nat × ℝ) → Py Unit × List ℝ
  | vs, [] => (.ok (), vs)
  | vs, (i, v) :: rest =>
    match setAt vs i v with
    | .ok vs' => writeAll vs' rest
    | .error e => (.error e, vs)

/-- `set_by_path`, param.py 203-216: outcome and object afterwards. -/
def Param.setByPath (p : Param) (path : List String) (v : List ℝ) (prefixMatch : Bool) :
    Py Unit × Param :=
  let idx := p.pathIndices path prefixMatch
  if idx.length ≠ v.length then (.error .valueError, p)
  else
    let r := writeAll p.values (idx.zip v)
    (r.1, { p with values := r.2 })

/-- `set_from_unnormalized(**kwargs)`, param.py 218-221: outcome and object
afterwards.  `kwargs` is the list of keyword arguments in order (Python
guarantees distinct names). -/
noncomputable def Param.setFromUnnormalized (p : Param) : List (String × ℝ) → Py Unit × Param
  | [] => (.ok (), p)
  | (name, v) :: rest =>
    match nameIndex p.names name with
    | .error e => (.error e, p)
    | .ok i =>
      match pyGet p.norms i with
      | .error e => (.error e, p)
      | .ok nm =>
        match setAt p.values i (normalize v nm) with
        | .error e => (.error e, p)
        | .ok vs => Param.setFromUnnormalized { p with values := vs } rest

/-- `check_bounds`, param.py 223-227. -/
noncomputable def Param.checkBounds (p : Param) : List Bool :=
  open Classical in
  (p.denormalized.zip p.bounds).map (fun x =>
    match x.2 with
    | Option.none => true
    | some b => decide (b.1 ≤ x.1 ∧ x.1 ≤ b.2))

/-- `__getitem__` on a list of indices, param.py 229-240 (an `int` index becomes
a one-element list, a slice the list of indices it selects). -/
def Param.pick (p : Param) (index : List Int) : Py Param := do
  let v ← index.mapM (pyGet p.values)
  let paths ← index.mapM (pyGet p.paths)
  let norms ← index.mapM (pyGet p.norms)
  let names ← index.mapM (pyGet p.names)
  let bounds ← index.mapM (pyGet p.bounds)
  mkParam (some v) (some paths) (some (norms.map .enum)) (some names) (some bounds)
    "param_" Option.none

/-- `p[i]`, param.py 229-231. -/
def Param.getInt (p : Param) (i : Int) : Py Param := p.pick [i]

/-- `p[a:b]`, param.py 232-233. -/
def Param.getSlice (p : Param) (a b : Int) : Py Param :=
  p.pick (pySlice ((List.range p.dim).map Int.ofNat) a b)

/-- `p[a:]`. -/
def Param.getFrom (p : Param) (a : Int) : Py Param :=
  p.pick (pyDrop ((List.range p.dim).map Int.ofNat) a)

/-- `p[:b]`. -/
def Param.getTo (p : Param) (b : Int) : Py Param :=
  p.pick (pyTake ((List.range p.dim).map Int.ofNat) b)

/-- `Param.concat`, param.py 245-252 (`gnp.concatenate` of nothing raises). -/
def concat (ps : List Param) : Py Param :=
  if ps.isEmpty then .error .valueError
  else
    mkParam (some (ps.map Param.values).flatten) (some (ps.map Param.paths).flatten)
      (some ((ps.map Param.norms).flatten.map .enum)) (some (ps.map Param.names).flatten)
      (some (ps.map Param.bounds).flatten) "param_" Option.none

/-- Dictionary built by a comprehension: a later key overwrites an earlier one.
As a lookup function: the last entry with the key. -/
def dictLookup {β : Type} (kv : List (String × β)) (k : String) : Option β :=
  (kv.reverse.find? (fun x => x.1 == k)).map Prod.snd

/-- `to_simple_dict()[name]`, param.py 266-267. -/
noncomputable def Param.simpleDict (p : Param) (name : String) : Option ℝ :=
  dictLookup (p.names.zip p.denormalized) name

/-- `make_anisotropic_param` with `values` given, param.py 305-339, and
`param_from_covparam_anisotropic`, 342-361 (same body).  An empty `values` gives
`d = -1`; the lists then have one entry too many and construction fails. -/
def makeAnisotropic (values : List ℝ) (logsigma2Bounds loginvrhoBounds : Option (ℝ × ℝ))
    (namePrefix : String) : Py Param :=
  let d := values.length - 1
  mkParam (some values)
    (some (["covparam", "variance"] :: List.replicate d ["covparam", "lengthscale"]))
    (some (.enum .log :: List.replicate d (.enum .logInv)))
    (some ((namePrefix ++ "sigma2") :: (List.range d).map (fun i => namePrefix ++ "rho_" ++ toString i)))
    (some (logsigma2Bounds :: List.replicate d loginvrhoBounds)) "param_" Option.none

/-- `make_anisotropic_param(d=d)` without values, param.py 321-323. -/
def makeAnisotropicDefault (d : Nat) (lb rb : Option (ℝ × ℝ)) (namePrefix : String) : Py Param :=
  makeAnisotropic (0 :: List.replicate d (-1)) lb rb namePrefix

/-- The public mutations of a `Param`. -/
inductive Op where
  | setValues (v : List ℝ)
  | setDenormalized (v : List ℝ)
  | setByName (name : String) (v : ℝ)
  | setByPath (path : List String) (v : List ℝ) (prefixMatch : Bool)
  | setFromUnnormalized (kwargs : List (String × ℝ))

/-- The object after a call that either returns a new state or raises without
touching it. -/
def keepOn (p : Param) : Py Param → Param
  | .ok q => q
  | .error _ => p

/-- The object after a mutation, whether or not it raised. -/
noncomputable def Param.step (p : Param) : Op → Param
  | .setValues v => p.setValues v
  | .setDenormalized v => keepOn p (p.setDenormalized v)
  | .setByName n v => keepOn p (p.setByName n v)
  | .setByPath path v m => (p.setByPath path v m).2
  | .setFromUnnormalized kw => (p.setFromUnnormalized kw).2

end Verif.Param
