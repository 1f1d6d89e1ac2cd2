import Verif.Data.Stats

/-!
# The generated statistics methods of `Dataset` and properties of `DataLoader`

`/repo/gpmp/dataloader.py` 301-316 and 515-532.  The two loops put functions into the class
dictionaries; the default arguments of `make_method` and `make_property` fix the names at the time
of definition.  One column of `x` and of `z`, as in `Verif.Data.Stats`.
-/

set_option autoImplicit false

namespace Verif.Data.Gen

open Verif Verif.Data

/-- `field` of the loops. -/
inductive Field where
  | x | z
  deriving DecidableEq

/-- `stat` of the loops. -/
inductive Stat where
  | min | max | mean | var | std | quantile | median
  deriving DecidableEq

/-- The text of a field. -/
def Field.text : Field → String
  | .x => "x" | .z => "z"

/-- The text of a statistic. -/
def Stat.text : Stat → String
  | .min => "min" | .max => "max" | .mean => "mean" | .var => "var" | .std => "std"
  | .quantile => "quantile" | .median => "median"

/-- `("x", "z")`, dataloader.py 305. -/
def fields : List Field := [.x, .z]

/-- The statistics of the loops, dataloader.py 306 and 519. -/
def stats : List Stat := [.min, .max, .mean, .var, .std, .quantile, .median]

/-- `f"{field}_{stat}"`, dataloader.py 312, 315, 522. -/
def methodName (f : Field) (s : Stat) : String := f.text ++ "_" ++ s.text

/-- `f"dataset_{field}_{stat}"`, dataloader.py 521. -/
def propName (f : Field) (s : Stat) : String := "dataset_" ++ f.text ++ "_" ++ s.text

/-- The entries put into the class `Dataset`, dataloader.py 305-315, in order: name, and the
`field` and `stat` that the method was defined with. -/
def datasetTable : List (String × (Field × Stat)) :=
  fields.flatMap fun f => stats.map fun s => (methodName f s, (f, s))

/-- The entries put into the class `DataLoader`, dataloader.py 519-531: name, and the
`method_name` that the property was defined with. -/
def loaderTable : List (String × String) :=
  stats.flatMap fun s => fields.map fun f => (propName f s, methodName f s)

/-- The value of a name in a class dictionary: the last one set. -/
def lookup {α : Type} (t : List (String × α)) (name : String) : Option α :=
  (t.reverse.find? fun e => e.1 == name).map Prod.snd

/-- A bound method: a field and a statistic of the data set. -/
structure Bound where
  field : Field
  stat : Stat
  deriving DecidableEq

/-- `dataset.name` for the generated names; other names are not looked at here. -/
def getattrDataset (name : String) : Py Bound :=
  match lookup datasetTable name with
  | none => .error .attributeError
  | some (f, s) => .ok ⟨f, s⟩

/-- `loader.name` for the generated properties, dataloader.py 525-527: the attribute of the data
set, not called. -/
def getattrLoader (name : String) : Py Bound :=
  match lookup loaderTable name with
  | none => .error .attributeError
  | some m => getattrDataset m

/-- A data set: the shards of one column of `x` and of `z`. -/
structure Cols where
  x : List (List ℝ)
  z : List (List ℝ)

/-- `getattr(self, f"{x_or_z}_list")`. -/
def Cols.get (c : Cols) : Field → List (List ℝ)
  | .x => c.x
  | .z => c.z

/-- Calling the method with positional arguments, dataloader.py 309-310: `_reduce_{stat}(field,
*args)`; `quantile` needs one number, the others take none. -/
noncomputable def callStat (c : Cols) (m : Bound) (args : List ℝ) : Py (Option ℝ) :=
  match m.stat, args with
  | .min, [] => (reduceMin (c.get m.field)).map some
  | .max, [] => (reduceMax (c.get m.field)).map some
  | .mean, [] => reduceMean (c.get m.field)
  | .var, [] => reduceVar (c.get m.field)
  | .std, [] => reduceStd (c.get m.field)
  | .quantile, [q] => (reduceQuantile (c.get m.field) q).map some
  | .median, [] => (reduceMedian (c.get m.field)).map some
  | _, _ => .error .typeError

/-! ## Shards of different element types -/

/-- `total_sum += shard_sum` with numpy arrays, dataloader.py 251-254: an integer array cannot take
the sum with a float one (`UFuncTypeError`, a `TypeError`).  `isInt` is the type of the array. -/
def addInPlace (a b : Bool × ℝ) : Py (Bool × ℝ) :=
  if a.1 && !b.1 then .error .typeError else .ok (a.1, a.2 + b.2)

/-- `_reduce_mean` of shards with an element type each, dataloader.py 246-257, for two-dimensional
shards (the sums over axis 0 are arrays).  The state is `total_sum` and `n`. -/
noncomputable def meanTypedGo : Option (Bool × ℝ) → ℕ → List (Bool × List ℝ) → Py (Option ℝ)
  | none, _, [] => .error .typeError
  | some t, n, [] => .ok (npDiv t.2 n)
  | none, n, d :: ds => meanTypedGo (some (d.1, d.2.sum)) (n + d.2.length) ds
  | some t, n, d :: ds => do
    let t' ← addInPlace t (d.1, d.2.sum)
    meanTypedGo (some t') (n + d.2.length) ds

/-- `_reduce_mean` on typed shards. -/
noncomputable def meanTyped (ds : List (Bool × List ℝ)) : Py (Option ℝ) := meanTypedGo none 0 ds

end Verif.Data.Gen
