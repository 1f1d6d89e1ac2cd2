import Verif.Py
import Verif.Num
import Mathlib.LinearAlgebra.Matrix.NonsingularInverse
import Mathlib.Data.Real.Basic
import Mathlib.LinearAlgebra.Matrix.Block

/-!
# Model of statistics, triangular systems and densities of the backends

`/repo/gpmp/num/torch_backend.py` and the functions of numpy and scipy that
`/repo/gpmp/num/numpy_backend.py` exports under the same names.  Exact arithmetic.
-/

set_option autoImplicit false

namespace Verif.Backend

open Verif

/-! ## `cov`, `var` -/

/-- An array with one axis, or with two axes and `c` columns. -/
inductive Obs where
  | vec (x : List ℝ)
  | mat (c : ℕ) (rows : List (List ℝ))

/-- The columns of a matrix. -/
def columns (c : ℕ) (rows : List (List ℝ)) : List (List ℝ) :=
  (List.range c).map fun j => rows.map fun r => r.getD j 0

/-- Variables as rows, with the number of observations: torch_backend.py 419-422. -/
def varsTorch (rowvar : Bool) : Obs → ℕ × List (List ℝ)
  | .vec x => if rowvar then (x.length, [x]) else (1, x.map fun v => [v])
  | .mat c rows => if rowvar then (c, rows) else (rows.length, columns c rows)

/-- Variables as rows in `numpy.cov`: a vector is one variable; before numpy 2.2 (`old`) a matrix
with one row is not transposed either. -/
def varsNumpy (old rowvar : Bool) : Obs → ℕ × List (List ℝ)
  | .vec x => (x.length, [x])
  | .mat c rows =>
    if rowvar || (old && rows.length == 1) then (c, rows) else (rows.length, columns c rows)

/-- The mean of a list. -/
noncomputable def avg (x : List ℝ) : ℝ := x.sum / x.length

/-- The covariance of two variables with `n` observations. -/
noncomputable def covEntry (n : ℕ) (corr : ℤ) (a b : List ℝ) : ℝ :=
  (List.zipWith (fun u v => (u - avg a) * (v - avg b)) a b).sum / ((n : ℝ) - corr)

/-- The matrix of covariances of `n` observations; `none` when the divisor is not positive (both
libraries then divide by zero). -/
noncomputable def covRows (n : ℕ) (corr : ℤ) (rows : List (List ℝ)) : Option (List (List ℝ)) :=
  if (n : ℤ) - corr ≤ 0 then none else some (rows.map fun a => rows.map fun b => covEntry n corr a b)

/-- The correction, torch_backend.py 432. -/
def correction (bias : Bool) : Option ℤ → ℤ
  | some d => d
  | none => if bias then 0 else 1

/-- Two arrays of variables one above the other. -/
def stackVars (x : ℕ × List (List ℝ)) : Option (ℕ × List (List ℝ)) → Py (ℕ × List (List ℝ))
  | none => .ok x
  | some y => if x.1 = y.1 then .ok (x.1, x.2 ++ y.2) else .error .valueError

/-- `cov` of torch, torch_backend.py 409-433, without weights; concatenation of different widths
raises (RuntimeError, seen as ValueError here). -/
noncomputable def covTorch (m : Obs) (y : Option Obs) (rowvar bias : Bool) (ddof : Option ℤ) :
    Py (Option (List (List ℝ))) := do
  let x ← stackVars (varsTorch rowvar m) (y.map (varsTorch rowvar))
  return covRows x.1 (correction bias ddof) x.2

/-- `numpy.cov`, exported by numpy_backend.py 117. -/
noncomputable def covNumpy (old : Bool) (m : Obs) (y : Option Obs) (rowvar bias : Bool) (ddof : Option ℤ) :
    Py (Option (List (List ℝ))) := do
  let x ← stackVars (varsNumpy old rowvar m) (y.map (varsNumpy old rowvar))
  return covRows x.1 (correction bias ddof) x.2

/-- `var` of torch along an axis, torch_backend.py 402-406, of one variable. -/
noncomputable def varTorch (x : List ℝ) (ddof : ℤ) : ℝ :=
  ((x.map fun v => (v - avg x) ^ 2).sum) / ((x.length : ℝ) - ddof)

/-! ## Triangular systems -/

/-- The part of a matrix that a triangular solver reads. -/
def triPart {n : ℕ} (upper : Bool) (A : Matrix (Fin n) (Fin n) ℝ) : Matrix (Fin n) (Fin n) ℝ := fun i j =>
  if upper then (if i ≤ j then A i j else 0) else (if j ≤ i then A i j else 0)

/-- `torch.linalg.solve_triangular(A, b, upper=upper)`: only the triangle is read. -/
noncomputable def triSolve {n : ℕ} (upper : Bool) (A : Matrix (Fin n) (Fin n) ℝ) (b : Fin n → ℝ) : Fin n → ℝ :=
  (triPart upper A)⁻¹.mulVec b

/-- The argument `trans`. -/
inductive Trans where
  | no
  | yes
  | conj
  | other
  deriving DecidableEq

/-- `solve_triangular` of torch, torch_backend.py 841-865: the flag `lower` is applied to the
transposed matrix. -/
noncomputable def solveTriTorch {n : ℕ} (A : Matrix (Fin n) (Fin n) ℝ) (b : Fin n → ℝ) (trans : Trans)
    (lower : Bool) : Py (Fin n → ℝ) :=
  match trans with
  | .no => .ok (triSolve (!lower) A b)
  | .yes => .ok (triSolve (!lower) A.transpose b)
  | .conj => .ok (triSolve (!lower) A.transpose b)
  | .other => .error .valueError

/-- `scipy.linalg.solve_triangular`, exported by numpy_backend.py 140: the flag `lower` is that of
the matrix given, and the system has the transposed triangle. -/
noncomputable def solveTriScipy {n : ℕ} (A : Matrix (Fin n) (Fin n) ℝ) (b : Fin n → ℝ) (trans : Trans)
    (lower : Bool) : Py (Fin n → ℝ) :=
  match trans with
  | .no => .ok ((triPart (!lower) A)⁻¹.mulVec b)
  | .yes => .ok ((triPart (!lower) A).transpose⁻¹.mulVec b)
  | .conj => .ok ((triPart (!lower) A).transpose⁻¹.mulVec b)
  | .other => .error .keyError

/-! ## `percentile` -/

/-- The argument `q`. -/
inductive QArg where
  | num (q : ℝ)
  | list (q : List ℝ)

/-- `percentile` of torch, torch_backend.py 437-456; `quantile` is `torch.quantile`, a list cannot
be divided by a number. `weights` tells whether weights are given. -/
noncomputable def percentileTorch (quantile : List ℝ → ℝ → ℝ) (x : List ℝ) (q : QArg)
    (method interpolation : Option String) (weights : Bool) : Py (List ℝ) :=
  if interpolation ≠ none ∧ interpolation ≠ some "linear" then .error .valueError
  else if weights then .error .notImplementedError
  else if method.getD "linear" ≠ "linear" then .error .notImplementedError
  else match q with
    | .num q => .ok [quantile x (q / 100)]
    | .list _ => .error .typeError

/-- `numpy.percentile` with the linear method, exported by numpy_backend.py 118. -/
noncomputable def percentileNumpy (quantile : List ℝ → ℝ → ℝ) (x : List ℝ) : QArg → Py (List ℝ)
  | .num q => .ok [quantile x (q / 100)]
  | .list qs => .ok (qs.map fun q => quantile x (q / 100))

/-! ## Shapes of `multivariate_normal.logpdf` -/

/-- The covariance of `logpdf`: a Python number, an array with one entry and `k` axes, or a `d` by
`d` matrix with `d > 1`, or something else. -/
inductive LCov where
  | num
  | one (k : ℕ)
  | mat (d : ℕ)
  | bad

/-- Broadcasting with an array of `k` axes of length one. -/
def bcOnes (k : ℕ) (s : List ℕ) : List ℕ := List.replicate (k - s.length) 1 ++ s

/-- The shape of `logpdf(x, mean, cov)` of numpy with a number as mean, numpy_backend.py 531-551:
scipy drops axes of length one of the result in the matrix case. -/
def logpdfShapeNumpy (x : List ℕ) : LCov → Py (List ℕ)
  | .num => .ok x
  | .one k => .ok (bcOnes k x)
  | .mat d =>
    match x.getLast? with
    | none => .error .indexError
    | some l => if l ≠ d then .error .valueError else .ok (x.dropLast.filter fun n => n ≠ 1)
  | .bad => .error .valueError

/-- The shape of `logpdf(x, mean, cov)` of torch with a number as mean, torch_backend.py 1028-1052. -/
def logpdfShapeTorch (x : List ℕ) : LCov → Py (List ℕ)
  | .num => .ok (if x.getLast? = some 1 then x.dropLast else x)
  | .one _ => .ok (if x.getLast? = some 1 then x.dropLast else x)
  | .mat d =>
    match x.getLast? with
    | none => .error .indexError
    | some l => if l ≠ d then .error .valueError else .ok x.dropLast
  | .bad => .error .valueError

/-! ## `isscalar`, `nan_to_num` -/

/-- Arguments of `isscalar`: a Python number, an array with a shape, something else. -/
inductive SArg where
  | num
  | arr (shape : List ℕ)
  | other

/-- `isscalar` of torch, torch_backend.py 273-279. -/
def isscalarTorch : SArg → Bool
  | .num => true
  | .arr s => s.prod == 1
  | .other => false

/-- `numpy.isscalar`, exported by numpy_backend.py 69: arrays are not scalars. -/
def isscalarNumpy : SArg → Bool
  | .num => true
  | .arr _ => false
  | .other => false

/-- One entry of `nan_to_num`, torch_backend.py 142-147, with numbers for the replacements (`big`
when none is given). -/
noncomputable def nanToNum (big nan : ℝ) (posinf neginf : Option ℝ) : Flt → ℝ
  | .nan => nan
  | .num v => open Classical in
    if v = ⊤ then posinf.getD big else if v = ⊥ then neginf.getD (-big) else v.toReal

/-- `nan_to_num(x, copy)` of torch, torch_backend.py 142-147: the result and the argument
afterwards; with `copy=False` a new tensor is returned as well. -/
noncomputable def nanToNumTorch (big nan : ℝ) (posinf neginf : Option ℝ) (_copy : Bool) (x : List Flt) :
    List ℝ × List Flt := (x.map (nanToNum big nan posinf neginf), x)

/-- `numpy.nan_to_num`: with `copy=False` the argument is changed. -/
noncomputable def nanToNumNumpy (big nan : ℝ) (posinf neginf : Option ℝ) (copy : Bool) (x : List Flt) :
    List ℝ × List Flt :=
  let r := x.map (nanToNum big nan posinf neginf)
  (r, if copy then x else r.map Flt.fin)

end Verif.Backend
