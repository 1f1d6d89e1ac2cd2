import Verif.Core.Shapes
import Mathlib.Algebra.Order.Floor.Defs
import Mathlib.Data.Rat.Floor

/-!
# The index arguments of conditional sample paths

`core/sample_paths.py` with `xi_ind` and `xt_ind` as they are given: integers of any sign, floating-point
numbers or booleans.

Simplifications: `xt_ind` of `conditional_sample_paths`, which is not reshaped, has one axis and is an array or
a tensor (or a list of integers or booleans); floating-point indices are finite.
-/

set_option autoImplicit false

namespace Verif.Core.Sh

open Verif Verif.Data Matrix

/-- An index argument, with one axis. -/
inductive Ix where
  | ints (l : List ℤ)
  | floats (l : List ℚ)
  | bools (l : List Bool)

/-- Conversion of a float to an integer: towards zero. -/
def truncate (q : ℚ) : ℤ := if 0 ≤ q then ⌊q⌋ else ⌈q⌉

/-- `gnp.asarray(ind, dtype=int).reshape(-1)`, sample_paths.py 105; numpy_backend.py 174-176, torch_backend.py
217-242. -/
def Ix.toInt : Ix → Ix
  | .ints l => .ints l
  | .floats l => .ints (l.map truncate)
  | .bools l => .ints (l.map fun b => if b then 1 else 0)

/-- The rows of `a[ind, :]` for an array of `N` rows (both libraries). -/
def rows (N : ℕ) : Ix → Py (List (Fin N))
  | .ints l => l.mapM fun i => pyGet (List.finRange N) i
  | .floats _ => .error .indexError
  | .bools l => if l.length = N then .ok ((List.finRange N).filter fun i => l.getD i false) else .error .indexError

variable {N ni nt np : ℕ}

/-- `conditional_sample_paths`, sample_paths.py 66-119: `xi_ind` is converted to integers, `xt_ind` is used as it
is. -/
def condPathsIx (be : Backend) (ztsim : Mat N np) (xiInd : Ix) (z : Nd) (xtInd : Ix) (lam : Mat ni nt) : Py Nd := do
  let ri ← rows N xiInd.toInt
  let delta ← zip be (· - ·) (ravelCol z) (ofMat (ztsim.submatrix ri.get id))
  let rt ← rows N xtInd
  let s ← einsumLam be lam delta
  zip be (· + ·) (ofMat (ztsim.submatrix rt.get id)) s

/-- `conditional_sample_paths_parameterized_mean`, sample_paths.py 122-182: `gnp.asarray` without a dtype keeps
integers, booleans and floats. -/
def condPathsMeanIx (be : Backend) (ztsim : Mat N np) (mi : Fin ni → ℝ) (xiInd : Ix) (z : Nd) (mt : Fin nt → ℝ)
    (xtInd : Ix) (lam : Mat ni nt) : Py Nd := do
  let c ← zip be (· - ·) z (ofVec mi)
  let ri ← rows N xiInd
  let delta ← zip be (· - ·) (ravelCol c) (ofMat (ztsim.submatrix ri.get id))
  let rt ← rows N xtInd
  let s ← einsumLam be lam delta
  let a ← zip be (· + ·) (ofMat (ztsim.submatrix rt.get id)) s
  zip be (· + ·) a (ofMat (colVec mt))

end Verif.Core.Sh
