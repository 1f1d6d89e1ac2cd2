import Verif.Py
import Verif.Mcmc.MH

/-!
# Model of `gpmp/mcmc/knn_cov.py`

Numpy backend, exact arithmetic, dimension at least two (for dimension one the 0-d array of
`numpy.cov` is seen as a 1-by-1 matrix); `none` is an array of NaN.  The random choice and the
index of `hnswlib` are arguments.
-/

set_option autoImplicit false

namespace Verif.KnnCov

open Verif

abbrev Pt (d : ℕ) := Fin d → ℝ

abbrev Mat (d : ℕ) := Matrix (Fin d) (Fin d) ℝ

/-- `estimate_cov_matrix`, knn_cov.py 22-29. -/
noncomputable def classical {d : ℕ} (x : List (Pt d)) : Option (Mat d) := MH.covRows x

/-- The random choice `gnp.choice(N, size=n, replace=False)`, and `knn_query`, which returns row
numbers or raises; its arguments are the rows, the point and the number of neighbours. -/
structure Env (d : ℕ) where
  choice : ℕ → ℕ → List ℕ
  query : List (Pt d) → Pt d → ℕ → Py (List ℕ)

/-- `gnp.mean(l, axis=0)`: NaN if an entry is or the list is empty. -/
noncomputable def meanMats {d : ℕ} (l : List (Option (Mat d))) : Option (Mat d) :=
  if l.isEmpty then none
  else (l.mapM id).map fun l => (l.length : ℝ)⁻¹ • l.sum

/-- One local covariance, knn_cov.py 88-96. -/
noncomputable def localCov {d : ℕ} (env : Env d) (x : List (Pt d)) (k idx : ℕ) : Py (Option (Mat d)) := do
  let p ← pyGet x idx
  let nb ← env.query x p k
  let rows ← nb.mapM fun (i : ℕ) => pyGet x i
  return MH.covRows rows

/-- `estimate_cov_matrix_knn`, knn_cov.py 31-100; `lib` tells whether `hnswlib` is installed. -/
noncomputable def knn {d : ℕ} (lib : Bool) (env : Env d) (x : List (Pt d)) (nRandom nNeighbors : ℕ) :
    Py (Option (Mat d)) :=
  if !lib then .ok (classical x)
  else do
    let N := x.length
    let nRandom := if nRandom > N then N else nRandom
    let l ← (env.choice N nRandom).mapM fun idx => localCov env x nNeighbors idx
    return meanMats l

end Verif.KnnCov
