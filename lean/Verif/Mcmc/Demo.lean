import Verif.Py
import Mathlib.Analysis.SpecialFunctions.Log.Basic
import Mathlib.Analysis.Real.Pi.Bounds
import Mathlib.Data.Matrix.Mul

/-!
# The densities on which the samplers are demonstrated

`/repo/gpmp/mcmc/nuts.py` 1255-1272 and `/repo/gpmp/mcmc/svgd.py` 677-701.  Exact arithmetic;
the weights of the mixture are positive (the logarithm of a zero weight is `-inf` in the
code).
-/

set_option autoImplicit false

namespace Verif.Demo

open Verif Matrix

/-- `rosenbrock_U`, nuts.py 1255-1259, svgd.py 677-680. -/
def rosenbrockU (a b : ℝ) (xy : Fin 2 → ℝ) : ℝ :=
  (a - xy 0) ^ 2 + b * (xy 1 - xy 0 ^ 2) ^ 2

/-- `gaussian_2d_log_prob`, nuts.py 1262-1272, svgd.py 683-688. -/
noncomputable def gaussian2d (q mu : Fin 2 → ℝ) (invCov : Matrix (Fin 2) (Fin 2) ℝ)
    (logDet : ℝ) : ℝ :=
  -(1 / 2) * ((q - mu) ⬝ᵥ (invCov *ᵥ (q - mu)) + (2 * Real.log (2 * Real.pi) + logDet))

/-- A component of the mixture: weight, mean, inverse covariance, log-determinant. -/
structure Comp where
  weight : ℝ
  mu : Fin 2 → ℝ
  invCov : Matrix (Fin 2) (Fin 2) ℝ
  logDet : ℝ

/-- One log-term, svgd.py 694-698. -/
noncomputable def logTerm (q : Fin 2 → ℝ) (c : Comp) : ℝ :=
  Real.log c.weight + gaussian2d q c.mu c.invCov c.logDet

/-- Maximum of the log-terms, svgd.py 700. -/
noncomputable def maxTerm : ℝ → List ℝ → ℝ
  | m, [] => m
  | m, t :: ts => maxTerm (max m t) ts

/-- `gaussian_mixture_2d_log_prob`, svgd.py 691-701: stacking an empty list raises. -/
noncomputable def mixture2d (q : Fin 2 → ℝ) (cs : List Comp) : Py ℝ :=
  match cs.map (logTerm q) with
  | [] => .error .valueError
  | t :: ts =>
    let m := maxTerm t ts
    .ok (m + Real.log (((t :: ts).map fun u => Real.exp (u - m)).sum))

end Verif.Demo
