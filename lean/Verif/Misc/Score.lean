import Verif.FltOps
import Verif.Misc.GaussCdf
import Mathlib.Data.Matrix.Mul
import Mathlib.LinearAlgebra.Matrix.Notation

/-!
# Model of `gpmp/misc/scoringrules.py`

For numbers `mu`, `sigma`, `z` (the code works elementwise on arrays of one axis); numpy's
infinities and NaN are explicit and arithmetic is otherwise exact.  scipy's bivariate normal
distribution function is an argument.
-/

set_option autoImplicit false

namespace Verif.Score

open Verif

open Classical in
/-- `gnp.normal.cdf`. -/
noncomputable def ncdf : Flt → Flt
  | .nan => .nan
  | .num x => if x = ⊤ then Flt.fin 1 else if x = ⊥ then Flt.fin 0 else Flt.fin (Phi x.toReal)

open Classical in
/-- `gnp.normal.pdf`. -/
noncomputable def npdf : Flt → Flt
  | .nan => .nan
  | .num x => if x = ⊤ ∨ x = ⊥ then Flt.fin 0 else Flt.fin (phi x.toReal)

/-- `crps_gaussian`, scoringrules.py 16-43. -/
noncomputable def crps (mu sigma z : ℝ) : Flt :=
  let t := Flt.div (Flt.fin (z - mu)) (Flt.fin sigma)
  let term1 := t.mul ((Flt.mul (Flt.fin 2) (ncdf t)).sub (Flt.fin 1))
  let term2 := Flt.mul (Flt.fin 2) (npdf t)
  let term3 := Flt.div (Flt.fin 1) (Flt.fin √Real.pi)
  Flt.mul (Flt.fin sigma) ((term1.add term2).sub term3)

/-- `h1`, scoringrules.py 46-47 and 106-107. -/
noncomputable def h1 (t : Flt) : Flt := (t.mul (ncdf t)).add (npdf t)

/-- `ei1_up`, scoringrules.py 50-69. -/
noncomputable def ei1 (mu sigma z : ℝ) : Flt :=
  let t := Flt.div (Flt.fin (mu - z)) (Flt.fin sigma)
  Flt.mul (Flt.fin sigma) (h1 t)

/-- The matrix `D_2`, scoringrules.py 95. -/
def D2 : Matrix (Fin 2) (Fin 2) ℝ := !![-1, 0; -1, 1]

/-- scipy's bivariate normal distribution function of mean zero, with its two coordinates and
its covariance. -/
abbrev Bvn := Flt → Flt → Matrix (Fin 2) (Fin 2) ℝ → Flt

/-- `ei2_up`, scoringrules.py 72-103. -/
noncomputable def ei2 (bvn : Bvn) (mu sigma z : ℝ) : Flt :=
  let t := Flt.div (Flt.fin (mu - z)) (Flt.fin sigma)
  let term1 := (Flt.mul (Flt.fin 2) t).mul (bvn t (Flt.fin 0) (D2 * D2.transpose))
  let term2 := (Flt.mul (Flt.fin 2) (npdf t)).mul (ncdf t.neg)
  let term3 := (Flt.div (Flt.fin 1) (Flt.fin √Real.pi)).mul (ncdf (Flt.div t (Flt.fin √(1 / 2))))
  Flt.mul (Flt.fin sigma) ((term1.add term2).add term3)

open Classical in
/-- The value of a finite number: `gnp.isfinite`, scoringrules.py 137-149. -/
noncomputable def finite? : Flt → Option ℝ
  | .nan => none
  | .num x => if x = ⊤ ∨ x = ⊥ then none else some x.toReal

/-- Two finite bounds, scoringrules.py 138-143. -/
noncomputable def tcrpsBoth (bvn : Bvn) (mu sigma z a b : ℝ) : Flt :=
  let term1 := Flt.fin (max (min b z - a) 0)
  let term2 := (ei2 bvn mu sigma b).sub (ei2 bvn mu sigma a)
  let term3 := Flt.mul (Flt.fin (-2))
    (if z ≤ b then (ei1 mu sigma b).sub (ei1 mu sigma (max a z)) else Flt.fin 0)
  (term1.add term2).add term3

/-- A finite upper bound only, scoringrules.py 145-148. -/
noncomputable def tcrpsUpper (bvn : Bvn) (mu sigma z b : ℝ) : Flt :=
  let term1 := Flt.fin (min b z)
  let term2 := (ei2 bvn mu sigma b).sub
    ((Flt.fin mu).add (Flt.div (Flt.fin sigma) (Flt.fin √Real.pi)))
  let term3 := Flt.mul (Flt.fin (-2))
    (if z ≤ b then (ei1 mu sigma b).sub (ei1 mu sigma z) else Flt.fin 0)
  (term1.add term2).add term3

/-- `tcrps_gaussian`, scoringrules.py 110-152, for bounds that are numbers.  In the third branch
the recursive call has a finite upper bound only. -/
noncomputable def tcrps (bvn : Bvn) (mu sigma z : ℝ) (a b : Flt) : Flt :=
  match finite? a, finite? b with
  | some a, some b => tcrpsBoth bvn mu sigma z a b
  | none, some b => tcrpsUpper bvn mu sigma z b
  | some a, none => tcrpsUpper bvn (-mu) sigma (-z) (-a)
  | none, none => crps mu sigma z

end Verif.Score
