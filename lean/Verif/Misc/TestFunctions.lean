import Mathlib.Analysis.SpecialFunctions.Trigonometric.Basic
import Mathlib.Analysis.SpecialFunctions.Log.Basic
import Mathlib.Algebra.BigOperators.Fin

/-!
# Model of `gpmp/misc/testfunctions.py`

Each function maps the rows of an array to numbers; the model gives the value for one row, in
exact arithmetic.
-/

set_option autoImplicit false

namespace Verif.TestFunctions

open Real

/-- `twobumps`, testfunctions.py 15-34, for one number. -/
noncomputable def twobumps (x : ℝ) : ℝ := -(0.7 * x + sin (5 * x + 1) + 0.1 * sin (10 * x))

/-- `wave`, testfunctions.py 37-64. -/
noncomputable def wave (x : Fin 2 → ℝ) : ℝ :=
  exp (1.8 * (x 0 + x 1)) + 3 * x 1 + 6 * x 1 ^ 2 + 3 * sin (4 * π * x 0)

/-- `braninhoo`, testfunctions.py 67-98. -/
noncomputable def braninhoo (x : Fin 2 → ℝ) : ℝ :=
  let a := 5.1 / (4 * π ^ 2)
  let b := 5 / π
  let c := 10 * (1 - 1 / (8 * π))
  (x 1 - a * x 0 ^ 2 + b * x 0 - 6) ^ 2 + c * cos (x 0) + 10

/-- `alpha`, testfunctions.py 138 and 210. -/
noncomputable def alpha : Fin 4 → ℝ := ![1.0, 1.2, 3.0, 3.2]

/-- `A`, testfunctions.py 139-146 and 211-218. -/
noncomputable def A : Fin 4 → Fin 6 → ℝ :=
  ![![10, 3, 17, 3.5, 1.7, 8],
    ![0.05, 10, 17, 0.1, 8, 14],
    ![3, 3.5, 1.7, 10, 17, 8],
    ![17, 8, 0.05, 10, 0.1, 14]]

/-- `P`, testfunctions.py 147-154 and 219-226. -/
noncomputable def P : Fin 4 → Fin 6 → ℝ := fun i j => 1e-4 *
  (![![1312, 1696, 5569, 124, 8283, 5886],
    ![2329, 4135, 8307, 3736, 1004, 9991],
    ![2348, 1451, 3522, 2883, 3047, 6650],
    ![4047, 8828, 8732, 5743, 1091, 381]] : Fin 4 → Fin 6 → ℝ) i j

/-- The inner loop, testfunctions.py 158-163 and 230-235, over the first columns. -/
noncomputable def inner {d : ℕ} (hd : d ≤ 6) (x : Fin d → ℝ) (i : Fin 4) : ℝ :=
  (List.finRange d).foldl (fun acc j => acc + A i (j.castLE hd) * (x j - P i (j.castLE hd)) ^ 2) 0

/-- The outer loop, testfunctions.py 156-165 and 228-237. -/
noncomputable def outer {d : ℕ} (hd : d ≤ 6) (x : Fin d → ℝ) : ℝ :=
  (List.finRange 4).foldl (fun acc i => acc + alpha i * exp (-inner hd x i)) 0

/-- `hartmann4`, testfunctions.py 101-169. -/
noncomputable def hartmann4 (x : Fin 4 → ℝ) : ℝ := (1.1 - outer (by norm_num) x) / 0.839

/-- `hartmann6`, testfunctions.py 172-241. -/
noncomputable def hartmann6 (x : Fin 6 → ℝ) : ℝ := -outer le_rfl x

/-- `borehole`, testfunctions.py 244-315. -/
noncomputable def borehole (x : Fin 8 → ℝ) : ℝ :=
  let rw := x 0
  let r := x 1
  let Tu := x 2
  let Hu := x 3
  let Tl := x 4
  let Hl := x 5
  let L := x 6
  let Kw := x 7
  let frac1 := 2 * π * Tu * (Hu - Hl)
  let frac2a := 2 * L * Tu / (log (r / rw) * rw ^ 2 * Kw)
  let frac2b := Tu / Tl
  let frac2 := log (r / rw) * (1 + frac2a + frac2b)
  frac1 / frac2

/-- The loop of `detpep8d`, testfunctions.py 358-362: the last values of `ii` and `inner`. -/
noncomputable def detpepLoop (x : Fin 8 → ℝ) : ℕ × ℝ :=
  [4, 5, 6, 7, 8].foldl (fun _ ii =>
    (ii, ((List.range (ii + 1)).drop 3).foldl
      (fun acc jj => acc + if h : jj - 1 < 8 then x ⟨jj - 1, h⟩ else 0) 0)) (0, 0)

/-- `detpep8d`, testfunctions.py 318-369. -/
noncomputable def detpep8d (x : Fin 8 → ℝ) : ℝ :=
  let x1 := x 0
  let x2 := x 1
  let x3 := x 2
  let term1 := 4 * (x1 - 2 + 8 * x2 - 8 * x2 ^ 2) ^ 2
  let term2 := (3 - 4 * x2) ^ 2
  let term3 := 16 * √(x3 + 1) * (2 * x3 - 1) ^ 2
  let s := detpepLoop x
  let new := s.1 * log (1 + s.2)
  let outer := 0 + new
  term1 + term2 + term3 + outer

/-- `ishigami`, testfunctions.py 372-410. -/
noncomputable def ishigami (x : Fin 3 → ℝ) : ℝ :=
  let a := 5
  let b := 0.1
  sin (x 0) + a * sin (x 1) ^ 2 + b * x 2 ^ 4 * sin (x 0)

end Verif.TestFunctions
