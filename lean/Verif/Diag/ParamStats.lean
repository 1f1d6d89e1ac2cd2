import Verif.Py
import Verif.FltOps

/-!
# Model of the grid part of `gpmp/modeldiagnosis/param_stats.py`

Numpy backend, exact arithmetic with explicit infinities and NaN.  Bounds are finite numbers; the
criterion may return any floating point number or raise.  Arrays of `k` entries are functions on
the indices below `k`.
-/

set_option autoImplicit false

namespace Verif.ParamStats

open Verif

/-! ## Numpy -/

/-- `np.linspace(lo, hi, k)[i]`. -/
noncomputable def lin (lo hi : ℝ) (k i : ℕ) : ℝ := lo + i * ((hi - lo) / ((k : ℝ) - 1))

open Classical in
/-- `np.maximum`: NaN if one is NaN. -/
noncomputable def fmax : Flt → Flt → Flt
  | .num a, .num b => .num (max a b)
  | _, _ => .nan

/-- `np.max`: an empty array raises. -/
noncomputable def npMax : List Flt → Py Flt
  | [] => .error .valueError
  | a :: l => .ok (l.foldl fmax a)

/-- `np.trapz(y, x)` of arrays of `k` entries. -/
noncomputable def trapz (k : ℕ) (x y : ℕ → Flt) : Flt :=
  ((List.range (k - 1)).map fun i =>
    Flt.div (((x (i + 1)).sub (x i)).mul ((y (i + 1)).add (y i))) (Flt.fin 2)).foldl Flt.add (Flt.fin 0)

/-- `cumulative_trapezoid(y, x, initial=0.0)[i]`. -/
noncomputable def cumtrapz (x y : ℕ → Flt) (i : ℕ) : Flt := trapz (i + 1) x y

open Classical in
/-- `np.interp(q, xp, fp)` for a nondecreasing `xp` of `k` entries: `j` is the last index with
`xp[j] <= q`. -/
noncomputable def interp (k : ℕ) (xp fp : ℕ → Flt) (q : Flt) : Flt :=
  let c := ((List.range k).takeWhile fun i => decide (Flt.le (xp i) q)).length
  if c = 0 then fp 0
  else if c = k then fp (k - 1)
  else
    let j := c - 1
    if xp j = q then fp j
    else
      let slope := Flt.div ((fp (j + 1)).sub (fp j)) ((xp (j + 1)).sub (xp j))
      (slope.mul (q.sub (xp j))).add (fp j)

open Classical in
/-- `np.argmax` of an array without NaN: the first largest entry. -/
noncomputable def argmax (k : ℕ) (w : ℕ → Flt) : ℕ :=
  (List.range k).foldl (fun b i => if Flt.lt (w b) (w i) then i else b) 0

/-! ## `fast_univariate_stats` -/

/-- What the statistics of one parameter consist of: the columns of the table. -/
structure Stats where
  mean : Flt
  var : Flt
  q10 : Flt
  q25 : Flt
  q50 : Flt
  q75 : Flt
  q90 : Flt
  mode : Flt

/-- The part of `fast_univariate_stats` after the weights, param_stats.py 97-111. -/
noncomputable def statsOf (k : ℕ) (x w : ℕ → Flt) : Py Stats :=
  let Z := trapz k x w
  open Classical in
  if ¬ Z.IsFin ∨ Flt.le Z (Flt.fin 0) then .error .valueError
  else
    let mean := (trapz k x fun i => (x i).mul (w i)).div Z
    let second := (trapz k x fun i => ((x i).mul (x i)).mul (w i)).div Z
    let cdf := fun i => (cumtrapz x w i).div Z
    let q := fun (p : ℝ) => interp k cdf x (Flt.fin p)
    .ok
      { mean := mean
        var := second.sub (mean.mul mean)
        q10 := q (1 / 10)
        q25 := q (1 / 4)
        q50 := q (1 / 2)
        q75 := q (3 / 4)
        q90 := q (9 / 10)
        mode := x (argmax k w) }

/-- `fast_univariate_stats`, param_stats.py 61-111; `np.linspace` refuses a negative number of
points. -/
noncomputable def fastStats (f : ℝ → Py Flt) (lo hi : ℝ) (n : ℤ) : Py Stats :=
  if n < 0 then .error .valueError
  else do
    let k := n.toNat
    let vals ← (List.range k).mapM fun i => f (lin lo hi k i)
    let m ← npMax (vals.map Flt.neg)
    let w := fun (i : ℕ) => (((vals.getD i .nan).neg).sub m).exp
    statsOf k (fun i => Flt.fin (lin lo hi k i)) w

/-! ## One parameter at a time -/

/-- An array of integers or of floating point numbers. -/
inductive Vec where
  | ints (l : List ℤ)
  | floats (l : List ℝ)

/-- The numbers in the array. -/
def Vec.vals : Vec → List ℝ
  | .ints l => l.map fun (z : ℤ) => (z : ℝ)
  | .floats l => l

/-- Conversion of a number to an integer, towards zero. -/
noncomputable def trunc (x : ℝ) : ℤ := if 0 ≤ x then ⌊x⌋ else ⌈x⌉

/-- The position designated by a Python index. -/
def pos (len : ℕ) (j : ℤ) : Py ℕ := pyGet (List.range len) j

/-- `cp[j] = x` on a copy: the value takes the type of the array. -/
noncomputable def Vec.set : Vec → ℤ → ℝ → Py Vec
  | .ints l, j, x => do return .ints (l.set (← pos l.length j) (trunc x))
  | .floats l, j, x => do return .floats (l.set (← pos l.length j) x)

/-- `make_single_param_criterion_function`, param_stats.py 114-144. -/
noncomputable def single (crit : List ℝ → Py Flt) (cp : Vec) (j : ℤ) (x : ℝ) : Py Flt := do
  crit (← cp.set j x).vals

/-- The attributes of `info` that are read; `model` and `xi` may be missing. -/
structure Info (M X : Type) where
  criterion : List ℝ → Py Flt
  covparam : Vec
  model : Option M
  xi : Option X

/-- The arguments that are needed after the defaults are taken, param_stats.py 191-208 and
295-312. -/
def resolve {M X : Type} (info : Option (Info M X)) (model : Option M) (xi : Option X)
    (crit : Option (List ℝ → Py Flt)) (cp : Option Vec) : Py ((List ℝ → Py Flt) × Vec × M × X) :=
  let crit := crit.or (info.map (·.criterion))
  let cp := cp.or (info.map (·.covparam))
  let model := model.or (info.bind (·.model))
  let xi := xi.or (info.bind (·.xi))
  match crit, cp, model, xi with
  | some f, some c, some m, some x => .ok (f, c, m, x)
  | _, _, _, _ => .error .valueError

/-- `box[0, j], box[1, j]`, or the reference plus or minus `delta`, param_stats.py 233-239 and
337-343. -/
noncomputable def range (opt delta : ℝ) (box : Option (List ℝ × List ℝ)) (j : ℤ) : Py (ℝ × ℝ) :=
  match box with
  | some b => do return (← pyGet b.1 j, ← pyGet b.2 j)
  | none => .ok (opt - delta, opt + delta)

/-- The rows of the table with their names, param_stats.py 232-261, for statistics `stats` of a
function on an interval, given the reference. -/
noncomputable def rows (stats : (ℝ → Py Flt) → ℝ → ℝ → ℝ → Py Stats) (crit : List ℝ → Py Flt) (cp : Vec)
    (delta : ℝ) (box : Option (List ℝ × List ℝ)) (ind : List ℤ) : Py (List (String × Stats)) :=
  ind.mapM fun j => do
    let opt ← pyGet cp.vals j
    let (lo, hi) ← range opt delta box j
    let s ← stats (single crit cp j) opt lo hi
    return ("param_" ++ toString j, s)

/-- `selection_criterion_statistics_fast`, param_stats.py 147-266: the rows of the table and the
Fisher information returned by the model for the inputs, the parameters and the step. -/
noncomputable def tableFast {M X I : Type} (fisher : M → X → List ℝ → ℝ → Py I) (info : Option (Info M X))
    (model : Option M) (xi : Option X) (crit : Option (List ℝ → Py Flt)) (cp : Option Vec)
    (ind : Option (List ℤ)) (box : Option (List ℝ × List ℝ)) (delta : ℝ) (n : ℤ) :
    Py (List (String × Stats) × I) := do
  let (f, c, m, x) ← resolve info model xi crit cp
  let ind := ind.getD ((List.range c.vals.length).map fun (i : ℕ) => (i : ℤ))
  let t ← rows (fun g _ lo hi => fastStats g lo hi n) f c delta box ind
  let i ← fisher m x c.vals (1 / 1000)
  return (t, i)

end Verif.ParamStats
