import Verif.Py
import Mathlib.Analysis.SpecialFunctions.Pow.Real
import Mathlib.Analysis.SpecialFunctions.Sqrt

/-!
# Model of `gpmp/misc/designs.py`

A sample is a list of points and a point a list of coordinates.  Exact arithmetic.  Random
samples are arguments: `rand` (`np.random.rand`), the draws of the Latin hypercube sampler of
scipy, and the discrepancy of scipy, which is an arbitrary function.  scipy's `pdist`, `cdist`
and `qmc.scale` are modelled from their documentation.
-/

set_option autoImplicit false

namespace Verif.Designs

open Verif

/-- A point. -/
abbrev Pt := List ℝ

/-- Euclidean distance of two points (the metric of scipy's `pdist` and `cdist`). -/
noncomputable def dist (x y : Pt) : ℝ := √((List.zipWith (fun a b => (a - b) ^ 2) x y).sum)

/-- scipy's `pdist`: the distances of all pairs, each pair once.  designs.py 30 and 49. -/
noncomputable def pdist : List Pt → List ℝ
  | [] => []
  | x :: t => t.map (dist x) ++ pdist t

/-- `np.max` of a list; empty raises. -/
noncomputable def npMax : List ℝ → Py ℝ
  | [] => .error .valueError
  | a :: t => .ok (t.foldl max a)

/-- `np.min` of a list; empty raises. -/
noncomputable def npMin : List ℝ → Py ℝ
  | [] => .error .valueError
  | a :: t => .ok (t.foldl min a)

/-- `maxdist`, designs.py 16-32. -/
noncomputable def maxdist (s : List Pt) : Py ℝ := npMax (pdist s)

/-- `mindist`, designs.py 35-51. -/
noncomputable def mindist (s : List Pt) : Py ℝ := npMin (pdist s)

/-- A box: `box[0]` and `box[1]`. -/
structure Box where
  lo : List ℝ
  hi : List ℝ

open Classical in
/-- scipy's `qmc.scale`: bounds of the dimension of the sample, lower strictly below upper, and a
nonempty sample of the unit cube, or `ValueError`.  (Scalar bounds, which scipy broadcasts, are
not modelled.) -/
noncomputable def qmcScale (d : ℕ) (s : List Pt) (lo hi : List ℝ) : Py (List Pt) :=
  if lo.length ≠ d ∨ hi.length ≠ d then .error .valueError
  else if ∃ p ∈ lo.zip hi, ¬ p.1 < p.2 then .error .valueError
  else if s = [] ∨ d = 0 then .error .valueError
  else if ∃ x ∈ s, ∃ a ∈ x, 1 < a ∨ a < 0 then .error .valueError
  else .ok (s.map fun x => List.zipWith (fun a (p : ℝ × ℝ) => a * (p.2 - p.1) + p.1) x (lo.zip hi))

/-- `scale`, designs.py 105-123 (`d` is the number of columns of the sample). -/
noncomputable def scale (d : ℕ) (s : List Pt) (b : Box) : Py (List Pt) := qmcScale d s b.lo b.hi

/-- `randunif`, designs.py 178-199; `rand n dim` is the uniform sample. -/
noncomputable def randunif (rand : ℕ → ℕ → List Pt) (dim n : ℕ) (b : Box) : Py (List Pt) :=
  scale dim (rand n dim) b

/-- scipy's `cdist`, flattened. -/
noncomputable def cdist (s x : List Pt) : List ℝ := s.flatMap fun a => x.map (dist a)

/-- One pass of the loop of `filldist_approx`, designs.py 98-101. -/
noncomputable def fillStep (s x : List Pt) (best : ℝ) : Py ℝ := do
  let d ← npMin (cdist s x)
  return if best < d then d else best

/-- The loop of `filldist_approx`, designs.py 97-101. -/
noncomputable def fillLoop (s x : List Pt) : ℕ → ℝ → Py ℝ
  | 0, best => .ok best
  | k + 1, best => do
    let b ← fillStep s x best
    fillLoop s x k b

/-- `filldist_approx`, designs.py 71-102; `dim` is the number of columns of the sample. -/
noncomputable def filldist (rand : ℕ → ℕ → List Pt) (dim : ℕ) (s : List Pt) (b : Box) (n : ℕ)
    (x : Option (List Pt)) : Py ℝ := do
  match x with
  | none =>
    let x ← randunif rand dim n b
    fillLoop s x n 0
  | some x => fillLoop s x x.length 0

/-! ## Grids -/

/-- numpy's `linspace(a, b, n)` in exact arithmetic. -/
noncomputable def linspace (a b : ℝ) (n : ℕ) : List ℝ :=
  (List.range n).map fun (i : ℕ) => if n = 1 then a else a + i * ((b - a) / ((n : ℝ) - 1))

/-- The argument `n` of `regulargrid`. -/
inductive GridN where
  | int (n : ℕ)
  | list (n : List ℕ)

/-- designs.py 155-156. -/
def GridN.sizes (dim : ℕ) : GridN → List ℕ
  | .int n => List.replicate dim n
  | .list n => n

/-- The levels of one coordinate, designs.py 162. -/
noncomputable def level (ns : List ℕ) (b : Box) (i : ℕ) : Py (List ℝ) := do
  let lo ← pyGet b.lo (i : ℕ)
  let hi ← pyGet b.hi (i : ℕ)
  let n ← pyGet ns (i : ℕ)
  return linspace lo hi n

/-- The multi-index of a flat position, last index fastest (numpy's C order). -/
def unravel : List ℕ → ℕ → List ℕ
  | [], _ => []
  | _ :: ns, k => k / ns.prod :: unravel ns (k % ns.prod)

/-- `regulargrid`, designs.py 126-175.  Entry `k` of `Xv[i].reshape(N)` is `Xv[i]` at the
multi-index of `k`, that is, level `i` at the `i`-th index (`indexing="ij"`).  The reshape raises
when `prod(n)` is not the number of points; for `dim = 0`, `np.prod([])` is a float and the call
raises `TypeError`. -/
noncomputable def regulargrid (dim : ℕ) (n : GridN) (b : Box) : Py (List Pt) := do
  let ns := n.sizes dim
  let levels ← (List.range dim).mapM (level ns b)
  if dim = 0 then throw .typeError
  let shape := levels.map List.length
  if shape.prod ≠ ns.prod then throw .valueError
  return (List.range ns.prod).map fun k =>
    List.zipWith (fun (l : List ℝ) (j : ℕ) => l.getD j 0) levels (unravel shape k)

/-! ## Optimised random designs -/

/-- The loop of `ldrandunif`, designs.py 227-232; `disc` is scipy's discrepancy. -/
noncomputable def ldLoop (disc : List Pt → ℝ) : List (List Pt) → ℝ → Option (List Pt) → Option (List Pt)
  | [], _, best => best
  | s :: t, m, best => if disc s < m then ldLoop disc t (disc s) (some s) else ldLoop disc t m best

/-- `ldrandunif`, designs.py 202-236, for the samples drawn.  The name `sample_ld` is unbound
when no sample was kept. -/
noncomputable def ldrandunif (disc : List Pt → ℝ) (dim : ℕ) (draws : List (List Pt)) (b : Box) : Py (List Pt) :=
  match ldLoop disc draws (10 ^ 6) none with
  | none => .error .unboundLocalError
  | some s => scale dim s b

/-- The loop of `maximinlhs`, designs.py 262-267, and of `maximinldlhs`, 296-301. -/
noncomputable def maximinLoop : List (List Pt) → ℝ → Option (List Pt) → Py (Option (List Pt))
  | [], _, best => .ok best
  | s :: t, m, best => do
    let d ← mindist s
    if m < d then maximinLoop t d (some s) else maximinLoop t m best

/-- `maximinlhs`, designs.py 239-271, for the Latin hypercube samples drawn. -/
noncomputable def maximin (dim : ℕ) (draws : List (List Pt)) (b : Box) : Py (List Pt) := do
  match ← maximinLoop draws 0 none with
  | none => .error .unboundLocalError
  | some s => scale dim s b

/-- The draws of a run of `n` iterations of a sampler. -/
def drawn (sampler : ℕ → List Pt) (n : ℕ) : List (List Pt) := (List.range n).map sampler

/-- `maximinlhs` with its number of iterations, designs.py 239-271. -/
noncomputable def maximinlhs (sampler : ℕ → List Pt) (dim : ℕ) (b : Box) (maxIter : ℕ := 1000) : Py (List Pt) :=
  maximin dim (drawn sampler maxIter) b

/-- `maximinldlhs`, designs.py 274-305: ten draws of the optimised sampler. -/
noncomputable def maximinldlhs (sampler : ℕ → List Pt) (dim : ℕ) (b : Box) : Py (List Pt) :=
  maximin dim (drawn sampler 10) b

end Verif.Designs
