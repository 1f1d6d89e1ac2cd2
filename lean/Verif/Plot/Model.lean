import Verif.FltOps
import Verif.Misc.Designs
import Mathlib.Analysis.SpecialFunctions.Log.Base
import Mathlib.Data.List.Sort

/-!
# Model of what the figures show: `modeldiagnosis/plotting.py`, `plot/plotutils.py`

The functions are modelled up to the data that they hand to matplotlib: the abscissas, ordinates, labels
and panels.  Colours, sizes, grids, interactive mode and printing are left out.  Exact arithmetic.
Criteria, predictors and the inverse of the normal distribution function are arguments.
-/

set_option autoImplicit false

namespace Verif.Plot

open Verif Verif.Designs

/-! ## Arrays with one axis -/

/-- A numpy or torch array with one axis; `isInt` says that its element type is an integer type. -/
structure Vec where
  isInt : Bool
  val : List ℝ

/-- The number stored when `x` is assigned to an entry: integer arrays truncate towards zero. -/
noncomputable def coerce (isInt : Bool) (x : ℝ) : ℝ :=
  if isInt then (if 0 ≤ x then (⌊x⌋ : ℝ) else (⌈x⌉ : ℝ)) else x

/-- The position meant by a Python index. -/
def pos (len : ℕ) (i : ℤ) : Py ℕ :=
  if 0 ≤ i then (if i < len then .ok i.toNat else .error .indexError)
  else if -(len : ℤ) ≤ i then .ok ((len : ℤ) + i).toNat else .error .indexError

/-- `v[i] = x`. -/
noncomputable def Vec.store (v : Vec) (i : ℤ) (x : ℝ) : Py Vec := do
  let k ← pos v.val.length i
  return { v with val := v.val.set k (coerce v.isInt x) }

/-! ## The distribution of PIT values -/

/-- `gnp.sort` of a vector. -/
noncomputable def sortR (l : List ℝ) : List ℝ := l.insertionSort (· ≤ ·)

/-- The corners handed to `plt.step`, plotting.py 56-64. -/
noncomputable def pitCurve (pit : List ℝ) : List (ℝ × ℝ) :=
  List.zip (0 :: sortR pit) (0 :: linspace 0 1 pit.length)

open Classical in
/-- What `plt.step` draws at the abscissa `t` (`where="pre"`, its default: the ordinate of a corner holds
on the interval that ends there): the ordinate of the first corner at `t` or on its right. -/
noncomputable def stepAt : List (ℝ × ℝ) → ℝ → Option ℝ
  | [], _ => none
  | (x, y) :: l, t => if t ≤ x then some y else stepAt l t

/-! ## Cross sections of criteria -/

/-- A criterion `f(covparam)`. -/
abbrev Crit := Vec → Py ℝ

/-- `info`: its criterion and its parameter. -/
structure Info where
  crit : Crit
  covparam : Vec

/-- The criteria, plotting.py 138-145. -/
def resolveCrits (info : Option Info) (crit : Option Crit) (crits : Option (List Crit)) : Py (List Crit) :=
  match crits with
  | some l => .ok l
  | none =>
    match crit with
    | some f => .ok [f]
    | none =>
      match info with
      | some i => .ok [i.crit]
      | none => .error .valueError

/-- The names of the curves, plotting.py 147-155. -/
def resolveNames (n : ℕ) (base : String) (names : Option (List String)) : Py (List String) :=
  match names with
  | none => .ok (if n = 1 then [base] else (List.range n).map fun k => base ++ " #" ++ toString k)
  | some l => if l.length ≠ n then .error .valueError else .ok l

/-- The reference, plotting.py 157-162. -/
def resolveRef (info : Option Info) (covparam : Option Vec) : Py Vec :=
  match covparam with
  | some v => .ok v
  | none =>
    match info with
    | some i => .ok i.covparam
    | none => .error .valueError

/-- A box: two rows. -/
structure Box where
  lo : List ℝ
  hi : List ℝ

/-- `_grid_for_param`, plotting.py 169-176. -/
noncomputable def gridFor (delta : ℝ) (nPoints : ℕ) (i : ℤ) (opt : ℝ) (box : Option Box) : Py (List ℝ) :=
  match box with
  | some b => do
    let lo ← pyGet b.lo i
    let hi ← pyGet b.hi i
    return linspace lo hi nPoints
  | none => .ok (linspace (opt - delta) (opt + delta) nPoints)

/-- One column of the table of values: the criteria at the reference with one entry replaced. -/
noncomputable def column (fs : List Crit) (opt : Vec) (idx : ℤ) (x : ℝ) : Py (List ℝ) := do
  let p ← opt.store idx x
  fs.mapM fun f => f p

/-- What one panel shows: title, abscissas, for each abscissa the values of the criteria, and the
vertical line at the reference. -/
structure Panel where
  title : String
  grid : List ℝ
  values : List (List ℝ)
  ref : ℝ

/-- The title, plotting.py 198-202 and 226-230. -/
def title (names : Option (List String)) (idx : ℤ) : Py String :=
  match names with
  | some l => if idx < l.length then pyGet l idx else .ok ("param " ++ toString idx)
  | none => .ok ("param " ++ toString idx)

/-- The panel of position `i`, plotting.py 185-203 and 217-237: the bounds are those of position `i`. -/
noncomputable def panel (fs : List Crit) (names : Option (List String)) (delta : ℝ) (nPoints : ℕ) (opt : Vec)
    (box : Option Box) (i : ℕ) (idx : ℤ) : Py Panel := do
  let o ← pyGet opt.val idx
  let g ← gridFor delta nPoints i o box
  let v ← g.mapM (column fs opt idx)
  let t ← title names idx
  return ⟨t, g, v, o⟩

/-- All the panels. -/
noncomputable def panels (fs : List Crit) (names : Option (List String)) (delta : ℝ) (nPoints : ℕ) (opt : Vec)
    (box : Option Box) (ind : List ℤ) : Py (List Panel) :=
  ind.zipIdx.mapM fun p => panel fs names delta nPoints opt box p.2 p.1

/-- The arguments of `plot_selection_criterion_crosssections`. -/
structure CrossArgs where
  info : Option Info := none
  crit : Option Crit := none
  crits : Option (List Crit) := none
  covparam : Option Vec := none
  nPoints : ℕ := 100
  paramNames : Option (List String) := none
  critName : String := "selection criterion"
  critNames : Option (List String) := none
  ind : Option (List ℤ) := none
  indPooled : Option (List ℤ) := none
  box : Option Box := none
  boxPooled : Option Box := none
  delta : ℝ := 5

/-- What is shown: names of the curves, one panel for each index, the curves of the pooled figure. -/
structure CrossFigure where
  names : List String
  single : Option (List Panel)
  pooled : Option (List Panel)

/-- `if x is not None: …`. -/
def optional {α β : Type} (f : α → Py β) : Option α → Py (Option β)
  | none => .ok none
  | some a => (f a).map some

/-- `plot_selection_criterion_crosssections`, plotting.py 73-244 (`plt.subplots(0, 1)` raises
`ValueError`). -/
noncomputable def crossSections (a : CrossArgs) : Py CrossFigure := do
  let fs ← resolveCrits a.info a.crit a.crits
  let names ← resolveNames fs.length a.critName a.critNames
  let opt ← resolveRef a.info a.covparam
  let ind := match a.ind, a.indPooled with
    | none, none => some ((List.range opt.val.length).map fun (k : ℕ) => (k : ℤ))
    | i, _ => i
  let single ← optional (fun l => if l = [] then .error .valueError
    else panels fs a.paramNames a.delta a.nPoints opt a.box l) ind
  let pooled ← optional (panels fs a.paramNames a.delta a.nPoints opt a.boxPooled) a.indPooled
  return ⟨names, single, pooled⟩

/-! ## The map of a criterion -/

/-- Standard deviation or range of a covariance parameter, plotting.py 307-308. -/
noncomputable def natural (i : ℤ) (c : ℝ) : ℝ := if i = 0 then Real.exp (c / 2) else Real.exp (-c)

/-- Entry `k` of `linspace`. -/
noncomputable def lin (lo hi : ℝ) (n k : ℕ) : ℝ :=
  if n = 1 then lo else lo + k * ((hi - lo) / ((n : ℝ) - 1))

/-- Entry `k` of the axis, plotting.py 310-311 (`logspace`). -/
noncomputable def axis (factor p0 : ℝ) (n k : ℕ) : ℝ :=
  (10 : ℝ) ^ lin (Real.logb 10 p0 - Real.logb 10 factor) (Real.logb 10 p0 + Real.logb 10 factor) n k

/-- Back to the covariance parameter, plotting.py 314-315. -/
noncomputable def toCov (i : ℤ) (p : ℝ) : ℝ := if i = 0 then Real.log (p ^ 2) else Real.log (1 / p)

/-- `nan_to_num`: NaN becomes 0, infinities the largest numbers `±fmax`. -/
noncomputable def nanToNum (fmax : ℝ) : Flt → ℝ
  | .nan => 0
  | .num x => if x = ⊤ then fmax else if x = ⊥ then -fmax else x.toReal

/-- `gnp.min` of a table with at least one entry. -/
noncomputable def minOf (l : List ℝ) : ℝ := l.foldl min (l.headD 0)

/-- What is shown: coordinates of the points of the mesh (row `i`, column `j`), their colours, the points
of the selected and of the initial parameter. -/
structure Map where
  x : ℕ → ℕ → ℝ
  y : ℕ → ℕ → ℝ
  z : ℕ → ℕ → ℝ
  opt : ℝ × ℝ
  init : Option (ℝ × ℝ)

/-- Coordinate of a parameter on the map, plotting.py 338-339 and 345-346. -/
noncomputable def shown (i : ℤ) (c : ℝ) : ℝ :=
  if i = 0 then 0.5 * Real.logb 10 (Real.exp c) else -Real.logb 10 (Real.exp c)

/-- The point of a parameter vector on the map. -/
noncomputable def place (i1 i2 : ℤ) (v : Vec) : Py (ℝ × ℝ) := do
  let b1 ← pyGet v.val i1
  let b2 ← pyGet v.val i2
  return (shown i1 b1, shown i2 b2)

/-- The values on the mesh, plotting.py 317-326: one copy of the parameter, two entries of which are
assigned before each evaluation. -/
noncomputable def meshValues (f : Vec → Flt) (i1 i2 : ℤ) (p1 p2 : ℕ → ℝ) (n : ℕ) (c : Vec) :
    Py (List (List Flt)) :=
  (List.range n).mapM fun i => (List.range n).mapM fun j => do
    let c1 ← c.store i1 (toCov i1 (p1 j))
    let c2 ← c1.store i2 (toCov i2 (p2 i))
    return f c2

/-- `plot_selection_criterion_2d`, plotting.py 247-360 (`plot_selection_criterion_sigma_rho`, plotting.py
363-403, takes the indices 0 and 1); `mc` is `model.covparam`, `ic` is
`info.covparam`, `c0` is `info.covparam0`. -/
noncomputable def map2d (fmax : ℝ) (f : Vec → Flt) (mc ic : Vec) (c0 : Option Vec) (i1 i2 : ℤ) (n : ℕ) (factor : ℝ)
    (shift : Bool) : Py Map := do
  let a1 ← pyGet mc.val i1
  let a2 ← pyGet mc.val i2
  if factor ≤ 0 then .error .valueError else do
    let p1 := axis factor (natural i1 a1) n
    let p2 := axis factor (natural i2 a2) n
    let vs ← meshValues f i1 i2 p1 p2 n ic
    let num := vs.map (List.map (nanToNum fmax))
    if n = 0 then .error .valueError else do
      let s := if shift then -minOf num.flatten else 0
      let o ← place i1 i2 ic
      let ini ← optional (place i1 i2) c0
      return ⟨fun _ j => Real.logb 10 (p1 j), fun i _ => Real.logb 10 (p2 i),
        fun i j => Real.logb 10 (max 0.01 (((num.getD i []).getD j 0) + s)), o, ini⟩

/-! ## Figures -/

/-- `Figure.subplot(i)`, plotutils.py 63-66: position of the panel among the axes. -/
def subplot (nrows ncols : ℕ) (i : ℤ) : Py ℕ := pos (nrows * ncols) (i - 1)

/-- A band of `plotgp`: label, lower and upper curves. -/
structure Band where
  label : String
  lower : List ℝ
  upper : List ℝ

/-- `colorscheme`. -/
inductive Scheme where
  | hue
  | bw
  | simple
  | default
  | other

/-- `plotgp`, plotutils.py 131-235: the bands in the order in which they are drawn; `ppf` is
`scipy.stats.norm.ppf`.  An unknown scheme leaves `mcol` undefined; `hue` needs a colour (`hasHue`). -/
noncomputable def plotgp (ppf : ℝ → ℝ) (scheme : Scheme) (hasHue : Bool) (mean var : List ℝ) (ci : List ℝ)
    (labels : List String) (showLabels : Bool) : Py (List Band) := do
  let labels := if showLabels then labels else ["", "", ""]
  let delta0 := ci.map fun l => ppf ((1 + l) / 2)
  let (ds, ls, fill) ← (match scheme with
    | .hue =>
      if hasHue then do
        let d ← pyGet delta0 0
        let l ← pyGet labels 0
        return ([d], [l], 1)
      else .error .typeError
    | .bw | .simple => do
      let d ← pyGet delta0 0
      let l ← pyGet labels 0
      return ([d], [l], 1)
    | .default => .ok (delta0.reverse, labels.reverse, 3)
    | .other => .error .unboundLocalError : Py (List ℝ × List String × ℕ))
  ds.zipIdx.mapM fun p =>
    if p.2 < fill then do
      let l ← pyGet ls p.2
      return ⟨l, List.zipWith (fun m v => m - p.1 * Real.sqrt v) mean var,
        List.zipWith (fun m v => m + p.1 * Real.sqrt v) mean var⟩
    else .error .indexError

/-! ## Cross sections of predictions -/

/-- `ind_i`. -/
inductive Anchors where
  | none
  | str (s : String)
  | int (i : ℤ)
  | list (l : List ℤ)

/-- `ind_dim`. -/
inductive Dims where
  | none
  | int (i : ℤ)
  | list (l : List ℤ)

open Classical in
/-- `np.nanargmin` of numbers: the first position of a smallest entry; empty raises. -/
noncomputable def argBest (le : ℝ → ℝ → Prop) : List ℝ → Py ℕ
  | [] => .error .valueError
  | l@(_ :: _) => .ok (l.findIdx fun a => decide (∀ b ∈ l, le a b))

/-- Anchors, plotutils.py 302-314. -/
noncomputable def resolveAnchors (z : List ℝ) : Anchors → Py (List ℤ)
  | .none => do let k ← argBest (· ≤ ·) z; return [(k : ℤ)]
  | .str s =>
    if s = "min" then do let k ← argBest (· ≤ ·) z; return [(k : ℤ)]
    else if s = "max" then do let k ← argBest (· ≥ ·) z; return [(k : ℤ)]
    else .error .valueError
  | .int i => .ok [i]
  | .list l => .ok l

/-- Dimensions, plotutils.py 316-321. -/
def resolveDims (d : ℕ) : Dims → List ℤ
  | .none => (List.range d).map fun (k : ℕ) => (k : ℤ)
  | .int i => [i]
  | .list l => l

/-- The observation points: element type and rows of the same length `dim`. -/
structure Points where
  isInt : Bool
  dim : ℕ
  rows : List (List ℝ)

/-- One cross section: subplot number, abscissas, posterior mean and variance, the projected
observations, the anchor. -/
structure Section where
  subplot : ℤ
  t : List ℝ
  targets : List (List ℝ)
  mean : List ℝ
  var : List ℝ
  data : List (ℝ × ℝ)
  anchor : ℝ × ℝ

/-- The abscissas, plotutils.py 340-347. -/
noncomputable def abscissas (lo hi a : ℝ) (nt : ℕ) : List ℝ := sortR (linspace lo hi (nt - 1) ++ [a])

/-- The prediction points, plotutils.py 348-349: `np.tile` keeps the element type of `xi`. -/
noncomputable def targets (isInt : Bool) (row : List ℝ) (dim : ℕ) (t : List ℝ) : List (List ℝ) :=
  t.map fun u => row.set dim (coerce isInt u)

/-- One panel, plotutils.py 331-392; `i` and `k` are the positions of the anchor and of the dimension. -/
noncomputable def panelSection (predict : List (List ℝ) → Py (List ℝ × List ℝ)) (xi : Points) (z : List ℝ) (box : Box)
    (nt nAnchors i : ℕ) (anchor : ℤ) (k : ℕ) (dim : ℤ) : Py Section :=
  if anchor < 0 ∨ anchor ≥ xi.rows.length then .error .indexError
  else if dim < 0 ∨ dim ≥ xi.dim then .error .indexError
  else
    let row := xi.rows.getD anchor.toNat []
    let a := row.getD dim.toNat 0
    let t := abscissas (box.lo.getD dim.toNat 0) (box.hi.getD dim.toNat 0) a nt
    let xt := targets xi.isInt row dim.toNat t
    do
      let (m, v) ← predict xt
      return ⟨(nAnchors * k + i + 1 : ℕ), t, xt, m, v.map (max · 0),
        List.zip (xi.rows.map fun r => r.getD dim.toNat 0) z, (a, z.getD anchor.toNat 0)⟩

/-- `crosssections`, plotutils.py 238-395; `zRows` and `zSize` are `zi.shape[0]` and `zi.size`, `z` the
observations in order; matplotlib refuses figures without panels. -/
noncomputable def crosssections (predict : List (List ℝ) → Py (List ℝ × List ℝ)) (xi : Points) (zRows : ℕ)
    (z : List ℝ) (box : Box) (indI : Anchors) (indDim : Dims) (nt : ℤ) : Py (List Section) :=
  if box.lo.length ≠ xi.dim ∨ box.hi.length ≠ xi.dim then .error .valueError
  else if zRows ≠ xi.rows.length ∨ z.length ≠ xi.rows.length then .error .valueError
  else if nt < 2 then .error .valueError
  else do
    let as ← resolveAnchors z indI
    let ds := resolveDims xi.dim indDim
    if as = [] ∨ ds = [] then .error .valueError
    else do
      let ll ← as.zipIdx.mapM fun p => ds.zipIdx.mapM fun q =>
        panelSection predict xi z box nt.toNat as.length p.2 p.1 q.2 q.1
      return ll.flatten

/-- The error bars of `plot_loo`, plotutils.py 398-420: centre and half-length of each bar. -/
noncomputable def looBars (zloom zloov : List ℝ) : List (ℝ × ℝ) :=
  List.zipWith (fun m v => (m, 1.96 * Real.sqrt v)) zloom zloov

end Verif.Plot
