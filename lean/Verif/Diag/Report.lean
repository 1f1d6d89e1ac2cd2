import Verif.FltOps
import Verif.Misc.DataFrame
import Verif.Param.Model

/-!
# Model of `gpmp/modeldiagnosis/utils.py` and `gpmp/modeldiagnosis/report.py`

Numpy backend, exact arithmetic; data are finite numbers.
-/

set_option autoImplicit false

namespace Verif.Report

open Verif

/-! ## utils.py -/

/-- `sigma_rho_from_covparam`, utils.py 34-63: the dictionary as a list of entries. -/
noncomputable def sigmaRho (c : List ℝ) : Py (List (String × ℝ)) := do
  let c0 ← pyGet c 0
  return ("sigma", Real.exp (1 / 2 * c0)) ::
    (List.range (c.length - 1)).map fun i => ("rho" ++ toString i, Real.exp (-(c.getD (i + 1) 0)))

/-- Data: a number, or an array with one or two axes. -/
inductive Data where
  | scalar (x : ℝ)
  | vec (l : List ℝ)
  | mat (d : ℕ) (rows : List (List ℝ))

/-- The columns of the data; a number has no second axis, utils.py 85-86. -/
def Data.columns : Data → Py (List (List ℝ))
  | .scalar _ => .error .indexError
  | .vec l => .ok [l]
  | .mat d rows => .ok ((List.range d).map fun j => rows.map fun r => r.getD j 0)

/-- `np.mean`. -/
noncomputable def mean (l : List ℝ) : ℝ := l.sum / l.length

/-- `np.std`. -/
noncomputable def std (l : List ℝ) : ℝ := √(mean (l.map fun x => (x - mean l) ^ 2))

/-- One row of the description, utils.py 95-105: `np.min` of no entries raises. -/
noncomputable def describeCol : List ℝ → Py (List ℝ)
  | [] => .error .valueError
  | a :: l =>
    let lo := l.foldl min a
    let hi := l.foldl max a
    .ok [lo, hi, hi - lo, mean (a :: l), std (a :: l)]

/-- `sigma_factor`. -/
inductive Factor where
  | scalar (s : Flt)
  | array (s : List Flt)

/-- The factors of the rows, utils.py 108-116. -/
def Factor.get (dim : ℕ) : Factor → Py (List Flt)
  | .scalar s => .ok (List.replicate dim s)
  | .array s => if s.length ≠ dim then .error .valueError else .ok s

/-- `describe_array`, utils.py 66-119. -/
noncomputable def describe (h : DataFrame.Heap) (x : Data) (rownames : ℕ) (sf : Option Factor) :
    Py (DataFrame.Frame Flt × DataFrame.Heap) := do
  let cols ← x.columns
  let rows ← cols.mapM describeCol
  let rows := rows.map fun r => r.map Flt.fin
  match sf with
  | none =>
    let (c, h) := h.new ["min", "max", "delta", "mean", "std"]
    return (.init (.mat 5 rows) c rownames, h)
  | some sf =>
    let s ← sf.get cols.length
    let (c, h) := h.new ["min", "max", "delta", "mean", "std", "delta_over_sigma"]
    return (.init (.mat 6 (List.zipWith (fun r f => r ++ [(r.getD 2 .nan).mul f]) rows s)) c rownames, h)

/-- A value of a dictionary: a `float`, or something displayed by its own text. -/
inductive Cell where
  | float (x : Flt)
  | other (s : String)

/-- The text of a value, utils.py 149-153. -/
noncomputable def Cell.text (toStr : DataFrame.Shown → String) (fp : ℕ) : Cell → Py String
  | .float x => (DataFrame.ftos fp x).map toStr
  | .other s => .ok s

/-- `pretty_print_dictionary`, utils.py 122-153: the lines. -/
noncomputable def pretty (toStr : DataFrame.Shown → String) (fp : ℕ) (d : List (String × Cell)) : Py (List (List Char)) :=
  let w := max 15 (((d.map fun e => e.1.length).foldl max 0) + 2)
  d.mapM fun e => do
    let t ← e.2.text toStr fp
    return DataFrame.rjust e.1 w ++ [':', ' '] ++ t.toList

/-! ## report.py -/

/-- A `Param` with bounds that may be infinite: the attributes used here. -/
structure PObj where
  names : List String
  paths : List (List String)
  denorm : List ℝ
  bounds : List (Option (Flt × Flt))

/-- The attributes of a `Param`. -/
noncomputable def ofParam (p : Param.Param) : PObj :=
  ⟨p.names, p.paths, p.denormalized, p.bounds.map fun b => b.map fun q => (Flt.fin q.1, Flt.fin q.2)⟩

/-- `np.isinf`. -/
def isInf (x : Flt) : Prop := x = .num ⊤ ∨ x = .num ⊥

/-- The positions of the covariance entries, report.py 129-131. -/
def covInds (paths : List (List String)) : List ℕ :=
  (List.range paths.length).filter fun j => decide ((paths.getD j []).head? = some "covparam")

open Classical in
/-- `_apply_cov_bounds_to_param`, report.py 109-140. -/
noncomputable def applyBounds (p : PObj) (cb : List (Flt × Flt)) : PObj :=
  let inds := covInds p.paths
  if inds.length ≠ cb.length then p
  else
    { p with
      bounds := (inds.zip cb).foldl (fun bs e =>
        bs.set e.1 (if isInf e.2.1 ∧ isInf e.2.2 then none else some e.2)) p.bounds }

/-- `info.bounds`: pairs, or an array of another shape. -/
inductive BArr where
  | pairs (l : List (Flt × Flt))
  | other

/-- `param_from_covparam_anisotropic_noisy`, param.py 364-383; with fewer than two values the
lists have too many entries and construction fails. -/
def makeNoisy (values : List ℝ) : Py Param.Param :=
  let d := values.length - 2
  Param.mkParam (some values)
    (some (["covparam", "variance"] :: ["covparam", "variance"] :: List.replicate d ["covparam", "lengthscale"]))
    (some (.enum .log :: .enum .log :: List.replicate d (.enum .logInv)))
    (some ("sigma2" :: "sigma2_noise" :: (List.range d).map (fun i => "rho_" ++ toString i)))
    (some (none :: none :: List.replicate d none)) "param_" none

/-- The `Param` built when none is given, report.py 142-151. -/
noncomputable def build (modelType : String) (covparam : List ℝ) : Py PObj :=
  if modelType = "linear_mean_matern_anisotropic" then
    (Param.makeAnisotropic covparam none none "").map ofParam
  else if modelType = "linear_mean_matern_anisotropic_noisy" then (makeNoisy covparam).map ofParam
  else .error .valueError

/-- `modeldiagnosis_init`, report.py 142-173: the resulting `Param`. -/
noncomputable def init (modelType : String) (covparam : List ℝ) (meanparam : Option (List ℝ)) (bounds : Option BArr)
    (paramObj : Option PObj) : Py PObj := do
  let p ← (match paramObj with
    | some p => .ok p
    | none => build modelType covparam)
  match bounds with
  | some (.pairs l) =>
    let mpl := (meanparam.getD []).length
    if mpl + covparam.length ≤ l.length then
      return applyBounds p (pySlice l mpl (mpl + covparam.length))
    else return p
  | _ => return p

open Classical in
/-- `check_bounds`, param.py 223-227, with these bounds. -/
noncomputable def PObj.checkBounds (p : PObj) : List Bool :=
  (p.denorm.zip p.bounds).map fun x =>
    match x.2 with
    | none => true
    | some b => decide (b.1.le (.fin x.1) ∧ (Flt.fin x.1).le b.2)

/-- `list(to_simple_dict().values())`: a repeated name keeps its first place and its last value. -/
noncomputable def dictValues (p : PObj) : List ℝ :=
  p.names.eraseDups.filterMap fun k => Param.dictLookup (p.names.zip p.denorm) k

/-- `1.0 / x`. -/
noncomputable def inv (x : ℝ) : Flt := (Flt.fin 1).div (Flt.fin x)

/-- Number of rows. -/
def Data.rows : Data → Py ℕ
  | .scalar _ => .error .indexError
  | .vec l => .ok l.length
  | .mat _ rows => .ok rows.length

/-- The names of the rows for the observations, report.py 211-214. -/
def ziNames : Data → List String
  | .mat d _ => (List.range d).map fun j => "zi_" ++ toString j
  | _ => ["zi"]

/-- The data part of `model_diagnosis_disp`, report.py 205-221: the number of observations and the
table. -/
noncomputable def dataPart (h : DataFrame.Heap) (p : PObj) (xi zi : Data) :
    Py (ℕ × DataFrame.Frame Flt × DataFrame.Heap) := do
  let count ← zi.rows
  let pv := dictValues p
  let p0 ← pyGet pv 0
  let (rz, h) := h.new (ziNames zi)
  let (fz, h) ← describe h zi rz (some (.scalar (inv p0)))
  let d ← (match xi with
    | .mat d _ => .ok d
    | _ => .error .indexError)
  let (rx, h) := h.new ((List.range d).map fun j => "xi_" ++ toString j)
  let (fx, h) ← describe h xi rx (some (.array ((pyDrop pv (-(d : ℤ))).map inv)))
  let (f, h) ← DataFrame.concat h fz fx 0
  return (count, f, h)

end Verif.Report
