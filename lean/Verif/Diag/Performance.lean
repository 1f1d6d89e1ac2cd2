import Verif.FltOps
import Verif.Misc.GaussCdf
import Verif.Misc.DataFrame
import Mathlib.Analysis.SpecialFunctions.Log.Base

/-!
# Model of `gpmp/modeldiagnosis/performance.py`

Numpy backend, exact arithmetic with explicit infinities and NaN.  Targets are arrays of shape
`(n,)` or `(n, 1)` of finite numbers; predictions and leave-one-out results have one axis.
-/

set_option autoImplicit false

namespace Verif.Performance

open Verif

/-- Targets. -/
inductive Tgt where
  | vec (l : List ℝ)
  | col (l : List ℝ)

/-- `_as_1d`, performance.py 46-47. -/
def Tgt.flat : Tgt → List ℝ
  | .vec l => l
  | .col l => l

/-- `gnp.mean` of numbers: NaN for an empty array. -/
noncomputable def mean (z : List ℝ) : Flt := Flt.div (Flt.fin z.sum) (Flt.fin z.length)

/-- `z - c` for a number `c` which may be NaN. -/
noncomputable def centred (z : List ℝ) : List Flt := z.map fun x => (Flt.fin x).sub (mean z)

/-- `gnp.norm(v, ord=2) ** 2`; the square of the square root of a sum of squares. -/
noncomputable def sqnorm (v : List Flt) : Flt := (v.map fun x => x.mul x).foldl Flt.add (Flt.fin 0)

open Classical in
/-- `gnp.sqrt` of a nonnegative number. -/
noncomputable def sqrt : Flt → Flt
  | .nan => .nan
  | .num x => if x = ⊤ then .num ⊤ else if x < 0 then .nan else Flt.fin √x.toReal

/-- `gnp.std`: divides by the number of entries. -/
noncomputable def std (z : List ℝ) : Flt := sqrt (Flt.div (sqnorm (centred z)) (Flt.fin z.length))

open Classical in
/-- `gnp.log10`. -/
noncomputable def log10 : Flt → Flt
  | .nan => .nan
  | .num x => if x = ⊤ then .num ⊤ else if x < 0 then .nan else if x = 0 then .num ⊥
    else Flt.fin (Real.logb 10 x.toReal)

/-- The entries of one block of the result: keys `n`, `std`, `tss`, `press` or `rss`, its ratio
to `tss`, the logarithm, `rmse`, `rmse_over_std`, `Q2` or `R2`. -/
structure Metrics where
  n : ℕ
  std : Flt
  tss : Flt
  sse : Flt
  ratio : Flt
  logRatio : Flt
  rmse : Flt
  rmseOverStd : Flt
  score : Flt

/-- The leave-one-out block, performance.py 111-129: targets and errors. -/
noncomputable def looMetrics (z e : List ℝ) : Metrics :=
  let n := z.length
  let tss := sqnorm (centred z)
  let press := sqnorm (e.map Flt.fin)
  let ratio := press.div tss
  let rmse := sqrt (press.div (Flt.fin (max n 1 : ℕ)))
  { n := n
    std := std z
    tss := tss
    sse := press
    ratio := ratio
    logRatio := log10 ratio
    rmse := rmse
    rmseOverStd := rmse.div (std z)
    score := (Flt.fin 1).sub (press.div tss) }

/-- `zt_vec - zpm_vec` with broadcasting. -/
def diff (a b : List ℝ) : Py (List ℝ) :=
  if a.length = b.length then .ok (List.zipWith (· - ·) a b)
  else match a, b with
    | a, [y] => .ok (a.map (· - y))
    | [x], b => .ok (b.map (x - ·))
    | _, _ => .error .valueError

/-- The test block, performance.py 149-167: targets and predictions. -/
noncomputable def testMetrics (z p : List ℝ) : Py Metrics := do
  let n := z.length
  let tss := sqnorm (centred z)
  let d ← diff z p
  let rss := sqnorm (d.map Flt.fin)
  let ratio := rss.div tss
  let rmse := sqrt (rss.div (Flt.fin (max n 1 : ℕ)))
  return { n := n
           std := std z
           tss := tss
           sse := rss
           ratio := ratio
           logRatio := log10 ratio
           rmse := rmse
           rmseOverStd := rmse.div (std z)
           score := (Flt.fin 1).sub (rss.div tss) }

/-- PIT values, of one or two axes. -/
inductive Pit where
  | vec (l : List Flt)
  | mat (rows : List (List Flt))

open Classical in
/-- `gnp.normal.cdf(x, loc=m, scale=sqrt(clip(v, 0, inf)))` of numbers: NaN for scale zero. -/
noncomputable def cdfOne (x m v : ℝ) : Flt :=
  let s := √(max v 0)
  if s = 0 then .nan else Flt.fin (Score.Phi ((x - m) / s))

/-- `normal.cdf` with broadcasting of targets against vectors of means and variances,
performance.py 132-134 and 170-171.  Means and variances have the same length. -/
noncomputable def pit (z : Tgt) (m v : List ℝ) : Py Pit :=
  match z with
  | .vec l =>
    if l.length = m.length then
      .ok (.vec (List.zipWith (fun x (mv : ℝ × ℝ) => cdfOne x mv.1 mv.2) l (m.zip v)))
    else match l, m, v with
      | [x], m, v => .ok (.vec ((m.zip v).map fun mv => cdfOne x mv.1 mv.2))
      | l, [m], [v] => .ok (.vec (l.map fun x => cdfOne x m v))
      | _, _, _ => .error .valueError
  | .col l => .ok (.mat (l.map fun x => (m.zip v).map fun mv => cdfOne x mv.1 mv.2))

/-- Predictions of a model: leave-one-out means, variances and errors; test means and
variances. -/
structure Model where
  loo : Py (List ℝ × List ℝ × List ℝ)
  predict : Py (List ℝ × List ℝ)

/-- The result of `compute_performance`; absent keys are `none`. -/
structure Out where
  loo : Option Metrics
  looPit : Option Pit
  test : Option Metrics
  testPit : Option Pit

/-- The part for leave-one-out, performance.py 105-134. -/
noncomputable def looPart (model : Model) (zi : Tgt) (loo : Bool)
    (looRes : Option (List ℝ × List ℝ × List ℝ)) (wantPit : Bool) :
    Py (Option Metrics × Option Pit) :=
  if loo then do
    let (m, v, e) ← match looRes with | none => model.loo | some r => .ok r
    let k := looMetrics zi.flat e
    if wantPit then do
      let q ← pit zi m v
      return (some k, some q)
    else return (some k, none)
  else return (none, none)

/-- The part for a test set, performance.py 136-171. -/
noncomputable def testPart (model : Model) (zt : Option Tgt) (zpmzpv : Option (List ℝ × List ℝ))
    (wantPit : Bool) : Py (Option Metrics × Option Pit) :=
  match zt with
  | none => return (none, none)
  | some zt => do
    let (m, v) ← match zpmzpv with | none => model.predict | some r => .ok r
    let k ← testMetrics zt.flat m
    if wantPit then do
      let q ← pit zt m v
      return (some k, some q)
    else return (some k, none)

/-- `compute_performance`, performance.py 50-173; `xt` is used only by the model. -/
noncomputable def compute (model : Model) (zi : Tgt) (loo : Bool)
    (looRes : Option (List ℝ × List ℝ × List ℝ)) (zt : Option Tgt)
    (zpmzpv : Option (List ℝ × List ℝ)) (wantPit : Bool) : Py Out := do
  let a ← looPart model zi loo looRes wantPit
  let b ← testPart model zt zpmzpv wantPit
  return ⟨a.1, a.2, b.1, b.2⟩

/-! ## Display -/

/-- The table of a block, performance.py 229-238 and 243-252; the two other names are
`press`, `Q2` or `rss`, `R2`. -/
def Metrics.rows (k : Metrics) (sse score : String) : List (String × Flt) :=
  [("std(z)", k.std), ("tss", k.tss), (sse, k.sse), (sse ++ "/tss", k.ratio),
    ("log10(" ++ sse ++ "/tss)", k.logRatio), ("rmse", k.rmse), ("rmse/std(z)", k.rmseOverStd),
    (score, k.score)]

/-- `_section_dataframe`, performance.py 181-186: a frame of one column with the row names;
the lines printed for the table. -/
def section_ (fts : Flt → Py String) (rows : List (String × Flt)) : Py (List (List Char)) :=
  let h : DataFrame.Heap := ⟨2, fun i => if i = 0 then ["value"] else rows.map (·.1)⟩
  DataFrame.reprFrame fts h (DataFrame.Frame.init (.mat 1 (rows.map fun r => [r.2])) 0 1)

/-- `perf`, performance.py 189-253: the tables printed. -/
noncomputable def perf (fts : Flt → Py String) (model : Model) (zi : Tgt) (loo : Bool)
    (looRes : Option (List ℝ × List ℝ × List ℝ)) (zt : Option Tgt)
    (zpmzpv : Option (List ℝ × List ℝ)) : Py (List (List (List Char))) := do
  let p ← compute model zi loo looRes zt zpmzpv false
  let a ← match p.loo with
    | none => pure []
    | some k => (section_ fts (k.rows "press" "Q2")).map ([·])
  let b ← match p.test with
    | none => pure []
    | some k => (section_ fts (k.rows "rss" "R2")).map ([·])
  return a ++ b

end Verif.Performance
