import Verif.Diag.ParamStats

/-!
# Model of `gpmp/modeldiagnosis/un1ddist.py` and of the integration part of `param_stats.py`

Exact arithmetic with explicit infinities and NaN.  The routines of scipy are parameters.
-/

set_option autoImplicit false

namespace Verif.Un1d

open Verif

/-- The routines of scipy: `quad(f, a, b)[0]`, `brentq(f, a, b, xtol=xtol)` and
`minimize_scalar(f, bounds=(a, b), method="bounded")` with its attributes `x` and `success`. -/
structure Scipy where
  quad : (ℝ → Py Flt) → Flt → Flt → Py Flt
  brentq : (ℝ → Py Flt) → ℝ → ℝ → ℝ → Py Flt
  minimize : (ℝ → Py Flt) → ℝ → ℝ → Py (ℝ × Bool)

/-- A bound: a number of type `int` or `float`, or anything else. -/
inductive Bound where
  | num (x : Flt)
  | other

/-- The attributes `log_pdf`, `bounds` and `Z`. -/
structure Dist where
  logPdf : ℝ → Py Flt
  a : Flt
  b : Flt
  Z : Flt

open Classical in
/-- `_safe_exp`, un1ddist.py 90-96. -/
noncomputable def safeExp (u : Flt) : Flt :=
  if Flt.lt (Flt.fin 709) u then .num ⊤
  else if Flt.lt u (Flt.fin (-745)) then Flt.fin 0
  else u.exp

/-- `_f_scalar`, un1ddist.py 98-100. -/
noncomputable def fScalar (logPdf : ℝ → Py Flt) (x : ℝ) : Py Flt := do
  return safeExp (← logPdf x)

open Classical in
/-- `__init__`, un1ddist.py 67-88. -/
noncomputable def init (S : Scipy) (logPdf : ℝ → Py Flt) (a b : Bound) : Py Dist :=
  match a, b with
  | .num a, .num b =>
    if ¬ Flt.lt a b then .error .valueError
    else do
      let Z ← S.quad (fScalar logPdf) a b
      if ¬ Z.IsFin ∨ Flt.le Z (Flt.fin 0) then .error .valueError
      else return ⟨logPdf, a, b, Z⟩
  | _, _ => .error .typeError

/-- `f`, un1ddist.py 102-116. -/
noncomputable def Dist.f (d : Dist) (x : List ℝ) : Py (List Flt) := x.mapM (fScalar d.logPdf)

/-- `pdf`, un1ddist.py 118-132. -/
noncomputable def Dist.pdf (d : Dist) (x : List ℝ) : Py (List Flt) := do
  return (← d.f x).map fun y => y.div d.Z

open Classical in
/-- `cdf`, un1ddist.py 134-155. -/
noncomputable def Dist.cdf (S : Scipy) (d : Dist) (x : ℝ) : Py Flt :=
  if Flt.le (Flt.fin x) d.a then .ok (Flt.fin 0)
  else if Flt.le d.b (Flt.fin x) then .ok (Flt.fin 1)
  else do
    let i ← S.quad (fScalar d.logPdf) d.a (Flt.fin x)
    return i.div d.Z

/-- `mean`, un1ddist.py 157-169. -/
noncomputable def Dist.mean (S : Scipy) (d : Dist) : Py Flt := do
  let mu ← S.quad (fun t => do return (Flt.fin t).mul (← fScalar d.logPdf t)) d.a d.b
  return mu.div d.Z

/-- `var`, un1ddist.py 171-184. -/
noncomputable def Dist.var (S : Scipy) (d : Dist) : Py Flt := do
  let mu ← d.mean S
  let m2 ← S.quad (fun t => do return (Flt.fin (t ^ 2)).mul (← fScalar d.logPdf t)) d.a d.b
  return (m2.div d.Z).sub (mu.mul mu)

open Classical in
/-- `quantile`, un1ddist.py 186-215. -/
noncomputable def Dist.quantile (S : Scipy) (d : Dist) (p xtol : ℝ) : Py Flt :=
  if ¬ (0 < p ∧ p < 1) then .error .valueError
  else
    match d.a, d.b with
    | .num a, .num b =>
      if (a = ⊤ ∨ a = ⊥) ∨ (b = ⊤ ∨ b = ⊥) then .error .valueError
      else S.brentq (fun t => do return (← d.cdf S t).sub (Flt.fin p)) a.toReal b.toReal xtol
    | _, _ => .error .valueError

/-- The statistics of one parameter, param_stats.py 345-361: the criterion along the parameter, the
reference and the bounds. -/
noncomputable def stats (S : Scipy) (g : ℝ → Py Flt) (opt lo hi : ℝ) : Py ParamStats.Stats := do
  let d ← init S (fun x => do return (← g x).neg) (.num (Flt.fin lo)) (.num (Flt.fin hi))
  let mean ← d.mean S
  let var ← d.var S
  let q10 ← d.quantile S (1 / 10) (1 / 1000000)
  let q25 ← d.quantile S (1 / 4) (1 / 1000000)
  let q50 ← d.quantile S (1 / 2) (1 / 1000000)
  let q75 ← d.quantile S (3 / 4) (1 / 1000000)
  let q90 ← d.quantile S (9 / 10) (1 / 1000000)
  let res ← S.minimize g lo hi
  let mode := if res.2 then res.1 else opt
  return ⟨mean, var, q10, q25, q50, q75, q90, Flt.fin mode⟩

/-- `selection_criterion_statistics`, param_stats.py 269-372. -/
noncomputable def table {M X I : Type} (S : Scipy) (fisher : M → X → List ℝ → ℝ → Py I)
    (info : Option (ParamStats.Info M X)) (model : Option M) (xi : Option X) (crit : Option (List ℝ → Py Flt))
    (cp : Option ParamStats.Vec) (ind : Option (List ℤ)) (box : Option (List ℝ × List ℝ)) (delta : ℝ) :
    Py (List (String × ParamStats.Stats) × I) := do
  let (f, c, m, x) ← ParamStats.resolve info model xi crit cp
  let ind := ind.getD ((List.range c.vals.length).map fun (i : ℕ) => (i : ℤ))
  let t ← ParamStats.rows (stats S) f c delta box ind
  let i ← fisher m x c.vals (1 / 1000)
  return (t, i)

end Verif.Un1d
