import Verif.Misc.Score
import Verif.Py
import Verif.Backend.Elem

/-!
# Model of `gpmp/misc/scoringrules.py` on numpy arrays

The arguments are arrays of any shape (numbers have the empty shape); broadcasting is that of
numpy.  `multivariate_normal.cdf`, numpy_backend.py 554-572, calls scipy, which evaluates the
rows of its argument and drops axes of length one from the result.
-/

set_option autoImplicit false

namespace Verif.Score

open Verif Verif.Backend.Elem

/-- An array. -/
structure Arr where
  shape : List ℕ
  val : List ℕ → Flt

/-- An operation entry by entry, with broadcasting. -/
def Arr.zip (op : Flt → Flt → Flt) (x y : Arr) : Py Arr :=
  match broadcast x.shape y.shape with
  | none => .error .valueError
  | some s => .ok ⟨s, fun l => op (x.val (pull x.shape l)) (y.val (pull y.shape l))⟩

/-- A function of each entry. -/
def Arr.map (f : Flt → Flt) (x : Arr) : Arr := ⟨x.shape, fun l => f (x.val l)⟩

/-- The index of position `k` in row-major order. -/
def unravel : List ℕ → ℕ → List ℕ
  | [], _ => []
  | _ :: s, k => (k / s.prod) :: unravel s (k % s.prod)

/-- `multivariate_normal.cdf(x, mean=zeros(2), cov)`, numpy_backend.py 554-572, for an array `x` of
`n` rows given by its two columns: one number if there is one row. -/
def cdf2 (bvn : Bvn) (cov : Matrix (Fin 2) (Fin 2) ℝ) (n : ℕ) (c0 c1 : ℕ → Flt) : Arr :=
  if n = 1 then ⟨[], fun _ => bvn (c0 0) (c1 0) cov⟩
  else ⟨[n], fun l => bvn (c0 (l.headD 0)) (c1 (l.headD 0)) cov⟩

/-- `ei1_up`, scoringrules.py 50-69, on arrays. -/
noncomputable def ei1A (mu sigma z : Arr) : Py Arr := do
  let d ← mu.zip Flt.sub z
  let t ← d.zip Flt.div sigma
  sigma.zip Flt.mul (t.map h1)

/-- `ei2_up`, scoringrules.py 72-103, on arrays.  `hstack` refuses columns of different lengths;
`t.shape[0]` is the first axis, `t.reshape(-1, 1)` has one row per entry. -/
noncomputable def ei2A (bvn : Bvn) (mu sigma z : Arr) : Py Arr := do
  let d ← mu.zip Flt.sub z
  let t0 ← d.zip Flt.div sigma
  let t : Arr := if t0.shape = [] then ⟨[1], fun _ => t0.val []⟩ else t0
  if t.shape.prod ≠ t.shape.headD 0 then .error .valueError
  else do
    let c := cdf2 bvn (D2 * D2.transpose) t.shape.prod (fun k => t.val (unravel t.shape k))
      (fun _ => Flt.fin 0)
    let term1 ← (t.map (Flt.mul (Flt.fin 2))).zip Flt.mul c
    let term2 := t.map fun a => (Flt.mul (Flt.fin 2) (npdf a)).mul (ncdf a.neg)
    let term3 := t.map fun a =>
      (Flt.div (Flt.fin 1) (Flt.fin √Real.pi)).mul (ncdf (Flt.div a (Flt.fin √(1 / 2))))
    let s ← term1.zip Flt.add term2
    let s ← s.zip Flt.add term3
    sigma.zip Flt.mul s

/-- `crps_gaussian`, scoringrules.py 16-43, on arrays. -/
noncomputable def crpsA (mu sigma z : Arr) : Py Arr := do
  let d ← z.zip Flt.sub mu
  let t ← d.zip Flt.div sigma
  let term1 := t.map fun a => a.mul ((Flt.mul (Flt.fin 2) (ncdf a)).sub (Flt.fin 1))
  let term2 := t.map fun a => Flt.mul (Flt.fin 2) (npdf a)
  let term3 := Flt.div (Flt.fin 1) (Flt.fin √Real.pi)
  let s ← term1.zip Flt.add term2
  sigma.zip Flt.mul (s.map fun a => a.sub term3)

/-- `bool(gnp.isfinite(a))`, scoringrules.py 137: arrays with other than one entry have no truth
value. -/
noncomputable def truthFinite (a : Arr) : Py Bool :=
  if a.shape.prod = 1 then .ok (finite? (a.val (a.shape.map fun _ => 0))).isSome
  else .error .valueError

open Classical in
/-- `gnp.where(z <= b, x, 0)`. -/
noncomputable def whereLe (z b x : Arr) : Py Arr := do
  let c ← z.zip (fun u v => if Flt.le u v then Flt.fin 1 else Flt.fin 0) b
  c.zip (fun u v => if u = Flt.fin 1 then v else Flt.fin 0) x

/-- Two finite bounds, scoringrules.py 138-143. -/
noncomputable def tcrpsBothA (bvn : Bvn) (mu sigma z a b : Arr) : Py Arr := do
  let m ← b.zip smaller z
  let m ← m.zip Flt.sub a
  let term1 := m.map fun u => larger u (Flt.fin 0)
  let e2b ← ei2A bvn mu sigma b
  let e2a ← ei2A bvn mu sigma a
  let term2 ← e2b.zip Flt.sub e2a
  let e1b ← ei1A mu sigma b
  let az ← a.zip larger z
  let e1a ← ei1A mu sigma az
  let e1 ← e1b.zip Flt.sub e1a
  let w ← whereLe z b e1
  let term3 := w.map (Flt.mul (Flt.fin (-2)))
  let s ← term1.zip Flt.add term2
  s.zip Flt.add term3

/-- A finite upper bound only, scoringrules.py 145-148. -/
noncomputable def tcrpsUpperA (bvn : Bvn) (mu sigma z b : Arr) : Py Arr := do
  let term1 ← b.zip smaller z
  let e2b ← ei2A bvn mu sigma b
  let m ← mu.zip Flt.add (sigma.map fun u => u.div (Flt.fin √Real.pi))
  let term2 ← e2b.zip Flt.sub m
  let e1b ← ei1A mu sigma b
  let e1z ← ei1A mu sigma z
  let e1 ← e1b.zip Flt.sub e1z
  let w ← whereLe z b e1
  let term3 := w.map (Flt.mul (Flt.fin (-2)))
  let s ← term1.zip Flt.add term2
  s.zip Flt.add term3

/-- `tcrps_gaussian`, scoringrules.py 110-152, on arrays (the bounds too). -/
noncomputable def tcrpsA (bvn : Bvn) (mu sigma z a b : Arr) : Py Arr := do
  let fa ← truthFinite a
  let fb ← truthFinite b
  match fa, fb with
  | true, true => tcrpsBothA bvn mu sigma z a b
  | false, true => tcrpsUpperA bvn mu sigma z b
  | true, false => tcrpsUpperA bvn (mu.map Flt.neg) sigma (z.map Flt.neg) (a.map Flt.neg)
  | false, false => crpsA mu sigma z

end Verif.Score
