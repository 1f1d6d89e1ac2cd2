import Verif.Py
import Verif.FltOps
import Verif.Data.Stats
import Verif.Mcmc.Nuts
import Mathlib.Analysis.SpecialFunctions.Pow.Real
import Mathlib.Analysis.SpecialFunctions.Exp
import Mathlib.Analysis.SpecialFunctions.Log.Basic

/-!
# Model of `mcmc/svgd.py`

Particles have exact real coordinates.  The log-density may raise or return any
IEEE value (`Verif.Flt`).  Exact arithmetic never overflows, so `isfinite(h)`
(svgd.py 232) holds and the clean-up of nonfinite velocities (337-338) does
nothing.  Prints (466-499) are not modelled.
-/

set_option autoImplicit false

namespace Verif.SVGD

open Verif
open Verif.Nuts (finite?)

/-- A point of dimension `d`. -/
abbrev Pt (d : ℕ) := Fin d → ℝ

/-- A cloud of `n` particles of dimension `d`. -/
abbrev Pts (n d : ℕ) := Fin n → Pt d

/-- A log-density, `log_prob(theta)`. -/
abbrev LogProb (d : ℕ) := Pt d → Py Flt

/-! ## Boxes -/

/-- One side of a box: a Python scalar or an array. -/
inductive Bound where
  | scalar (a : ℝ)
  | vec (l : List ℝ)

/-- `asarray(b).reshape(-1)`. -/
def Bound.flat : Bound → List ℝ
  | .scalar a => [a]
  | .vec l => l

/-- `tile(v, (d,))` when `v` has length one, svgd.py 79-82 and 134-135. -/
def tile1 (d : ℕ) : List ℝ → List ℝ
  | [a] => List.replicate d a
  | l => l

/-- `_normalize_bounds`, svgd.py 63-86.  The box is a list of bounds. -/
noncomputable def normBounds (box : List Bound) (d : ℕ) : Py (Pt d × Pt d) :=
  match box with
  | [.scalar a, .scalar b] => .ok (fun _ => a, fun _ => b)
  | [lo, hi] =>
    let l := tile1 d lo.flat
    let u := tile1 d hi.flat
    if l.length ≠ d ∨ u.length ≠ d then .error .valueError
    else .ok (fun i => l.getD i 0, fun i => u.getD i 0)
  | _ => .error .valueError

/-- `_project_to_box`, svgd.py 89-96: `clip` is `min(max(x, lower), upper)`. -/
noncomputable def project {d : ℕ} (b : Option (Pt d × Pt d)) (x : Pt d) : Pt d :=
  match b with
  | none => x
  | some (lo, hi) => fun c => min (max (x c) (lo c)) (hi c)

/-! ## Temperature and preconditioner -/

/-- `_annealed_temperature`, svgd.py 99-121. -/
noncomputable def annealed (step nSteps : ℕ) (t0 t1 : ℝ) (schedule : String) : Py ℝ :=
  if t0 ≤ 0 ∨ t1 ≤ 0 then .error .valueError
  else if nSteps ≤ 1 then .ok t1
  else
    let u : ℝ := step / (nSteps - 1 : ℕ)
    if schedule = "linear" then .ok (t0 + u * (t1 - t0))
    else if schedule = "geometric" then .ok (t0 * (t1 / t0) ^ u)
    else .error .valueError

/-- `_resolve_preconditioner`, svgd.py 124-140. -/
noncomputable def precond (diag : Option (List ℝ)) (d : ℕ) (jitter : ℝ) : Py (Pt d) :=
  match diag with
  | none => .ok fun _ => 1
  | some l =>
    let t := tile1 d l
    if t.length ≠ d then .error .valueError
    else if ∃ a ∈ t, a ≤ 0 then .error .valueError
    else .ok fun i => max (t.getD i 0) jitter

/-! ## Values and gradients -/

/-- `_safe_eval_log_prob`, svgd.py 143-148. -/
noncomputable def safeEval {d : ℕ} (f : LogProb d) (x : Pt d) : Flt :=
  match f x with
  | .ok v => v
  | .error _ => .num ⊥

/-- A `gnp.value_and_grad`: it may raise and may return nonfinite values. -/
abbrev ValGrad (d : ℕ) := LogProb d → Pt d → Py (Flt × (Fin d → Flt))

/-- `_safe_value_and_grad`, svgd.py 151-166. -/
noncomputable def safeValGrad {d : ℕ} (vg : ValGrad d) (f : LogProb d) (x : Pt d) : Flt × Pt d :=
  match vg f x with
  | .error _ => (.num ⊥, fun _ => 0)
  | .ok (v, g) =>
    match finite? v with
    | none => (v, fun _ => 0)
    | some _ => (v, fun c => (finite? (g c)).getD 0)

/-- `derivative_finite_diff`, shared.py 44-55, along coordinate `c`, as called
by `value_and_grad`, numpy_backend.py 319-326. -/
noncomputable def diff5 {d : ℕ} (f : LogProb d) (x : Pt d) (h : ℝ) (c : Fin d) : Py Flt := do
  let p2 ← f (Function.update x c (x c + 2 * h))
  let p1 ← f (Function.update x c (x c + h))
  let m1 ← f (Function.update x c (x c - h))
  let m2 ← f (Function.update x c (x c - 2 * h))
  return Flt.div (((p2.neg.add (.mul (.fin 8) p1)).sub (.mul (.fin 8) m1)).add m2) (.fin (12 * h))

/-- Run `f 0, …, f (d-1)` in turn; the first exception stops. -/
def forFin {α : Type} : (d : ℕ) → (Fin d → Py α) → Py (Fin d → α)
  | 0, _ => .ok Fin.elim0
  | d + 1, f => do
    let a ← f 0
    let r ← forFin d fun i => f i.succ
    return Fin.cons a r

/-- `value_and_grad` of the numpy backend, numpy_backend.py 293-327 (default
`h = 1e-5`); the log-density here always returns a scalar. -/
noncomputable def numpyValGrad {d : ℕ} (h : ℝ) : ValGrad d := fun f x => do
  let y ← f x
  let g ← forFin d (diff5 f x h)
  return (y, g)

/-! ## Kernel -/

/-- `sum(diffs * diffs, axis=2)`, svgd.py 211-212. -/
noncomputable def sqDist {n d : ℕ} (x : Pts n d) (i j : Fin n) : ℝ :=
  ∑ c, (x i c - x j c) * (x i c - x j c)

open Classical in
/-- `sq_dists[sq_dists > 0.0]`, svgd.py 216: row-major order. -/
noncomputable def posSq {n d : ℕ} (x : Pts n d) : List ℝ :=
  ((List.finRange n).flatMap fun i => (List.finRange n).map fun j => sqDist x i j).filter
    fun s => 0 < s

/-- Kernel settings. -/
structure KOpts where
  bandwidth : Option ℝ
  scale : ℝ
  bmin : Option ℝ
  jitter : ℝ

/-- The bandwidth before safeguards, svgd.py 215-230. -/
noncomputable def rawBandwidth {n d : ℕ} (o : KOpts) (x : Pts n d) : Py ℝ :=
  match o.bandwidth with
  | some b => .ok (o.scale * b)
  | none =>
    if posSq x = [] then .ok o.scale
    else do
      let med ← Data.percentile (posSq x) (50 / 100)
      let s := Real.log ((n : ℝ) + 1)
      let s' := if s ≤ 0 then 1 else s
      return o.scale * med / s'

/-- Safeguards, svgd.py 232-235. -/
noncomputable def guardBandwidth (o : KOpts) (h : ℝ) : ℝ :=
  let h' := if h ≤ o.jitter then max o.scale o.jitter else h
  match o.bmin with
  | none => h'
  | some m => max h' m

/-- `rbf_kernel_matrix`, svgd.py 169-238: the kernel matrix and the bandwidth. -/
noncomputable def rbf {n d : ℕ} (o : KOpts) (x : Pts n d) : Py ((Fin n → Fin n → ℝ) × ℝ) := do
  if o.scale ≤ 0 then .error .valueError
  if ∃ m ∈ o.bmin, m ≤ 0 then .error .valueError
  let r ← rawBandwidth o x
  let h := guardBandwidth o r
  return (fun i j => Real.exp (-sqDist x i j / h), h)

/-! ## One step -/

/-- Keyword arguments of `svgd_step`. -/
structure StepOpts extends KOpts where
  stepSize : ℝ
  temperature : ℝ
  precondDiag : Option (List ℝ)
  box : Option (List Bound)

open Classical in
/-- `tempered_log_prob`, svgd.py 301-310. -/
noncomputable def tempered {d : ℕ} (f : LogProb d) (b : Option (Pt d × Pt d)) (T : ℝ) :
    LogProb d := fun x =>
  match b with
  | none => do
    let v ← f x
    return Flt.div v (.fin T)
  | some (lo, hi) =>
    if (∃ c, x c < lo c) ∨ (∃ c, hi c < x c) then .ok (.num ⊥)
    else do
      let v ← f x
      return Flt.div v (.fin T)

/-- The diagnostics of a step, svgd.py 344-355. -/
structure StepInfo (n d : ℕ) where
  h : ℝ
  kernel : Fin n → Fin n → ℝ
  logp : Fin n → Flt
  score : Pts n d
  velocity : Pts n d
  precond : Pt d
  alive : Fin n → Bool
  aliveCount : ℕ

/-- Optional box. -/
noncomputable def normBox (box : Option (List Bound)) (d : ℕ) : Py (Option (Pt d × Pt d)) :=
  match box with
  | none => .ok none
  | some b => do return some (← normBounds b d)

/-- The velocity, svgd.py 318-336, from the kernel, the scores and the mask.
`k` is the masked kernel. -/
noncomputable def velocity {n d : ℕ} (x : Pts n d) (k : Fin n → Fin n → ℝ) (h : ℝ)
    (score : Pts n d) (alive : Fin n → Bool) (pre : Pt d) : Pts n d :=
  let m : ℝ := (max (Finset.univ.filter fun i => alive i).card 1 : ℕ)
  fun i c =>
    if alive i then
      ((∑ j, k i j * score j c) / m + 2 / h * (∑ j, k i j * (x i c - x j c)) / m) * pre c
    else 0

/-- 1 for an alive particle and 0 for the others. -/
def ind (b : Bool) : ℝ := if b then 1 else 0

/-- The update itself, svgd.py 312-356: `x` are the projected particles, `b` the
box, `(k0, h)` the kernel matrix and its bandwidth. -/
noncomputable def stepFrom {n d : ℕ} (vg : ValGrad d) (f : LogProb d) (o : StepOpts)
    (b : Option (Pt d × Pt d)) (pre : Pt d) (x : Pts n d) (k0 : Fin n → Fin n → ℝ) (h : ℝ) :
    Pts n d × StepInfo n d :=
  let vs := fun i => safeValGrad vg (tempered f b o.temperature) (x i)
  let alive : Fin n → Bool := fun i => (finite? (vs i).1).isSome
  let score : Pts n d := fun i c => if alive i then (vs i).2 c else 0
  let k := fun i j => k0 i j * ind (alive i) * ind (alive j)
  let v := velocity x k h score alive pre
  (fun i => project b fun c => x i c + o.stepSize * v i c,
    { h := h, kernel := k, logp := fun i => (vs i).1, score := score, velocity := v,
      precond := pre, alive := alive,
      aliveCount := (Finset.univ.filter fun i => alive i).card })

/-- `svgd_step`, svgd.py 241-356.  `stack` of an empty list raises. -/
noncomputable def step {n d : ℕ} (vg : ValGrad d) (f : LogProb d) (o : StepOpts) (x0 : Pts n d) :
    Py (Pts n d × StepInfo n d) := do
  if o.stepSize ≤ 0 then .error .valueError
  if o.temperature ≤ 0 then .error .valueError
  let b ← normBox o.box d
  let x : Pts n d := fun i => project b (x0 i)
  let pre ← precond o.precondDiag d o.jitter
  if n = 0 then .error .valueError
  let kh ← rbf o.toKOpts x
  return stepFrom vg f o b pre x kh.1 kh.2

/-! ## The driver -/

/-- `SVGDOptions`, svgd.py 40-56, without the printing options. -/
structure Opts extends KOpts where
  nSteps : ℤ
  stepSize : ℝ
  precondDiag : Option (List ℝ)
  t0 : ℝ
  t1 : ℝ
  schedule : String
  box : Option (List Bound)
  store : Bool

/-- `SVGDOptions()`, svgd.py 40-56: the default values. -/
noncomputable def Opts.default : Opts where
  bandwidth := none
  scale := 1
  bmin := none
  jitter := (10 : ℝ)⁻¹ ^ 12
  nSteps := 500
  stepSize := 1 / 100
  precondDiag := none
  t0 := 10
  t1 := 1
  schedule := "geometric"
  box := none
  store := false

/-- The `particles_initial` argument by number of axes. -/
inductive Init where
  | oneD (d : ℕ) (x : Pt d)
  | twoD (n d : ℕ) (x : Pts n d)
  | other

/-- A cloud with its size. -/
structure Cloud where
  n : ℕ
  d : ℕ
  pts : Pts n d

/-- `scale(rand(n, dim), [lower, upper])`, designs.py 105-123 and 178-199.
`qmc.scale` refuses bounds that are not increasing and samples outside the unit
cube; `u` are the draws, in `[0, 1)`. -/
noncomputable def randunif (n d : ℕ) (lo hi : Pt d) (u : Pts n d) : Py (Pts n d) :=
  open Classical in
  if ∃ c, hi c ≤ lo c then .error .valueError
  else .ok fun i c => u i c * (hi c - lo c) + lo c

/-- The dimension of the drawn cloud, svgd.py 402-408. -/
def boxDim (dim : Option ℕ) (box : List Bound) : Py ℕ :=
  match dim, box with
  | some dd, _ => .ok dd
  | none, [] => .error .indexError
  | none, .scalar _ :: _ => .error .valueError
  | none, .vec l :: _ => .ok l.length

/-- The initial cloud and the dimension to check it against, svgd.py 397-419.
`rnd n d` are the draws. -/
noncomputable def rawCloud (init : Option Init) (nParticles : Option ℤ) (dim : Option ℕ)
    (initBox : Option (List Bound)) (rnd : ∀ n d, Pts n d) : Py (Cloud × Option ℕ) :=
  match init, initBox, nParticles with
  | some (.oneD d x), _, _ => .ok (⟨1, d, fun _ => x⟩, dim)
  | some (.twoD n d x), _, _ => .ok (⟨n, d, x⟩, dim)
  | some .other, _, _ => .error .valueError
  | none, none, _ => .error .valueError
  | none, some _, none => .error .valueError
  | none, some box, some n =>
    if n ≤ 0 then .error .valueError
    else do
      let dd ← boxDim dim box
      let lh ← normBounds box dd
      let x ← randunif n.toNat dd lh.1 lh.2 (rnd n.toNat dd)
      return (⟨n.toNat, dd, x⟩, some dd)

/-- The initial cloud with its size checks, svgd.py 397-424. -/
noncomputable def initCloud (init : Option Init) (nParticles : Option ℤ) (dim : Option ℕ)
    (initBox : Option (List Bound)) (rnd : ∀ n d, Pts n d) : Py Cloud := do
  let cl ← rawCloud init nParticles dim initBox rnd
  if ∃ n ∈ nParticles, n ≠ (cl.1.n : ℤ) then .error .valueError
  if ∃ dd ∈ cl.2, dd ≠ cl.1.d then .error .valueError
  return cl.1

/-- One entry of the traces, svgd.py 454-457. -/
structure TraceRow (n : ℕ) where
  logp : Fin n → Flt
  h : ℝ
  temperature : ℝ
  velNorm : ℝ

/-- `mean(norm(velocity, axis=1))`, svgd.py 457. -/
noncomputable def meanNorm {n d : ℕ} (v : Pts n d) : ℝ :=
  (∑ i, Real.sqrt (∑ c, v i c ^ 2)) / n

/-- Options of step number `s`. -/
def Opts.stepOpts (o : Opts) (T : ℝ) : StepOpts where
  toKOpts := o.toKOpts
  stepSize := o.stepSize
  temperature := T
  precondDiag := o.precondDiag
  box := o.box

/-- The loop, svgd.py 432-459: `k` steps from step number `s`.  Returns the
particles, the traces and the clouds after each step. -/
noncomputable def loop {n d : ℕ} (vg : ValGrad d) (f : LogProb d) (o : Opts) :
    ℕ → ℕ → Pts n d → Py (Pts n d × List (TraceRow n) × List (Pts n d))
  | 0, _, x => .ok (x, [], [])
  | k + 1, s, x => do
    let T ← annealed s o.nSteps.toNat o.t0 o.t1 o.schedule
    let (x', info) ← step vg f (o.stepOpts T) x
    let (y, tr, hist) ← loop vg f o k (s + 1) x'
    return (y, ⟨info.logp, info.h, T, meanNorm info.velocity⟩ :: tr, x' :: hist)

/-- What `svgd_sample` returns. -/
structure Result (n d : ℕ) where
  particles : Pts n d
  trace : List (TraceRow n)
  logpFinal : Fin n → Flt
  history : Option (List (Pts n d))

/-- `svgd_sample` after its inputs are resolved, svgd.py 426-526. -/
noncomputable def run {n d : ℕ} (vg : ValGrad d) (f : LogProb d) (o : Opts) (x : Pts n d) :
    Py (Result n d) := do
  let (y, tr, hist) ← loop vg f o o.nSteps.toNat 0 x
  if n = 0 then .error .valueError
  return { particles := y, trace := tr, logpFinal := fun i => safeEval f (y i),
           history := if o.store then some (x :: hist) else none }

/-- `svgd_sample`, svgd.py 359-526. -/
noncomputable def sample (vg : ∀ d, ValGrad d) (f : ∀ d, LogProb d) (o : Opts)
    (init : Option Init) (nParticles : Option ℤ) (dim : Option ℕ)
    (initBox : Option (List Bound)) (rnd : ∀ n d, Pts n d) :
    Py (Σ c : Cloud, Result c.n c.d) := do
  if o.nSteps < 0 then .error .valueError
  let cl ← initCloud init nParticles dim initBox rnd
  let r ← run (vg cl.d) (f cl.d) o cl.pts
  return ⟨cl, r⟩

end Verif.SVGD
