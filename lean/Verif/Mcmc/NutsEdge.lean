import Verif.Mcmc.Posterior

/-!
# NUTS with nonfinite gradients

`Nuts.lean` takes gradients to be real vectors.  Here positions, momenta and gradients may be
NaN or infinite, as they are in the code when the numpy gradient is taken next to a side of
the box, where the log-density is `-inf`.  Modelled: the energy, one leapfrog step and a
transition up to the first leapfrog step; what follows a finite first step is an
arbitrary argument.
-/

set_option autoImplicit false

namespace Verif.NutsEdge

open Verif
open Verif.Nuts (finite?)

/-- A vector of floating-point numbers. -/
abbrev FPt (d : ℕ) := Fin d → Flt

/-- A finite point. -/
def lift {d : ℕ} (q : Fin d → ℝ) : FPt d := fun i => .fin (q i)

/-- `potential_and_grad`, nuts.py 412-421, at any point. -/
structure TargetF (d : ℕ) where
  U : FPt d → Flt
  g : FPt d → FPt d

/-- `kinetic`, nuts.py 424-425. -/
noncomputable def kineticF {d : ℕ} (p : FPt d) (im : Fin d → ℝ) : Flt :=
  (Flt.fin 0.5).mul (Flt.sum fun i => ((p i).mul (p i)).mul (.fin (im i)))

/-- Half step of the momentum, nuts.py 436. -/
noncomputable def halfF {d : ℕ} (p g : FPt d) (eps : ℝ) : FPt d := fun i =>
  (p i).sub ((Flt.fin (0.5 * eps)).mul (g i))

/-- `leapfrog`, nuts.py 428-440: the new position and momentum. -/
noncomputable def leapfrogF {d : ℕ} (tg : TargetF d) (q p g : FPt d) (eps : ℝ) (im : Fin d → ℝ) :
    FPt d × FPt d :=
  let q' : FPt d := fun i => (q i).add ((Flt.fin eps).mul ((halfF p g eps i).mul (.fin (im i))))
  (q', halfF (halfF p g eps) (tg.g q') eps)

/-- Result of a transition. -/
structure OutF (d : ℕ) where
  q : FPt d
  accept : ℝ
  nLeap : ℕ
  depth : ℕ
  div : Bool

/-- `nuts_transition`, nuts.py 651-764, with the first call of `build_tree`, nuts.py
520-525.  `v` is the first direction; `rest` is what is returned when the first leapfrog
step has a finite energy. -/
noncomputable def transitionF {d : ℕ} (tg : TargetF d) (im : Fin d → ℝ) (eps : ℝ) (maxDepth : ℕ)
    (noise : Fin d → ℝ) (v : Bool) (rest : OutF d) (q0 : FPt d) : OutF d :=
  let p0 := lift (Nuts.momentum im noise)
  match finite? ((tg.U q0).add (kineticF p0 im)) with
  | none => { q := q0, accept := 0, nLeap := 0, depth := 0, div := true }
  | some _ =>
    if maxDepth = 0 then { q := q0, accept := 0, nLeap := 0, depth := 0, div := false }
    else
      let z := leapfrogF tg q0 p0 (tg.g q0) (if v then eps else -eps) im
      match finite? ((tg.U z.1).add (kineticF z.2 im)) with
      | none => { q := q0, accept := 0, nLeap := 1, depth := 1, div := true }
      | some _ => rest

/-- What the code sees of the target with the numpy backend: at finite points the value and
the finite differences of `nlp`, nuts.py 419-421 and numpy_backend.py 293-327 with difference
step `h`. -/
def NumpyTarget {d : ℕ} (h : ℝ) (nlp : (Fin d → ℝ) → Py Flt) (tg : TargetF d) : Prop :=
  ∀ q y g, SVGD.numpyValGrad h nlp q = .ok (y, g) → tg.U (lift q) = y ∧ tg.g (lift q) = g

/-- `lambda q: -log_prob(q)`, nuts.py 419. -/
noncomputable def nlp {d : ℕ} (lp : (Fin d → ℝ) → Py Flt) : (Fin d → ℝ) → Py Flt := fun q => do
  return (← lp q).neg

/-- Settings and draws of one transition. -/
structure MoveF (d : ℕ) where
  im : Fin d → ℝ
  eps : ℝ
  maxDepth : ℕ
  noise : Fin d → ℝ
  v : Bool
  rest : OutF d

/-- Successive transitions of one chain (warm-up and sampling, nuts.py 953-1100): the
positions after each, with adapted steps and masses. -/
noncomputable def chainF {d : ℕ} (tg : TargetF d) : List (MoveF d) → FPt d → List (OutF d)
  | [], _ => []
  | mv :: l, q =>
    let out := transitionF tg mv.im mv.eps mv.maxDepth mv.noise mv.v mv.rest q
    out :: chainF tg l out.q

end Verif.NutsEdge
