import Verif.Py
import Verif.Backend.Arrays
import Mathlib.Data.Real.Basic

/-!
# Where random numbers come from

`set_seed`, `rand`, `randn`, `choice`, `permutation`, `multivariate_normal.rvs` of both backends
(`/repo/gpmp/num/numpy_backend.py` 473-528, `/repo/gpmp/num/torch_backend.py` 894-1025) and the callers
in `dataloader.py`, `core/sample_paths.py`, `mcmc/*` and `misc/designs.py`.  Generators are arbitrary:
a state for every seed and a transition for every request.  A program is a tree: what it asks next may
depend on all numbers drawn before.
-/

set_option autoImplicit false

namespace Verif.Random

open Verif

/-- A kind of generator: `seed s` is the state after seeding, `next` answers a request. -/
structure Gen (σ Req V : Type) where
  seed : ℤ → σ
  next : σ → Req → V × σ

/-- The generators alive in a process. -/
inductive Src where
  /-- `_np_rng` or `_torch_gen` of the backend -/
  | gnp
  /-- the legacy generator of `numpy.random`, also used by scipy without `random_state` -/
  | npGlobal
  /-- the default generator of torch, used by `torch.distributions` -/
  | torchGlobal
  /-- the default argument `rng=default_rng()` of `SMC.__init__`, made once, smc.py 535 -/
  | smcDefault
  /-- a generator made by the caller -/
  | own (k : ℕ)
  deriving DecidableEq

/-- The two backends. -/
inductive Lib where
  | numpy
  | torch
  deriving DecidableEq

/-- The functions of gpmp that draw numbers. -/
inductive Fn where
  | rand
  | randn
  | choice
  | permutation
  | mvnRvs
  | designRand
  /-- draws of an `SMC` object; `none`: made without `rng` -/
  | smc (rng : Option ℕ)
  deriving DecidableEq

/-- The generator used by each function: `rand`, `randn`, `choice`, `permutation` of numpy_backend.py
481-499 and torch_backend.py 906-955 use the generator of the backend; `multivariate_normal.rvs` uses
scipy without `random_state` (numpy_backend.py 513-528) or `torch.distributions` (torch_backend.py
1007-1025); designs.py 196, 228 use `numpy.random`; smc.py 450-467 use the generator of the object. -/
def source (lib : Lib) : Fn → Src
  | .rand => .gnp
  | .randn => .gnp
  | .choice => .gnp
  | .permutation => .gnp
  | .mvnRvs => match lib with | .numpy => .npGlobal | .torch => .torchGlobal
  | .designRand => .npGlobal
  | .smc none => .smcDefault
  | .smc (some k) => .own k

/-- Programs that draw numbers. -/
inductive Prog (Req V A : Type) where
  | stop (a : A)
  | setSeed (s : ℤ) (k : Prog Req V A)
  | draw (f : Fn) (r : Req) (k : V → Prog Req V A)

/-- The generators, each with its state. -/
abbrev World (σ : Type) := Src → σ

/-- Running a program; `set_seed` replaces the generator of the backend, numpy_backend.py 476-479,
torch_backend.py 899-903. -/
def Prog.run {σ Req V A : Type} (lib : Lib) (G : Gen σ Req V) : Prog Req V A → World σ → A × World σ
  | .stop a, w => (a, w)
  | .setSeed s k, w => k.run lib G (Function.update w .gnp (G.seed s))
  | .draw f r k, w =>
    let o := G.next (w (source lib f)) r
    (k o.1).run lib G (Function.update w (source lib f) o.2)

/-- One program after another. -/
def Prog.bind {Req V A B : Type} : Prog Req V A → (A → Prog Req V B) → Prog Req V B
  | .stop a, f => f a
  | .setSeed s k, f => .setSeed s (k.bind f)
  | .draw g r k, f => .draw g r fun v => (k v).bind f

/-! ## The callers -/

/-- `if seed is not None: gnp.set_seed(seed)`. -/
def maybeSeed {Req V A : Type} (seed : Option ℤ) (p : Prog Req V A) : Prog Req V A :=
  match seed with
  | none => p
  | some s => .setSeed s p

/-- The draws of `Dataset.split` and `Dataset.k_fold_indices`, dataloader.py 162-166, 184-187: `perm n`
is the request for a permutation. -/
def shuffleProg {Req V : Type} (perm : ℕ → Req) (seed : Option ℤ) (n : ℕ) : Prog Req V V :=
  maybeSeed seed (.draw .permutation (perm n) .stop)

/-- The draws of `repeated_k_fold_indices`, dataloader.py 212-217, from repetition `r` on. -/
def repeatedFrom {Req V : Type} (perm : ℕ → Req) (seed : Option ℤ) (n : ℕ) :
    ℕ → ℕ → Prog Req V (List V)
  | _, 0 => .stop []
  | r, k + 1 => (shuffleProg perm (seed.map (· + (r : ℤ))) n).bind fun v =>
      (repeatedFrom perm seed n (r + 1) k).bind fun l => .stop (v :: l)

/-- One pass of `DataLoader.__iter__`, dataloader.py 391-395; `none` stands for the identity. -/
def passProg {Req V : Type} (perm : ℕ → Req) (seed : Option ℤ) (epoch : ℤ) (shuffle : Bool) (n : ℕ) :
    Prog Req V (Option V) :=
  maybeSeed (seed.map (· + epoch))
    (if shuffle then .draw .permutation (perm n) fun v => .stop (some v) else .stop none)

/-- `sample_paths`, sample_paths.py 62: one request for normal numbers; `make` builds the paths. -/
def pathsProg {Req V A : Type} (normals : Req) (make : V → A) : Prog Req V A :=
  .draw .randn normals fun v => .stop (make v)

/-- `mhstep`, mh.py 395-410 with `default_prop_rnd`, 298-304: a proposal from `multivariate_normal.rvs` (one attempt) and a
uniform number; `next` is the state afterwards. -/
def mhStepProg {Req V X : Type} (gauss unif : Req) (next : X → V → V → X) (x : X) : Prog Req V X :=
  .draw .mvnRvs gauss fun g => .draw .rand unif fun u => .stop (next x g u)

/-- Steps of Metropolis-Hastings one after the other. -/
def mhProg {Req V X : Type} (gauss unif : Req) (next : X → V → V → X) : ℕ → X → Prog Req V X
  | 0, x => .stop x
  | n + 1, x => (mhStepProg gauss unif next x).bind (mhProg gauss unif next n)

/-- `nuts_sample(…, seed)`, nuts.py 858-860: `set_seed`, then draws of `randn` and `rand` only
(nuts.py 467, 621, 660, 667, 687, 749), in a tree that depends on the numbers. -/
def nutsProg {Req V A : Type} (seed : Option ℤ) (body : Prog Req V A) : Prog Req V A := maybeSeed seed body

/-- Draws of one `SMC` object, smc.py 437-467, one request after the other. -/
def smcProg {Req V : Type} (rng : Option ℕ) : List Req → Prog Req V (List V)
  | [] => .stop []
  | r :: rs => .draw (.smc rng) r fun v => (smcProg rng rs).bind fun l => .stop (v :: l)

end Verif.Random
