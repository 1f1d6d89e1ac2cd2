import Verif.Mcmc.MH
import Mathlib.LinearAlgebra.Matrix.PosDef
import Mathlib.LinearAlgebra.Matrix.NonsingularInverse
import Mathlib.Analysis.SpecialFunctions.Log.Basic

/-!
# Model of the remaining methods of `MetropolisHastings`

`/repo/gpmp/mcmc/mh.py`: proposal densities and draws, initial proposal parameters, modes, pooled
samples, covariances of whole chains and the blocks of the Kolmogorov-Smirnov comparisons.  Exact
arithmetic.
-/

set_option autoImplicit false

namespace Verif.MH

open Verif

variable {d m : ℕ} {W : Type}

/-! ## Proposals -/

/-- `gnp.multivariate_normal.logpdf(x, mean, cov)` of a positive definite matrix; other matrices are
refused by both libraries (the one-dimensional case of numpy, which gives NaN instead, is not
represented). -/
noncomputable def gaussLogpdf (x mean : Pt d) (cov : Matrix (Fin d) (Fin d) ℝ) : Py Flt :=
  open Classical in
  if cov.PosDef then
    .ok (.fin (-(1 / 2) * (d * Real.log (2 * Real.pi) + Real.log cov.det +
      dotProduct (x - mean) (cov⁻¹.mulVec (x - mean)))))
  else .error .valueError

/-- `_log_prop(x, x_new, chain)`, mh.py 178-186. -/
noncomputable def gaussLogProp (p : PropPar d) (x xNew : Pt d) : Py Flt :=
  match p.cov with
  | none => .error .valueError
  | some M => gaussLogpdf xNew x M

/-- `default_prop_rnd`, mh.py 298-304, with the default jitter and number of attempts of
`sample_multivariate_normal_with_jitter`; a matrix of NaN is refused at every attempt. -/
noncomputable def defaultProp (rvs : Matrix (Fin d) (Fin d) ℝ → ℕ → Py (Pt d)) (p : PropPar d)
    (x : Pt d) : Py (Pt d) :=
  match p.cov with
  | none => .error .runtimeError
  | some M => (sampleJitter rvs M 1e-8 5).map fun s => x + s

/-! ## Initial parameters and modes -/

/-- An array of numbers with its shape. -/
structure PArr where
  shape : List ℕ
  val : List ℕ → ℝ

/-- `a[i]` along the first axis. -/
def PArr.get (a : PArr) (i : ℕ) : PArr := ⟨a.shape.tail, fun k => a.val (i :: k)⟩

/-- `_initialize_proposal_distribution_params`, mh.py 202-212: the array of each chain. -/
def initParams (m d : ℕ) (p : PArr) : Py (Fin m → PArr) :=
  if p.shape = [d] then .ok fun _ => p
  else if p.shape = [d, d] then .ok fun _ => p
  else if p.shape.length = 3 ∧ p.shape.head? = some m then .ok fun i => p.get i
  else .error .valueError

/-- `_get_cov_parameter` on the array of one chain, mh.py 188-200; `isscalar` as in numpy. The shape
of the result. -/
def covShape (p : PArr) : Py (List ℕ) :=
  match p.shape with
  | [n] => .ok [n, n]
  | [r, c] => .ok [r, c]
  | _ => .error .valueError

/-- `set_mode`, mh.py 291-296: the mode and the adaptation factor. -/
def setMode (o : Opts d) (s : String × Option ℝ) (mode : String) : String × Option ℝ :=
  (mode, if mode = "burnin" then some o.hBurnin else if mode = "sampling_adaptation" then some o.hSampling
    else s.2)

/-- `_validate_scheduler_args`, mh.py 265-267. -/
def validateSteps (nTotal burnin : ℤ) : Py Unit := if nTotal < burnin then .error .valueError else .ok ()

/-! ## Whole chains -/

/-- `_get_pooled_samples`, mh.py 214-223: the rows of `x[i:i+n_pool, burnin:]` for each group;
`ready` tells whether the sampler has run. All allocated rows are read. -/
def pooledSamples (ready : Bool) (s : St d m) (burnin nPool : ℕ) : Py (List (List (Pt d))) :=
  if ready = false then .error .valueError
  else if nPool = 0 then .error .zeroDivisionError
  else if m % nPool ≠ 0 then .error .valueError
  else .ok ((List.range (m / nPool)).map fun g => groupRows s burnin s.size (g * nPool) nPool)

/-- `compute_empirical_covariance_whole_chain`, mh.py 1197-1212: the list of covariances, of one entry
when all chains are pooled; `none` is a matrix of NaN. -/
noncomputable def wholeCov (ready : Bool) (s : St d m) (burnin : Option ℕ) (pooled : Bool) (nPool : ℕ) :
    Py (List (Option (Matrix (Fin d) (Fin d) ℝ))) :=
  if ready = false then .error .valueError
  else if pooled then .ok [covRows (groupRows s (burnin.getD s.burnin) s.size 0 m)]
  else (pooledSamples ready s (burnin.getD s.burnin) nPool).map fun l => l.map covRows

/-- `recompute_all_chains_full_covariance`, mh.py 1181-1195. -/
noncomputable def recompute (ready : Bool) (s : St d m) (burnin : Option ℕ) (scaling : Option ℝ) (eps : ℝ) :
    Py (St d m) :=
  if ready = false then .error .valueError
  else .ok { s with
    params := fun c => haarioCov (scaling.getD (2.38 ^ 2 / d)) eps
      (covRows ((List.range' (burnin.getD s.burnin) (s.size - burnin.getD s.burnin)).map (s.x c))) }

/-- The blocks of `ks_statistics`, mh.py 902-923: from the end of the allocated rows. -/
def ksBlocks (s : St d m) (nBlocks size : ℕ) : Py (List (List (Pt d))) :=
  if s.size < nBlocks * size then .error .valueError
  else .ok ((List.finRange m).flatMap fun c => (List.range nBlocks).map fun b =>
    (List.range' (s.size - nBlocks * size + b * size) size).map (s.x c))

/-- One matrix of `ks_statistics`, mh.py 925-950: `test` is the comparison of two samples, made for
`i < j` and stored on both sides of a zero diagonal. -/
def ksMatrix (test : List ℝ → List ℝ → ℝ) (blocks : List (List (Pt d))) (k : Fin d) (i j : ℕ) : ℝ :=
  let col := fun i => (blocks.getD i []).map fun p => p k
  if i < j then test (col i) (col j) else if j < i then test (col j) (col i) else 0

end Verif.MH
