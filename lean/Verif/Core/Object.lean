import Verif.Core.Model
import Verif.Core.Validate
import Verif.Kernel.Model

/-!
# The `Model` object: methods on array objects

`core/model.py` and the places where `kriging.py`, `loo.py`, `likelihood.py` and
`sample_paths.py` call `model.mean` and `model.covariance`.  An array of points is a Python
object: besides its values it has an identity, which is what `maternp_covariance` tests
(`y is x`), and a storage kind and dtype, which decide whether `gnp.asarray` returns the same
object.  Linear algebra is that of `Verif.Core.Model`.

Simplifications: the user's callables are total functions of the points and parameters, and
applying the covariance to `None` parameters raises `TypeError`; conversion between dtypes
does not change values; `covariance(x, x, …)` and `covariance(x, None, …)` agree for the
prior variances of the null-space route.
-/

set_option autoImplicit false

namespace Verif.Core.Obj

open Verif Verif.Data Matrix

/-- The dtype of an array relative to the working floating dtype. -/
inductive DT where
  | working
  | otherFloat
  | int
  deriving DecidableEq

/-- numpy array or torch tensor. -/
inductive Store where
  | nd (t : DT)
  | tensor (t : DT)
  deriving DecidableEq

/-- An array of `n` points of dimension `d`. -/
structure Pts (n d : ℕ) where
  /-- object identity -/
  id : ℕ
  store : Store
  val : Matrix (Fin n) (Fin d) ℝ

/-- Does `gnp.asarray(x)` return `x` itself?  numpy_backend.py 174-188 (`astype(copy=False)`,
integers as they are), torch_backend.py 217-242 (a tensor of the working dtype or of integers;
a numpy array always gives a new tensor object). -/
def keeps : Backend → Store → Bool
  | .numpy, .nd .working => true
  | .numpy, .nd .int => true
  | .torch, .tensor .working => true
  | .torch, .tensor .int => true
  | _, _ => false

/-- `gnp.asarray` of an array of points; `fresh` is the identity of a new object. -/
def asarray {n d : ℕ} (be : Backend) (fresh : ℕ) (x : Pts n d) : Pts n d :=
  if keeps be x.store then x
  else ⟨fresh, match be with
    | .numpy => .nd (if x.store = .nd .int ∨ x.store = .tensor .int then .int else .working)
    | .torch => .tensor (if x.store = .nd .int ∨ x.store = .tensor .int then .int else .working),
    x.val⟩

/-- A `Model`, model.py 136-166: parameters of type `Θ` (covariance) and `M` (mean), `q` columns
of the mean callable. -/
structure GP (d q : ℕ) (Θ M : Type) where
  meantype : String
  /-- `mean(x, meanparam)` -/
  mean : {n : ℕ} → Pts n d → Option M → Mat n q
  meanparam : Option M
  covparam : Option Θ
  /-- `covariance(x, y, covparam)` -/
  covMat : {n m : ℕ} → Pts n d → Pts m d → Θ → Mat n m
  /-- `covariance(x, None, covparam, pairwise=True)` -/
  covDiag : {n : ℕ} → Pts n d → Θ → Fin n → ℝ
  /-- `covariance(x, None, covparam, pairwise=False)` -/
  covFull : {n : ℕ} → Pts n d → Θ → Mat n n

/-- The observations as passed: `(n,)`, `(n, 1)`, or a shape that is refused. -/
inductive ZArg (n : ℕ) where
  | vec (z : Fin n → ℝ)
  | col (z : Fin n → ℝ)
  | bad

variable {d q n m r : ℕ} {Θ M : Type}

/-- `zi` after `ensure_shapes_and_type`, core/utils.py 58-69. -/
def ZArg.flat : ZArg n → Py (Fin n → ℝ)
  | .vec z => .ok z
  | .col z => .ok z
  | .bad => .error .assertionError

/-- The arrays the model evaluates to, kriging.py 59-60, 95-102, 193-196, 222-226. -/
def GP.arrays (g : GP d q Θ M) (θ : Θ) (xi : Pts n d) (xt : Pts m d) : Arrays n m q where
  Kii := g.covMat xi xi θ
  Kit := g.covMat xi xt θ
  vt := g.covDiag xt θ
  Ktt := g.covFull xt θ
  Pi := g.mean xi g.meanparam
  Pt := g.mean xt g.meanparam

/-- `mean(x, meanparam).reshape(-1)` for a mean with one column (as documented for a
parameterised mean); with `q ≠ 1` columns the sizes do not fit (`ValueError`). -/
def flatCol (P : Mat n q) : Py (Fin n → ℝ) :=
  if h : q = 1 then .ok fun i => P i ⟨0, by omega⟩ else .error .valueError

/-- `covparam`, or the error of the covariance callable applied to `None`. -/
def GP.theta (g : GP d q Θ M) : Py Θ :=
  match g.covparam with
  | some θ => .ok θ
  | none => .error .typeError

/-- What `select_predictor` and `loo` find in `model.meantype` and `model.meanparam`,
kriging.py 138-162, loo.py 47-59; `(mi, mt)` are the mean values of a parameterised mean. -/
def GP.meanType (g : GP d q Θ M) (xi : Pts n d) (xt : Pts m d) : Py (MeanType n m) :=
  if g.meantype = "zero" then .ok .zero
  else if g.meantype = "linear_predictor" then .ok .linearPredictor
  else if g.meantype = "parameterized" then
    match g.meanparam with
    | none => .ok .parameterizedNone
    | some mp => do
      let mi ← flatCol (g.mean xi (some mp))
      let mt ← flatCol (g.mean xt (some mp))
      return .parameterized mi mt
  else .ok .invalid

/-- `select_predictor` refuses an unknown mean type and a parameterised mean without
parameters, kriging.py 146-150, 158-162. -/
def GP.refuses (g : GP d q Θ M) : Bool :=
  if g.meantype = "zero" ∨ g.meantype = "linear_predictor" then false
  else if g.meantype = "parameterized" then g.meanparam.isNone
  else true

/-- `Model.kriging_predictor_with_zero_mean`, model.py 196-198. -/
noncomputable def krigingPredictorZero (la : LA) (g : GP d q Θ M) (xi : Pts n d) (xt : Pts m d)
    (rt : ℤ) : Py (Mat n m × PostVar m) := do
  let θ ← g.theta
  krigingZeroMean la (g.arrays θ xi xt) rt

/-- `Model.kriging_predictor`, model.py 200-222. -/
noncomputable def krigingPredictor (la : LA) (g : GP d q Θ M) (xi : Pts (q + r) d) (xt : Pts m d)
    (rt : ℤ) : Py (Mat (q + r) m × PostVar m) := do
  let θ ← g.theta
  krigingUniversal la (g.arrays θ xi xt) rt

/-- `Model.predict`, model.py 227-307: `f` is the first unused identity; the order of
conversions is that of core/utils.py 73-79. -/
noncomputable def predict (be : Backend) (la : LA) (f : ℕ) (g : GP d q Θ M) (xi : Pts (q + r) d)
    (zi : ZArg (q + r)) (xt : Pts m d) (zeroNeg convertIn : Bool) :
    Py ((Fin m → ℝ) × (Fin m → ℝ) × Mat (q + r) m) := do
  let z ← zi.flat
  let xi' := if convertIn then asarray be f xi else xi
  let xt' := if convertIn then asarray be (f + 1) xt else xt
  if g.refuses then .error .valueError
  else do
    let θ ← g.theta
    let mt ← g.meanType xi' xt'
    Core.predict la mt (g.arrays θ xi' xt') z zeroNeg

/-- `Model.loo`, model.py 309-343 and loo.py 21-59. -/
noncomputable def loo (be : Backend) (la : LA) (f : ℕ) (g : GP d q Θ M) (xi : Pts (q + r) d)
    (zi : ZArg (q + r)) (convertIn : Bool) :
    Py ((Fin (q + r) → ℝ) × (Fin (q + r) → ℝ) × (Fin (q + r) → ℝ)) := do
  let z ← zi.flat
  let xi' := if convertIn then asarray be f xi else xi
  if g.meantype ≠ "zero" ∧ g.meantype ≠ "parameterized" ∧ g.meantype ≠ "linear_predictor" then
    .error .valueError
  else do
    let mt ← g.meanType xi' xi'
    let θ ← g.theta
    Core.loo la mt (g.covMat xi' xi' θ) (g.mean xi' g.meanparam) z

/-- `Model.negative_log_likelihood_zero_mean`, model.py 348-371: the arrays are used as they
are, the covariance parameters are those passed. -/
noncomputable def nllZero (be : Backend) (la : LA) (g : GP d q Θ M) (θ : Θ) (xi : Pts n d)
    (z : Fin n → ℝ) : Py Crit :=
  nllZeroMean be la (g.covMat xi xi θ) z

/-- `Model.negative_log_likelihood`, model.py 373-403. -/
noncomputable def nllMean (be : Backend) (la : LA) (g : GP d q Θ M) (mp : M) (θ : Θ)
    (xi : Pts n d) (z : Fin n → ℝ) : Py Crit := do
  let mi ← flatCol (g.mean xi (some mp))
  nll be la (g.covMat xi xi θ) mi z

/-- `Model.negative_log_restricted_likelihood`, model.py 405-427. -/
noncomputable def nlrl (be : Backend) (la : LA) (g : GP d q Θ M) (θ : Θ) (xi : Pts (q + r) d)
    (z : Fin (q + r) → ℝ) : Py Crit :=
  reml be la (g.covMat xi xi θ) (g.mean xi g.meanparam) z

/-- `Model.norm_k_sqrd_with_zero_mean`, model.py 429-450. -/
noncomputable def normZero (la : LA) (g : GP d q Θ M) (xi : Pts n d) (z : Fin n → ℝ) (θ : Θ) :
    Py ℝ :=
  normKSqrdZeroMean la (g.covMat xi xi θ) z

/-- `Model.norm_k_sqrd`, model.py 480-504. -/
noncomputable def norm (la : LA) (g : GP d q Θ M) (xi : Pts (q + r) d) (z : Fin (q + r) → ℝ)
    (θ : Θ) : Py ℝ :=
  normKSqrd la (g.covMat xi xi θ) (g.mean xi g.meanparam) z

/-- `Model.sample_paths(..., method="chol")`, model.py 576-602: `E` are the normal draws. -/
noncomputable def samplePaths {np : ℕ} (be : Backend) (la : LA) (f : ℕ) (g : GP d q Θ M)
    (xt : Pts n d) (E : Mat n np) : Py (Mat n np) := do
  let xt' := asarray be f xt
  let θ ← g.theta
  samplePathsChol la (g.covMat xt' xt' θ) E

/-- `maternp_covariance` on array objects, matern.py 124-141 (`y is x`). -/
noncomputable def maternMat (k : ℝ → ℝ) (eps : ℝ) (x : Pts n d) (y : Pts m d)
    (θ : Fin (d + 1) → ℝ) : Mat n m :=
  if h : n = m ∧ x.id = y.id then
    (Kernel.covII k eps θ x.val).submatrix id (Fin.cast h.1.symm)
  else Kernel.covIT k θ x.val y.val

/-- A model with a Matérn covariance (`covariance = maternp_covariance(x, y, p, …)`, with
`k` the kernel of order `p`). -/
noncomputable def matern (k : ℝ → ℝ) (eps : ℝ) (meantype : String)
    (mean : {n : ℕ} → Pts n d → Option M → Mat n q) (mp : Option M)
    (θ : Option (Fin (d + 1) → ℝ)) : GP d q (Fin (d + 1) → ℝ) M where
  meantype := meantype
  mean := mean
  meanparam := mp
  covparam := θ
  covMat := fun x y θ => maternMat k eps x y θ
  covDiag := fun x θ => Kernel.covPairwise k θ x.val .none
  covFull := fun x θ => Kernel.cov k eps θ x.val .none

end Verif.Core.Obj
