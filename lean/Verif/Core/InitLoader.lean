import Verif.Core.Init
import Verif.Data.Stats

/-!
# Model of the data source of `kernel/init.py` and of its loader branches

A batch is a list of points with their observations (data sets check that there are as many
of both).  `k` is the covariance function at unit variance and at the guessed length scales.
Iteration over an infinite loader does not end and is not represented.
-/

set_option autoImplicit false

namespace Verif.Core

open Verif Verif.Data Matrix

/-- `prepare_data`, kernel/utils.py 24-41; `true` is `"arrays"`; `n, d = xi_.shape` needs two
axes. -/
def prepareData {X Z L : Type} (ndim : X → ℕ) (xi : Option X) (zi : Option Z) (loader : Option L) :
    Py Bool :=
  let arrays := xi.isSome && zi.isSome
  let ld := loader.isSome
  if arrays && ld then .error .valueError
  else if !arrays && !ld then .error .valueError
  else if arrays then
    match xi with
    | some x => if ndim x = 2 then .ok true else .error .valueError
    | none => .ok true
  else .ok false

/-- `_dataloader_x_delta`, init.py 15-17, for one column of the shards. -/
noncomputable def loaderDelta (shards : List (List ℝ)) : Py ℝ := do
  let hi ← reduceMax shards
  let lo ← reduceMin shards
  return hi - lo

open Classical in
/-- One entry `-log(rho_j)` of the guess, init.py 29-30, 40-41, 59-60 and 21: `+inf` for a
constant column. -/
noncomputable def logInvRho (d : ℕ) (delta : ℝ) : EReal :=
  let rho := Kernel.rhoFactor d * delta
  if 0 < rho then ((-Real.log rho : ℝ) : EReal) else ⊤

/-- A batch of points with values. -/
structure IBatch (X : Type) where
  n : ℕ
  x : Fin n → X
  z : Fin n → ℝ

/-- `model.covariance(x, x, covparam)` of a batch. -/
def IBatch.gram {X : Type} (k : X → X → ℝ) (b : IBatch X) : Mat b.n b.n :=
  Matrix.of fun i j => k (b.x i) (b.x j)

/-- The loop of `DataLoader.reduce_mean`, dataloader.py 500-511, for a function which may
raise, with several results. -/
noncomputable def meanGo {B : Type} {s : ℕ} (size : B → ℕ) (f : B → Py (Fin s → ℝ)) :
    Option (Fin s → ℝ) → ℕ → List B → Py (Option (Fin s → ℝ) × ℕ)
  | t, n, [] => .ok (t, n)
  | t, n, b :: bs =>
    match f b with
    | .error e => .error e
    | .ok v =>
      let w := fun i => v i * size b
      meanGo size f (some (match t with | none => 0 + w | some t => t + w)) (n + size b) bs

/-- `DataLoader.reduce_mean`, dataloader.py 484-513: `None / 0` raises when there is no batch;
`none` stands for NaN, when all batches are empty. -/
noncomputable def reduceMeanPy {B : Type} {s : ℕ} (size : B → ℕ) (f : B → Py (Fin s → ℝ))
    (bs : List B) : Py (Option (Fin s → ℝ)) := do
  match ← meanGo size f none 0 bs with
  | (none, _) => .error .typeError
  | (some t, n) => return if n = 0 then none else some fun i => t i / n

/-- `sigma2_GLS` of the zero-mean guess with a loader, init.py 31-32. -/
noncomputable def initZeroLoader {X : Type} (la : LA) (k : X → X → ℝ) (bs : List (IBatch X)) :
    Py (Option (Fin 1 → ℝ)) :=
  reduceMeanPy IBatch.n (fun b => do
    let v ← initSigma2Zero la (b.gram k) b.z
    return fun _ => v) bs

/-- `per_batch_gls`, init.py 47-49: the quadratic form has no axis for observations of one axis
and one axis for a column, and the mean has none; `gnp.stack` wants equal shapes. -/
noncomputable def perBatchGls {X : Type} (be : Backend) (la : LA) (k : X → X → ℝ) (column : Bool)
    (b : IBatch X) : Py (Fin 2 → ℝ) := do
  let (zKz, k1, kz) ← kInverses la (b.gram k) b.z
  if column then .error (match be with | .numpy => .valueError | .torch => .runtimeError)
  else return ![(∑ i, kz i) / ∑ i, k1 i, zKz / b.n]

/-- `mean_GLS, sigma2_GLS` of the constant-mean guess with a loader, init.py 46-51. -/
noncomputable def initConstantLoader {X : Type} (be : Backend) (la : LA) (k : X → X → ℝ)
    (column : Bool) (bs : List (IBatch X)) : Py (Option (Fin 2 → ℝ)) :=
  reduceMeanPy IBatch.n (perBatchGls be la k column) bs

/-- A batch for a linear predictor with `q` functions and at least `q` points; smaller batches
are not represented. -/
structure LBatch (X : Type) (q : ℕ) where
  r : ℕ
  x : Fin (q + r) → X
  z : Fin (q + r) → ℝ

/-- The number of points. -/
def LBatch.n {X : Type} {q : ℕ} (b : LBatch X q) : ℕ := q + b.r

/-- The covariance of a batch. -/
def LBatch.gram {X : Type} {q : ℕ} (k : X → X → ℝ) (b : LBatch X q) : Mat (q + b.r) (q + b.r) :=
  Matrix.of fun i j => k (b.x i) (b.x j)

/-- `model.mean(x, meanparam)` of a batch. -/
def LBatch.basis {X : Type} {q : ℕ} (h : X → Fin q → ℝ) (b : LBatch X q) : Mat (q + b.r) q :=
  Matrix.of fun i j => h (b.x i) j

/-- `sigma2_GLS` of the general guess with a loader, init.py 63-65. -/
noncomputable def initLinearLoader {X : Type} {q : ℕ} (la : LA) (k : X → X → ℝ) (h : X → Fin q → ℝ)
    (bs : List (LBatch X q)) : Py (Option (Fin 1 → ℝ)) :=
  reduceMeanPy LBatch.n (fun b => do
    let v ← normKSqrd la (b.gram k) (b.basis h) b.z
    return fun _ => v / b.n) bs

open Classical in
/-- `_covparam_from_sigma2_and_rho`, init.py 20-21: the logarithm of the variance first (`-inf`
of zero, NaN of a negative number), then the entries for the length scales. -/
noncomputable def covparamOf (sigma2 : ℝ) (rest : List EReal) : List Flt :=
  (if 0 < sigma2 then Flt.fin (Real.log sigma2) else if sigma2 = 0 then .num ⊥ else .nan) ::
    rest.map Flt.num

/-! ## `Dataset._reduce_quantile_approx` -/

/-- `_reduce_quantile_approx`, dataloader.py 284-296, for one column; `draw i n m` are the indices
drawn for the shard number `i` by `gnp.choice(n, m, replace=False)`. -/
noncomputable def quantileApprox (draw : ℕ → ℕ → ℕ → List ℕ) (shards : List (List ℝ)) (q : ℝ)
    (sampleSize : ℕ) : Py ℝ :=
  if ¬ (0 ≤ q ∧ q ≤ 1) then .error .valueError
  else do
    let sub := shards.mapIdx fun i data =>
      (draw i data.length (min data.length (sampleSize / shards.length))).map fun j => data.getD j 0
    let sample ← gnpConcat sub
    percentile sample q

/-- Contract of `choice(n, m, replace=False)` for `m ≤ n`. -/
def DrawOk (draw : ℕ → ℕ → ℕ → List ℕ) : Prop :=
  ∀ i n m, m ≤ n → (draw i n m).length = m ∧ (draw i n m).Nodup ∧ ∀ j ∈ draw i n m, j < n

end Verif.Core
