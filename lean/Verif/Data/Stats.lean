import Verif.Data.Model
import Verif.Data.Spec
import Mathlib.Data.Real.Sqrt
import Mathlib.Data.List.Sort

/-!
# Model of the data-set statistics, scalers and `reduce_mean`

`/repo/gpmp/dataloader.py`.  All formulas are per column ("axis 0"): the numpy
code applies them to every column at once.  Arithmetic is exact (ℝ); a result
that is NaN or infinite in numpy (division by a zero count) is `none`.
-/

namespace Verif.Data

open Verif

/-- numpy `a / n` for an integer count `n`: NaN/inf when `n = 0`. -/
noncomputable def npDiv (a : ℝ) (n : Nat) : Option ℝ := if n = 0 then none else some (a / n)

/-- `gnp.min(data, axis=0)` for one column: raises on an empty shard. -/
noncomputable def colMin : List ℝ → Py ℝ
  | [] => .error .valueError
  | a :: l => .ok (l.foldl min a)

/-- `gnp.max(data, axis=0)` for one column. -/
noncomputable def colMax : List ℝ → Py ℝ
  | [] => .error .valueError
  | a :: l => .ok (l.foldl max a)

/-- The loop of `_reduce_min`, dataloader.py 222-232; `none` is `first = True`. -/
noncomputable def reduceMinGo : Option ℝ → List (List ℝ) → Py ℝ
  | none, [] => .error .unboundLocalError
  | some g, [] => .ok g
  | acc, d :: ds => do
    let m ← colMin d
    reduceMinGo (some (match acc with | none => m | some g => min g m)) ds

/-- `_reduce_min`, dataloader.py 222-232. -/
noncomputable def reduceMin (shards : List (List ℝ)) : Py ℝ := reduceMinGo none shards

/-- The loop of `_reduce_max`, dataloader.py 234-244. -/
noncomputable def reduceMaxGo : Option ℝ → List (List ℝ) → Py ℝ
  | none, [] => .error .unboundLocalError
  | some g, [] => .ok g
  | acc, d :: ds => do
    let m ← colMax d
    reduceMaxGo (some (match acc with | none => m | some g => max g m)) ds

/-- `_reduce_max`, dataloader.py 234-244. -/
noncomputable def reduceMax (shards : List (List ℝ)) : Py ℝ := reduceMaxGo none shards

/-- The accumulation loop of `_reduce_mean` (246-257) and `_reduce_var`
(259-272): `total`/`n` over shards of the column transformed by `f`. -/
noncomputable def accum (f : ℝ → ℝ) : Option ℝ → Nat → List (List ℝ) → Option ℝ × Nat
  | t, n, [] => (t, n)
  | t, n, d :: ds =>
    let s := (d.map f).sum
    accum f (some (match t with | none => s | some t => t + s)) (n + d.length) ds

/-- `_reduce_mean`, dataloader.py 246-257: `None / 0` raises for no shards. -/
noncomputable def reduceMean (shards : List (List ℝ)) : Py (Option ℝ) :=
  match accum id none 0 shards with
  | (none, _) => .error .typeError
  | (some t, n) => .ok (npDiv t n)

/-- `_reduce_var`, dataloader.py 259-272. -/
noncomputable def reduceVar (shards : List (List ℝ)) : Py (Option ℝ) := do
  match ← reduceMean shards with
  | none => return none
  | some m =>
    match accum (fun x => (x - m) ^ 2) none 0 shards with
    | (none, _) => .error .typeError
    | (some t, n) => return (npDiv t (n - 1))

/-- `_reduce_std`, dataloader.py 274-275. -/
noncomputable def reduceStd (shards : List (List ℝ)) : Py (Option ℝ) := do
  return (← reduceVar shards).map Real.sqrt

/-- `gnp.percentile(data, 100 q, axis=0)` for one column, numpy's default
"linear" method: the order statistic at position `q (n-1)`, interpolated.
(External routine; this is its documented formula.) -/
noncomputable def percentile (l : List ℝ) (q : ℝ) : Py ℝ :=
  if l = [] then .error .indexError
  else
    let s := l.insertionSort (· ≤ ·)
    let h := q * ((l.length : ℝ) - 1)
    let i := ⌊h⌋₊
    let a := s.getD i 0
    let b := s.getD (min (i + 1) (l.length - 1)) 0
    .ok (a + (h - i) * (b - a))

/-- `_reduce_quantile`, dataloader.py 277-282. -/
noncomputable def reduceQuantile (shards : List (List ℝ)) (q : ℝ) : Py ℝ :=
  if ¬ (0 ≤ q ∧ q ≤ 1) then .error .valueError
  else do
    let full ← gnpConcat shards
    percentile full q

/-- `_reduce_median`, dataloader.py 298-299. -/
noncomputable def reduceMedian (shards : List (List ℝ)) : Py ℝ := reduceQuantile shards (1 / 2)

/-- The loop of `DataLoader.reduce_mean`, dataloader.py 500-511, over the
batches produced by iteration; `f` is the user function (scalar result). -/
noncomputable def loaderMeanGo {α β : Type} (f : List α × List β → ℝ) :
    Option ℝ → Nat → List (List α × List β) → Option ℝ × Nat
  | t, n, [] => (t, n)
  | t, n, b :: bs =>
    let w := f b * b.1.length
    loaderMeanGo f (some (match t with | none => 0 + w | some t => t + w)) (n + b.1.length) bs

/-- `DataLoader.reduce_mean`, dataloader.py 484-513. -/
noncomputable def loaderMean {α β : Type} (f : List α × List β → ℝ)
    (batches : List (List α × List β)) : Py (Option ℝ) :=
  match loaderMeanGo f none 0 batches with
  | (none, _) => .error .typeError
  | (some t, n) => .ok (npDiv t n)

/-! ## Scalers -/

/-- `_EPS`, dataloader.py 49. -/
noncomputable def scalerEps : ℝ := 1e-8

/-- One column of any of the four scalers: what is subtracted and what it is
divided by. -/
structure Scaler where
  shift : ℝ
  scale : ℝ

/-- The constructors `Normalizer`, `RobustScaler` and `ObservationScaler`, dataloader.py
542-544, 564-566, 614-616: scales below `_EPS` are replaced by one. -/
noncomputable def mkScaler (shift s : ℝ) : Scaler :=
  ⟨shift, if s < scalerEps then 1 else s⟩

/-- `MinMaxScaler.__init__`, dataloader.py 590-592. -/
noncomputable def mkMinMax (lo hi : ℝ) : Scaler :=
  ⟨lo, if hi - lo < scalerEps then 1 else hi - lo⟩

/-- `transform` of the four scalers, dataloader.py 546-549, 568-571, 594-597, 618-621. -/
noncomputable def Scaler.transform (s : Scaler) (x : ℝ) : ℝ := (x - s.shift) / s.scale

/-- `inverse_transform` of the four scalers, dataloader.py 551-554, 573-576, 599-602,
623-626. -/
noncomputable def Scaler.inverse (s : Scaler) (y : ℝ) : ℝ := y * s.scale + s.shift

/-- `x.mean(axis=0)`. -/
noncomputable def colMean (l : List ℝ) : ℝ := l.sum / l.length

/-- The divisor in `x.std()`: numpy divides by `n`, torch by `n - 1`.  Where it is zero the code
has NaN; `Verif.Data.fitF` (PropsScaler) models this. -/
def stdDivisor (be : Backend) (n : Nat) : ℝ :=
  match be with | .numpy => (n : ℝ) | .torch => (n : ℝ) - 1

/-- `x.std(axis=0)` squared. -/
noncomputable def colVar (be : Backend) (l : List ℝ) : ℝ :=
  (l.map (fun x => (x - colMean l) ^ 2)).sum / stdDivisor be l.length

/-- `Normalizer.fit` / `ObservationScaler.fit`, dataloader.py 556-558, 628-630, with at least one
row (numpy) or two rows (torch); see `fitF_eq`. -/
noncomputable def fitNormalizer (be : Backend) (l : List ℝ) : Scaler :=
  mkScaler (colMean l) (Real.sqrt (colVar be l))

/-- `RobustScaler.fit`, dataloader.py 578-584. -/
noncomputable def fitRobust (l : List ℝ) (qlo qhi : ℝ) : Py Scaler := do
  let lo ← percentile l (qlo / 100)
  let hi ← percentile l (qhi / 100)
  let med ← percentile l (50 / 100)
  return mkScaler med (hi - lo)

/-- `MinMaxScaler.fit`, dataloader.py 604-608. -/
noncomputable def fitMinMax (l : List ℝ) : Py Scaler := do
  let lo ← colMin l
  let hi ← colMax l
  return mkMinMax lo hi

end Verif.Data
