import Verif.Py
import Mathlib.Data.Rat.Floor

/-!
# Model of `gpmp/dataloader.py`: `Dataset` and `DataLoader`

Rows are abstract: `α` is the type of an `x` row, `β` the type of a `z` row; an
array with first dimension `n` is a list of `n` rows.  Conversion to backend
arrays (`gnp.asarray`, lines 80-81) is the identity here.
-/

namespace Verif.Data

open Verif

/-- `Dataset` instance attributes, dataloader.py 76-89. -/
structure Dataset (α β : Type) where
  xs : List (List α)
  zs : List (List β)
  size : Nat
  bounds : List Nat

/-- `_compute_shard_bounds`, dataloader.py 91-98: running total of shard
lengths; `cumsum` is the accumulator. -/
def shardBounds {α : Type} (cumsum : Nat) : List (List α) → List Nat
  | [] => []
  | x :: rest => (cumsum + x.length) :: shardBounds (cumsum + x.length) rest

/-- `Dataset.__init__`, dataloader.py 66-89, for list arguments (a single array
is the one-element list, lines 76-77).  Failing `assert`s raise. -/
def mkDataset {α β : Type} (xs : List (List α)) (zs : List (List β)) :
    Py (Dataset α β) :=
  if xs.length ≠ zs.length then .error .assertionError
  else if (xs.zip zs).any (fun p => p.1.length != p.2.length) then
    .error .assertionError
  else .ok { xs := xs, zs := zs,
             size := (xs.map List.length).sum,
             bounds := shardBounds 0 xs }

/-- `bisect.bisect_right(a, x)` (Python standard library), the binary search
loop `while lo < hi: mid = (lo+hi)//2; if x < a[mid]: hi = mid else: lo = mid+1`.
Called at dataloader.py 107. -/
def bisectRightGo (a : List Nat) (x : Int) (lo hi : Nat) : Nat :=
  if _h : lo < hi then
    let mid := (lo + hi) / 2
    if x < ((a.getD mid 0 : Nat) : Int) then bisectRightGo a x lo mid
    else bisectRightGo a x (mid + 1) hi
  else lo
  termination_by hi - lo
  decreasing_by all_goals omega

/-- `bisect.bisect_right(a, x)`. -/
def bisectRight (a : List Nat) (x : Int) : Nat := bisectRightGo a x 0 a.length

/-- `Dataset.__len__`, dataloader.py 101-103. -/
def Dataset.len {α β : Type} (ds : Dataset α β) : Nat := ds.size

/-- `start = 0 if shard_idx == 0 else self._shard_bounds[shard_idx - 1]`,
dataloader.py 108. -/
def shardStart (bounds : List Nat) (shardIdx : Nat) : Py Nat :=
  if shardIdx = 0 then .ok 0 else pyGet bounds ((shardIdx : Int) - 1)

/-- `Dataset.__getitem__`, dataloader.py 105-110. -/
def Dataset.getItem {α β : Type} (ds : Dataset α β) (idx : Int) : Py (α × β) := do
  let shardIdx := bisectRight ds.bounds idx
  let start ← shardStart ds.bounds shardIdx
  let localIdx : Int := idx - start
  let x ← (pyGet ds.xs shardIdx).bind (pyGet · localIdx)
  let z ← (pyGet ds.zs shardIdx).bind (pyGet · localIdx)
  return (x, z)

/-- numpy fancy indexing `a[idx]` along the first axis. -/
def gather {α : Type} (a : List α) (idx : List Int) : Py (List α) :=
  idx.mapM (pyGet a)

/-- The loop shared by `Dataset.subset` (dataloader.py 137-144) and
`DataLoader._fetch_batch` (416-423): for each shard `[start, end)` keep the
indices that fall in it, shift them, gather the rows of both arrays.  `k` is
`shard_idx`. -/
def pickLoop {α β : Type} (ds : Dataset α β) (idx : List Int) :
    List (Nat × Nat) → Nat → Py (List (List α) × List (List β))
  | [], _ => .ok ([], [])
  | (s, e) :: rest, k =>
    let sel := idx.filter (fun i => decide ((s : Int) ≤ i) && decide (i < (e : Int)))
    if sel.isEmpty then pickLoop ds idx rest (k + 1)
    else do
      let loc := sel.map (fun i => i - (s : Int))
      let xi ← (pyGet ds.xs k).bind (gather · loc)
      let zi ← (pyGet ds.zs k).bind (gather · loc)
      let r ← pickLoop ds idx rest (k + 1)
      return (xi :: r.1, zi :: r.2)

/-- `zip(shard_starts, shard_ends)`, dataloader.py 134-137 and 413-416:
`shard_starts = [0] + bounds[:-1]`, `shard_ends = bounds`. -/
def Dataset.shardRanges {α β : Type} (ds : Dataset α β) : List (Nat × Nat) :=
  ([0] ++ ds.bounds.dropLast).zip ds.bounds

/-- `Dataset.subset`, dataloader.py 122-146, for one-dimensional `indices`
(line 127 rejects other shapes with `ValueError`). -/
def Dataset.subset {α β : Type} (ds : Dataset α β) (indices : List Int) :
    Py (Dataset α β) := do
  let indices := indices.mergeSort (fun a b => decide (a ≤ b))
  let r ← pickLoop ds indices ds.shardRanges 0
  mkDataset r.1 r.2

/-- Python `int(q)` for a rational `q`: truncation toward zero. -/
def pyInt (q : Rat) : Int := if 0 ≤ q then ⌊q⌋ else ⌈q⌉

/-- `Dataset.split`, dataloader.py 149-173.  `perm` is the array returned by
`gnp.permutation(n)`.  Ratios are exact rationals and the `isclose` test of
line 159 is modelled as exact equality with one; `int(ratios[0]*n)` truncates
toward zero. -/
def Dataset.split {α β : Type} (ds : Dataset α β) (ratios : Rat × Rat × Rat)
    (perm : List Nat) : Py (Dataset α β × Dataset α β × Dataset α β) :=
  if ratios.1 + ratios.2.1 + ratios.2.2 ≠ 1 then .error .assertionError
  else do
    let n := ds.len
    let idx : List Int := perm.map Int.ofNat
    let nTr := pyInt (ratios.1 * n)
    let nVa := pyInt (ratios.2.1 * n)
    let a ← ds.subset (pyTake idx nTr)
    let b ← ds.subset (pySlice idx nTr (nTr + nVa))
    let c ← ds.subset (pyDrop idx (nTr + nVa))
    return (a, b, c)

/-! ### k-fold indices -/

/-- Fold sizes, dataloader.py 188-194: `divmod(n, k)`, `r` folds of size
`base+1` then `k-r` of size `base`. -/
def foldSizes (n k : Nat) : List Nat :=
  List.replicate (n % k) (n / k + 1) ++ List.replicate (k - n % k) (n / k)

/-- `gnp.cumsum` on a 1-D integer array, dataloader.py 195. -/
def cumsum (acc : Nat) : List Nat → List Nat
  | [] => []
  | a :: r => (acc + a) :: cumsum (acc + a) r

/-- `numpy.split(x, bounds)` for increasing boundary indices: pieces
`x[0:b₀], x[b₀:b₁], …, x[b_last:]`.  Used by the numpy backend
(num/numpy_backend.py line 82 re-exports it). -/
def npSplit {α : Type} (x : List α) (prev : Nat) : List Nat → List (List α)
  | [] => [x.drop prev]
  | b :: r => (x.take b).drop prev :: npSplit x b r

/-- `torch.split(x, sizes)` for a list of sizes; raises when they do not add up
to the length (num/torch_backend.py 354). -/
def torchSplitSizes {α : Type} (x : List α) (sizes : List Int) : Py (List (List α)) :=
  if sizes.any (fun s => decide (s < 0)) then .error .runtimeError
  else if sizes.sum ≠ (x.length : Int) then .error .runtimeError
  else .ok (go x sizes)
where
  /-- consecutive chunks -/
  go (x : List α) : List Int → List (List α)
    | [] => []
    | s :: r => x.take s.toNat :: go (x.drop s.toNat) r

/-- `_sizes_from_bounds`, num/torch_backend.py 305-323:
`[bounds[0], diff(bounds)…, length - bounds[-1]]`. -/
def sizesFromBounds (prev : Int) (length : Nat) : List Nat → List Int
  | [] => [(length : Int) - prev]
  | b :: r => ((b : Int) - prev) :: sizesFromBounds b length r

/-- The torch backend's `split`, num/torch_backend.py 326-354, for a 1-D tensor
argument: an empty vector raises `ValueError`; a vector whose sum equals the
length is taken as *sizes*, any other as *boundaries*. -/
def torchSplit {α : Type} (x : List α) (vec : List Nat) : Py (List (List α)) :=
  if vec.isEmpty then .error .valueError
  else if vec.sum = x.length then torchSplitSizes x (vec.map Int.ofNat)
  else torchSplitSizes x (sizesFromBounds 0 x.length vec)

/-- Which array backend is active. -/
inductive Backend where
  | numpy
  | torch
  deriving DecidableEq, Repr

/-- `gnp.split` as dispatched by the active backend. -/
def gnpSplit {α : Type} (be : Backend) (x : List α) (bounds : List Nat) :
    Py (List (List α)) :=
  match be with
  | .numpy => .ok (npSplit x 0 bounds)
  | .torch => torchSplit x bounds

/-- `gnp.concatenate` of a list of 1-D arrays; both backends reject an empty
list (numpy `ValueError`, torch `RuntimeError`; one error value here). -/
def gnpConcat {α : Type} (ls : List (List α)) : Py (List α) :=
  if ls.isEmpty then .error .valueError else .ok ls.flatten

/-- The loop over folds, dataloader.py 198-203; `folds[k]` and `folds[j]` for
`j ≠ k`, `j < n_splits`, raise `IndexError` if there are too few folds. -/
def kFoldPairs {α : Type} (folds : List (List α)) (nSplits : Nat) :
    Py (List (List α × List α)) :=
  (List.range nSplits).mapM fun (k : Nat) => do
    let val ← pyGet folds (k : Int)
    let others ← ((List.range nSplits).filter (fun j => j != k)).mapM
      (fun (j : Nat) => pyGet folds (j : Int))
    let train ← gnpConcat others
    return (train, val)

/-- `Dataset.k_fold_indices`, dataloader.py 176-203.  `perm` is what
`gnp.permutation(n_samples)` returned.  `n_splits = 0` fails in `divmod`. -/
def kFoldIndices (be : Backend) (perm : List Nat) (n k : Nat) :
    Py (List (List Nat × List Nat)) :=
  if k = 0 then .error .zeroDivisionError
  else do
    let bounds := (cumsum 0 (foldSizes n k)).dropLast
    let folds ← gnpSplit be perm bounds
    kFoldPairs folds k

/-- `Dataset.repeated_k_fold_indices`, dataloader.py 206-219; `perms` lists the
permutations drawn in successive repetitions. -/
def repeatedKFold (be : Backend) (perms : List (List Nat)) (n k : Nat) :
    Py (List (List Nat × List Nat)) :=
  perms.foldlM (fun out p => do
    let r ← kFoldIndices be p n k
    return out ++ r) []

/-! ### DataLoader -/

/-- The random generator interface used here: `gnp.set_seed(s)` puts the global
generator in a state that depends on `s` only, `gnp.permutation(n)` reads and
advances it. -/
structure Rng (σ : Type) where
  seed : Int → σ
  perm : σ → Nat → List Nat × σ

/-- Contract of `gnp.permutation`. -/
def Rng.Ok {σ : Type} (R : Rng σ) : Prop :=
  ∀ s n, ((R.perm s n).1).Perm (List.range n)

/-- `DataLoader` attributes, dataloader.py 370-380. -/
structure Loader (α β : Type) where
  ds : Dataset α β
  batchSize : Nat
  shuffle : Bool
  dropLast : Bool
  baseSeed : Option Int
  epoch : Int
  infinite : Bool

/-- `DataLoader.__init__`, dataloader.py 344-380. -/
def mkLoader {α β : Type} (ds : Dataset α β) (batchSize : Option Int)
    (shuffle dropLast : Bool) (seed : Option Int) (infinite : Bool) :
    Py (Loader α β) :=
  let bs : Int := match batchSize with
    | none => ds.len
    | some b => b
  if bs ≤ 0 then .error .valueError
  else .ok { ds := ds, batchSize := bs.toNat, shuffle := shuffle,
             dropLast := dropLast, baseSeed := seed, epoch := 0,
             infinite := infinite }

/-- `set_epoch`, dataloader.py 383-385. -/
def Loader.setEpoch {α β : Type} (L : Loader α β) (e : Int) : Loader α β :=
  { L with epoch := e }

/-- `DataLoader._fetch_batch`, dataloader.py 408-425. -/
def fetchBatch {α β : Type} (ds : Dataset α β) (batchIdx : List Int) :
    Py (List α × List β) := do
  let r ← pickLoop ds batchIdx ds.shardRanges 0
  let x ← gnpConcat r.1
  let z ← gnpConcat r.2
  return (x, z)

/-- `range(0, n, b)` for `b > 0`. -/
def pyRangeStep (n b : Nat) : List Nat := (List.range ((n + b - 1) / b)).map (· * b)

/-- The `for start in range(0, n, batch_size)` loop, dataloader.py 397-402: the
list of index batches that reach `_fetch_batch`; the `break` of line 400 stops
the loop. -/
def epochLoop {γ : Type} (idx : List γ) (n b : Nat) (dropLast : Bool) :
    List Nat → List (List γ)
  | [] => []
  | start :: rest =>
    let stop := start + b
    if stop > n && dropLast then []
    else pySlice idx start stop :: epochLoop idx n b dropLast rest

/-- The reseeding at the start of a pass, dataloader.py 390-391. -/
def Loader.reseed {α β σ : Type} (R : Rng σ) (L : Loader α β) (s : σ) : σ :=
  match L.baseSeed with
  | some b => R.seed (b + L.epoch)
  | none => s

/-- The visiting order of a pass, dataloader.py 392-395. -/
def Loader.order {α β σ : Type} (R : Rng σ) (L : Loader α β) (s : σ) : List Nat × σ :=
  if L.shuffle then R.perm (L.reseed R s) L.ds.len
  else (List.range L.ds.len, L.reseed R s)

/-- One pass of the `while True` loop, dataloader.py 390-405: reseeding, the
permutation (or `arange`), the batches, and `_epoch += 1`. -/
def Loader.onePass {α β σ : Type} (R : Rng σ) (L : Loader α β) (s : σ) :
    Py (List (List α × List β)) × Loader α β × σ :=
  let o := L.order R s
  let batches := epochLoop (o.1.map Int.ofNat) L.ds.len L.batchSize L.dropLast
    (pyRangeStep L.ds.len L.batchSize)
  (batches.mapM (fetchBatch L.ds), { L with epoch := L.epoch + 1 }, o.2)

/-- `DataLoader.__iter__`, dataloader.py 388-406, observed for `passes` turns of
the `while True` loop: a finite loader stops after the first turn whatever
`passes > 0` is, an infinite one goes on.  Returns the batches yielded. -/
def Loader.iter {α β σ : Type} (R : Rng σ) :
    Nat → Loader α β → σ → Py (List (List α × List β)) × Loader α β × σ
  | 0, L, s => (.ok [], L, s)
  | k + 1, L, s =>
    let (b, L', s') := L.onePass R s
    if L.infinite then
      let (b', L'', s'') := Loader.iter R k L' s'
      (do return (← b) ++ (← b'), L'', s'')
    else (b, L', s')

/-- `DataLoader.__len__`, dataloader.py 428-432. -/
def Loader.len {α β : Type} (L : Loader α β) : Nat :=
  let n := L.ds.len
  let full := n / L.batchSize
  if L.dropLast || n % L.batchSize == 0 then full else full + 1

/-- `gnp.arange(a, b)` on integers. -/
def arange (a b : Int) : List Int := (List.range (b - a).toNat).map (fun k => a + Int.ofNat k)

/-- `DataLoader.__getitem__` for an integer, dataloader.py 452-467. -/
def Loader.getItem {α β : Type} (L : Loader α β) (index : Int) :
    Py (List α × List β) :=
  if L.shuffle || L.infinite then .error .runtimeError
  else
    let nb : Int := L.len
    let index := if index < 0 then index + nb else index
    if ¬ (0 ≤ index ∧ index < nb) then .error .indexError
    else
      let start := index * L.batchSize
      let stop := min (start + L.batchSize) (L.ds.len : Int)
      if stop > (L.ds.len : Int) && L.dropLast then .error .indexError
      else fetchBatch L.ds (arange start stop)

/-- `DataLoader.__getitem__` for a step-one slice `a:b` with nonnegative
endpoints, dataloader.py 469-471 (`slice.indices` clips to the number of
batches).  General slices are covered by `Loader.getItem` on each index. -/
def Loader.getSlice {α β : Type} (L : Loader α β) (a b : Nat) :
    Py (List (List α × List β)) :=
  if L.shuffle || L.infinite then .error .runtimeError
  else
    let lo := min a L.len
    let hi := min b L.len
    ((List.range (hi - lo)).map (fun k => (lo : Int) + Int.ofNat k)).mapM L.getItem

/-- `collate_batches`, dataloader.py 636-648. -/
def collateBatches {α β : Type} (batches : List (List α × List β)) :
    Py (List α × List β) :=
  if batches.isEmpty then .error .valueError
  else .ok ((batches.map Prod.fst).flatten, (batches.map Prod.snd).flatten)

end Verif.Data
