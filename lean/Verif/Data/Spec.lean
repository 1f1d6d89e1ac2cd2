import Verif.Data.Model

/-!
# Specification vocabulary for data sets

The reference object is the plain list of `(x, z)` rows obtained by
concatenating the shards; nothing below depends on how the model indexes,
groups or batches them.
-/

namespace Verif.Data

/-- The rows of a sharded data set, in order: concatenate the `x` shards,
concatenate the `z` shards, pair them up. -/
def rowsOf {α β : Type} (xs : List (List α)) (zs : List (List β)) : List (α × β) :=
  xs.flatten.zip zs.flatten

/-- The rows held by a `Dataset` object. -/
def Dataset.rows {α β : Type} (ds : Dataset α β) : List (α × β) := rowsOf ds.xs ds.zs

/-- The rows of a batch `(x_batch, z_batch)`. -/
def batchRows {α β : Type} (b : List α × List β) : List (α × β) := b.1.zip b.2

/-- `idx` is a list of valid row numbers for a data set with `n` rows. -/
def ValidIdx (n : Nat) (idx : List Int) : Prop := ∀ i ∈ idx, 0 ≤ i ∧ i < (n : Int)

end Verif.Data
