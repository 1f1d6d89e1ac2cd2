import Verif.Data.Lemmas2

/-!
# Properties of `DataLoader`: C07 (epochs), C08 (fetching), C09 (indexing),
C13 (collating)
-/

namespace Verif.Data

open Verif

/-- **C08** Fetching a nonempty batch of valid indices succeeds and returns
exactly the requested rows (as a multiset of `(x, z)` pairs). -/
theorem fetch_rows {α β : Type} {xs : List (List α)} {zs : List (List β)}
    {ds : Dataset α β} (h : mkDataset xs zs = .ok ds) (idx : List Int)
    (hv : ValidIdx ds.len idx) (hne : idx ≠ []) :
    ∃ b, fetchBatch ds idx = .ok b ∧ b.1.length = idx.length ∧ b.2.length = idx.length ∧
      ((batchRows b).map some).Perm (idx.map (fun i => (rowsOf xs zs)[i.toNat]?)) := by
  obtain ⟨_, hx, hz, _, _⟩ := mkDataset_ok h
  obtain ⟨b, b1, b2, b3, b4, _⟩ := (good_of_mk h).fetch idx hv hne
  refine ⟨b, b1, b2, b3, ?_⟩
  rw [Dataset.rows, hx, hz] at b4; exact b4

/-- **C08** An increasing batch comes back in the requested order. -/
theorem fetch_rows_sorted {α β : Type} {xs : List (List α)} {zs : List (List β)}
    {ds : Dataset α β} (h : mkDataset xs zs = .ok ds) (idx : List Int)
    (hv : ValidIdx ds.len idx) (hne : idx ≠ []) (hs : idx.Pairwise (· ≤ ·)) :
    ∃ b, fetchBatch ds idx = .ok b ∧
      (batchRows b).map some = idx.map (fun i => (rowsOf xs zs)[i.toNat]?) := by
  obtain ⟨_, hx, hz, _, _⟩ := mkDataset_ok h
  obtain ⟨b, b1, _, _, _, b5⟩ := (good_of_mk h).fetch idx hv hne
  refine ⟨b, b1, ?_⟩
  have := b5 hs
  rw [Dataset.rows, hx, hz] at this; exact this

/-- **C08** An empty batch raises (`concatenate` of nothing). -/
theorem fetch_empty {α β : Type} {xs : List (List α)} {zs : List (List β)}
    {ds : Dataset α β} (h : mkDataset xs zs = .ok ds) :
    fetchBatch ds [] = .error .valueError := by
  obtain ⟨xs', zs', B, h1, h2, h3, h4, h5, h6⟩ := (good_of_mk h).pick []
  have hB : B = [] := List.Perm.eq_nil (by simpa using h5)
  have hx : xs' = [] := h3.mpr hB
  unfold fetchBatch
  rw [h1, hx]; rfl

/-- Non-vacuity: a batch straddling shards, not in order. -/
example : ∃ ds, mkDataset [[10, 11], [12]] [['a', 'b'], ['c']] = .ok ds ∧
    ValidIdx ds.len [2, 0] ∧ ([2, 0] : List Int) ≠ [] := by
  refine ⟨_, rfl, ?_, by decide⟩
  intro i hi
  simp at hi
  rcases hi with rfl | rfl <;> exact ⟨by decide, by decide⟩

/-- What the rows of one pass should be: `idx` is the visiting order (a
permutation of `0..n-1`), cut into consecutive groups of `b`, the last partial
group dropped when `dropLast`. -/
structure IsEpoch {α β : Type} (rows : List (α × β)) (b : Nat) (shuffle dropLast : Bool)
    (batches : List (List α × List β)) : Prop where
  /-- x and z parts of each batch have the same number of rows -/
  paired : ∀ p ∈ batches, p.1.length = p.2.length
  /-- all batches but the last have exactly `b` rows -/
  full : ∀ j (hj : j < batches.length), j + 1 < batches.length → (batches[j]).1.length = b
  /-- the last has between 1 and `b` rows (exactly `b` with `dropLast`) -/
  last : ∀ p ∈ batches, 1 ≤ p.1.length ∧ p.1.length ≤ b ∧ (dropLast = true → p.1.length = b)
  /-- every row exactly once; with `dropLast` fewer than `b` rows are skipped -/
  visits : ∃ skipped, ((batches.flatMap batchRows) ++ skipped).Perm rows ∧
    (dropLast = false → skipped = []) ∧ skipped.length < max 1 b
  /-- without shuffling, rows come in order -/
  ordered : shuffle = false → ∃ skipped, (batches.flatMap batchRows) ++ skipped = rows

theorem fetch_chunks {α β : Type} {ds : Dataset α β} (g : Good ds) (b : Nat) (hb : 0 < b)
    (idx : List Int) (hv : ValidIdx ds.len idx) (m : Nat) (hm : ∀ k < m, k * b < idx.length) :
    ∃ batches, ((List.range m).map (fun k => (idx.drop (k * b)).take b)).mapM (fetchBatch ds)
        = .ok batches ∧
      batches.length = m ∧
      (∀ k (hk : k < batches.length), (batches[k]).1.length = min b (idx.length - k * b) ∧
        (batches[k]).2.length = min b (idx.length - k * b)) ∧
      ((batches.flatMap batchRows).map some).Perm
        ((idx.take (m * b)).map (fun i => ds.rows[i.toNat]?)) ∧
      (idx.Pairwise (· ≤ ·) → (batches.flatMap batchRows).map some =
        (idx.take (m * b)).map (fun i => ds.rows[i.toNat]?)) := by
  have key := mapM_ok (fetchBatch ds) (fun (l : List Int) (p : List α × List β) =>
      p.1.length = l.length ∧ p.2.length = l.length ∧
      ((batchRows p).map some).Perm (l.map (fun i => ds.rows[i.toNat]?)) ∧
      (l.Pairwise (· ≤ ·) → (batchRows p).map some = l.map (fun i => ds.rows[i.toNat]?)))
    ((List.range m).map (fun k => (idx.drop (k * b)).take b)) (by
      intro l hl
      obtain ⟨k, hk, rfl⟩ := List.mem_map.mp hl
      have hk' := List.mem_range.mp hk
      apply g.fetch
      · intro i hi; exact hv i (List.mem_of_mem_drop (List.mem_of_mem_take hi))
      · intro h
        have := congrArg List.length h
        simp at this
        have := hm k hk'
        omega)
  obtain ⟨batches, e, hF⟩ := key
  refine ⟨batches, e, ?_, ?_, ?_, ?_⟩
  · have := hF.length_eq; simp at this; exact this.symm
  · intro k hk
    have hlen : k < ((List.range m).map (fun k => (idx.drop (k * b)).take b)).length := by
      rw [hF.length_eq]; exact hk
    have := List.Forall₂.get hF hlen hk
    simp only [List.get_eq_getElem, List.getElem_map, List.getElem_range] at this
    obtain ⟨h1, h2, _, _⟩ := this
    rw [h1, h2]; simp
  · rw [← chunks_flatten]
    clear e hm
    generalize (List.range m).map (fun k => (idx.drop (k * b)).take b) = ls at hF
    induction hF with
    | nil => simp
    | cons h _ ih =>
      simp only [List.flatMap_cons, List.flatten_cons, List.map_append]
      exact List.Perm.append h.2.2.1 ih
  · intro hs
    rw [← chunks_flatten]
    have hall : ∀ l ∈ (List.range m).map (fun k => (idx.drop (k * b)).take b),
        l.Pairwise (· ≤ ·) := by
      intro l hl
      obtain ⟨k, _, rfl⟩ := List.mem_map.mp hl
      exact (hs.drop).take
    clear e hm
    generalize (List.range m).map (fun k => (idx.drop (k * b)).take b) = ls at hF hall
    induction hF with
    | nil => simp
    | cons h _ ih =>
      simp only [List.flatMap_cons, List.flatten_cons, List.map_append]
      rw [ih (fun l hl => hall l (List.mem_cons_of_mem _ hl)), h.2.2.2 (hall _ List.mem_cons_self)]

theorem mkLoader_ok {α β : Type} {ds : Dataset α β} {bs : Option Int}
    {shuffle dropLast : Bool} {seed : Option Int} {infinite : Bool} {L : Loader α β}
    (hL : mkLoader ds bs shuffle dropLast seed infinite = .ok L) :
    L.ds = ds ∧ 0 < L.batchSize ∧ L.shuffle = shuffle ∧ L.dropLast = dropLast ∧
      L.infinite = infinite ∧ L.baseSeed = seed := by
  unfold mkLoader at hL
  cases bs with
  | none =>
    simp only at hL
    by_cases hc : (ds.len : Int) ≤ 0
    · rw [if_pos hc] at hL; cases hL
    · rw [if_neg hc] at hL; cases hL; exact ⟨rfl, by simp only; omega, rfl, rfl, rfl, rfl⟩
  | some c =>
    simp only at hL
    by_cases hc : c ≤ 0
    · rw [if_pos hc] at hL; cases hL
    · rw [if_neg hc] at hL; cases hL; exact ⟨rfl, by simp only; omega, rfl, rfl, rfl, rfl⟩

/-- **C07** One pass over a loader: it never fails, produces `len(loader)`
batches and visits the rows as `IsEpoch` says; the epoch counter is advanced. -/
theorem onePass_isEpoch {α β σ : Type} {xs : List (List α)} {zs : List (List β)}
    {ds : Dataset α β} (h : mkDataset xs zs = .ok ds)
    (bs : Option Int) (shuffle dropLast : Bool) (seed : Option Int) (infinite : Bool)
    {L0 : Loader α β} (hL : mkLoader ds bs shuffle dropLast seed infinite = .ok L0) (epoch : Int)
    (R : Rng σ) (hR : R.Ok) (s : σ) :
    ∃ batches s', (L0.setEpoch epoch).onePass R s =
        (.ok batches, L0.setEpoch (epoch + 1), s') ∧
      batches.length = L0.len ∧
      IsEpoch (rowsOf xs zs) L0.batchSize shuffle dropLast batches := by
  have g := good_of_mk h
  obtain ⟨_, hx, hz, _, _⟩ := mkDataset_ok h
  have hrows : ds.rows = rowsOf xs zs := by rw [Dataset.rows, hx, hz]
  -- facts about the loader
  have hfacts : L0.ds = ds ∧ 0 < L0.batchSize ∧ L0.shuffle = shuffle ∧ L0.dropLast = dropLast := by
    obtain ⟨a, b, c, d, _, _⟩ := mkLoader_ok hL
    exact ⟨a, b, c, d⟩
  obtain ⟨hds, hb, hsh, hdl⟩ := hfacts
  set L := L0.setEpoch epoch with hLdef
  have e1 : L.ds = ds := hds
  have e2 : L.batchSize = L0.batchSize := rfl
  have e3 : L.shuffle = shuffle := hsh
  have e4 : L.dropLast = dropLast := hdl
  have hlenL : L0.len = nBatches ds.len L0.batchSize dropLast := by
    rw [nBatches_len L0 hb, hds, hdl]
  -- the visiting order
  obtain ⟨q, hq⟩ : ∃ q, q = L.order R s := ⟨_, rfl⟩
  have hqp : q.1.Perm (List.range ds.len) := by
    rw [hq, Loader.order, e1]; split
    · exact hR _ _
    · exact List.Perm.refl _
  have hqi : shuffle = false → q.1 = List.range ds.len := by
    intro hf; rw [hq, Loader.order, e3, hf, e1]; rfl
  have hql : (q.1.map Int.ofNat).length = ds.len := by
    rw [List.length_map, hqp.length_eq, List.length_range]
  have hqv : ValidIdx ds.len (q.1.map Int.ofNat) := by
    intro i hi
    obtain ⟨j, hj, rfl⟩ := List.mem_map.mp hi
    have := List.mem_range.mp (hqp.mem_iff.mp hj)
    simp; omega
  set b := L0.batchSize with hbdef
  set m := nBatches ds.len b dropLast with hmdef
  have hmb : ∀ k < m, k * b < ds.len := by
    intro k hk
    rw [hmdef] at hk
    unfold nBatches at hk
    split at hk
    · have h1 : (k + 1) * b ≤ ds.len := (Nat.le_div_iff_mul_le hb).mp (by omega)
      rw [Nat.add_mul] at h1; omega
    · have h1 : (k + 1) * b ≤ ds.len + b - 1 := (Nat.le_div_iff_mul_le hb).mp (by omega)
      rw [Nat.add_mul] at h1; omega
  obtain ⟨batches, f1, f2, f3, f4, f5⟩ := fetch_chunks g b hb (q.1.map Int.ofNat) hqv m
    (by intro k hk; rw [hql]; exact hmb k hk)
  rw [hql] at f3
  -- arithmetic facts on m
  have hdm := Nat.div_add_mod ds.len b
  have hmod := Nat.mod_lt ds.len hb
  have hm1 : dropLast = true → m * b = ds.len - ds.len % b := by
    intro hd; rw [hmdef, nBatches, if_pos hd, Nat.mul_comm]; omega
  have hm2 : dropLast = false → ds.len ≤ m * b := by
    intro hd
    rw [hmdef, nBatches, hd, if_neg (by decide)]
    have h1 := Nat.div_add_mod (ds.len + b - 1) b
    have h2 := Nat.mod_lt (ds.len + b - 1) hb
    rw [Nat.mul_comm] at h1; omega
  have hrl : (rowsOf xs zs).length = ds.len := by rw [← hrows, g.rows_len]
  refine ⟨batches, q.2, ?_, ?_, ?_⟩
  · unfold Loader.onePass
    simp only [← hq, e1, e2, e4]
    have hel := epochLoop_full (q.1.map Int.ofNat) b hb dropLast
    rw [hql] at hel
    rw [hel, f1]
    have : ({ ds := ds, batchSize := b, shuffle := L.shuffle, dropLast := dropLast, baseSeed := L.baseSeed, epoch := L.epoch + 1, infinite := L.infinite } : Loader α β) = L0.setEpoch (epoch + 1) := by
      rw [← e1, ← e4]; rfl
    rw [this]
  · rw [f2, hlenL]
  · refine ⟨?_, ?_, ?_, ?_, ?_⟩
    · intro p hp
      obtain ⟨k, hk, rfl⟩ := List.getElem_of_mem hp
      rw [(f3 k hk).1, (f3 k hk).2]
    · intro j hj hj1
      rw [(f3 j hj).1]
      have := hmb (j + 1) (by omega)
      rw [Nat.add_mul] at this; omega
    · intro p hp
      obtain ⟨k, hk, rfl⟩ := List.getElem_of_mem hp
      rw [(f3 k hk).1]
      have h1 := hmb k (by omega)
      refine ⟨by omega, by omega, ?_⟩
      intro hd
      have h2 := hm1 hd
      have h3 : (k + 1) * b ≤ m * b := Nat.mul_le_mul_right b (by omega)
      rw [Nat.add_mul] at h3; omega
    · refine ⟨((q.1.drop (m * b)).map (fun i => (rowsOf xs zs)[i]?)).filterMap id, ?_, ?_, ?_⟩
      · apply perm_of_map_some
        rw [List.map_append]
        have hfm : ∀ l : List Nat, (∀ i ∈ l, i < (rowsOf xs zs).length) →
            ((l.map (fun i => (rowsOf xs zs)[i]?)).filterMap id).map some =
              l.map (fun i => (rowsOf xs zs)[i]?) := by
          intro l hl
          induction l with
          | nil => rfl
          | cons i l ih =>
            have hi := hl i List.mem_cons_self
            simp only [List.map_cons]
            rw [List.getElem?_eq_getElem hi,
              List.filterMap_cons_some (f := id) (b := (rowsOf xs zs)[i]) rfl,
              List.map_cons, ih (fun j hj => hl j (List.mem_cons_of_mem _ hj))]
        rw [hfm _ (by
          intro i hi
          have := List.mem_range.mp (hqp.mem_iff.mp (List.mem_of_mem_drop hi))
          omega)]
        have f4' : ((batches.flatMap batchRows).map some).Perm
            ((q.1.take (m * b)).map (fun i => (rowsOf xs zs)[i]?)) := by
          rw [← List.map_take, List.map_map, hrows] at f4
          exact f4
        refine (List.Perm.append_right _ f4').trans ?_
        rw [← List.map_append, List.take_append_drop]
        refine (hqp.map _).trans ?_
        have := map_rows_range (rowsOf xs zs)
        rw [List.map_map, hrl] at this
        rw [← this]; exact List.Perm.refl _
      · intro hd
        have := hm2 hd
        rw [List.drop_eq_nil_of_le]
        · rfl
        · rw [hqp.length_eq, List.length_range]; omega
      · refine Nat.lt_of_le_of_lt (List.length_filterMap_le _ _) ?_
        rw [List.length_map, List.length_drop, hqp.length_eq, List.length_range]
        cases hd : dropLast with
        | true => have := hm1 hd; omega
        | false => have := hm2 hd; omega
    · intro hsf
      have hqr := hqi hsf
      have hs : (q.1.map Int.ofNat).Pairwise (· ≤ ·) := by
        rw [hqr, List.pairwise_map]
        exact (List.pairwise_lt_range).imp (by intro a b hab; simp; omega)
      have f6 := f5 hs
      refine ⟨(rowsOf xs zs).drop (m * b), ?_⟩
      have hall := map_rows_range (rowsOf xs zs)
      rw [hrl] at hall
      have f7 : (batches.flatMap batchRows).map some = ((rowsOf xs zs).take (m * b)).map some := by
        rw [f6, hqr, hrows, List.map_take, hall, List.map_take]
      have f8 : batches.flatMap batchRows = (rowsOf xs zs).take (m * b) :=
        (List.map_inj_right (f := some) (by intro a b; exact Option.some.inj)).mp f7
      rw [f8, List.take_append_drop]

/-- Non-vacuity: 5 rows in two shards, batches of 2, identity permutation. -/
example : ∃ ds L, mkDataset [[1, 2], [3, 4, 5]] [[1, 2], [3, 4, 5]] = .ok ds ∧
    mkLoader ds (some 2) true true (some 7) false = .ok L ∧
    (⟨fun _ => (), fun _ n => (List.range n, ())⟩ : Rng Unit).Ok :=
  ⟨_, _, rfl, rfl, fun _ _ => List.Perm.refl _⟩

/-- **C07** Construction is refused exactly for a nonpositive batch size
(including "the whole data set" of an empty one). -/
theorem mkLoader_fails_iff {α β : Type} (ds : Dataset α β) (bs : Option Int)
    (shuffle dropLast : Bool) (seed : Option Int) (infinite : Bool) :
    (∃ e, mkLoader ds bs shuffle dropLast seed infinite = .error e) ↔
      (match bs with | none => ds.len = 0 | some b => b ≤ 0) := by
  unfold mkLoader
  cases bs with
  | none =>
    simp only
    split
    · rename_i h; simp; omega
    · rename_i h; simp; omega
  | some b =>
    simp only
    split
    · rename_i h; simp [h]
    · rename_i h; simp [h]

/-- **C07** (determinism) With a base seed the batches of a pass depend only on
the loader and its epoch number, not on the state of the global generator. -/
theorem onePass_deterministic {α β σ : Type} (R : Rng σ) (L : Loader α β) (seed : Int)
    (hs : L.baseSeed = some seed) (s s' : σ) : L.onePass R s = L.onePass R s' := by
  simp only [Loader.onePass, Loader.order, Loader.reseed, hs]

/-- **C91** A pass of a loader with base seed `b` at epoch `e` yields what the same
loader without a seed yields when the caller first seeds the generator with `b + e`;
the epoch number then advances by one. -/
theorem onePass_seeded {α β σ : Type} (R : Rng σ) (L : Loader α β) (b : Int)
    (hs : L.baseSeed = some b) (s : σ) :
    (L.onePass R s).1 = ({ L with baseSeed := none }.onePass R (R.seed (b + L.epoch))).1 ∧
    (L.onePass R s).2.1.epoch = L.epoch + 1 ∧
    (L.onePass R s).2.2 = ({ L with baseSeed := none }.onePass R (R.seed (b + L.epoch))).2.2 := by
  refine ⟨?_, ?_, ?_⟩ <;> simp only [Loader.onePass, Loader.order, Loader.reseed, hs]

/-- **C91** The first pass of a new loader with base seed `b` is the one obtained by seeding
with `b` itself: epochs are numbered from zero. -/
theorem first_pass_seed {α β σ : Type} {ds : Dataset α β} {bs : Option Int}
    {shuffle dropLast infinite : Bool} {b : Int} {L : Loader α β}
    (hL : mkLoader ds bs shuffle dropLast (some b) infinite = .ok L) (R : Rng σ) (s : σ) :
    (L.onePass R s).1 = ({ L with baseSeed := none }.onePass R (R.seed b)).1 ∧
    (L.onePass R s).2.1.epoch = 1 := by
  have h : L.epoch = 0 ∧ L.baseSeed = some b := by
    unfold mkLoader at hL
    dsimp only at hL
    split_ifs at hL
    · cases hL; exact ⟨rfl, rfl⟩
  have := onePass_seeded R L b h.2 s
  rw [h.1, add_zero] at this
  exact ⟨this.1, this.2.1⟩

/-- **C91** Consequence: two loaders whose base seeds differ by one are not
independent; the second replays the epochs of the first, one epoch later. -/
theorem onePass_shift {α β σ : Type} (R : Rng σ) (L : Loader α β) (b : Int)
    (hs : L.baseSeed = some b) (s s' : σ) :
    (L.onePass R s).1 =
      (({ L with baseSeed := some (b + 1) } : Loader α β).setEpoch (L.epoch - 1) |>.onePass R s').1 := by
  have e : b + 1 + (L.epoch - 1) = b + L.epoch := by omega
  simp only [Loader.onePass, Loader.order, Loader.reseed, Loader.setEpoch, hs, e]

/-- Concrete case: a generator whose permutation rotates by the seed gives different
orders in epochs 0 and 1. -/
example :
    let R : Rng Int := ⟨id, fun s n => ((List.range n).rotate s.toNat, s)⟩
    let L : Loader Nat Nat := ⟨⟨[[1, 2, 3]], [[1, 2, 3]], 3, [0, 3]⟩, 3, true, false, some 0, 0, false⟩
    (L.order R 5).1 = [0, 1, 2] ∧ ((L.setEpoch 1).order R 5).1 = [1, 2, 0] := by
  decide

/-- **C07** A finite loader stops after one pass, however long one waits. -/
theorem iter_finite {α β σ : Type} (R : Rng σ) (L : Loader α β) (hf : L.infinite = false)
    (k : Nat) (s : σ) : Loader.iter R (k + 1) L s = L.onePass R s := by
  unfold Loader.iter
  simp [hf]

/-- **C07** An infinite loader observed for `k` turns produces `k` epochs one
after the other, each of which is a full epoch, numbered consecutively. -/
theorem iter_infinite {α β σ : Type} {xs : List (List α)} {zs : List (List β)}
    {ds : Dataset α β} (h : mkDataset xs zs = .ok ds)
    (bs : Option Int) (shuffle dropLast : Bool) (seed : Option Int)
    {L0 : Loader α β} (hL : mkLoader ds bs shuffle dropLast seed true = .ok L0)
    (R : Rng σ) (hR : R.Ok) (k : Nat) :
    ∀ (epoch : Int) (s : σ), ∃ (epochs : List (List (List α × List β))) (s' : σ),
      Loader.iter R k (L0.setEpoch epoch) s =
        (.ok epochs.flatten, L0.setEpoch (epoch + k), s') ∧
      epochs.length = k ∧
      ∀ b ∈ epochs, b.length = L0.len ∧
        IsEpoch (rowsOf xs zs) L0.batchSize shuffle dropLast b := by
  have hinf : ∀ e, (L0.setEpoch e).infinite = true := by
    intro e
    exact (mkLoader_ok hL).2.2.2.2.1
  induction k with
  | zero => intro e s; exact ⟨[], s, by simp [Loader.iter], rfl, by simp⟩
  | succ k ih =>
    intro e s
    obtain ⟨b, s1, p1, p2, p3⟩ := onePass_isEpoch h bs shuffle dropLast seed true hL e R hR s
    obtain ⟨es, s2, q1, q2, q3⟩ := ih (e + 1) s1
    refine ⟨b :: es, s2, ?_, by simp [q2], ?_⟩
    · unfold Loader.iter
      rw [p1]
      simp only [hinf, if_true, q1]
      have : e + 1 + (k : Int) = e + ((k + 1 : Nat) : Int) := by push_cast; omega
      rw [this]; rfl
    · intro c hc
      rcases List.mem_cons.mp hc with rfl | hc
      · exact ⟨p2, p3⟩
      · exact q3 c hc

/-- **C09** For an unshuffled finite loader, `loader[i]` is the `i`-th batch of
a pass for `0 ≤ i < len(loader)`. -/
theorem getItem_eq_batch {α β σ : Type} {xs : List (List α)} {zs : List (List β)}
    {ds : Dataset α β} (h : mkDataset xs zs = .ok ds)
    (bs : Option Int) (dropLast : Bool) (seed : Option Int)
    {L : Loader α β} (hL : mkLoader ds bs false dropLast seed false = .ok L)
    (R : Rng σ) (s : σ) :
    ∃ batches, (L.onePass R s).1 = .ok batches ∧ batches.length = L.len ∧
      (∀ i (hi : i < batches.length), L.getItem (i : Int) = .ok batches[i]) ∧
      (∀ i (hi : i < batches.length), L.getItem ((i : Int) - L.len) = .ok batches[i]) := by
  have g := good_of_mk h
  have hfacts : L.ds = ds ∧ 0 < L.batchSize ∧ L.shuffle = false ∧ L.dropLast = dropLast ∧
      L.infinite = false := by
    obtain ⟨a, b, c, d, e, _⟩ := mkLoader_ok hL
    exact ⟨a, b, c, d, e⟩
  obtain ⟨hds, hb, hsh, hdl, hinf⟩ := hfacts
  have hlenL : L.len = nBatches ds.len L.batchSize dropLast := by
    rw [nBatches_len L hb, hds, hdl]
  set b := L.batchSize with hbdef
  set m := nBatches ds.len b dropLast with hmdef
  set idx := (List.range ds.len).map Int.ofNat with hidx
  have hil : idx.length = ds.len := by simp [hidx]
  have hmb : ∀ k < m, k * b < ds.len := by
    intro k hk
    rw [hmdef] at hk
    unfold nBatches at hk
    split at hk
    · have h1 : (k + 1) * b ≤ ds.len := (Nat.le_div_iff_mul_le hb).mp (by omega)
      rw [Nat.add_mul] at h1; omega
    · have h1 : (k + 1) * b ≤ ds.len + b - 1 := (Nat.le_div_iff_mul_le hb).mp (by omega)
      rw [Nat.add_mul] at h1; omega
  have hpass : (L.onePass R s).1 =
      ((List.range m).map (fun k => (idx.drop (k * b)).take b)).mapM (fetchBatch ds) := by
    unfold Loader.onePass Loader.order
    simp only [hds, hsh, hdl, Bool.false_eq_true, if_false, ← hbdef, ← hidx]
    have hel := epochLoop_full idx b hb dropLast
    rw [hil] at hel
    rw [hel]
  have harange : ∀ k < m, arange ((k : Int) * b) (min ((k : Int) * b + b) (ds.len : Int)) =
      (idx.drop (k * b)).take b := by
    intro k hk
    have := hmb k hk
    apply List.ext_getElem
    · simp [arange, hidx]; omega
    · intro i h1 h2
      simp [arange, hidx]
  obtain ⟨batches, f1, f2, _⟩ := fetch_chunks g b hb idx (by
      intro i hi
      obtain ⟨j, hj, rfl⟩ := List.mem_map.mp hi
      have := List.mem_range.mp hj
      simp; omega) m (by intro k hk; rw [hil]; exact hmb k hk)
  have hget : ∀ i (hi : i < batches.length), fetchBatch ds ((idx.drop (i * b)).take b) = .ok batches[i] := by
    have : ∀ (l : List (List Int)) (bt : List (List α × List β)), l.mapM (fetchBatch ds) = .ok bt →
        ∀ i (h1 : i < l.length) (h2 : i < bt.length), fetchBatch ds l[i] = .ok bt[i] := by
      intro l
      induction l with
      | nil => intro bt _ i h1; simp at h1
      | cons a l ih =>
        intro bt hbt i h1 h2
        rw [List.mapM_cons] at hbt
        cases ha : fetchBatch ds a with
        | error e => rw [ha] at hbt; cases hbt
        | ok v =>
          cases hr : l.mapM (fetchBatch ds) with
          | error e => rw [ha, hr] at hbt; cases hbt
          | ok r =>
            rw [ha, hr] at hbt
            cases hbt
            cases i with
            | zero => exact ha
            | succ i => exact ih r hr i (by simpa using h1) (by simpa using h2)
    intro i hi
    have := this _ _ f1 i (by simp; omega) hi
    simpa using this
  have hitem : ∀ i (hi : i < batches.length), L.getItem (i : Int) = .ok batches[i] := by
    intro i hi
    unfold Loader.getItem
    simp only [hsh, hinf, Bool.or_self, Bool.false_eq_true, if_false]
    have hi0 : ¬ ((i : Int) < 0) := by omega
    have hi1 : ¬ ¬ (0 ≤ (i : Int) ∧ (i : Int) < (L.len : Int)) := by rw [hlenL]; omega
    simp only [if_neg hi0, if_neg hi1]
    have hle : ¬ (min ((i : Int) * b + b) (ds.len : Int) > (ds.len : Int)) := by omega
    simp only [hds, ← hbdef, hle, decide_false, Bool.false_and, Bool.false_eq_true, if_false]
    rw [harange i (by omega)]
    exact hget i hi
  refine ⟨batches, by rw [hpass, f1], by rw [f2, hlenL], hitem, ?_⟩
  intro i hi
  rw [← hitem i hi]
  unfold Loader.getItem
  simp only [hsh, hinf, Bool.or_self, Bool.false_eq_true, if_false]
  have : ((i : Int) - (L.len : Int)) < 0 := by rw [hlenL]; omega
  rw [if_pos this, if_neg (show ¬ ((i : Int) < 0) by omega)]
  rw [Int.sub_add_cancel]

/-- **C09** Out-of-range batch numbers raise `IndexError`; a shuffled or
infinite loader refuses indexing with `RuntimeError`. -/
theorem getItem_errors {α β : Type} (L : Loader α β) (i : Int) :
    (L.shuffle = true ∨ L.infinite = true → L.getItem i = .error .runtimeError) ∧
    (L.shuffle = false → L.infinite = false → (i ≥ L.len ∨ i < -(L.len : Int)) →
      L.getItem i = .error .indexError) := by
  constructor
  · intro h
    unfold Loader.getItem
    rw [if_pos]
    rcases h with h | h <;> simp [h]
  · intro h1 h2 h3
    unfold Loader.getItem
    simp only [h1, h2, Bool.or_self, Bool.false_eq_true, if_false]
    rw [if_pos]
    split <;> omega

/-- **C13** Collating the batches of one pass (no `drop_last`) gives back the
data: the same rows up to order, in the same order without shuffling; collating
nothing raises. -/
theorem collate_epoch {α β : Type} {rows : List (α × β)} {b : Nat} {shuffle : Bool}
    {batches : List (List α × List β)} (h : IsEpoch rows b shuffle false batches)
    (hne : batches ≠ []) :
    ∃ x z, collateBatches batches = .ok (x, z) ∧ x.length = z.length ∧
      (x.zip z).Perm rows ∧ (shuffle = false → x.zip z = rows) := by
  have hzip : ∀ bs : List (List α × List β), (∀ p ∈ bs, p.1.length = p.2.length) →
      (bs.map Prod.fst).flatten.zip (bs.map Prod.snd).flatten = bs.flatMap batchRows ∧
      (bs.map Prod.fst).flatten.length = (bs.map Prod.snd).flatten.length := by
    intro bs
    induction bs with
    | nil => intro _; simp
    | cons p bs ih =>
      intro hp
      obtain ⟨i1, i2⟩ := ih (fun q hq => hp q (List.mem_cons_of_mem _ hq))
      have := hp p List.mem_cons_self
      simp only [List.map_cons, List.flatten_cons, List.flatMap_cons]
      rw [List.zip_append this, i1]
      exact ⟨rfl, by rw [List.length_append, List.length_append, this, i2]⟩
  obtain ⟨z1, z2⟩ := hzip batches h.paired
  refine ⟨(batches.map Prod.fst).flatten, (batches.map Prod.snd).flatten, ?_, z2, ?_, ?_⟩
  · unfold collateBatches
    rw [if_neg (by simpa using hne)]
  · rw [z1]
    obtain ⟨sk, s1, s2, _⟩ := h.visits
    rw [s2 rfl, List.append_nil] at s1; exact s1
  · intro hs
    rw [z1]
    obtain ⟨sk, s1, s2, _⟩ := h.visits
    obtain ⟨sk', s3⟩ := h.ordered hs
    have l1 := s1.length_eq
    have l2 := congrArg List.length s3
    rw [s2 rfl, List.append_nil] at l1
    rw [List.length_append, l1] at l2
    have : sk' = [] := List.length_eq_zero_iff.mp (by omega)
    rw [this, List.append_nil] at s3; exact s3

/-- Non-vacuity of the premise of `collate_epoch`. -/
example : IsEpoch [(1, 'a'), (2, 'b'), (3, 'c')] 2 true false [([3, 1], ['c', 'a']), ([2], ['b'])] where
  paired := by decide
  full := by
    intro j hj hj'
    simp at hj'
    obtain rfl : j = 0 := by omega
    rfl
  last := by decide
  visits := ⟨[], by decide, fun _ => rfl, by decide⟩
  ordered := by intro h; cases h

theorem collate_empty {α β : Type} :
    collateBatches ([] : List (List α × List β)) = .error .valueError := rfl

end Verif.Data
