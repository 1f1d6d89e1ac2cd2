import Verif.Data.Model

/-! Helper lemmas about the dataset / loader model. -/

namespace Verif.Data

open Verif

/-- Number of rows in the first `k` shards. -/
def pre {α : Type} (xs : List (List α)) (k : Nat) : Nat := ((xs.take k).map List.length).sum

@[simp] theorem pre_zero {α : Type} (xs : List (List α)) : pre xs 0 = 0 := by simp [pre]

theorem pre_cons {α : Type} (x : List α) (xs : List (List α)) (k : Nat) :
    pre (x :: xs) (k + 1) = x.length + pre xs k := by simp [pre]

theorem pre_succ {α : Type} (xs : List (List α)) (k : Nat) (h : k < xs.length) :
    pre xs (k + 1) = pre xs k + xs[k].length := by
  unfold pre
  rw [List.take_add_one, List.getElem?_eq_getElem h, List.map_append, List.sum_append]
  rfl

theorem pre_succ_le {α : Type} (xs : List (List α)) (k : Nat) :
    pre xs k ≤ pre xs (k + 1) := by
  by_cases h : k < xs.length
  · rw [pre_succ xs k h]; omega
  · have h' : xs.length ≤ k := by omega
    have h'' : xs.length ≤ k + 1 := by omega
    simp [pre, List.take_of_length_le h', List.take_of_length_le h'']

theorem pre_mono {α : Type} (xs : List (List α)) {k m : Nat} (h : k ≤ m) :
    pre xs k ≤ pre xs m := by
  induction m with
  | zero => simp_all
  | succ m ih =>
    by_cases e : k = m + 1
    · subst e; exact Nat.le_refl _
    · exact Nat.le_trans (ih (by omega)) (pre_succ_le xs m)

theorem pre_length {α : Type} (xs : List (List α)) : pre xs xs.length = xs.flatten.length := by
  simp [pre, List.length_flatten]

theorem pre_congr {α β : Type} (xs : List (List α)) (zs : List (List β))
    (h : xs.map List.length = zs.map List.length) (k : Nat) : pre xs k = pre zs k := by
  simp [pre, List.map_take, h]

theorem shardBounds_length {α : Type} (c : Nat) (xs : List (List α)) :
    (shardBounds c xs).length = xs.length := by
  induction xs generalizing c with
  | nil => rfl
  | cons x xs ih => simp [shardBounds, ih]

theorem shardBounds_get {α : Type} (c : Nat) (xs : List (List α)) (k : Nat)
    (h : k < (shardBounds c xs).length) :
    (shardBounds c xs)[k] = c + pre xs (k + 1) := by
  induction xs generalizing c k with
  | nil => simp [shardBounds] at h
  | cons x xs ih =>
    cases k with
    | zero => simp [shardBounds, pre]
    | succ k =>
      simp only [shardBounds, List.getElem_cons_succ]
      rw [ih, pre_cons]; omega

theorem mkDataset_ok {α β : Type} {xs : List (List α)} {zs : List (List β)}
    {ds : Dataset α β} (h : mkDataset xs zs = .ok ds) :
    xs.map List.length = zs.map List.length ∧ ds.xs = xs ∧ ds.zs = zs ∧
      ds.size = xs.flatten.length ∧ ds.bounds = shardBounds 0 xs := by
  unfold mkDataset at h
  split at h
  · cases h
  · split at h
    · cases h
    · rename_i h1 h2
      cases h
      refine ⟨?_, rfl, rfl, by simp [List.length_flatten], rfl⟩
      have h1' : xs.length = zs.length := by simpa using h1
      clear h1
      induction xs generalizing zs with
      | nil => cases zs <;> simp_all
      | cons x xs ih =>
        cases zs with
        | nil => simp at h1'
        | cons z zs =>
          simp at h1' h2 ⊢
          refine ⟨h2.1, ?_⟩
          apply ih
          · simp; intro a b hab; exact h2.2 a b hab
          · exact h1'

theorem mkDataset_of_lengths {α β : Type} {xs : List (List α)} {zs : List (List β)}
    (h : xs.map List.length = zs.map List.length) :
    mkDataset xs zs = .ok ⟨xs, zs, (xs.map List.length).sum, shardBounds 0 xs⟩ := by
  unfold mkDataset
  have hl : xs.length = zs.length := by simpa using congrArg List.length h
  have h2 : (xs.zip zs).any (fun p => p.1.length != p.2.length) = false := by
    clear hl
    induction xs generalizing zs with
    | nil => simp
    | cons x xs ih =>
      cases zs with
      | nil => simp
      | cons z zs =>
        simp at h
        simp only [List.zip_cons_cons, List.any_cons, Bool.or_eq_false_iff]
        refine ⟨by simp [h.1], ih h.2⟩
  simp [hl, h2]

theorem mkDataset_error {α β : Type} {xs : List (List α)} {zs : List (List β)}
    (h : xs.map List.length ≠ zs.map List.length) :
    mkDataset xs zs = .error .assertionError := by
  cases hm : mkDataset xs zs with
  | ok ds => exact absurd (mkDataset_ok hm).1 h
  | error e =>
    unfold mkDataset at hm
    split at hm
    · cases hm; rfl
    · split at hm
      · cases hm; rfl
      · cases hm

/-! ### bisect -/

theorem bisectRightGo_spec (a : List Nat) (x : Int) (hs : a.Pairwise (· ≤ ·))
    (lo hi : Nat) (hhi : hi ≤ a.length) (hlo : lo ≤ hi)
    (h1 : ∀ j (hj : j < a.length), j < lo → (a[j] : Int) ≤ x)
    (h2 : ∀ j (hj : j < a.length), hi ≤ j → x < (a[j] : Int)) :
    bisectRightGo a x lo hi ≤ a.length ∧
    (∀ j (hj : j < a.length), j < bisectRightGo a x lo hi → (a[j] : Int) ≤ x) ∧
    (∀ j (hj : j < a.length), bisectRightGo a x lo hi ≤ j → x < (a[j] : Int)) := by
  have mono : ∀ i j (hi : i < a.length) (hj : j < a.length), i ≤ j → a[i] ≤ a[j] := by
    intro i j hi hj hij
    rcases Nat.lt_or_ge i j with h | h
    · exact List.pairwise_iff_getElem.mp hs i j hi hj h
    · have : i = j := by omega
      subst this; exact Nat.le_refl _
  induction lo, hi using bisectRightGo.induct (a := a) (x := x) with
  | case1 lo hi h mid hm ih =>
    have hml : mid < a.length := by omega
    rw [bisectRightGo, dif_pos h]
    simp only [mid] at *
    rw [if_pos hm]
    simp only [List.getD_eq_getElem?_getD, List.getElem?_eq_getElem hml, Option.getD_some] at hm
    apply ih (by omega) (by omega) h1
    intro j hj hmj
    have := mono ((lo + hi) / 2) j hml hj hmj
    omega
  | case2 lo hi h mid hm ih =>
    have hml : mid < a.length := by omega
    rw [bisectRightGo, dif_pos h]
    simp only [mid] at *
    rw [if_neg hm]
    simp only [List.getD_eq_getElem?_getD, List.getElem?_eq_getElem hml, Option.getD_some] at hm
    apply ih hhi (by omega) _ h2
    intro j hj hmj
    have := mono j ((lo + hi) / 2) hj hml (by omega)
    omega
  | case3 lo hi h =>
    rw [bisectRightGo, dif_neg h]
    exact ⟨by omega, fun j hj hl => h1 j hj hl, fun j hj hl => h2 j hj (by omega)⟩

theorem bisectRight_spec (a : List Nat) (x : Int) (hs : a.Pairwise (· ≤ ·)) :
    bisectRight a x ≤ a.length ∧
    (∀ j (hj : j < a.length), j < bisectRight a x → (a[j] : Int) ≤ x) ∧
    (∀ j (hj : j < a.length), bisectRight a x ≤ j → x < (a[j] : Int)) :=
  bisectRightGo_spec a x hs 0 a.length (Nat.le_refl _) (Nat.zero_le _)
    (by intro j _ h; omega) (by intro j hj h; omega)

theorem shardBounds_sorted {α : Type} (xs : List (List α)) :
    (shardBounds 0 xs).Pairwise (· ≤ ·) := by
  rw [List.pairwise_iff_getElem]
  intro i j hi hj hij
  rw [shardBounds_get, shardBounds_get]
  have := pre_mono xs (k := i + 1) (m := j + 1) (by omega)
  omega

theorem flatten_get {α : Type} (xs : List (List α)) (k i : Nat) (hk : k < xs.length)
    (h1 : pre xs k ≤ i) (h2 : i < pre xs (k + 1)) :
    xs.flatten[i]? = xs[k][i - pre xs k]? := by
  induction xs generalizing k i with
  | nil => simp at hk
  | cons x xs ih =>
    cases k with
    | zero =>
      simp [pre] at h2 ⊢
      rw [List.getElem?_append_left h2]
    | succ k =>
      rw [pre_cons] at h1 h2
      rw [pre_cons]
      simp only [List.flatten_cons, List.getElem_cons_succ]
      rw [List.getElem?_append_right (by omega), ih k (i - x.length) (by simpa using hk)
        (by omega) (by omega)]
      congr 1; omega

theorem pyGet_toNat {α : Type} (l : List α) (i : Int) (h : 0 ≤ i) :
    pyGet l i = match l[i.toNat]? with
      | some a => .ok a
      | none => .error .indexError := by
  unfold pyGet; rw [if_pos h]; rfl

/-! ### shard ranges and picking -/

theorem shardRanges_eq {α β : Type} {xs : List (List α)} {ds : Dataset α β}
    (hb : ds.bounds = shardBounds 0 xs) :
    ds.shardRanges = (List.range' 0 xs.length).map (fun k => (pre xs k, pre xs (k + 1))) := by
  unfold Dataset.shardRanges
  rw [hb]
  apply List.ext_getElem
  · simp [shardBounds_length]
    cases xs.length <;> simp
  · intro k h1 h2
    simp [shardBounds_length] at h1 h2
    simp only [List.getElem_zip, List.getElem_map, List.getElem_range', Nat.zero_add, Nat.one_mul]
    rw [shardBounds_get]
    cases k with
    | zero => simp
    | succ k =>
      simp only [List.singleton_append, List.getElem_cons_succ, List.getElem_dropLast]
      rw [shardBounds_get]
      simp

/-- index lies in `[a, b)` -/
def inR (a b : Nat) (i : Int) : Bool := decide ((a : Int) ≤ i) && decide (i < (b : Int))

/-- The indices in the order in which `pickLoop` visits them. -/
def buckets {α : Type} (xs : List (List α)) (idx : List Int) (k m : Nat) : List Int :=
  (List.range' k m).flatMap (fun j => idx.filter (inR (pre xs j) (pre xs (j + 1))))

theorem gather_ok {α : Type} (xs : List (List α)) (k : Nat) (hk : k < xs.length)
    (sel : List Int) (hsel : ∀ i ∈ sel, inR (pre xs k) (pre xs (k + 1)) i = true) :
    ∃ r, gather xs[k] (sel.map (fun i => i - (pre xs k : Int))) = .ok r ∧
      r.length = sel.length ∧
      r.map some = sel.map (fun i => xs.flatten[i.toNat]?) := by
  induction sel with
  | nil => exact ⟨[], rfl, rfl, rfl⟩
  | cons i sel ih =>
    obtain ⟨r, hr, hl, hm⟩ := ih (fun j hj => hsel j (List.mem_cons_of_mem _ hj))
    have hi := hsel i List.mem_cons_self
    simp [inR] at hi
    have hp := pre_succ xs k hk
    have hlt : (i - (pre xs k : Int)).toNat < xs[k].length := by omega
    have hg : pyGet xs[k] (i - (pre xs k : Int)) = .ok (xs[k][(i - (pre xs k : Int)).toNat]) := by
      rw [pyGet_toNat _ _ (by omega), List.getElem?_eq_getElem hlt]
    refine ⟨xs[k][(i - (pre xs k : Int)).toNat] :: r, ?_, by simp [hl], ?_⟩
    · unfold gather at hr ⊢
      rw [List.map_cons, List.mapM_cons, hg, hr]; rfl
    · rw [List.map_cons, List.map_cons, hm]
      congr 1
      rw [flatten_get xs k i.toNat hk (by omega) (by omega)]
      have : i.toNat - pre xs k = (i - (pre xs k : Int)).toNat := by omega
      rw [this, List.getElem?_eq_getElem hlt]

theorem pickLoop_ok {α β : Type} (ds : Dataset α β)
    (hl : ds.xs.map List.length = ds.zs.map List.length) (idx : List Int) (m : Nat) :
    ∀ k, k + m ≤ ds.xs.length →
    ∃ xs' zs', pickLoop ds idx
        ((List.range' k m).map (fun k => (pre ds.xs k, pre ds.xs (k + 1)))) k = .ok (xs', zs') ∧
      xs'.map List.length = zs'.map List.length ∧
      (xs' = [] ↔ buckets ds.xs idx k m = []) ∧
      xs'.flatten.map some = (buckets ds.xs idx k m).map (fun i => ds.xs.flatten[i.toNat]?) ∧
      zs'.flatten.map some = (buckets ds.xs idx k m).map (fun i => ds.zs.flatten[i.toNat]?) := by
  induction m with
  | zero => intro k _; exact ⟨[], [], rfl, rfl, by simp [buckets], rfl, rfl⟩
  | succ m ih =>
    intro k hk
    have hlen : ds.xs.length = ds.zs.length := by simpa using congrArg List.length hl
    have hkx : k < ds.xs.length := by omega
    have hkz : k < ds.zs.length := by omega
    obtain ⟨xs', zs', hr, hll, hnil, hx, hz⟩ := ih (k + 1) (by omega)
    rw [List.range'_succ, List.map_cons]
    simp only [pickLoop]
    have hsel : (idx.filter (fun i => decide ((pre ds.xs k : Int) ≤ i) &&
        decide (i < (pre ds.xs (k + 1) : Int)))) =
        idx.filter (inR (pre ds.xs k) (pre ds.xs (k + 1))) := rfl
    rw [hsel]
    have hbk : buckets ds.xs idx k (m + 1) =
        idx.filter (inR (pre ds.xs k) (pre ds.xs (k + 1))) ++ buckets ds.xs idx (k + 1) m := by
      simp [buckets, List.range'_succ]
    generalize hS : idx.filter (inR (pre ds.xs k) (pre ds.xs (k + 1))) = sel at *
    have hin : ∀ i ∈ sel, inR (pre ds.xs k) (pre ds.xs (k + 1)) i = true := by
      intro i hi; rw [← hS] at hi; exact (List.mem_filter.mp hi).2
    by_cases he : sel.isEmpty
    · rw [if_pos he]
      have : sel = [] := by simpa using he
      subst this
      refine ⟨xs', zs', hr, hll, ?_, ?_, ?_⟩ <;> rw [hbk, List.nil_append] <;> assumption
    · rw [if_neg he]
      obtain ⟨rx, hgx, hlx, hmx⟩ := gather_ok ds.xs k hkx sel hin
      have hpz : ∀ j, pre ds.xs j = pre ds.zs j := pre_congr _ _ hl
      obtain ⟨rz, hgz, hlz, hmz⟩ := gather_ok ds.zs k hkz sel (by
        intro i hi; rw [← hpz, ← hpz]; exact hin i hi)
      rw [← hpz] at hgz
      refine ⟨rx :: xs', rz :: zs', ?_, ?_, ?_, ?_, ?_⟩
      · rw [pyGet_nat _ _ hkx, pyGet_nat _ _ hkz]
        simp only [Except.bind, hgx, hgz, hr]
        rfl
      · simp [hlx, hlz, hll]
      · rw [hbk]; simp at he; simp [he]
      · rw [hbk, List.flatten_cons, List.map_append, List.map_append, hmx, hx]
      · rw [hbk, List.flatten_cons, List.map_append, List.map_append, hmz, hz]

theorem filter_split_perm (a b c : Nat) (hab : a ≤ b) (hbc : b ≤ c) (idx : List Int) :
    (idx.filter (inR a b) ++ idx.filter (inR b c)).Perm (idx.filter (inR a c)) := by
  induction idx with
  | nil => simp
  | cons i idx ih =>
    by_cases h1 : inR a b i <;> by_cases h2 : inR b c i <;> by_cases h3 : inR a c i <;>
      simp [h1, h2, h3]
    all_goals first
      | (exfalso; simp [inR] at h1 h2 h3; omega)
      | exact ih
      | exact (List.perm_middle).trans (List.Perm.cons _ ih)

theorem filter_split_sorted (a b c : Nat) (hab : a ≤ b) (hbc : b ≤ c) (idx : List Int)
    (hs : idx.Pairwise (· ≤ ·)) :
    idx.filter (inR a b) ++ idx.filter (inR b c) = idx.filter (inR a c) := by
  induction idx with
  | nil => simp
  | cons i idx ih =>
    have ih' := ih (List.Pairwise.of_cons hs)
    have hmin : ∀ j ∈ idx, i ≤ j := fun j hj => List.rel_of_pairwise_cons hs hj
    by_cases h1 : inR a b i
    · have h2 : inR b c i = false := by simp [inR] at h1 ⊢; omega
      have h3 : inR a c i = true := by simp [inR] at h1 ⊢; omega
      simp [h1, h2, h3, ih']
    · by_cases h2 : inR b c i
      · have h3 : inR a c i = true := by simp [inR] at h2 ⊢; omega
        have hnil : idx.filter (inR a b) = [] := by
          rw [List.filter_eq_nil_iff]
          intro j hj
          have := hmin j hj
          simp [inR] at h2 ⊢; omega
        rw [hnil] at ih'
        simp [h1, h2, h3, hnil] at ih' ⊢
        exact ih'
      · have h3 : inR a c i = false := by simp [inR] at h1 h2 ⊢; omega
        simp [h1, h2, h3, ih']

theorem buckets_perm {α : Type} (xs : List (List α)) (idx : List Int) (m : Nat) :
    ∀ k, (buckets xs idx k m).Perm (idx.filter (inR (pre xs k) (pre xs (k + m)))) := by
  induction m with
  | zero =>
    intro k
    have : idx.filter (inR (pre xs k) (pre xs (k + 0))) = [] := by
      rw [List.filter_eq_nil_iff]; intro i _; simp [inR]
    rw [this]; simp [buckets]
  | succ m ih =>
    intro k
    have : buckets xs idx k (m + 1) =
        idx.filter (inR (pre xs k) (pre xs (k + 1))) ++ buckets xs idx (k + 1) m := by
      simp [buckets, List.range'_succ]
    rw [this]
    refine (List.Perm.append_left _ (ih (k + 1))).trans ?_
    have := filter_split_perm (pre xs k) (pre xs (k + 1)) (pre xs (k + 1 + m))
      (pre_succ_le _ _) (pre_mono _ (by omega)) idx
    rw [show k + (m + 1) = k + 1 + m by omega]
    exact this

theorem buckets_sorted {α : Type} (xs : List (List α)) (idx : List Int)
    (hs : idx.Pairwise (· ≤ ·)) (m : Nat) :
    ∀ k, buckets xs idx k m = idx.filter (inR (pre xs k) (pre xs (k + m))) := by
  induction m with
  | zero =>
    intro k
    have : idx.filter (inR (pre xs k) (pre xs (k + 0))) = [] := by
      rw [List.filter_eq_nil_iff]; intro i _; simp [inR]
    rw [this]; simp [buckets]
  | succ m ih =>
    intro k
    have : buckets xs idx k (m + 1) =
        idx.filter (inR (pre xs k) (pre xs (k + 1))) ++ buckets xs idx (k + 1) m := by
      simp [buckets, List.range'_succ]
    rw [this, ih (k + 1)]
    have := filter_split_sorted (pre xs k) (pre xs (k + 1)) (pre xs (k + 1 + m))
      (pre_succ_le _ _) (pre_mono _ (by omega)) idx hs
    rw [show k + (m + 1) = k + 1 + m by omega]
    exact this

end Verif.Data
