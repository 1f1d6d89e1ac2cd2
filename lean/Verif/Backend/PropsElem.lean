import Verif.Backend.Elem
import Mathlib.Data.List.GetD

/-!
# Entry-by-entry functions and sorting: theorems
-/

set_option autoImplicit false

namespace Verif.Backend.Elem

open Verif Verif.Backend

/-! ## Specification -/

/-- Length of axis `k` counted from the last; 1 beyond the first axis. -/
def fromEnd (s : List ℕ) (k : ℕ) : ℕ := s.reverse.getD k 1

/-- `u` is the common shape of `s` and `t`. -/
def Common (s t u : List ℕ) : Prop :=
  u.length = max s.length t.length ∧ ∀ k,
    (fromEnd s k = fromEnd t k ∨ fromEnd s k = 1 ∨ fromEnd t k = 1) ∧
    fromEnd u k = if fromEnd s k = 1 then fromEnd t k else fromEnd s k

/-- The shape and the entries that an argument stands for. -/
def Arg.shape : Arg → List ℕ
  | .number _ _ => []
  | .list a | .nd a | .tensor a => a.shape

def Arg.val : Arg → List ℕ → Flt
  | .number _ v => fun _ => v
  | .list a | .nd a | .tensor a => a.val

def Arg.dt : Arg → DT
  | .number dt _ => dt
  | .list a | .nd a | .tensor a => a.dt

/-- `v` is the entry of `x` that belongs to the multi-index `l` of a result: axes are matched
from the last, and an axis of length 1 is repeated. -/
def Entry (x : Arg) (l : List ℕ) (v : Flt) : Prop :=
  ∃ i, List.Forall₂ (· < ·) i x.shape ∧
    (∀ k < x.shape.length,
      i.reverse.getD k 0 = if fromEnd x.shape k = 1 then 0 else l.reverse.getD k 0) ∧
    v = x.val i

/-- The argument of the other backend: the same number or list, and a numpy array or a
tensor for a numpy array. -/
inductive Same : Arg → Arg → Prop
  | number (dt : DT) (v : Flt) : Same (.number dt v) (.number dt v)
  | list (a : A) : Same (.list a) (.list a)
  | nd (a : A) : Same (.nd a) (.nd a)
  | tensor (a : A) : Same (.nd a) (.tensor a)

/-! ## Broadcasting -/

theorem axisLen_some {m n d : ℕ} :
    axisLen m n = some d ↔ (m = n ∨ m = 1 ∨ n = 1) ∧ d = if m = 1 then n else m := by
  unfold axisLen
  by_cases h : m = n
  · subst h; by_cases h1 : m = 1 <;> simp [h1, eq_comm]
  · by_cases h1 : m = 1
    · subst h1; simp [h, eq_comm]
    · by_cases h2 : n = 1
      · subst h2; simp [h, eq_comm]
      · simp [h, h1, h2]

theorem bcR_spec : ∀ (s t u : List ℕ), bcR s t = some u ↔
    u.length = max s.length t.length ∧ ∀ k,
      (s.getD k 1 = t.getD k 1 ∨ s.getD k 1 = 1 ∨ t.getD k 1 = 1) ∧
      u.getD k 1 = if s.getD k 1 = 1 then t.getD k 1 else s.getD k 1 := by
  intro s
  induction s with
  | nil =>
    intro t u
    simp only [bcR, Option.some.injEq, List.length_nil, Nat.zero_max, List.getD_nil,
      true_or, or_true, true_and, if_true]
    constructor
    · rintro rfl; simp
    · rintro ⟨h1, h2⟩
      refine (List.ext_getElem h1 fun k hk hk' => ?_).symm
      have := h2 k
      rwa [List.getD_eq_getElem _ _ hk, List.getD_eq_getElem _ _ hk'] at this
  | cons m s ih =>
    intro t u
    cases t with
    | nil =>
      simp only [bcR, Option.some.injEq, List.length_nil, Nat.max_zero, List.getD_nil, or_true,
        true_and]
      constructor
      · rintro rfl
        refine ⟨rfl, fun k => ?_⟩
        split_ifs with h
        · exact h
        · rfl
      · rintro ⟨h1, h2⟩
        refine (List.ext_getElem h1 fun k hk hk' => ?_).symm
        have := h2 k
        rw [List.getD_eq_getElem _ _ hk, List.getD_eq_getElem _ _ hk'] at this
        split_ifs at this with h
        · rw [this, h]
        · exact this
    | cons n t =>
      simp only [bcR, Option.bind_eq_bind, Option.bind_eq_some_iff, Option.some.injEq]
      constructor
      · rintro ⟨d, hd, v, hv, rfl⟩
        obtain ⟨h1, h2⟩ := (ih t v).1 hv
        refine ⟨by simp [h1], fun k => ?_⟩
        cases k with
        | zero => simpa using axisLen_some.1 hd
        | succ k => simpa using h2 k
      · rintro ⟨h1, h2⟩
        cases u with
        | nil => simp at h1
        | cons d v =>
          refine ⟨d, axisLen_some.2 (by simpa using h2 0), v, (ih t v).2 ⟨?_, fun k => ?_⟩, rfl⟩
          · simp only [List.length_cons] at h1; omega
          · simpa using h2 (k + 1)

/-- Two shapes are combined exactly when, matched from the last axis, each pair of lengths is
equal or contains a 1. -/
theorem broadcast_spec (s t u : List ℕ) : broadcast s t = some u ↔ Common s t u := by
  unfold broadcast Common fromEnd
  rw [Option.map_eq_some_iff]
  constructor
  · rintro ⟨v, hv, rfl⟩
    simpa using (bcR_spec _ _ _).1 hv
  · rintro h
    exact ⟨u.reverse, (bcR_spec _ _ _).2 (by simpa using h), by simp⟩

theorem pullR_get : ∀ (s l : List ℕ) (k : ℕ), k < s.length →
    (pullR s l).getD k 0 = if s.getD k 1 = 1 then 0 else l.getD k 0 := by
  intro s
  induction s with
  | nil => intro l k hk; simp at hk
  | cons m s ih =>
    intro l k hk
    cases l with
    | nil =>
      cases k with
      | zero => simp [pullR]
      | succ k => simpa [pullR] using ih [] k (by simpa using hk)
    | cons i l =>
      cases k with
      | zero => simp [pullR]
      | succ k => simpa [pullR] using ih l k (by simpa using hk)

theorem pullR_length (s : List ℕ) : ∀ l, (pullR s l).length = s.length := by
  induction s with
  | nil => intro l; simp [pullR]
  | cons m s ih => intro l; cases l <;> simp [pullR, ih]

theorem forall2_lt_iff (i s : List ℕ) : List.Forall₂ (· < ·) i s ↔
    i.length = s.length ∧ ∀ k < s.length, i.getD k 0 < s.getD k 1 := by
  rw [List.forall₂_iff_get]
  refine and_congr_right fun h => ⟨fun H k hk => ?_, fun H k hk hk' => ?_⟩
  · have := H k (by omega) hk
    rw [List.getD_eq_getElem _ _ hk, List.getD_eq_getElem _ _ (by omega)]
    simpa using this
  · have := H k hk'
    rw [List.getD_eq_getElem _ _ hk', List.getD_eq_getElem _ _ hk] at this
    simpa using this

theorem forall2_reverse (i s : List ℕ) (h : List.Forall₂ (· < ·) i s) :
    List.Forall₂ (· < ·) i.reverse s.reverse := List.rel_reverse h

/-- What an operand contributes. -/
theorem pull_entry {x : Arg} {a : A} (hs : a.shape = x.shape) (hv : a.val = x.val)
    {t u l : List ℕ} (h : Common a.shape t u ∨ Common t a.shape u)
    (hl : List.Forall₂ (· < ·) l u) : Entry x l (a.val (pull a.shape l)) := by
  refine ⟨pull a.shape l, ?_, ?_, by rw [hv]⟩
  · have h2 := (forall2_lt_iff _ _).1 (forall2_reverse _ _ hl)
    have hlen : a.shape.length ≤ u.length := by
      rcases h with h | h
      · rw [h.1]; exact le_max_left _ _
      · rw [h.1]; exact le_max_right _ _
    have key : List.Forall₂ (· < ·) (pullR a.shape.reverse l.reverse) a.shape.reverse := by
      rw [forall2_lt_iff]
      refine ⟨pullR_length _ _, fun k hk => ?_⟩
      rw [pullR_get _ _ _ hk]
      split_ifs with h1
      · rw [h1]; omega
      · have hk' : k < u.reverse.length := by simp at hk ⊢; omega
        have h3 := h2.2 k hk'
        have h4 : u.reverse.getD k 1 = a.shape.reverse.getD k 1 := by
          rcases h with h | h
          · have := (h.2 k).2
            unfold fromEnd at this
            rwa [if_neg h1] at this
          · have := h.2 k
            unfold fromEnd at this
            obtain ⟨h5, h6⟩ := this
            rw [h6]
            split_ifs with h7
            · rfl
            · rcases h5 with h5 | h5 | h5
              · exact h5
              · exact absurd h5 h7
              · exact absurd h5 h1
        rwa [← h4]
    rw [← hs]
    simpa [pull] using forall2_reverse _ _ key
  · intro k hk
    rw [← hs] at hk ⊢
    simp only [pull, List.reverse_reverse, fromEnd]
    exact pullR_get _ _ _ (by simpa using hk)

/-! ## `maximum` and `minimum` -/

theorem npOperand_shape (x : Arg) : (npOperand x).1.shape = x.shape := by cases x <;> rfl
theorem npOperand_val (x : Arg) : (npOperand x).1.val = x.val := by cases x <;> rfl
theorem thAsarray_shape (x : Arg) : (thAsarray x).shape = x.shape := by cases x <;> rfl
theorem thAsarray_val (x : Arg) : (thAsarray x).val = x.val := by cases x <;> rfl

theorem binary_ok {op : Flt → Flt → Flt} {dt : DT} {e : PyErr} {x y r : A}
    (h : binary op dt e x y = .ok r) : r.dt = dt ∧ Common x.shape y.shape r.shape ∧
      r.val = fun l => op (x.val (pull x.shape l)) (y.val (pull y.shape l)) := by
  unfold binary at h
  split at h
  · cases h
  · rename_i s hs
    cases h
    exact ⟨rfl, (broadcast_spec _ _ _).1 hs, rfl⟩

theorem binary_error {op : Flt → Flt → Flt} {dt : DT} {e : PyErr} {x y : A} {e' : PyErr}
    (h : binary op dt e x y = .error e') : e' = e ∧ ∀ u, ¬ Common x.shape y.shape u := by
  unfold binary at h
  split at h
  · rename_i hs
    cases h
    refine ⟨rfl, fun u hu => ?_⟩
    rw [(broadcast_spec _ _ _).2 hu] at hs
    cases hs
  · cases h

theorem thBinary_eq (op : Flt → Flt → Flt) (x y : Arg) : ∃ a b, thBinary op x y = torchBinary op a b ∧
    a.shape = x.shape ∧ a.val = x.val ∧ b.shape = y.shape ∧ b.val = y.val := by
  unfold thBinary
  split
  · exact ⟨_, _, rfl, rfl, rfl, rfl, rfl⟩
  · exact ⟨_, _, rfl, thAsarray_shape _, thAsarray_val _, thAsarray_shape _, thAsarray_val _⟩

/-- A result of either backend has the common shape, and each of its entries comes from the
entries of the two arguments at that place. -/
theorem binary_entries (op : Flt → Flt → Flt) (x y : Arg) (r : A)
    (h : npBinary op x y = .ok r ∨ thBinary op x y = .ok r) :
    Common x.shape y.shape r.shape ∧ ∀ l, List.Forall₂ (· < ·) l r.shape →
      ∃ a b, Entry x l a ∧ Entry y l b ∧ r.val l = op a b := by
  rcases h with h | h
  · obtain ⟨-, h2, h3⟩ := binary_ok h
    refine ⟨by rwa [npOperand_shape, npOperand_shape] at h2, fun l hl => ?_⟩
    refine ⟨_, _, pull_entry (npOperand_shape x) (npOperand_val x) (.inl h2) hl,
      pull_entry (npOperand_shape y) (npOperand_val y) (.inr h2) hl, ?_⟩
    rw [h3]
  · obtain ⟨a, b, he, hs, hv, hs', hv'⟩ := thBinary_eq op x y
    rw [he] at h
    obtain ⟨-, h2, h3⟩ := binary_ok h
    refine ⟨by rwa [hs, hs'] at h2, fun l hl => ?_⟩
    exact ⟨_, _, pull_entry hs hv (.inl h2) hl, pull_entry hs' hv' (.inr h2) hl, by rw [h3]⟩

/-- `maximum` in either backend: a NaN in either argument stays, and otherwise the entry is
one of the two and at least both. -/
theorem maximum_entries (x y : Arg) (r : A)
    (h : npBinary larger x y = .ok r ∨ thBinary larger x y = .ok r) (l : List ℕ)
    (hl : List.Forall₂ (· < ·) l r.shape) : ∃ a b, Entry x l a ∧ Entry y l b ∧
      (r.val l = .nan ↔ a = .nan ∨ b = .nan) ∧
      (a ≠ .nan → b ≠ .nan → a.le (r.val l) ∧ b.le (r.val l) ∧ (r.val l = a ∨ r.val l = b)) := by
  obtain ⟨a, b, ha, hb, hr⟩ := (binary_entries _ _ _ _ h).2 l hl
  refine ⟨a, b, ha, hb, ?_⟩
  rw [hr]
  cases a <;> cases b <;> simp [larger, le_total]

/-- `minimum` likewise. -/
theorem minimum_entries (x y : Arg) (r : A)
    (h : npBinary smaller x y = .ok r ∨ thBinary smaller x y = .ok r) (l : List ℕ)
    (hl : List.Forall₂ (· < ·) l r.shape) : ∃ a b, Entry x l a ∧ Entry y l b ∧
      (r.val l = .nan ↔ a = .nan ∨ b = .nan) ∧
      (a ≠ .nan → b ≠ .nan → (r.val l).le a ∧ (r.val l).le b ∧ (r.val l = a ∨ r.val l = b)) := by
  obtain ⟨a, b, ha, hb, hr⟩ := (binary_entries _ _ _ _ h).2 l hl
  refine ⟨a, b, ha, hb, ?_⟩
  rw [hr]
  cases a <;> cases b <;> simp [smaller, le_total]

/-- The larger of two kinds. -/
def wider (a b : DT) : DT := if kind a ≤ kind b then b else a

theorem thType_wider {x y : A} (hx : x.dt ≠ .float32) (hy : y.dt ≠ .float32) :
    thType x y = wider x.dt y.dt := by
  obtain ⟨a, s, v⟩ := x
  obtain ⟨b, t, w⟩ := y
  simp only at hx hy
  unfold thType wider
  simp only
  cases a <;> cases b <;> simp [kind, thJoin] at hx hy ⊢

theorem npType_wider {x y : A × Bool} (hx : x.1.dt ≠ .float32) (hy : y.1.dt ≠ .float32) :
    npType x y = wider x.1.dt y.1.dt := by
  obtain ⟨⟨a, s, v⟩, p⟩ := x
  obtain ⟨⟨b, t, w⟩, q⟩ := y
  simp only at hx hy
  unfold npType wider
  simp only
  cases a <;> cases b <;> cases p <;> cases q <;> simp [kind, npJoin] at hx hy ⊢

theorem npOperand_dt {x : Arg} (h : x.dt ≠ .float32) : (npOperand x).1.dt = x.dt := by
  cases x <;> simp_all [npOperand, Arg.dt]

theorem thAsarray_dt {x : Arg} (h : x.dt ≠ .float32) : (thAsarray x).dt = x.dt := by
  cases x with
  | number d v => cases d <;> simp_all [thAsarray, asarrayTorch, Arg.dt]
  | list a =>
    obtain ⟨d, s, v⟩ := a
    cases d <;> simp_all [thAsarray, asarrayTorch, Arg.dt, DT.floating]
  | nd a =>
    obtain ⟨d, s, v⟩ := a
    cases d <;> simp_all [thAsarray, asarrayTorch, Arg.dt, DT.floating]
  | tensor a =>
    obtain ⟨d, s, v⟩ := a
    cases d <;> simp_all [thAsarray, asarrayTorch, Arg.dt, DT.floating]

theorem binary_congr {op : Flt → Flt → Flt} {dt : DT} {e e' : PyErr} {x y x' y' : A}
    (hx : x.shape = x'.shape) (hy : y.shape = y'.shape) (hx' : x.val = x'.val)
    (hy' : y.val = y'.val) :
    (∃ r, binary op dt e x y = .ok r ∧ binary op dt e' x' y' = .ok r) ∨
      (binary op dt e x y = .error e ∧ binary op dt e' x' y' = .error e' ∧
        ∀ u, ¬ Common x.shape y.shape u) := by
  cases h : broadcast x.shape y.shape with
  | none =>
    have h' := h
    rw [hx, hy] at h'
    refine .inr ⟨by simp [binary, h], by simp [binary, h'], fun u hu => ?_⟩
    rw [(broadcast_spec _ _ _).2 hu] at h
    cases h
  | some s =>
    have h' := h
    rw [hx, hy] at h'
    refine .inl ⟨⟨dt, s, fun l => op (x.val (pull x.shape l)) (y.val (pull y.shape l))⟩, ?_, ?_⟩
    · simp [binary, h]
    · simp [binary, h', hx, hy, hx', hy']

/-- Without single precision both backends give the same type, shape and entries for
`maximum` and `minimum` of numbers, lists and arrays, or both refuse the shapes. -/
theorem binary_agree (op : Flt → Flt → Flt) {x y x' y' : Arg} (hx : Same x x') (hy : Same y y')
    (h1 : x.dt ≠ .float32) (h2 : y.dt ≠ .float32) :
    (∃ r, npBinary op x y = .ok r ∧ thBinary op x' y' = .ok r ∧ r.dt = wider x.dt y.dt) ∨
      (npBinary op x y = .error .valueError ∧ thBinary op x' y' = .error .runtimeError ∧
        ∀ u, ¬ Common x.shape y.shape u) := by
  have hd : x'.dt = x.dt ∧ x'.shape = x.shape ∧ x'.val = x.val := by
    cases hx <;> exact ⟨rfl, rfl, rfl⟩
  have hd' : y'.dt = y.dt ∧ y'.shape = y.shape ∧ y'.val = y.val := by
    cases hy <;> exact ⟨rfl, rfl, rfl⟩
  have key : ∃ a b, thBinary op x' y' = torchBinary op a b ∧
      a.shape = x.shape ∧ a.val = x.val ∧ b.shape = y.shape ∧ b.val = y.val ∧
      a.dt = x.dt ∧ b.dt = y.dt := by
    unfold thBinary
    split
    · exact ⟨_, _, rfl, hd.2.1, hd.2.2, hd'.2.1, hd'.2.2, hd.1, hd'.1⟩
    · refine ⟨_, _, rfl, (thAsarray_shape _).trans hd.2.1, (thAsarray_val _).trans hd.2.2,
        (thAsarray_shape _).trans hd'.2.1, (thAsarray_val _).trans hd'.2.2, ?_, ?_⟩
      · rw [thAsarray_dt (by rw [hd.1]; exact h1), hd.1]
      · rw [thAsarray_dt (by rw [hd'.1]; exact h2), hd'.1]
  obtain ⟨a, b, he, hs, hv, hs', hv', ht, ht'⟩ := key
  rw [he]
  unfold npBinary torchBinary
  simp only
  rw [npType_wider (by rwa [npOperand_dt h1]) (by rwa [npOperand_dt h2]), npOperand_dt h1,
    npOperand_dt h2, thType_wider (by rwa [ht]) (by rwa [ht']), ht, ht']
  rcases binary_congr (op := op) (dt := wider x.dt y.dt) (e := .valueError) (e' := .runtimeError)
    (x := (npOperand x).1) (y := (npOperand y).1) (x' := a) (y' := b)
    (by rw [npOperand_shape, hs]) (by rw [npOperand_shape, hs'])
    (by rw [npOperand_val, hv]) (by rw [npOperand_val, hv']) with ⟨r, hr, hr'⟩ | h
  · exact .inl ⟨r, hr, hr', (binary_ok hr).1⟩
  · refine .inr ⟨h.1, h.2.1, ?_⟩
    simpa only [npOperand_shape] using h.2.2

/-- With single precision they do not: against the number 0 the type is kept in numpy and
doubled in torch, where even `maximum(x, x)` and `maximum(x, 0)` differ. -/
theorem binary_single_false :
    ¬ ∀ (x : A) (r r' : A), npBinary larger (.nd x) (.number .float64 (.fin 0)) = .ok r →
      thBinary larger (.tensor x) (.number .float64 (.fin 0)) = .ok r' → r.dt = r'.dt := by
  intro h
  have := h ⟨.float32, [2], fun _ => .fin 1⟩ _ _ rfl rfl
  exact absurd this (by decide)

/-- Examples: a column against a row, and shapes that do not fit. -/
example : broadcast [3, 1] [4] = some [3, 4] ∧ broadcast [3] [4] = none := by decide

example : ∃ r, npBinary larger (.nd ⟨.int, [2, 1], fun l => .fin (l.getD 0 0)⟩)
    (.list ⟨.float64, [3], fun l => .fin (l.getD 0 0)⟩) = .ok r ∧ r.shape = [2, 3] ∧
    r.dt = .float64 ∧ r.val [1, 0] = .fin 1 ∧ r.val [0, 2] = .fin 2 := by
  refine ⟨_, rfl, rfl, rfl, ?_, ?_⟩
  · simp [npOperand, pull, pullR, larger, Flt.fin]
  · simp [npOperand, pull, pullR, larger, Flt.fin]
    norm_cast

/-! ## Functions of one entry -/

/-- `exp`, `log`, … of numbers, lists and arrays of integers or doubles agree in type, shape
and entries; the function is applied to each entry. -/
theorem unary_agree (f : Flt → Flt) {x x' : Arg} (hx : Same x x') (h1 : x.dt ≠ .float32)
    (h2 : x.dt ≠ .bool) : npUnary f x = thUnary f x' ∧
      thUnary f x' = ⟨.float64, x.shape, fun l => f (x.val l)⟩ := by
  cases hx with
  | number dt v =>
    cases dt <;> simp_all [npUnary, thUnary, torchUnary, npOperand, npUnaryType, Arg.dt, Arg.shape, Arg.val]
  | list a =>
    obtain ⟨d, s, v⟩ := a
    cases d <;> simp_all [npUnary, thUnary, torchUnary, npOperand, npUnaryType, Arg.dt, Arg.shape, Arg.val]
  | nd a =>
    obtain ⟨d, s, v⟩ := a
    cases d <;> simp_all [npUnary, thUnary, torchUnary, npOperand, npUnaryType, Arg.dt, Arg.shape, Arg.val]
  | tensor a =>
    obtain ⟨d, s, v⟩ := a
    cases d <;> simp_all [npUnary, thUnary, torchUnary, npOperand, npUnaryType, Arg.dt, Arg.shape, Arg.val]

/-- In single precision a numpy array keeps its type under numpy and a tensor under torch,
but torch reads a numpy array in double precision. -/
theorem unary_single_false (f : Flt → Flt) :
    ¬ ∀ (x x' : Arg), Same x x' → (npUnary f x).dt = (thUnary f x').dt := by
  intro h
  have := h _ _ (.nd ⟨.float32, [], fun _ => .nan⟩)
  simp [npUnary, thUnary, npOperand, npUnaryType, torchUnary] at this

example : (thUnary Flt.neg (.number .int (.fin 3))).dt = .float64 ∧
    (thUnary Flt.neg (.list ⟨.int, [2], fun l => .fin (l.getD 0 0)⟩)).val [1] = .fin (-1) := by
  refine ⟨rfl, ?_⟩
  simp [thUnary, torchUnary, Flt.neg, Flt.fin]

/-! ## `sort` -/

/-- The order of a sorted line: numbers do not decrease, NaN come last. -/
def Ordered (l : List Flt) : Prop :=
  l.Pairwise fun a b => b = .nan ∨ a.le b

theorem before_iff (a b : Flt) : before a b = true ↔ b = .nan ∨ a.le b := by
  cases a <;> cases b <;> simp [before]

theorem before_total (a b : Flt) : (before a b || before b a) = true := by
  cases a <;> cases b <;> simp [before, le_total]

theorem before_trans (a b c : Flt) (h1 : before a b = true) (h2 : before b c = true) :
    before a c = true := by
  cases a <;> cases b <;> cases c <;> simp_all [before]
  exact le_trans h1 h2

theorem mergeSort_ordered (l : List Flt) : Ordered (l.mergeSort before) := by
  have := List.pairwise_mergeSort (le := before) before_trans before_total l
  exact this.imp fun h => (before_iff _ _).1 h

/-- There is only one way to order a line. -/
theorem ordered_unique {l m : List Flt} (h : l.Perm m) (hl : Ordered l) (hm : Ordered m) :
    l = m := by
  refine List.Perm.eq_of_pairwise (fun a b _ _ h1 h2 => ?_) hl hm h
  cases a <;> cases b <;> simp_all
  exact le_antisymm h1 h2

/-- The line along position `k` through `l`, for the specification. -/
theorem sortAlong_line (x : A) (k : ℕ) (l : List ℕ) (hk : k < l.length) :
    (sortAlong x k).line k l = (x.line k l).mergeSort before := by
  have hline : ∀ t, x.line k (l.set k t) = x.line k l := by
    intro t
    simp [A.line]
  have hlen : ((x.line k l).mergeSort before).length = x.shape.getD k 0 := by
    rw [List.length_mergeSort]; simp [A.line]
  refine List.ext_getElem (by rw [hlen]; simp [A.line, sortAlong]) fun n hn hn' => ?_
  have e : (sortAlong x k).line k l = (List.range (x.shape.getD k 0)).map fun t =>
      ((x.line k l).mergeSort before).getD t .nan := by
    unfold A.line sortAlong
    simp only
    refine List.map_congr_left fun t _ => ?_
    have h1 : (l.set k t).getD k 0 = t := by
      rw [List.getD_eq_getElem _ _ (by simpa using hk)]; simp
    rw [h1, hline t]
    rfl
  simp only [e, List.getElem_map, List.getElem_range]
  rw [List.getD_eq_getElem _ _ hn']

/-- A specification of sorting along an axis. -/
def SortedAlong (x r : A) (k : ℕ) : Prop :=
  r.dt = x.dt ∧ r.shape = x.shape ∧ ∀ l, k < l.length →
    (r.line k l).Perm (x.line k l) ∧ Ordered (r.line k l)

theorem sortAlong_sorted (x : A) (k : ℕ) : SortedAlong x (sortAlong x k) k := by
  refine ⟨rfl, rfl, fun l hk => ?_⟩
  rw [sortAlong_line x k l hk]
  exact ⟨List.mergeSort_perm _ _, mergeSort_ordered _⟩

/-- An axis, negative ones counted from the end. -/
def IsAxis (r : ℕ) (d : ℤ) (k : ℕ) : Prop := k < r ∧ (d = k ∨ d = (k : ℤ) - r)

theorem position_axis {r : ℕ} {d : ℤ} {k : ℕ} : Red.position r d = .ok k ↔ IsAxis r d k := by
  unfold Red.position IsAxis
  split_ifs with h1 h2
  · simp only [Except.ok.injEq]; omega
  · simp only [Except.ok.injEq]; omega
  · simp only [false_iff]; omega

theorem position_error {r : ℕ} {d : ℤ} (h : ∀ k, ¬ IsAxis r d k) :
    Red.position r d = .error .indexError := by
  cases hp : Red.position r d with
  | ok k => exact absurd (position_axis.1 hp) (h k)
  | error e =>
    unfold Red.position at hp
    split_ifs at hp
    cases hp; rfl

/-- `sort` along an axis of an array of rank at least one: both backends return the same
array, with every line along that axis put in order. -/
theorem sort_agree (x : A) (hr : x.shape ≠ []) (d : ℤ) :
    (∃ k r, IsAxis x.shape.length d k ∧ npSort (.nd x) (some d) = .ok r ∧
      thSort (.tensor x) (some d) = .ok r ∧ SortedAlong x r k) ∨
    ((∀ k, ¬ IsAxis x.shape.length d k) ∧ npSort (.nd x) (some d) = .error .indexError ∧
      thSort (.tensor x) (some d) = .error .indexError) := by
  have hl : x.shape.length ≠ 0 := by simpa using hr
  by_cases h : ∃ k, IsAxis x.shape.length d k
  · obtain ⟨k, hk⟩ := h
    have hp := position_axis.2 hk
    refine .inl ⟨k, sortAlong x k, hk, ?_, ?_, sortAlong_sorted x k⟩
    · simp [npSort, npOperand, hp, bind, Except.bind]
    · simp [thSort, Red.tPosition, hl, hp, bind, Except.bind]
  · push Not at h
    have hp := position_error h
    refine .inr ⟨h, ?_, ?_⟩
    · simp [npSort, npOperand, hp, bind, Except.bind]
    · simp [thSort, Red.tPosition, hl, hp, bind, Except.bind]

/-- `sort(x, axis=None)` of numpy: all entries in order, in one vector. -/
theorem sort_flat (x : Arg) : ∃ r, npSort x none = .ok r ∧
    ∃ l : List Flt, l.Perm ((npOperand x).1.entries) ∧ Ordered l ∧ r.shape = [l.length] ∧
      ∀ k (h : k < l.length), r.val [k] = l[k] := by
  refine ⟨_, rfl, ((npOperand x).1.entries).mergeSort before, List.mergeSort_perm _ _,
    mergeSort_ordered _, ?_, fun k hk => ?_⟩
  · simp
  · simp only [List.getD_cons_zero]
    rw [List.getD_eq_getElem _ _ hk]

/-- Lists, `axis=None` and 0-d arrays are treated differently. -/
theorem sort_false :
    (∀ a d, thSort (.list a) d = .error .typeError) ∧
    (∀ a, thSort (.tensor a) none = .error .typeError) ∧
    (∀ a, a.shape = [] → npSort (.nd a) (some (-1)) = .error .indexError ∧
      thSort (.tensor a) (some (-1)) = .ok a) := by
  refine ⟨fun _ _ => rfl, fun _ => rfl, fun a ha => ⟨?_, ?_⟩⟩
  · simp [npSort, npOperand, ha, Red.position, bind, Except.bind]
  · simp [thSort, ha, Red.tPosition, bind, Except.bind]

/-- Example: a vector with a NaN. -/
example : Ordered [Flt.fin 1, .fin 2, .nan, .nan] ∧ ¬ Ordered [Flt.fin 2, .fin 1] := by
  constructor
  · simp [Ordered]
  · simp [Ordered]
    simp [Flt.fin]

/-- Result types when single precision is involved.  numpy: with an integer array, or with a list of Python floats, the result is in
double precision, with a Python float in single precision.  torch: with an integer tensor, or with a 0-d tensor in double precision,
the result is in single precision, with any other tensor in double precision it is in double precision. -/
theorem binary_single_types (op : Flt → Flt → Flt) (x y r : A) (hx : x.dt = .float32) :
    (y.dt = .int → npBinary op (.nd x) (.nd y) = .ok r ∨ npBinary op (.nd y) (.nd x) = .ok r → r.dt = .float64) ∧
    (y.dt = .float32 → npBinary op (.nd x) (.list y) = .ok r → r.dt = .float64) ∧
    (y.dt = .float32 → npBinary op (.nd x) (.nd y) = .ok r ∨ thBinary op (.tensor x) (.tensor y) = .ok r → r.dt = .float32) ∧
    (∀ v, npBinary op (.nd x) (.number .float64 v) = .ok r ∨ npBinary op (.number .float64 v) (.nd x) = .ok r → r.dt = .float32) ∧
    (y.dt = .int → thBinary op (.tensor x) (.tensor y) = .ok r ∨ thBinary op (.tensor y) (.tensor x) = .ok r → r.dt = .float32) ∧
    (x.shape ≠ [] → y.dt = .float64 → thBinary op (.tensor x) (.tensor y) = .ok r ∨ thBinary op (.tensor y) (.tensor x) = .ok r →
      r.dt = if y.shape = [] then .float32 else .float64) := by
  refine ⟨fun h => ?_, fun h e => ?_, fun h => ?_, fun v => ?_, fun h => ?_, fun hs h => ?_⟩
  · rintro (e | e) <;> rw [(binary_ok e).1] <;> simp [npType, npOperand, npJoin, hx, h]
  · rw [(binary_ok e).1]; simp [npType, npOperand, npJoin, hx, h]
  · rintro (e | e) <;> rw [(binary_ok e).1] <;> simp [npType, thType, npOperand, npJoin, thJoin, kind, hx, h]
  · rintro (e | e) <;> rw [npBinary] at e <;> rw [(binary_ok e).1] <;> simp [npType, npOperand, kind, hx]
  · rintro (e | e) <;> rw [(binary_ok e).1] <;> simp [thType, thJoin, kind, hx, h]
  · rintro (e | e) <;> rw [(binary_ok e).1] <;> by_cases hy : y.shape = [] <;> simp [thType, thJoin, kind, hx, h, hs, hy]

/-- A vector in single precision and a vector of integers. -/
example : ∃ r, npBinary larger (.nd ⟨.float32, [2], fun _ => .fin 0⟩) (.nd ⟨.int, [2], fun _ => .fin 1⟩) = .ok r ∧ r.dt = .float64 :=
  ⟨_, rfl, (binary_single_types larger ⟨.float32, [2], fun _ => .fin 0⟩ ⟨.int, [2], fun _ => .fin 1⟩ _ rfl).1 rfl (Or.inl rfl)⟩

end Verif.Backend.Elem
