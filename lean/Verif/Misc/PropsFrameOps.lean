import Verif.Misc.PropsFrame
import Verif.Misc.PropsFtos

/-!
# Properties of data frames: indexing, assignment, growth, display
-/

set_option autoImplicit false

namespace Verif.DataFrame

open Verif

variable {α : Type}

theorem new_get (h : Heap) (l : List String) : (h.new l).2.get (h.new l).1 = l := by
  simp [Heap.new]

theorem new_old (h : Heap) (l : List String) {r : ℕ} (hr : r < h.next) : (h.new l).2.get r = h.get r := by
  simp [Heap.new, hr.ne]

theorem new_next (h : Heap) (l : List String) : (h.new l).2.next = h.next + 1 ∧ (h.new l).1 = h.next :=
  ⟨rfl, rfl⟩

/-! ## Indexing -/

/-- **C64** Two slices: the data are the selected ones, and no existing list changes, but the
names are exchanged: the row names of the result are the names of the selected columns and its
column names are those of the selected rows. -/
theorem get_block {h : Heap} {f : Frame α} {c : ℕ} {rows : List (List α)} (hw : WF h f c rows)
    {rs cs : Sl} {R C : List ℕ} (hR : rs.indices rows.length = .ok R) (hC : cs.indices c = .ok C) :
    ∃ g h' rows', getItem h f (.pair (.sl rs) (.sl cs)) = .ok (.frame g, h') ∧
      g.data = .mat C.length rows' ∧ rows'.length = R.length ∧
      (∀ k m : ℕ, at2 rows' k m = R[k]?.bind fun i => C[m]?.bind fun j => at2 rows i j) ∧
      h'.get g.rows = pick (h.get f.cols) C ∧ h'.get g.cols = pick (h.get f.rows) R ∧
      ∀ r < h.next, h'.get r = h.get r := by
  have hRv := (slice_valid hR).1
  have hCv := (slice_valid hC).1
  have e1 : rs.get rows = .ok (pick rows R) := by
    simp only [Sl.get, hR, bind, Except.bind, pure, Except.pure]
  have e2 : rs.get (h.get f.rows) = .ok (pick (h.get f.rows) R) := by
    simp only [Sl.get, hw.rown, hR, bind, Except.bind, pure, Except.pure]
  have e3 : cs.get (h.get f.cols) = .ok (pick (h.get f.cols) C) := by
    simp only [Sl.get, hw.coln, hC, bind, Except.bind, pure, Except.pure]
  obtain ⟨p1, p2⟩ := pick_valid rows hRv
  refine ⟨⟨.mat C.length ((pick rows R).map fun row => pick row C), h.next + 1, h.next⟩,
    ((h.new (pick (h.get f.rows) R)).2.new (pick (h.get f.cols) C)).2, _, ?_, rfl, ?_, ?_, ?_, ?_, ?_⟩
  · simp only [getItem, getPair, hw.data, Arr.block, e1, e2, e3, hC, bind, Except.bind, pure, Except.pure,
      Frame.init, Heap.new]
  · simp [p1]
  · intro k m
    unfold at2
    rw [List.getElem?_map, p2]
    cases hk : R[k]? with
    | none => rfl
    | some i =>
      have hi := hRv i (List.mem_of_getElem? hk)
      simp only [Option.bind_some, List.getElem?_eq_getElem hi, Option.map_some]
      rw [(pick_valid rows[i] (by rw [hw.rect _ (List.getElem_mem hi)]; exact hCv)).2]
  · simp [Heap.new]
  · simp [Heap.new]
  · intro r hr
    rw [new_old _ _ (by rw [(new_next _ _).1]; omega), new_old _ _ hr]

/-- **C64** The entry of a row name and a column name: that of the first row and column with
these names; an unknown name is a `ValueError`. -/
theorem get_entry {h : Heap} {f : Frame α} {c : ℕ} {rows : List (List α)} (hw : WF h f c rows) (r s : String) :
    (∀ i j a, FirstAt (h.get f.rows) r i → FirstAt (h.get f.cols) s j → at2 rows i j = some a →
      getItem h f (.pair (.name r) (.name s)) = .ok (.entry a, h)) ∧
    ((r ∉ h.get f.rows ∨ s ∉ h.get f.cols) →
      getItem h f (.pair (.name r) (.name s)) = .error .valueError) := by
  constructor
  · intro i j a hi hj ha
    have ha' : (rows[i]?.bind fun row => row[j]?) = some a := ha
    simp only [getItem, getPair, Sel.index, (indexOf_iff _ _ _).mpr hi, (indexOf_iff _ _ _).mpr hj, hw.data,
      Arr.entry, ha', bind, Except.bind, pure, Except.pure]
  · intro hm
    have hv : ∀ (l : List String) s e, indexOf l s = .error e → e = .valueError := by
      intro l s e he
      unfold indexOf at he
      split at he
      · cases he
      · injection he with he; exact he.symm
    simp only [getItem, getPair, Sel.index, bind, Except.bind]
    cases h1 : indexOf (h.get f.rows) r with
    | error e => rw [hv _ _ _ h1]
    | ok i =>
      rcases hm with hm | hm
      · obtain ⟨e, he⟩ := (indexOf_error _ _).mpr hm
        rw [he] at h1; cases h1
      · obtain ⟨e, he⟩ := (indexOf_error _ _).mpr hm
        simp only [he]
        rw [hv _ _ _ he]

/-- **C64** Every pair of names present gives an entry. -/
theorem get_entry_total {h : Heap} {f : Frame α} {c : ℕ} {rows : List (List α)} (hw : WF h f c rows)
    {r s : String} (hr : r ∈ h.get f.rows) (hs : s ∈ h.get f.cols) :
    ∃ i j a, FirstAt (h.get f.rows) r i ∧ FirstAt (h.get f.cols) s j ∧ at2 rows i j = some a := by
  have hx : ∀ (l : List String) t, t ∈ l → ∃ i, FirstAt l t i := by
    intro l t ht
    cases h1 : indexOf l t with
    | error e => exact absurd ht ((indexOf_error _ _).mp ⟨e, h1⟩)
    | ok i => exact ⟨i, (indexOf_iff _ _ _).mp h1⟩
  obtain ⟨i, hi⟩ := hx _ _ hr
  obtain ⟨j, hj⟩ := hx _ _ hs
  have hi' : i < rows.length := hw.rown ▸ firstAt_lt hi
  have hj' : j < rows[i].length := by rw [hw.rect _ (List.getElem_mem hi'), ← hw.coln]; exact firstAt_lt hj
  exact ⟨i, j, rows[i][j], hi, hj, by simp [at2, hi', hj']⟩

/-- **C64** A string that is a row name gives that row, as a vector; a string that is only a
column name gives that column; any other string is a `KeyError`.  The names are exchanged here
also, and one of the two lists is that of `f` itself. -/
theorem get_string {h : Heap} {f : Frame α} {c : ℕ} {rows : List (List α)} (hw : WF h f c rows) (s : String) :
    (∀ i row, FirstAt (h.get f.rows) s i → rows[i]? = some row →
      ∃ g h', getItem h f (.str s) = .ok (.frame g, h') ∧ g.data = .vec row ∧
        h'.get g.cols = [s] ∧ g.rows = f.cols ∧ ∀ r < h.next, h'.get r = h.get r) ∧
    (∀ j, s ∉ h.get f.rows → FirstAt (h.get f.cols) s j →
      ∃ g h', getItem h f (.str s) = .ok (.frame g, h') ∧
        g.data = .vec (rows.filterMap fun row => row[j]?) ∧
        h'.get g.rows = [s] ∧ g.cols = f.rows ∧ ∀ r < h.next, h'.get r = h.get r) ∧
    (s ∉ h.get f.rows → s ∉ h.get f.cols → getItem h f (.str s) = .error .keyError) := by
  refine ⟨?_, ?_, ?_⟩
  · intro i row hi hrow
    have hl : row.length = c := hw.rect _ (List.mem_of_getElem? hrow)
    have hp : pick row (List.range c) = row := by rw [← hl]; exact pick_range row
    refine ⟨⟨.vec row, f.cols, h.next⟩, (h.new [s]).2, ?_, rfl, ?_, rfl, fun r hr => new_old _ _ hr⟩
    · simp only [getItem, getStr, if_pos (firstAt_mem hi), (indexOf_iff _ _ _).mpr hi, hw.data, Arr.row, hrow,
        slice_all, hp, bind, Except.bind, pure, Except.pure, Frame.init, Heap.new]
    · exact new_get h [s]
  · intro j hs hj
    have hjc : ¬ c ≤ j := by rw [← hw.coln]; exact not_le.mpr (firstAt_lt hj)
    refine ⟨⟨.vec (rows.filterMap fun row => row[j]?), h.next, f.rows⟩, (h.new [s]).2, ?_, rfl, ?_, rfl,
      fun r hr => new_old _ _ hr⟩
    · simp only [getItem, getStr, if_neg hs, if_pos (firstAt_mem hj), (indexOf_iff _ _ _).mpr hj, hw.data,
        Arr.column, if_neg hjc, Sl.get, slice_all, pick_range, bind, Except.bind, pure, Except.pure,
        Frame.init, Heap.new]
    · exact new_get h [s]
  · intro h1 h2
    simp only [getItem, getStr, if_neg h1, if_neg h2]

/-- **C64** A row name with a slice of columns, and a slice of rows with a column name: the selected
entries of the first row or column with this name, as a vector, again with exchanged names. -/
theorem get_part {h : Heap} {f : Frame α} {c : ℕ} {rows : List (List α)} (hw : WF h f c rows) (s : String) :
    (∀ i row cs C, FirstAt (h.get f.rows) s i → rows[i]? = some row → cs.indices c = .ok C →
      ∃ g h' v, getItem h f (.pair (.name s) (.sl cs)) = .ok (.frame g, h') ∧ g.data = .vec v ∧
        v.length = C.length ∧ (∀ m : ℕ, v[m]? = C[m]?.bind fun j => row[j]?) ∧
        h'.get g.cols = [s] ∧ h'.get g.rows = pick (h.get f.cols) C ∧ ∀ r < h.next, h'.get r = h.get r) ∧
    (∀ j rs R, FirstAt (h.get f.cols) s j → rs.indices rows.length = .ok R →
      ∃ g h' v, getItem h f (.pair (.sl rs) (.name s)) = .ok (.frame g, h') ∧ g.data = .vec v ∧
        v.length = R.length ∧ (∀ k : ℕ, v[k]? = R[k]?.bind fun i => at2 rows i j) ∧
        h'.get g.rows = [s] ∧ h'.get g.cols = pick (h.get f.rows) R ∧ ∀ r < h.next, h'.get r = h.get r) := by
  refine ⟨?_, ?_⟩
  · intro i row cs C hi hrow hC
    have hl : row.length = c := hw.rect _ (List.mem_of_getElem? hrow)
    obtain ⟨p1, p2⟩ := pick_valid row (idx := C) (by rw [hl]; exact (slice_valid hC).1)
    have e3 : cs.get (h.get f.cols) = .ok (pick (h.get f.cols) C) := by
      simp only [Sl.get, hw.coln, hC, bind, Except.bind, pure, Except.pure]
    refine ⟨⟨.vec (pick row C), h.next + 1, h.next⟩, ((h.new [s]).2.new (pick (h.get f.cols) C)).2, _, ?_, rfl, p1, p2,
      ?_, ?_, ?_⟩
    · simp only [getItem, getPair, Sel.index, Sel.single, (indexOf_iff _ _ _).mpr hi, hw.data, Arr.row, hrow, e3, hC,
        bind, Except.bind, pure, Except.pure, Frame.init, Heap.new]
    · simp [Heap.new]
    · simp [Heap.new]
    · intro r hr
      rw [new_old _ _ (by rw [(new_next _ _).1]; omega), new_old _ _ hr]
  · intro j rs R hj hR
    have hjc : ¬ c ≤ j := by rw [← hw.coln]; exact not_le.mpr (firstAt_lt hj)
    obtain ⟨p1, p2⟩ := pick_valid rows (slice_valid hR).1
    have e1 : rs.get rows = .ok (pick rows R) := by
      simp only [Sl.get, hR, bind, Except.bind, pure, Except.pure]
    have e2 : rs.get (h.get f.rows) = .ok (pick (h.get f.rows) R) := by
      simp only [Sl.get, hw.rown, hR, bind, Except.bind, pure, Except.pure]
    have hin : ∀ row ∈ pick rows R, j < row.length := by
      intro row hrow
      obtain ⟨k, hk⟩ := List.mem_iff_getElem?.mp hrow
      rw [p2] at hk
      cases hRk : R[k]? with
      | none => rw [hRk] at hk; cases hk
      | some i =>
        rw [hRk] at hk
        rw [hw.rect row (List.mem_of_getElem? (by simpa using hk))]
        omega
    have hfm : ∀ l : List (List α), (∀ row ∈ l, j < row.length) →
        (l.filterMap fun row => row[j]?).length = l.length ∧
        ∀ k : ℕ, (l.filterMap fun row => row[j]?)[k]? = l[k]?.bind fun row => row[j]? := by
      intro l
      induction l with
      | nil => intro _; simp
      | cons a l ih =>
        intro hl
        obtain ⟨i1, i2⟩ := ih fun row hr => hl row (List.mem_cons_of_mem _ hr)
        have hja := hl a List.mem_cons_self
        have ha : a[j]? = some a[j] := List.getElem?_eq_getElem hja
        rw [List.filterMap_cons_some (f := fun row : List α => row[j]?) ha]
        refine ⟨by simp [i1], fun k => ?_⟩
        cases k with
        | zero => simp [ha]
        | succ k => simpa using i2 k
    obtain ⟨q1, q2⟩ := hfm _ hin
    refine ⟨⟨.vec ((pick rows R).filterMap fun row => row[j]?), h.next + 1, h.next⟩,
      ((h.new (pick (h.get f.rows) R)).2.new [s]).2, _, ?_, rfl, by rw [q1, p1], ?_, ?_, ?_, ?_⟩
    · simp only [getItem, getPair, Sel.index, Sel.single, (indexOf_iff _ _ _).mpr hj, hw.data, Arr.column, if_neg hjc, e1,
        e2, bind, Except.bind, pure, Except.pure, Frame.init, Heap.new]
    · intro k
      rw [q2, p2]
      cases R[k]? <;> rfl
    · simp [Heap.new]
    · simp [Heap.new]
    · intro r hr
      rw [new_old _ _ (by rw [(new_next _ _).1]; omega), new_old _ _ hr]

/-- Two rows `a`, `b` and three columns `x`, `y`, `z`. -/
def heap2 : Heap := ⟨2, fun r => if r = 0 then ["a", "b"] else ["x", "y", "z"]⟩

/-- The frame with these names. -/
def frame2 : Frame ℤ := ⟨.mat 3 [[1, 2, 3], [4, 5, 6]], 0, 1⟩

theorem wf2 : WF heap2 frame2 3 [[1, 2, 3], [4, 5, 6]] :=
  ⟨rfl, by decide, rfl, rfl, by decide, by decide, by decide⟩

/-- `df["b", 1:3]`. -/
example : ∃ g h', getItem heap2 frame2 (.pair (.name "b") (.sl ⟨some 1, some 3, none⟩)) = .ok (.frame g, h') ∧
    g.data = .vec [5, 6] ∧ h'.get g.cols = ["b"] ∧ h'.get g.rows = ["y", "z"] := ⟨_, _, rfl, rfl, rfl, rfl⟩

/-- The entry `b`, `y`. -/
example : getItem heap2 frame2 (.pair (.name "b") (.name "y")) = .ok (.entry 5, heap2) :=
  (get_entry wf2 _ _).1 1 1 5 ((indexOf_iff _ _ _).mp (by decide)) ((indexOf_iff _ _ _).mp (by decide)) (by decide)

/-- **C64** Concretely: `df[:, 0:2]` has row names `x`, `y` and column names `a`, `b`. -/
theorem get_names_false : ∃ g h', getItem heap2 frame2 (.pair (.sl .all) (.sl ⟨some 0, some 2, none⟩)) =
    .ok (.frame g, h') ∧ g.data = .mat 2 [[1, 2], [4, 5]] ∧ h'.get g.rows = ["x", "y"] ∧
      h'.get g.cols = ["a", "b"] := ⟨_, _, rfl, rfl, rfl, rfl⟩

/-- **C64** The whole frame `df[:, :]` does not even have one name for each row. -/
theorem get_lengths_false : ∃ g h' rows', getItem heap2 frame2 (.pair (.sl .all) (.sl .all)) = .ok (.frame g, h') ∧
    g.data = .mat 3 rows' ∧ (h'.get g.rows).length ≠ rows'.length := ⟨_, _, _, rfl, rfl, by decide⟩

/-! ## Assignment -/

theorem at2_assign (R C : List ℕ) (b : Bool) (v : Val α) (rows : List (List α)) (i j : ℕ) :
    at2 (assign R C b v rows) i j = (at2 rows i j).map fun a =>
      if i ∈ R ∧ j ∈ C then v.at (if b then R.idxOf i else C.idxOf j) a else a := by
  unfold at2 assign
  rw [List.getElem?_mapIdx]
  cases rows[i]? with
  | none => rfl
  | some row => simp

theorem assign_rect {R C : List ℕ} {b : Bool} {v : Val α} {rows : List (List α)} {c : ℕ}
    (h : ∀ row ∈ rows, row.length = c) : ∀ row ∈ assign R C b v rows, row.length = c := by
  intro row hrow
  unfold assign at hrow
  obtain ⟨i, hi, rfl⟩ := List.mem_mapIdx.mp hrow
  rw [List.length_mapIdx]
  exact h _ (List.getElem_mem hi)

theorem assign_length (R C : List ℕ) (b : Bool) (v : Val α) (rows : List (List α)) :
    (assign R C b v rows).length = rows.length := by simp [assign]

/-- Assignment keeps a frame in order. -/
theorem assign_wf {h : Heap} {f : Frame α} {c : ℕ} {rows : List (List α)} (hw : WF h f c rows)
    (R C : List ℕ) (b : Bool) (v : Val α) :
    WF h { f with data := .mat c (assign R C b v rows) } c (assign R C b v rows) :=
  ⟨rfl, assign_rect hw.rect, by rw [assign_length]; exact hw.rown, hw.coln, hw.ne, hw.lr, hw.lc⟩

/-- **C127** `df[r, c] = a` changes this entry and nothing else. -/
theorem set_entry {h : Heap} {f : Frame α} {c : ℕ} {rows : List (List α)} (hw : WF h f c rows) {r s : String}
    {i j : ℕ} (hi : FirstAt (h.get f.rows) r i) (hj : FirstAt (h.get f.cols) s j) (a : α) :
    ∃ f' rows', setItem h f (.pair (.name r) (.name s)) (.scalar a) = .ok f' ∧ WF h f' c rows' ∧
      f'.rows = f.rows ∧ f'.cols = f.cols ∧
      getItem h f' (.pair (.name r) (.name s)) = .ok (.entry a, h) ∧
      ∀ k m, at2 rows' k m = if k = i ∧ m = j then some a else at2 rows k m := by
  have hil : i < rows.length := hw.rown ▸ firstAt_lt hi
  have hjl : j < c := hw.coln ▸ firstAt_lt hj
  have hin : at2 rows i j ≠ none := by
    have hj' : j < rows[i].length := by rw [hw.rect _ (List.getElem_mem hil)]; exact hjl
    simp [at2, hil, hj']
  have hall : ∀ k m, at2 (assign [i] [j] false (.scalar a) rows) k m =
      if k = i ∧ m = j then some a else at2 rows k m := by
    intro k m
    rw [at2_assign]
    by_cases hkm : k = i ∧ m = j
    · obtain ⟨rfl, rfl⟩ := hkm
      cases hx : at2 rows k m with
      | none => exact absurd hx hin
      | some b => simp [Val.at]
    · rw [if_neg hkm]
      cases at2 rows k m with
      | none => rfl
      | some b =>
        rw [Option.map_some, if_neg]
        simpa using hkm
  have hw' := assign_wf hw [i] [j] false (.scalar a)
  refine ⟨_, _, ?_, hw', rfl, rfl, ?_, hall⟩
  · have : ¬ (rows.length ≤ i ∨ c ≤ j) := by omega
    simp only [setItem, Sel.index, (indexOf_iff _ _ _).mpr hi, (indexOf_iff _ _ _).mpr hj, hw.data,
      Arr.setEntry, if_neg this, Val.fits, bind, Except.bind, pure, Except.pure]
    rfl
  · exact (get_entry hw' r s).1 i j a hi hj (by rw [hall, if_pos ⟨rfl, rfl⟩])

/-- **C127** `df[s] = v` with a row name: the row becomes `v` (a number, or a vector of the
length of the row); nothing else changes. -/
theorem set_row {h : Heap} {f : Frame α} {c : ℕ} {rows : List (List α)} (hw : WF h f c rows) {s : String}
    {i : ℕ} (hi : FirstAt (h.get f.rows) s i) (v : List α) (hv : v.length = c) :
    ∃ f' rows', setItem h f (.str s) (.vec v) = .ok f' ∧ WF h f' c rows' ∧
      f'.rows = f.rows ∧ f'.cols = f.cols ∧
      ∀ k m : ℕ, at2 rows' k m = if k = i then v[m]? else at2 rows k m := by
  have hil : i < rows.length := hw.rown ▸ firstAt_lt hi
  refine ⟨_, _, ?_, assign_wf hw [i] (List.range c) false (.vec v), rfl, rfl, ?_⟩
  · have h1 : ¬ rows.length ≤ i := by omega
    simp only [setItem, if_pos (firstAt_mem hi), (indexOf_iff _ _ _).mpr hi, hw.data, Arr.setRow, if_neg h1,
      slice_all, Val.fits, List.length_range, hv, or_true, if_true, bind, Except.bind, pure, Except.pure]
  · intro k m
    rw [at2_assign]
    by_cases hk : k = i
    · subst hk
      rw [if_pos rfl]
      by_cases hm : m < c
      · have hr : m < rows[k].length := by rw [hw.rect _ (List.getElem_mem hil)]; exact hm
        have hx : at2 rows k m = some rows[k][m] := by simp [at2, hil, hr]
        have hidx : (List.range c).idxOf m = m := by
          have := (List.nodup_range (n := c)).idxOf_getElem m (by simpa using hm)
          simpa using this
        rw [hx, Option.map_some, if_pos ⟨by simp, List.mem_range.mpr hm⟩]
        simp only [Bool.false_eq_true, if_false, hidx]
        have hvm : m < v.length := by omega
        rw [List.getElem?_eq_getElem hvm]
        congr 1
        match v, hv, hvm with
        | [], _, h => exact absurd h (Nat.not_lt_zero _)
        | [a], hv, h =>
          have : m = 0 := by simpa using h
          subst this
          rfl
        | a :: b :: t, _, h =>
          change (a :: b :: t).getD m _ = _
          rw [List.getD_eq_getElem?_getD, List.getElem?_eq_getElem h]; rfl
      · have hx : at2 rows k m = none := by
          simp [at2, hil, hw.rect _ (List.getElem_mem hil)]
          omega
        rw [hx, List.getElem?_eq_none (by omega)]
        rfl
    · rw [if_neg hk]
      cases at2 rows k m with
      | none => rfl
      | some b =>
        rw [Option.map_some, if_neg]
        simp [hk]

/-- **C127** A string that names both a row and a column always means the row: the column cannot
be assigned by its name. -/
theorem set_column_false : ∃ (h : Heap) (f : Frame ℤ) (f' : Frame ℤ), WF h f 2 [[1, 2], [3, 4]] ∧
    "a" ∈ h.get f.cols ∧ setItem h f (.str "a") (.scalar 0) = .ok f' ∧ f'.data = .mat 2 [[0, 0], [3, 4]] :=
  ⟨⟨2, fun r => if r = 0 then ["a", "b"] else ["a", "c"]⟩, ⟨.mat 2 [[1, 2], [3, 4]], 0, 1⟩, _,
    ⟨rfl, by decide, rfl, rfl, by decide, by decide, by decide⟩, by decide, rfl, rfl⟩

example : ∃ f', setItem heap2 frame2 (.str "b") (.vec [7, 8, 9]) = .ok f' ∧
    f'.data = .mat 3 [[1, 2, 3], [7, 8, 9]] := ⟨_, rfl, rfl⟩

/-! ## Growth -/

/-- **C128** A row of the right length is added below the others, with its name. -/
theorem append_row {h : Heap} {f : Frame α} {c : ℕ} {rows : List (List α)} (hw : WF h f c rows)
    (x : List α) (hx : x.length = c) (name : String) :
    ∃ f' h', appendRow h f (.vec x) name = .ok (f', h') ∧ WF h' f' c (rows ++ [x]) ∧
      h'.get f'.rows = h.get f.rows ++ [name] ∧ h'.get f'.cols = h.get f.cols ∧
      ∀ r, r ≠ f.rows → h'.get r = h.get r := by
  refine ⟨⟨.mat c (rows ++ [x]), f.rows, f.cols⟩, h.append f.rows name, ?_, ⟨rfl, ?_, ?_, ?_, hw.ne, hw.lr, hw.lc⟩,
    ?_, ?_, ?_⟩
  · simp only [appendRow, hw.data, vstack, hx, if_true, bind, Except.bind, pure, Except.pure]
  · intro row hrow
    rcases List.mem_append.mp hrow with h1 | h1
    · exact hw.rect _ h1
    · rw [List.mem_singleton.mp h1]; exact hx
  · simp [Heap.append, hw.rown]
  · simp [Heap.append, hw.ne.symm, hw.coln]
  · simp [Heap.append]
  · simp [Heap.append, hw.ne.symm]
  · intro r hr
    simp [Heap.append, hr]

/-- **C128** A row of another length is refused and nothing changes. -/
theorem append_row_refuses {h : Heap} {f : Frame α} {c : ℕ} {rows : List (List α)} (hw : WF h f c rows)
    (x : List α) (hx : x.length ≠ c) (name : String) :
    appendRow h f (.vec x) name = .error .valueError := by
  simp only [appendRow, hw.data, vstack, if_neg (Ne.symm hx), bind, Except.bind]

/-- **C128** A vector of one value for each row is added as last column, with its name. -/
theorem append_col {h : Heap} {f : Frame α} {c : ℕ} {rows : List (List α)} (hw : WF h f c rows)
    (x : List α) (hx : x.length = rows.length) (name : String) :
    ∃ f' h', appendCol h f (.vec x) name = .ok (f', h') ∧
      WF h' f' (c + 1) (List.zipWith (fun row a => row ++ [a]) rows x) ∧
      h'.get f'.cols = h.get f.cols ++ [name] ∧ h'.get f'.rows = h.get f.rows ∧
      ∀ r, r ≠ f.cols → h'.get r = h.get r := by
  have hz : List.zipWith (· ++ ·) rows (x.map fun a => [a]) = List.zipWith (fun row a => row ++ [a]) rows x := by
    rw [List.zipWith_map_right]
  refine ⟨⟨.mat (c + 1) (List.zipWith (fun row a => row ++ [a]) rows x), f.rows, f.cols⟩, h.append f.cols name, ?_,
    ⟨rfl, ?_, ?_, ?_, hw.ne, hw.lr, hw.lc⟩, ?_, ?_, ?_⟩
  · simp only [appendCol, hw.data, hstack, column2d, List.length_map, hx, if_true, hz, bind, Except.bind, pure,
      Except.pure]
  · intro row hrow
    obtain ⟨k, hk, rfl⟩ := List.getElem_of_mem hrow
    rw [List.getElem_zipWith, List.length_append, hw.rect _ (List.getElem_mem _)]
    rfl
  · simp [Heap.append, hw.ne, hw.rown, hx]
  · simp [Heap.append, hw.coln]
  · simp [Heap.append]
  · simp [Heap.append, hw.ne]
  · intro r hr
    simp [Heap.append, hr]

/-- **C128** A column given as a matrix with one column is refused when there are several rows:
it is transposed. -/
theorem append_col_false : ∃ e, appendCol heap2 frame2 (.mat 1 [[7], [8]]) "w" = .error e := ⟨_, rfl⟩

/-- **C128** Two rows added with one name leave a frame with fewer names than rows. -/
theorem append_row_false : ∃ f' h' rows', appendRow heap2 frame2 (.mat 3 [[7, 8, 9], [0, 0, 0]]) "c" = .ok (f', h') ∧
    f'.data = .mat 3 rows' ∧ (h'.get f'.rows).length < rows'.length := ⟨_, _, _, rfl, rfl, by decide⟩

/-- **C128** Vertical concatenation of frames with equal column names: the rows and row names
of both.  Existing lists do not change, but the list of column names is that of the first frame. -/
theorem concat_rows {h : Heap} {f g : Frame α} {c c' : ℕ} {rows rows' : List (List α)} (hf : WF h f c rows)
    (hg : WF h g c' rows') (hn : h.get f.cols = h.get g.cols) :
    ∃ k h', concat h f g 0 = .ok (k, h') ∧ WF h' k c (rows ++ rows') ∧ k.cols = f.cols ∧
      h'.get k.rows = h.get f.rows ++ h.get g.rows ∧ h'.get k.cols = h.get f.cols ∧
      (∀ r < h.next, h'.get r = h.get r) := by
  have hc : c = c' := by rw [← hf.coln, hn, hg.coln]
  subst hc
  refine ⟨⟨.mat c (rows ++ rows'), h.next, f.cols⟩, (h.new (h.get f.rows ++ h.get g.rows)).2, ?_, ⟨rfl, ?_, ?_, ?_, ?_, ?_, ?_⟩,
    rfl, new_get _ _, new_old _ _ hf.lc, fun r hr => new_old _ _ hr⟩
  · simp only [concat, hn, if_true, hf.data, hg.data, concatArr, ne_eq, not_true_eq_false, if_false, bind, Except.bind, pure,
      Except.pure, Heap.new, Frame.init]
  · intro row hrow
    rcases List.mem_append.mp hrow with h1 | h1
    · exact hf.rect _ h1
    · exact hg.rect _ h1
  · simp [Heap.new, hf.rown, hg.rown]
  · rw [new_old _ _ hf.lc]; exact hf.coln
  · exact hf.lc.ne'
  · exact Nat.lt_succ_self _
  · exact hf.lc.trans (Nat.lt_succ_self _)

/-- **C128** Horizontal concatenation of frames with equal row names: each row followed by that
of the second frame, and the column names of both. -/
theorem concat_cols {h : Heap} {f g : Frame α} {c c' : ℕ} {rows rows' : List (List α)} (hf : WF h f c rows)
    (hg : WF h g c' rows') (hn : h.get f.rows = h.get g.rows) :
    ∃ k h', concat h f g 1 = .ok (k, h') ∧ WF h' k (c + c') (List.zipWith (· ++ ·) rows rows') ∧
      k.rows = f.rows ∧ h'.get k.cols = h.get f.cols ++ h.get g.cols ∧ h'.get k.rows = h.get f.rows ∧
      (∀ r < h.next, h'.get r = h.get r) := by
  have hc : rows.length = rows'.length := by rw [← hf.rown, hn, hg.rown]
  refine ⟨⟨.mat (c + c') (List.zipWith (· ++ ·) rows rows'), f.rows, h.next⟩,
    (h.new (h.get f.cols ++ h.get g.cols)).2, ?_, ⟨rfl, ?_, ?_, ?_, ?_, ?_, ?_⟩,
    rfl, new_get _ _, new_old _ _ hf.lr, fun r hr => new_old _ _ hr⟩
  · have hne : ¬ ((1 : ℤ) = 0) := by decide
    simp only [concat, if_neg hne, hn, if_true, hf.data, hg.data, concatArr, hstack, hc, ne_eq, not_true_eq_false,
      if_false, bind, Except.bind, pure, Except.pure, Heap.new, Frame.init, Bool.false_eq_true]
  · intro row hrow
    obtain ⟨k, hk, rfl⟩ := List.getElem_of_mem hrow
    rw [List.getElem_zipWith, List.length_append, hf.rect _ (List.getElem_mem _),
      hg.rect _ (List.getElem_mem _)]
  · rw [new_old _ _ hf.lr, hf.rown]; simp [hc]
  · simp [Heap.new, hf.coln, hg.coln]
  · exact hf.lr.ne
  · exact hf.lr.trans (Nat.lt_succ_self _)
  · exact Nat.lt_succ_self _

/-- A frame of two rows beside itself. -/
example : ∃ k h', concat heap2 frame2 frame2 1 = .ok (k, h') ∧
    k.data = .mat 6 [[1, 2, 3, 1, 2, 3], [4, 5, 6, 4, 5, 6]] := ⟨_, _, rfl, rfl⟩

/-- **C128** Frames with other column names are refused, as is an axis other than 0 and 1. -/
theorem concat_refuses (h : Heap) (f g : Frame α) :
    (h.get f.cols ≠ h.get g.cols → concat h f g 0 = .error .valueError) ∧
    (h.get f.rows ≠ h.get g.rows → concat h f g 1 = .error .valueError) ∧
    ∀ a, a ≠ 0 → a ≠ 1 → concat h f g a = .error .valueError := by
  refine ⟨fun hn => ?_, fun hn => ?_, fun a h0 h1 => ?_⟩
  · unfold concat; rw [if_pos rfl, if_pos hn]
  · unfold concat; rw [if_neg (by decide), if_pos rfl, if_pos hn]
  · unfold concat; rw [if_neg h0, if_neg h1]

/-- **C128** Adding a column to a concatenation gives the first frame one column name too many:
it is no longer in order. -/
theorem concat_shared_false {h : Heap} {f g : Frame α} {c c' : ℕ} {rows rows' : List (List α)} (hf : WF h f c rows)
    (hg : WF h g c' rows') (hn : h.get f.cols = h.get g.cols) (x : List α)
    (hx : x.length = rows.length + rows'.length) (name : String) :
    ∃ k h' k' h'', concat h f g 0 = .ok (k, h') ∧ appendCol h' k (.vec x) name = .ok (k', h'') ∧
      h''.get f.cols = h.get f.cols ++ [name] ∧ ¬ WF h'' f c rows := by
  obtain ⟨k, h', h1, hw, hk, _, h2, _⟩ := concat_rows hf hg hn
  obtain ⟨k', h'', h3, hw', h4, _, _⟩ := append_col hw x (by simp [hx]) name
  have hk' : k'.cols = f.cols := by
    have := h3
    unfold appendCol at this
    obtain ⟨d, _, this⟩ := bind_ok this
    injection this with this
    rw [← (Prod.mk.inj this).1]
    exact hk
  rw [hk', h2] at h4
  refine ⟨k, h', k', h'', h1, h3, h4, fun hbad => ?_⟩
  have := hbad.coln
  rw [h4, List.length_append, hf.coln] at this
  simp at this

/-- **C128** A row taken by its name shares the column names: adding to it adds a column name to
the frame it was taken from. -/
theorem get_shared_false : ∃ g h' g' h'', getItem heap2 frame2 (.str "a") = .ok (.frame g, h') ∧
    appendRow h' g (.vec [7, 8, 9]) "new" = .ok (g', h'') ∧
    h''.get frame2.cols = ["x", "y", "z", "new"] ∧ ¬ WF h'' frame2 3 [[1, 2, 3], [4, 5, 6]] := by
  refine ⟨_, _, _, _, rfl, rfl, rfl, fun h => ?_⟩
  have := h.coln
  exact absurd this (by decide)

/-! ## Display -/

theorem foldl_max_ge (l : List ℕ) : ∀ b, b ≤ l.foldl max b ∧ ∀ a ∈ l, a ≤ l.foldl max b := by
  induction l with
  | nil => intro b; simp
  | cons x t ih =>
    intro b
    obtain ⟨h1, h2⟩ := ih (max b x)
    refine ⟨(le_max_left _ _).trans h1, fun a ha => ?_⟩
    rcases List.mem_cons.mp ha with rfl | ha
    · exact (le_max_right _ _).trans h1
    · exact h2 a ha

theorem rjust_length {s : String} {w : ℕ} (h : s.length ≤ w) : (rjust s w).length = w := by
  have : s.toList.length = s.length := rfl
  simp only [rjust, List.length_append, List.length_replicate, this]
  omega

theorem intercalate_length {β : Type} (x : β) (l : List (List β)) (w : List ℕ) (h : l.map List.length = w) :
    (List.intercalate [x] l).length = w.sum + (w.length - 1) := by
  subst h
  induction l with
  | nil => simp
  | cons a t ih =>
    cases t with
    | nil => simp
    | cons b t => 
      rw [List.intercalate_cons_cons]
      simp only [List.length_append, ih, List.map_cons, List.sum_cons, List.length_cons, List.length_map, List.length_nil]
      omega

/-- **C129** All lines of the display have the same length. -/
theorem repr_aligned {rows : List (List String)} {lines : List (List Char)} (h : reprLines rows = .ok lines) :
    lines.length = rows.length ∧ ∀ l ∈ lines, ∀ l' ∈ lines, l.length = l'.length := by
  unfold reprLines at h
  dsimp only at h
  split_ifs at h with hc
  injection h with h
  subst h
  refine ⟨by simp, ?_⟩
  have key : ∀ r ∈ rows, ∀ j, (r.getD j "").length ≤
      max 8 ((rows.map fun r => (r.getD j "").length).foldl max 0) := by
    intro r hr j
    exact le_max_of_le_right ((foldl_max_ge _ 0).2 _ (List.mem_map.mpr ⟨r, hr, rfl⟩))
  intro l hl l' hl'
  obtain ⟨r, hr, rfl⟩ := List.mem_map.mp hl
  obtain ⟨r', hr', rfl⟩ := List.mem_map.mp hl'
  have hm : ∀ r ∈ rows, (((List.range (rows.headD []).length).map fun j => rjust (r.getD j "")
      (max 8 ((rows.map fun r => (r.getD j "").length).foldl max 0))).map List.length) =
      (List.range (rows.headD []).length).map fun j =>
        max 8 ((rows.map fun r => (r.getD j "").length).foldl max 0) := by
    intro r hr
    rw [List.map_map]
    exact List.map_congr_left fun j _ => rjust_length (key r hr j)
  rw [intercalate_length _ _ _ (hm r hr), intercalate_length _ _ _ (hm r' hr')]

theorem mapM_error {β γ : Type} (g : β → Py γ) (l : List β) {a : β} (ha : a ∈ l) {e : PyErr} (he : g a = .error e) :
    ∃ e', l.mapM g = .error e' := by
  induction l with
  | nil => cases ha
  | cons x t ih =>
    rw [List.mapM_cons]
    cases hx : g x with
    | error e' => exact ⟨e', rfl⟩
    | ok y =>
      have hat : a ∈ t := by
        rcases List.mem_cons.mp ha with rfl | h
        · rw [he] at hx; cases hx
        · exact h
      obtain ⟨e', h'⟩ := ih hat
      exact ⟨e', by simp [bind, Except.bind, h']⟩

theorem mapM_total {β γ : Type} (g : β → Py γ) (l : List β) (h : ∀ a ∈ l, ∃ b, g a = .ok b) :
    ∃ m, l.mapM g = .ok m ∧ m.length = l.length ∧ ∀ k : ℕ, ∀ a b, l[k]? = some a → g a = .ok b → m[k]? = some b := by
  induction l with
  | nil => exact ⟨[], rfl, rfl, by simp⟩
  | cons x t ih =>
    obtain ⟨m, h1, h2, h3⟩ := ih fun a ha => h a (List.mem_cons_of_mem _ ha)
    obtain ⟨b, hb⟩ := h x List.mem_cons_self
    refine ⟨b :: m, by rw [List.mapM_cons]; simp [hb, h1, bind, Except.bind, pure, Except.pure], by simp [h2], ?_⟩
    intro k a b' hk hg
    cases k with
    | zero =>
      simp at hk
      subst hk
      rw [hb] at hg
      injection hg with hg
      simp [hg]
    | succ k => simpa using h3 k a b' (by simpa using hk) hg

/-- **C129** A frame in order whose entries can all be shown is displayed, one line for each row
after the header. -/
theorem repr_total (fts : α → Py String) {h : Heap} {f : Frame α} {c : ℕ} {rows : List (List α)}
    (hw : WF h f c rows) (hs : ∀ row ∈ rows, ∀ a ∈ row, ∃ s, fts a = .ok s) :
    ∃ lines, reprFrame fts h f = .ok lines ∧ lines.length = rows.length + 1 := by
  have hrow : ∀ i ∈ List.range rows.length, ∃ l : List String, (do
      let n ← pyGet (h.get f.rows) (i : ℕ)
      reprRow fts n (rows.getD i []) : Py (List String)) = .ok l ∧ l.length = c + 1 := by
    intro i hi
    have hi' := List.mem_range.mp hi
    have hn : i < (h.get f.rows).length := by rw [hw.rown]; exact hi'
    have hg : rows.getD i [] = rows[i] := by rw [List.getD_eq_getElem?_getD, List.getElem?_eq_getElem hi']; rfl
    obtain ⟨m, h1, h2, _⟩ := mapM_total fts rows[i] (hs _ (List.getElem_mem hi'))
    rw [pyGet_nat _ _ hn, hg]
    refine ⟨((h.get f.rows)[i] ++ ":") :: m, ?_, ?_⟩
    · simp only [reprRow, h1, bind, Except.bind, pure, Except.pure]
    · simp [h2, hw.rect _ (List.getElem_mem hi')]
  obtain ⟨m, h1, h2, h3⟩ := mapM_total (fun i : ℕ => (do
      let n ← pyGet (h.get f.rows) (i : ℕ)
      reprRow fts n (rows.getD i []) : Py (List String))) (List.range rows.length)
      fun i hi => let ⟨l, hl, _⟩ := hrow i hi; ⟨l, hl⟩
  have ht : reprTable fts h f = .ok (("" :: h.get f.cols) :: m) := by
    unfold reprTable
    simp only [hw.data]
    simp only [bind, Except.bind, pure, Except.pure] at h1 ⊢
    rw [h1]
  unfold reprFrame
  rw [ht]
  change ∃ lines, reprLines _ = _ ∧ _
  unfold reprLines
  dsimp only
  rw [if_neg]
  · refine ⟨_, rfl, ?_⟩
    simp [h2]
  · rintro ⟨r, hr, hlt⟩
    simp only [List.headD_cons, List.length_cons, hw.coln] at hlt
    rcases List.mem_cons.mp hr with rfl | hr
    · simp [hw.coln] at hlt
    · obtain ⟨k, hk, rfl⟩ := List.getElem_of_mem hr
      rw [h2, List.length_range] at hk
      obtain ⟨l, hl, hlen⟩ := hrow k (List.mem_range.mpr hk)
      have := h3 k k l (by rw [List.getElem?_range hk]) hl
      rw [List.getElem?_eq_getElem (by rw [h2]; simpa using hk)] at this
      rw [Option.some.inj this, hlen] at hlt
      omega

/-- **C129** One NaN in the data makes the display raise. -/
theorem repr_nan_false (toStr : Shown → String) {h : Heap} {f : Frame Flt} {c : ℕ} {rows : List (List Flt)}
    (hw : WF h f c rows) (hn : ∃ row ∈ rows, Flt.nan ∈ row) :
    ∃ e, reprFrame (fun x => (ftos 3 x).map toStr) h f = .error e := by
  obtain ⟨row, hrow, hnan⟩ := hn
  obtain ⟨i, hi, rfl⟩ := List.getElem_of_mem hrow
  have hni : i < (h.get f.rows).length := by rw [hw.rown]; exact hi
  have hg : rows.getD i [] = rows[i] := by rw [List.getD_eq_getElem?_getD, List.getElem?_eq_getElem hi]; rfl
  obtain ⟨e, he⟩ := mapM_error (fun x => (ftos 3 x).map toStr) rows[i] hnan (e := .valueError) rfl
  have hr : (do
      let n ← pyGet (h.get f.rows) (i : ℕ)
      reprRow (fun x => (ftos 3 x).map toStr) n (rows.getD i []) : Py (List String)) = .error e := by
    rw [pyGet_nat _ _ hni, hg]
    simp only [reprRow, he, bind, Except.bind]
  obtain ⟨e', he'⟩ := mapM_error (fun i : ℕ => (do
      let n ← pyGet (h.get f.rows) (i : ℕ)
      reprRow (fun x => (ftos 3 x).map toStr) n (rows.getD i []) : Py (List String)))
      (List.range rows.length) (List.mem_range.mpr hi) hr
  refine ⟨e', ?_⟩
  unfold reprFrame reprTable
  simp only [hw.data]
  simp only [bind, Except.bind, pure, Except.pure] at he' ⊢
  rw [he']

/-- **C129** A row or column taken from a frame cannot be displayed: it has one axis. -/
theorem repr_row_false (fts : α → Py String) {h h' : Heap} {f g : Frame α} {c : ℕ} {rows : List (List α)}
    (hw : WF h f c rows) (hc : 0 < c) {s : String} (hs : s ∈ h.get f.rows)
    (hg : getItem h f (.str s) = .ok (.frame g, h')) : reprFrame fts h' g = .error .indexError := by
  obtain ⟨i, hi⟩ : ∃ i, FirstAt (h.get f.rows) s i := by
    cases h1 : indexOf (h.get f.rows) s with
    | error e => exact absurd hs ((indexOf_error _ _).mp ⟨e, h1⟩)
    | ok i => exact ⟨i, (indexOf_iff _ _ _).mp h1⟩
  have hil : i < rows.length := hw.rown ▸ firstAt_lt hi
  obtain ⟨g', h'', h1, h2, _⟩ := (get_string hw s).1 i rows[i] hi (List.getElem?_eq_getElem hil)
  rw [h1] at hg
  injection hg with hg
  obtain ⟨e1, rfl⟩ := Prod.mk.inj hg
  injection e1 with e1
  subst e1
  have hl : rows[i].length = c := hw.rect _ (List.getElem_mem hil)
  unfold reprFrame reprTable
  rw [h2]
  cases hx : rows[i] with
  | nil => rw [hx] at hl; simp at hl; omega
  | cons a t => rfl

/-- **C64** A pair of which a part is neither a name nor a slice is refused with `ValueError`. -/
theorem other_refused (h : Heap) (f : Frame α) (r c : Sel) (v : Val α) :
    getItem h f (.pair .other c) = .error .valueError ∧ getItem h f (.pair r .other) = .error .valueError ∧
    setItem h f (.pair .other c) v = .error .valueError ∧ setItem h f (.pair r .other) v = .error .valueError := by
  have hidx : ∀ (l : List String) s, (∃ i, indexOf l s = .ok i) ∨ indexOf l s = .error .valueError := by
    intro l s
    unfold indexOf
    cases l.findIdx? (· = s) with
    | none => exact Or.inr rfl
    | some i => exact Or.inl ⟨i, rfl⟩
  refine ⟨?_, ?_, ?_, ?_⟩
  · cases c <;> rfl
  · cases r with
    | sl => rfl
    | other => rfl
    | name s =>
      rcases hidx (h.get f.rows) s with ⟨i, hi⟩ | hi <;>
        simp [getItem, getPair, Sel.index, hi, bind, Except.bind]
  · cases c <;> rfl
  · cases r with
    | sl => rfl
    | other => rfl
    | name s =>
      rcases hidx (h.get f.rows) s with ⟨i, hi⟩ | hi <;>
        simp [setItem, Sel.index, hi, bind, Except.bind]

/-- **C64** When there are more column names than columns, a name beyond the last column raises
`IndexError`, for reading and for assignment. -/
theorem column_beyond (h : Heap) (f : Frame α) {c : ℕ} {rows : List (List α)} (hd : f.data = .mat c rows)
    {s : String} {j : ℕ} (hj : FirstAt (h.get f.cols) s j) (hc : c ≤ j) (rs : Sl) (v : Val α) :
    getItem h f (.pair (.sl rs) (.name s)) = .error .indexError ∧
    setItem h f (.pair (.sl rs) (.name s)) v = .error .indexError := by
  have hi := (indexOf_iff _ _ _).mpr hj
  constructor
  · simp [getItem, getPair, Sel.index, hi, bind, Except.bind, hd, Arr.column, hc]
  · simp [setItem, Sel.index, hi, bind, Except.bind, hd, Arr.setColumn, hc]

/-- Concrete case of `column_beyond`: three names for two columns. -/
example : ∃ j, FirstAt (heap2.get (⟨.mat 2 [[1, 2]], 0, 1⟩ : Frame ℤ).cols) "z" j ∧ 2 ≤ j :=
  ⟨2, (indexOf_iff _ _ _).mp (by decide), le_rfl⟩

end Verif.DataFrame
