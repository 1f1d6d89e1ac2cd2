import Verif.Param.Heap
import Verif.Param.Props

/-!
# C184 – C186: parameter objects as values, views, integer arrays
-/

set_option autoImplicit false

namespace Verif.Param

open Verif

/-- Distinct objects have distinct arrays of floats. -/
structure Sep (h : Heap) : Prop where
  nodup : (h.objs.map Obj.addr).Nodup
  bound : ∀ o ∈ h.objs, o.addr < h.arrs.length
  float : ∀ o ∈ h.objs, (h.arr o.addr).isInt = false

/-- Statements that do not hand over an existing array, nor write into one from outside, nor give
a list of integers. -/
def HOp.Fresh : HOp → Prop
  | .new (.list b _) _ _ _ _ => b = false
  | .new (.arr _) _ _ _ _ => False
  | .setValues _ (.list b _) => b = false
  | .setValues _ (.arr _) => False
  | .write _ _ _ => False
  | _ => True

/-- The values of all objects. -/
def Heap.params (h : Heap) : List Param := h.objs.map h.abs

theorem arr_append (h : Heap) (l : List Arr) (os : List Obj) {a : Nat} (ha : a < h.arrs.length) :
    (⟨h.arrs ++ l, os⟩ : Heap).arr a = h.arr a := by
  simp [Heap.arr, List.getD, List.getElem?_append_left ha]

theorem arr_new (h : Heap) (b : Arr) (os : List Obj) :
    (⟨h.arrs ++ [b], os⟩ : Heap).arr h.arrs.length = b := by
  simp [Heap.arr, List.getD]

theorem arr_set (h : Heap) (b : Arr) (a c : Nat) (ha : a < h.arrs.length) :
    (⟨h.arrs.set a b, h.objs⟩ : Heap).arr c = if c = a then b else h.arr c := by
  by_cases hc : c = a
  · subst hc; simp [Heap.arr, List.getD, ha]
  · have : a ≠ c := fun h => hc h.symm
    simp [Heap.arr, List.getD, this, hc]

theorem abs_append (h : Heap) (l : List Arr) (os : List Obj) {o : Obj} (ha : o.addr < h.arrs.length) :
    (⟨h.arrs ++ l, os⟩ : Heap).abs o = h.abs o := by
  simp [Heap.abs, arr_append h l os ha]

theorem params_append {h : Heap} (hs : Sep h) (l : List Arr) (os : List Obj) :
    h.objs.map (⟨h.arrs ++ l, os⟩ : Heap).abs = h.params :=
  List.map_congr_left fun o ho => abs_append h l os (hs.bound o ho)

theorem store_float {a : Arr} (ha : a.isInt = false) (i : Nat) (v : ℝ) :
    a.store i v = (setAt a.data i v).map fun d => ⟨false, d⟩ := by
  obtain ⟨b, d⟩ := a
  simp only at ha
  subst ha
  unfold Arr.store setAt
  simp only [Arr.coerce]
  split <;> simp [Except.map]

theorem storeAll_float (l : List (Nat × ℝ)) : ∀ {a : Arr}, a.isInt = false →
    storeAll a l = ((writeAll a.data l).1, ⟨false, (writeAll a.data l).2⟩) := by
  induction l with
  | nil =>
    rintro ⟨b, d⟩ ha
    simp only at ha; subst ha
    rfl
  | cons x l ih =>
    rintro a ha
    obtain ⟨i, v⟩ := x
    simp only [storeAll, writeAll, store_float ha]
    rcases setAt a.data i v with e | d
    · obtain ⟨b, d⟩ := a
      simp only at ha; subst ha
      rfl
    · simp only [Except.map]
      rw [ih rfl]

theorem storeUnnorm_float (o : Obj) (kw : List (String × ℝ)) : ∀ {a : Arr}, a.isInt = false →
    (⟨a.data, o.dim, o.paths, o.names, o.norms, o.bounds⟩ : Param).setFromUnnormalized kw =
      ((storeUnnorm o a kw).1, ⟨(storeUnnorm o a kw).2.data, o.dim, o.paths, o.names, o.norms, o.bounds⟩) ∧
    (storeUnnorm o a kw).2.isInt = false := by
  induction kw with
  | nil => intro a ha; exact ⟨rfl, ha⟩
  | cons x kw ih =>
    intro a ha
    obtain ⟨n, v⟩ := x
    simp only [storeUnnorm, Param.setFromUnnormalized]
    rcases nameIndex o.names n with e | i
    · exact ⟨rfl, ha⟩
    simp only
    rcases pyGet o.norms i with e | nm
    · exact ⟨rfl, ha⟩
    simp only [store_float ha]
    rcases setAt a.data i (normalize v nm) with e | d
    · exact ⟨rfl, ha⟩
    exact ih (a := ⟨false, d⟩) rfl

theorem mutate_float (o : Obj) {a : Arr} (ha : a.isInt = false) (m : Mut) :
    (⟨a.data, o.dim, o.paths, o.names, o.norms, o.bounds⟩ : Param).act m =
      ((o.mutate a m).1, ⟨(o.mutate a m).2.data, o.dim, o.paths, o.names, o.norms, o.bounds⟩) ∧
    (o.mutate a m).2.isInt = false := by
  cases m with
  | setByName n v =>
    simp only [Param.act, Param.setByName, Obj.mutate, bind, Except.bind]
    rcases nameIndex o.names n with e | i
    · exact ⟨rfl, ha⟩
    simp only [store_float ha]
    rcases setAt a.data i v with e | d
    · exact ⟨rfl, ha⟩
    exact ⟨rfl, rfl⟩
  | setByPath path v m =>
    have e : (⟨a.data, o.dim, o.paths, o.names, o.norms, o.bounds⟩ : Param).pathIndices path m =
      (⟨[], o.dim, o.paths, o.names, o.norms, o.bounds⟩ : Param).pathIndices path m := rfl
    simp only [Param.act, Param.setByPath, Obj.mutate, e]
    generalize (⟨[], o.dim, o.paths, o.names, o.norms, o.bounds⟩ : Param).pathIndices path m = idx
    by_cases hl : idx.length ≠ v.length
    · simp only [if_pos hl]
      exact ⟨trivial, ha⟩
    · simp only [if_neg hl]
      rw [storeAll_float _ ha]
      exact ⟨rfl, rfl⟩
  | setFromUnnormalized kw => exact storeUnnorm_float o kw ha

theorem params_getElem? (h : Heap) (k : Nat) : h.params[k]? = (h.objs[k]?).map h.abs := by
  simp [Heap.params]

theorem abs_bind (h : Heap) (b : Bool) (p : Param) :
    (h.bind b p).abs ⟨h.arrs.length, p.dim, p.paths, p.names, p.norms, p.bounds⟩ = p := by
  unfold Heap.bind Heap.abs
  simp [arr_new]

theorem bind_spec {h : Heap} (hs : Sep h) (p : Param) :
    Sep (h.bind false p) ∧ (h.bind false p).params = h.params ++ [p] := by
  refine ⟨⟨?_, ?_, ?_⟩, ?_⟩
  · simp only [Heap.bind, List.map_append, List.map_cons, List.map_nil]
    refine List.Nodup.append hs.nodup (by simp) ?_
    intro x hx hy
    obtain ⟨o, ho, rfl⟩ := List.mem_map.mp hx
    have := hs.bound o ho
    simp at hy
    omega
  · intro o ho
    simp only [Heap.bind, List.mem_append, List.mem_singleton, List.length_append, List.length_singleton] at ho ⊢
    rcases ho with ho | rfl
    · have := hs.bound o ho; omega
    · simp
  · intro o ho
    simp only [Heap.bind, List.mem_append, List.mem_singleton] at ho ⊢
    rcases ho with ho | rfl
    · rw [arr_append h _ _ (hs.bound o ho)]; exact hs.float o ho
    · simp [arr_new]
  · have e := params_append hs [⟨false, p.values⟩] (h.objs ++ [⟨h.arrs.length, p.dim, p.paths, p.names, p.norms, p.bounds⟩])
    have e' := abs_bind h false p
    unfold Heap.params
    unfold Heap.bind at e' ⊢
    rw [List.map_append, e]
    simp only [List.map_cons, List.map_nil]
    rw [e']
    rfl

/-- Rebinding object `k` to a new array of floats. -/
theorem rebind_spec {h : Heap} (hs : Sep h) {k : Nat} {o o' : Obj} (hk : h.objs[k]? = some o) (d : List ℝ)
    (ho' : o'.addr = h.arrs.length) :
    Sep ⟨h.arrs ++ [⟨false, d⟩], h.objs.set k o'⟩ ∧
    (⟨h.arrs ++ [⟨false, d⟩], h.objs.set k o'⟩ : Heap).params =
      h.params.set k ⟨d, o'.dim, o'.paths, o'.names, o'.norms, o'.bounds⟩ := by
  have hmem : ∀ x ∈ h.objs.set k o', x ∈ h.objs ∨ x = o' := fun x hx => List.mem_or_eq_of_mem_set hx
  refine ⟨⟨?_, ?_, ?_⟩, ?_⟩
  · simp only [List.map_set]
    rw [ho']
    refine List.Nodup.set hs.nodup ?_
    intro hm
    obtain ⟨x, hx, e⟩ := List.mem_map.mp hm
    have := hs.bound x hx
    omega
  · intro x hx
    simp only [List.length_append, List.length_singleton]
    rcases hmem x hx with hx | rfl
    · have := hs.bound x hx; omega
    · omega
  · intro x hx
    rcases hmem x hx with hx | rfl
    · rw [arr_append h _ _ (hs.bound x hx)]; exact hs.float x hx
    · rw [ho', arr_new]
  · unfold Heap.params
    simp only [List.map_set]
    have e := params_append hs [⟨false, d⟩] (h.objs.set k o')
    rw [e]
    congr 1
    unfold Heap.abs
    rw [ho', arr_new]

/-- One statement. -/
theorem step_refines {h : Heap} (hs : Sep h) (op : HOp) (hf : op.Fresh) :
    Sep (h.step op).2 ∧ (h.step op).1 = (vstep h.params op).1 ∧
      (h.step op).2.params = (vstep h.params op).2 := by
  cases op with
  | new src paths norms names bounds =>
    cases src with
    | arr a => exact absurd hf (by simp [HOp.Fresh])
    | list b xs =>
      simp only [HOp.Fresh] at hf
      subst hf
      simp only [Heap.step, Heap.asarray, arr_new, vstep]
      by_cases hc : (⟨xs, xs.length, paths, names, norms, bounds⟩ : Param).consistent = true
      · have h1 := (consistent_iff _).mp hc
        rw [if_pos hc, mkParam_explicit xs paths norms names bounds _ h1.1 h1.2.2.1 h1.2.1 h1.2.2.2]
        have := bind_spec hs ⟨xs, xs.length, paths, names, norms, bounds⟩
        exact ⟨this.1, rfl, this.2⟩
      · have h2 : mkParam (some xs) (some paths) (some (norms.map .enum)) (some names) (some bounds) "param_"
            Option.none = .error .valueError := by
          unfold mkParam parseNormalizations
          simp only [parse_enum, bind, Except.bind, Option.getD_some]
          rw [if_neg hc]
        rw [if_neg hc, h2]
        refine ⟨⟨hs.nodup, ?_, ?_⟩, rfl, params_append hs _ _⟩
        · intro o ho
          have := hs.bound o ho
          simp only [List.length_append, List.length_singleton]; omega
        · intro o ho
          rw [arr_append h _ _ (hs.bound o ho)]; exact hs.float o ho
  | setValues k src =>
    cases src with
    | arr a => exact absurd hf (by simp [HOp.Fresh])
    | list b xs =>
      simp only [HOp.Fresh] at hf
      subst hf
      simp only [Heap.step, vstep, params_getElem?]
      rcases hk : h.objs[k]? with _ | o
      · exact ⟨hs, rfl, rfl⟩
      simp only [Heap.asarray, arr_new, Option.map_some]
      obtain ⟨g1, g2⟩ := rebind_spec hs hk (o' := { o with addr := h.arrs.length, dim := xs.length }) xs rfl
      exact ⟨g1, trivial, g2⟩
  | setDenormalized k v =>
    simp only [Heap.step, vstep, params_getElem?]
    rcases hk : h.objs[k]? with _ | o
    · exact ⟨hs, rfl, rfl⟩
    simp only [Option.map_some, Param.setDenormalized]
    by_cases hv : v.length ≠ o.dim
    · have hv' : v.length ≠ (h.abs o).dim := hv
      rw [if_pos hv, if_pos hv']
      exact ⟨hs, rfl, rfl⟩
    · have hv' : ¬ v.length ≠ (h.abs o).dim := hv
      rw [if_neg hv, if_neg hv']
      obtain ⟨g1, g2⟩ := rebind_spec hs hk (o' := { o with addr := h.arrs.length })
        ((v.zip o.norms).map fun x => normalize x.1 x.2) rfl
      exact ⟨g1, rfl, g2⟩
  | mutate k m =>
    simp only [Heap.step, vstep, params_getElem?]
    rcases hk : h.objs[k]? with _ | o
    · exact ⟨hs, rfl, rfl⟩
    have ho : o ∈ h.objs := List.mem_of_getElem? hk
    simp only [Option.map_some]
    obtain ⟨g1, g2⟩ := mutate_float o (hs.float o ho) m
    have e1 : (h.abs o).act m = _ := g1
    rw [e1]
    refine ⟨⟨hs.nodup, ?_, ?_⟩, rfl, ?_⟩
    · intro x hx
      simp only [List.length_set]; exact hs.bound x hx
    · intro x hx
      rw [arr_set h _ _ _ (hs.bound o ho)]
      split
      · exact g2
      · exact hs.float x hx
    · unfold Heap.params
      apply List.ext_getElem?
      intro j
      simp only [List.getElem?_map, List.getElem?_set, List.length_map]
      obtain ⟨hkl, hko⟩ := List.getElem?_eq_some_iff.mp hk
      by_cases hj : k = j
      · subst hj
        rw [if_pos rfl, if_pos hkl, hk]
        simp only [Option.map_some, Heap.abs]
        rw [arr_set h _ _ _ (hs.bound o ho), if_pos rfl]
      · rw [if_neg hj]
        rcases hj' : h.objs[j]? with _ | o2
        · rfl
        · simp only [Option.map_some, Heap.abs]
          rw [arr_set h _ _ _ (hs.bound o ho), if_neg]
          intro he
          obtain ⟨hjl, hjo⟩ := List.getElem?_eq_some_iff.mp hj'
          apply hj
          have := (List.nodup_iff_injective_get.mp hs.nodup)
          have := @this ⟨k, by simpa using hkl⟩ ⟨j, by simpa using hjl⟩ (by simp [hko, hjo, he])
          simpa using this
  | pick k index =>
    simp only [Heap.step, vstep, params_getElem?]
    rcases hk : h.objs[k]? with _ | o
    · exact ⟨hs, rfl, rfl⟩
    have ho : o ∈ h.objs := List.mem_of_getElem? hk
    simp only [Option.map_some]
    rcases (h.abs o).pick index with e | p
    · exact ⟨hs, rfl, rfl⟩
    simp only [hs.float o ho]
    have := bind_spec hs p
    exact ⟨this.1, trivial, this.2⟩
  | add k l =>
    simp only [Heap.step, vstep, params_getElem?]
    rcases hk : h.objs[k]? with _ | o
    · exact ⟨hs, rfl, rfl⟩
    rcases hl : h.objs[l]? with _ | o'
    · exact ⟨hs, rfl, rfl⟩
    have ho : o ∈ h.objs := List.mem_of_getElem? hk
    simp only [Option.map_some]
    rcases concat [h.abs o, h.abs o'] with e | p
    · exact ⟨hs, rfl, rfl⟩
    simp only [hs.float o ho, Bool.false_and]
    have := bind_spec hs p
    exact ⟨this.1, trivial, this.2⟩
  | write a i v => exact absurd hf (by simp [HOp.Fresh])

/-- **C184** In every program that gives lists of floats to the constructor and to the `values`
setter, parameter objects behave as values: every call has the outcome, and leaves every object
with the fields, of the same program in which assignment copies. -/
theorem run_refines_partial : ∀ (ops : List HOp) (h : Heap), Sep h → (∀ op ∈ ops, op.Fresh) →
    (h.run ops).1 = (vrun h.params ops).1 ∧ (h.run ops).2.params = (vrun h.params ops).2 := by
  intro ops
  induction ops with
  | nil => intro h _ _; exact ⟨rfl, rfl⟩
  | cons op ops ih =>
    intro h hs hf
    obtain ⟨g1, g2, g3⟩ := step_refines hs op (hf op List.mem_cons_self)
    obtain ⟨k1, k2⟩ := ih _ g1 fun o ho => hf o (List.mem_cons_of_mem _ ho)
    simp only [Heap.run, vrun]
    rw [k1, k2, g2, g3]
    exact ⟨rfl, rfl⟩

/-- **C184** is false with arrays: two objects made from one array share it, so that a write to one
changes the other and the array of the caller. -/
theorem alias_false :
    ∃ (h : Heap) (ops : List HOp) (m : Mut),
      h.arrs = [⟨false, [0]⟩] ∧ h.objs = [] ∧ (h.run ops).1 = [.ok (), .ok ()] ∧
      ((h.run ops).2.params.map Param.values = [[0], [0]]) ∧
      ((h.run ops).2.step (.mutate 0 m)).1 = .ok () ∧
      ((h.run ops).2.step (.mutate 0 m)).2.params.map Param.values = [[5], [5]] ∧
      (((h.run ops).2.step (.mutate 0 m)).2.arr 0).data = [5] := by
  refine ⟨⟨[⟨false, [0]⟩], []⟩, [.new (.arr 0) [["a"]] [.none] ["x"] [none],
    .new (.arr 0) [["a"]] [.none] ["x"] [none]], .setByName "x" 5, rfl, rfl, ?_⟩
  simp [Heap.run, Heap.step, Heap.asarray, Heap.arr, Heap.params, Heap.abs, Obj.mutate, nameIndex,
    Arr.store, Arr.coerce, Param.consistent, List.idxOf?, List.findIdx?, List.findIdx?.go]

/-- Indexing and concatenation copy: whatever is shared, writing into `p[index]` afterwards leaves
every earlier object as it was. -/
theorem pick_copies {h : Heap} (hb : ∀ o ∈ h.objs, o.addr < h.arrs.length) (k : Nat) (index : List Int)
    (hok : (h.step (.pick k index)).1 = .ok ()) (m : Mut) :
    (((h.step (.pick k index)).2.step (.mutate h.objs.length m)).2.params).take h.objs.length = h.params := by
  simp only [Heap.step] at hok ⊢
  rcases hk : h.objs[k]? with _ | o
  · rw [hk] at hok; cases hok
  simp only [hk] at hok ⊢
  rcases hp : (h.abs o).pick index with e | p
  · rw [hp] at hok; cases hok
  simp only [hp, Heap.bind]
  rw [List.getElem?_append_right (le_refl _)]
  simp only [Nat.sub_self, List.getElem?_cons_zero, Heap.params]
  rw [List.map_append, List.take_left' (by simp)]
  refine List.map_congr_left fun x hx => ?_
  have := hb x hx
  have hne : h.arrs.length ≠ x.addr := by omega
  simp only [Heap.abs, Heap.arr, List.getD]
  rw [List.getElem?_set_ne hne, List.getElem?_append_left this]

theorem add_copies {h : Heap} (hb : ∀ o ∈ h.objs, o.addr < h.arrs.length) (k l : Nat)
    (hok : (h.step (.add k l)).1 = .ok ()) (m : Mut) :
    (((h.step (.add k l)).2.step (.mutate h.objs.length m)).2.params).take h.objs.length = h.params := by
  simp only [Heap.step] at hok ⊢
  rcases hk : h.objs[k]? with _ | o
  · rw [hk] at hok; cases hok
  rcases hl : h.objs[l]? with _ | o'
  · rw [hk, hl] at hok; cases hok
  simp only [hk, hl] at hok ⊢
  rcases hp : concat [h.abs o, h.abs o'] with e | p
  · rw [hp] at hok; cases hok
  simp only [hp, Heap.bind]
  rw [List.getElem?_append_right (le_refl _)]
  simp only [Nat.sub_self, List.getElem?_cons_zero, Heap.params]
  rw [List.map_append, List.take_left' (by simp)]
  refine List.map_congr_left fun x hx => ?_
  have := hb x hx
  have hne : h.arrs.length ≠ x.addr := by omega
  simp only [Heap.abs, Heap.arr, List.getD]
  rw [List.getElem?_set_ne hne, List.getElem?_append_left this]

/-! ## C185 -/

/-- **C185** Writing through the view of a name is `set_by_name`, also where it raises. -/
theorem viewByName_write {h : Heap} {k : Nat} {o : Obj} (hk : h.objs[k]? = some o)
    (ha : o.addr < h.arrs.length) (name : String) (v : ℝ) :
    (name ∉ o.names → h.viewByName k name = .error .valueError) ∧
    (name ∈ o.names → ∃ i, o.names[i]? = some name ∧ (∀ j < i, o.names[j]? ≠ some name) ∧
      h.viewByName k name = .ok (o.addr, i) ∧
      h.step (.write o.addr i v) = h.step (.mutate k (.setByName name v))) := by
  constructor
  · intro hn
    simp only [Heap.viewByName, hk, nameIndex_error hn]
    rfl
  · intro hn
    obtain ⟨i, i1, i2, i3, i4⟩ := nameIndex_spec hn
    refine ⟨i, i3, i4, ?_, ?_⟩
    · simp only [Heap.viewByName, hk, i1]; rfl
    · simp only [Heap.step, hk, Obj.mutate, i1]
      rcases (h.arr o.addr).store i v with e | a'
      · simp only
        congr 1
        have : h.arrs.set o.addr (h.arr o.addr) = h.arrs := by
          simp [Heap.arr, List.getD, ha]
        rw [this]
      · rfl

/-- The entries of an increasing list with steps of one. -/
theorem consecutive {l : List Nat} {i : Nat} (hs : (i :: l).Pairwise (· < ·))
    (h : ((i :: l).zip l).all (fun x => x.2 - x.1 == 1) = true) :
    i :: l = List.range' i (l.length + 1) ∧ (i :: l).getLastD 0 = i + l.length := by
  induction l generalizing i with
  | nil => simp
  | cons j l ih =>
    simp only [List.zip_cons_cons, List.all_cons, Bool.and_eq_true, beq_iff_eq] at h
    have hij : i < j := (List.pairwise_cons.mp hs).1 j List.mem_cons_self
    have hj : j = i + 1 := by omega
    obtain ⟨g1, g2⟩ := ih (List.pairwise_cons.mp hs).2 h.2
    subst hj
    refine ⟨?_, ?_⟩
    · rw [List.length_cons, List.range'_succ, ← g1]
    · have : (i :: (i + 1) :: l).getLastD 0 = ((i + 1) :: l).getLastD 0 := by simp [List.getLastD]
      rw [this, g2, List.length_cons]; omega

theorem pathIndices_sorted (p : Param) (path : List String) (m : Bool) :
    (p.pathIndices path m).Pairwise (· < ·) :=
  List.Pairwise.filter _ List.pairwise_lt_range

theorem mapM_pyGet_range' {α : Type} (l : List α) : ∀ (n i : Nat), i + n ≤ l.length →
    (List.range' i n).mapM (fun (i : Nat) => pyGet l (i : Int)) = Except.ok ((l.drop i).take n) := by
  intro n
  induction n with
  | zero => intro i _; simp; rfl
  | succ n ih =>
    intro i hi
    rw [List.range'_succ, List.mapM_cons, ih (i + 1) (by omega), pyGet_nat _ _ (by omega)]
    simp only [bind, Except.bind, pure, Except.pure]
    rw [List.drop_eq_getElem_cons (by omega : i < l.length), List.take_succ_cons]

/-- **C185** `get_by_path` with `return_view=True`: IndexError when no path matches (the copy is
then empty), ValueError exactly when the matching positions are not consecutive, and otherwise the
view shows the values that the copy contains. -/
theorem viewByPath_spec {h : Heap} {k : Nat} {o : Obj} (hk : h.objs[k]? = some o) (hw : Wf (h.abs o))
    (path : List String) (m : Bool) :
    ((h.abs o).pathIndices path m = [] →
      h.viewByPath k path m = .error .indexError ∧ (h.abs o).getByPath path m = .ok []) ∧
    ((h.abs o).pathIndices path m ≠ [] →
      (h.viewByPath k path m = .error .valueError ∧
        ¬ ∃ i n, (h.abs o).pathIndices path m = List.range' i n) ∨
      ∃ i n, (h.abs o).pathIndices path m = List.range' i n ∧ h.viewByPath k path m = .ok (o.addr, i, n) ∧
        (h.abs o).getByPath path m = .ok (h.readView (o.addr, i, n))) := by
  have hsrt := pathIndices_sorted (h.abs o) path m
  have hbd : ∀ i ∈ (h.abs o).pathIndices path m, i < (h.abs o).values.length := by
    intro i hi
    obtain ⟨q, hq, _⟩ := (pathIndices_mem _ _ _ _).mp hi
    have := (List.getElem?_eq_some_iff.mp hq).1
    rw [hw.values, ← hw.paths]; exact this
  simp only [Heap.viewByPath, hk, Param.getByPath]
  generalize (h.abs o).pathIndices path m = idx at *
  constructor
  · rintro rfl
    exact ⟨rfl, rfl⟩
  · intro hne
    rcases idx with _ | ⟨i, l⟩
    · exact absurd rfl hne
    by_cases hc : ((i :: l).zip l).all (fun x => x.2 - x.1 == 1) = true
    · right
      obtain ⟨g1, g2⟩ := consecutive hsrt hc
      refine ⟨i, l.length + 1, g1, ?_, ?_⟩
      · refine (if_pos hc).trans ?_
        have : i + l.length + 1 - i = l.length + 1 := by omega
        simp only [g2, this]
      · rw [g1]
        have hb : i + (l.length + 1) ≤ (h.abs o).values.length := by
          have : i + l.length ∈ i :: l := by rw [g1, List.mem_range'_1]; omega
          have := hbd _ this
          omega
        rw [mapM_pyGet_range' _ _ _ hb]
        rfl
    · left
      refine ⟨if_neg hc, ?_⟩
      rintro ⟨i', n, e⟩
      apply hc
      rcases n with _ | n
      · simp at e
      rw [List.range'_succ] at e
      injection e with e1 e2
      subst e1 e2
      clear hc hbd hne hsrt
      induction n generalizing i with
      | zero => rfl
      | succ n ih =>
        rw [List.range'_succ, List.zip_cons_cons, List.all_cons, ih]
        simp

/-- Statements that give object `k` another array. -/
def HOp.Rebinds (k : Nat) : HOp → Prop
  | .setValues j _ => j = k
  | .setDenormalized j _ => j = k
  | _ => False

/-- **C185** Views stay attached: as long as neither `values` nor `denormalized_values` of the object is
assigned, the view taken now is the view that would be taken later. -/
theorem view_attached_partial (k : Nat) : ∀ (ops : List HOp) (h : Heap) (o : Obj), h.objs[k]? = some o →
    (∀ op ∈ ops, ¬ op.Rebinds k) → (h.run ops).2.objs[k]? = some o ∧
      (∀ name, (h.run ops).2.viewByName k name = h.viewByName k name) ∧
      ∀ path m, (h.run ops).2.viewByPath k path m = h.viewByPath k path m := by
  have key : ∀ (ops : List HOp) (h : Heap) (o : Obj), h.objs[k]? = some o →
      (∀ op ∈ ops, ¬ op.Rebinds k) → (h.run ops).2.objs[k]? = some o := by
    intro ops
    induction ops with
    | nil => intro h o hk _; exact hk
    | cons op ops ih =>
      intro h o hk hr
      simp only [Heap.run]
      apply ih _ _ _ fun x hx => hr x (List.mem_cons_of_mem _ hx)
      have hop := hr op List.mem_cons_self
      have happ : ∀ x, (h.objs ++ [x])[k]? = some o := by
        intro x
        rw [List.getElem?_append_left (List.getElem?_eq_some_iff.mp hk).1]; exact hk
      have hite : ∀ (c : Prop) [Decidable c] (x y : Py Unit × Heap), x.2.objs[k]? = some o →
          y.2.objs[k]? = some o → (if c then x else y).2.objs[k]? = some o := by
        intro c _ x y hx hy
        by_cases hc : c <;> simp [hc, hx, hy]
      cases op with
      | new src paths norms names bounds =>
        cases src with
        | arr a => exact hite _ _ _ (happ _) hk
        | list b xs => exact hite _ _ _ (happ _) hk
      | setValues j src =>
        have hj : j ≠ k := hop
        simp only [Heap.step]
        rcases hj' : h.objs[j]? with _ | o'
        · exact hk
        cases src <;> simp only [Heap.asarray] <;> rw [List.getElem?_set_ne hj] <;> exact hk
      | setDenormalized j v =>
        have hj : j ≠ k := hop
        simp only [Heap.step]
        rcases hj' : h.objs[j]? with _ | o'
        · exact hk
        simp only
        split
        · exact hk
        · simp only; rw [List.getElem?_set_ne hj]; exact hk
      | mutate j m =>
        simp only [Heap.step]
        rcases hj' : h.objs[j]? with _ | o' <;> exact hk
      | pick j index =>
        simp only [Heap.step]
        rcases hj' : h.objs[j]? with _ | o'
        · exact hk
        simp only
        rcases (h.abs o').pick index with e | p
        · exact hk
        · exact happ _
      | add j l =>
        simp only [Heap.step]
        rcases hj' : h.objs[j]? with _ | o'
        · exact hk
        rcases hl' : h.objs[l]? with _ | o''
        · exact hk
        simp only
        rcases concat [h.abs o', h.abs o''] with e | p
        · exact hk
        · exact happ _
      | write a i v =>
        simp only [Heap.step]
        rcases (h.arr a).store i v with e | a' <;> exact hk
  intro ops h o hk hr
  have e := key ops h o hk hr
  refine ⟨e, fun name => ?_, fun path m => ?_⟩
  · simp only [Heap.viewByName, e, hk]
  · simp only [Heap.viewByPath, e, hk]
    rfl

/-- **C185** is false across an assignment to `denormalized_values`: the view then shows the old
numbers, and a write through it does not reach the object. -/
theorem view_detached_false :
    ∃ (h : Heap) (v : List ℝ), Sep h ∧ h.params.map Param.values = [[1]] ∧
      h.viewByName 0 "x" = .ok (0, 0) ∧
      (h.step (.setDenormalized 0 v)).1 = .ok () ∧
      ((h.step (.setDenormalized 0 v)).2.step (.write 0 0 7)).1 = .ok () ∧
      ((h.step (.setDenormalized 0 v)).2.step (.write 0 0 7)).2.params.map Param.values = [[2]] := by
  refine ⟨⟨[⟨false, [1]⟩], [⟨0, 1, [["a"]], ["x"], [.none], [none]⟩]⟩, [2], ⟨by simp, by simp, by simp [Heap.arr]⟩, ?_⟩
  simp [Heap.step, Heap.arr, Heap.params, Heap.abs, Heap.viewByName, nameIndex, normalize, Except.map,
    Arr.store, Arr.coerce, List.idxOf?, List.findIdx?, List.findIdx?.go]

/-! ## C186 -/

/-- **C186** With floats, a value set by name is read back (C18 is about this case), whatever array
the object has. -/
theorem setByName_float_partial {h : Heap} {k : Nat} {o : Obj} (hk : h.objs[k]? = some o)
    (ha : o.addr < h.arrs.length) (hf : (h.arr o.addr).isInt = false) (hw : Wf (h.abs o)) {name : String}
    (hn : name ∈ o.names) (v : ℝ) :
    (h.step (.mutate k (.setByName name v))).1 = .ok () ∧
      ((h.step (.mutate k (.setByName name v))).2.abs o).getByName name = .ok v := by
  obtain ⟨i, i1, i2, i3, i4⟩ := nameIndex_spec hn
  have hiv : i < (h.arr o.addr).data.length := by
    have := hw.values; have := hw.names
    simp only [Heap.abs] at *
    omega
  have hst : (h.arr o.addr).store i v = .ok ⟨false, (h.arr o.addr).data.set i v⟩ := by
    rw [store_float hf, setAt, if_pos hiv]; rfl
  simp only [Heap.step, hk, Obj.mutate, i1, hst]
  refine ⟨trivial, ?_⟩
  simp only [Param.getByName, Heap.abs, i1, bind, Except.bind]
  rw [arr_set h _ _ _ ha, if_pos rfl]
  rw [pyGet_nat _ _ (by simpa using hiv)]
  simp

/-- **C186** With integers, a value set by name is read back truncated towards zero. -/
theorem setByName_integer {h : Heap} {k : Nat} {o : Obj} (hk : h.objs[k]? = some o)
    (ha : o.addr < h.arrs.length) (hf : (h.arr o.addr).isInt = true) (hw : Wf (h.abs o)) {name : String}
    (hn : name ∈ o.names) (v : ℝ) :
    ∃ z : ℤ, (h.step (.mutate k (.setByName name v))).1 = .ok () ∧
      ((h.step (.mutate k (.setByName name v))).2.abs o).getByName name = .ok (z : ℝ) ∧
      |(z : ℝ)| ≤ |v| ∧ |v - z| < 1 ∧ 0 ≤ v * z := by
  obtain ⟨i, i1, i2, i3, i4⟩ := nameIndex_spec hn
  have hiv : i < (h.arr o.addr).data.length := by
    have := hw.values; have := hw.names
    simp only [Heap.abs] at *
    omega
  have key : ∃ z : ℤ, (h.arr o.addr).coerce v = (z : ℝ) ∧ |(z : ℝ)| ≤ |v| ∧ |v - z| < 1 ∧ 0 ≤ v * z := by
    unfold Arr.coerce
    rw [if_pos hf]
    by_cases hv : 0 ≤ v
    · rw [if_pos hv]
      have h0 : (0 : ℝ) ≤ (⌊v⌋ : ℝ) := by exact_mod_cast Int.floor_nonneg.mpr hv
      have h1 := Int.floor_le v
      have h2 := Int.lt_floor_add_one v
      refine ⟨⌊v⌋, rfl, ?_, ?_, mul_nonneg hv h0⟩
      · rwa [abs_of_nonneg h0, abs_of_nonneg hv]
      · rw [abs_lt]; constructor <;> linarith
    · rw [if_neg hv]
      push Not at hv
      have h0 : (⌈v⌉ : ℝ) ≤ 0 := by exact_mod_cast Int.ceil_le.mpr (by simpa using hv.le)
      have h1 := Int.le_ceil v
      have h2 := Int.ceil_lt_add_one v
      refine ⟨⌈v⌉, rfl, ?_, ?_, mul_nonneg_of_nonpos_of_nonpos hv.le h0⟩
      · rw [abs_of_nonpos h0, abs_of_neg hv]; linarith
      · rw [abs_lt]; constructor <;> linarith
  obtain ⟨z, hz, h1, h2, h3⟩ := key
  have hst : (h.arr o.addr).store i v = .ok { h.arr o.addr with data := (h.arr o.addr).data.set i (z : ℝ) } := by
    unfold Arr.store
    rw [if_pos hiv, hz]
  refine ⟨z, ?_, ?_, h1, h2, h3⟩
  · simp only [Heap.step, hk, Obj.mutate, i1, hst]
  · simp only [Heap.step, hk, Obj.mutate, i1, hst]
    simp only [Param.getByName, Heap.abs, i1, bind, Except.bind]
    rw [arr_set h _ _ _ ha, if_pos rfl]
    rw [pyGet_nat _ _ (by simpa using hiv)]
    simp

/-- **C186** The array of a sum is one of integers only when both are, so no entry of a sum of
integers and floats is truncated later. -/
theorem add_type {h : Heap} {k l : Nat} {o o' : Obj} (hk : h.objs[k]? = some o) (hl : h.objs[l]? = some o')
    (hok : (h.step (.add k l)).1 = .ok ()) :
    ∃ n, (h.step (.add k l)).2.objs[h.objs.length]? = some n ∧
      (((h.step (.add k l)).2.arr n.addr).isInt = true ↔
        (h.arr o.addr).isInt = true ∧ (h.arr o'.addr).isInt = true) := by
  simp only [Heap.step, hk, hl] at hok ⊢
  rcases hp : concat [h.abs o, h.abs o'] with e | p
  · rw [hp] at hok; cases hok
  simp only [Heap.bind]
  exact ⟨_, by rw [List.getElem?_append_right (le_refl _)]; simp; rfl, by simp [Heap.arr]⟩

/-- **C186** is false for a list of integers: `Param(values=[0], …)` with a logarithmic entry;
setting the variance to 2 leaves it at 1, without an exception. -/
theorem setFromUnnormalized_integer_false :
    ∃ (ops : List HOp), ((⟨[], []⟩ : Heap).run ops).1 = [.ok (), .ok ()] ∧
      ops = [.new (.list true [0]) [["covparam", "variance"]] [.log] ["sigma2"] [none],
        .mutate 0 (.setFromUnnormalized [("sigma2", 2)])] ∧
      ((⟨[], []⟩ : Heap).run ops).2.params.map Param.denormalized = [[1]] := by
  refine ⟨_, ?_, rfl, ?_⟩
  all_goals
    have h1 : ⌊Real.log 2⌋ = 0 := by
      rw [Int.floor_eq_zero_iff]
      exact ⟨Real.log_nonneg (by norm_num), by
        rw [Real.log_lt_iff_lt_exp (by norm_num)]
        have := Real.add_one_lt_exp (one_ne_zero)
        linarith⟩
    have h2 : 0 ≤ Real.log 2 := Real.log_nonneg (by norm_num)
    simp [Heap.run, Heap.step, Heap.asarray, Heap.arr, Heap.params, Heap.abs, Obj.mutate, nameIndex, storeUnnorm,
      Arr.store, Arr.coerce, Param.consistent, List.idxOf?, List.findIdx?, List.findIdx?.go, pyGet, normalize,
      Param.denormalized, denormalize, h1, h2]

/-- Two parameters, a write by name and a change to the first: the second keeps its value. -/
example : let ops : List HOp :=
      [.new (.list false [0]) [["a"]] [.none] ["x"] [none], .new (.list false [1]) [["b"]] [.none] ["y"] [none],
        .mutate 0 (.setByName "x" 5)]
    ((⟨[], []⟩ : Heap).run ops).2.params = (vrun [] ops).2 :=
  (run_refines_partial _ _ ⟨by simp, by simp, by simp⟩ (by simp [HOp.Fresh])).2

end Verif.Param
