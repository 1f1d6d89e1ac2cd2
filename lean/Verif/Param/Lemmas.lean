import Verif.Param.Model
import Verif.PyLemmas
import Mathlib.Data.List.Nodup

namespace Verif.Param

open Verif

/-- All fields of the object have the same length, the advertised `dim`. -/
structure Wf (p : Param) : Prop where
  values : p.values.length = p.dim
  paths : p.paths.length = p.dim
  names : p.names.length = p.dim
  norms : p.norms.length = p.dim
  bounds : p.bounds.length = p.dim

theorem consistent_iff (p : Param) : p.consistent = true ↔
    p.paths.length = p.dim ∧ p.names.length = p.dim ∧ p.norms.length = p.dim ∧
      p.bounds.length = p.dim := by
  unfold Param.consistent
  simp only [Bool.and_eq_true, decide_eq_true_eq]
  omega

theorem parse_enum (l : List Norm) : (l.map NormArg.enum).mapM parseNorm = .ok l := by
  induction l with
  | nil => rfl
  | cons a l ih => rw [List.map_cons, List.mapM_cons, ih]; rfl

/-- Building a parameter from explicit fields of equal length. -/
theorem mkParam_explicit (v : List ℝ) (paths : List (List String)) (norms : List Norm)
    (names : List String) (bounds : List (Option (ℝ × ℝ))) (pre : String)
    (h1 : paths.length = v.length) (h2 : norms.length = v.length)
    (h3 : names.length = v.length) (h4 : bounds.length = v.length) :
    mkParam (some v) (some paths) (some (norms.map .enum)) (some names) (some bounds) pre Option.none =
      .ok ⟨v, v.length, paths, names, norms, bounds⟩ := by
  unfold mkParam parseNormalizations
  simp only [parse_enum, bind, Except.bind, Option.getD_some]
  rw [if_pos]
  rw [consistent_iff]; exact ⟨h1, h3, h2, h4⟩

theorem mapM_take {α β : Type} (f : α → Py β) : ∀ (l : List α) (r : List β) (k : Nat),
    l.mapM f = .ok r → (l.take k).mapM f = .ok (r.take k)
  | [], r, k, h => by cases h; simp; rfl
  | a :: l, r, k, h => by
    rw [List.mapM_cons] at h
    cases ha : f a with
    | error e => rw [ha] at h; cases h
    | ok b =>
      cases hl : l.mapM f with
      | error e => rw [ha, hl] at h; cases h
      | ok bs =>
        rw [ha, hl] at h; cases h
        cases k with
        | zero => rfl
        | succ k => rw [List.take_succ_cons, List.mapM_cons, ha, mapM_take f l bs k hl]; rfl

theorem mapM_drop {α β : Type} (f : α → Py β) : ∀ (l : List α) (r : List β) (k : Nat),
    l.mapM f = .ok r → (l.drop k).mapM f = .ok (r.drop k)
  | [], r, k, h => by cases h; simp; rfl
  | a :: l, r, k, h => by
    rw [List.mapM_cons] at h
    cases ha : f a with
    | error e => rw [ha] at h; cases h
    | ok b =>
      cases hl : l.mapM f with
      | error e => rw [ha, hl] at h; cases h
      | ok bs =>
        rw [ha, hl] at h; cases h
        cases k with
        | zero => rw [List.drop_zero, List.mapM_cons, ha, hl]; rfl
        | succ k => rw [List.drop_succ_cons, mapM_drop f l bs k hl]; rfl

theorem mapM_pyGet_range {α : Type} (l : List α) :
    ((List.range l.length).map Int.ofNat).mapM (pyGet l) = .ok l := by
  have : ∀ (idx : List Nat) (h : ∀ i ∈ idx, i < l.length),
      (idx.map Int.ofNat).mapM (pyGet l) = .ok (idx.pmap (fun i hi => l[i]) h) := by
    intro idx
    induction idx with
    | nil => intro _; rfl
    | cons i idx ih =>
      intro h
      rw [List.map_cons, List.mapM_cons, ih (fun j hj => h j (List.mem_cons_of_mem _ hj))]
      have := pyGet_nat l i (h i List.mem_cons_self)
      rw [show Int.ofNat i = (i : Int) from rfl, this]; rfl
  rw [this _ (fun i hi => List.mem_range.mp hi)]
  congr 1
  apply List.ext_getElem
  · simp
  · intro i h1 h2; simp

theorem pick_sub {p : Param} (h : Wf p) (f : ∀ {α : Type}, List α → List α)
    (hf : ∀ {α β : Type} (g : α → Py β) (l : List α) (r : List β),
      l.mapM g = .ok r → (f l).mapM g = .ok (f r))
    (hlen : ∀ {α β : Type} (l : List α) (r : List β), l.length = r.length → (f l).length = (f r).length) :
    p.pick (f ((List.range p.dim).map Int.ofNat)) =
      .ok ⟨f p.values, (f p.values).length, f p.paths, f p.names, f p.norms, f p.bounds⟩ := by
  have g : ∀ {α : Type} (l : List α), l.length = p.dim →
      (f ((List.range p.dim).map Int.ofNat)).mapM (pyGet l) = .ok (f l) := by
    intro α l hl
    rw [← hl]; exact hf _ _ _ (mapM_pyGet_range l)
  unfold Param.pick
  rw [g _ h.values, g _ h.paths, g _ h.norms, g _ h.names, g _ h.bounds]
  simp only [bind, Except.bind]
  apply mkParam_explicit
  · exact hlen _ _ (by rw [h.paths, h.values])
  · exact hlen _ _ (by rw [h.norms, h.values])
  · exact hlen _ _ (by rw [h.names, h.values])
  · exact hlen _ _ (by rw [h.bounds, h.values])

theorem getTo_eq {p : Param} (h : Wf p) (k : Int) :
    p.getTo k = .ok ⟨p.values.take (pyClamp p.dim k), (p.values.take (pyClamp p.dim k)).length,
      p.paths.take (pyClamp p.dim k), p.names.take (pyClamp p.dim k),
      p.norms.take (pyClamp p.dim k), p.bounds.take (pyClamp p.dim k)⟩ := by
  unfold Param.getTo pyTake
  rw [List.length_map, List.length_range]
  exact pick_sub h (fun l => l.take (pyClamp p.dim k)) (fun g l r hr => mapM_take g l r _ hr)
    (fun l r hr => by simp [hr])

theorem getFrom_eq {p : Param} (h : Wf p) (k : Int) :
    p.getFrom k = .ok ⟨p.values.drop (pyClamp p.dim k), (p.values.drop (pyClamp p.dim k)).length,
      p.paths.drop (pyClamp p.dim k), p.names.drop (pyClamp p.dim k),
      p.norms.drop (pyClamp p.dim k), p.bounds.drop (pyClamp p.dim k)⟩ := by
  unfold Param.getFrom pyDrop
  rw [List.length_map, List.length_range]
  exact pick_sub h (fun l => l.drop (pyClamp p.dim k)) (fun g l r hr => mapM_drop g l r _ hr)
    (fun l r hr => by simp [hr])

theorem writeAll_spec (ivs : List (Nat × ℝ)) : ∀ (vs : List ℝ),
    (∀ x ∈ ivs, x.1 < vs.length) → (ivs.map Prod.fst).Nodup →
    (writeAll vs ivs).1 = .ok () ∧ (writeAll vs ivs).2.length = vs.length ∧
    (∀ x ∈ ivs, (writeAll vs ivs).2[x.1]? = some x.2) ∧
    (∀ i, i ∉ ivs.map Prod.fst → (writeAll vs ivs).2[i]? = vs[i]?) := by
  induction ivs with
  | nil => intro vs _ _; exact ⟨rfl, rfl, by simp, by simp [writeAll]⟩
  | cons x ivs ih =>
    obtain ⟨i, v⟩ := x
    intro vs h1 h2
    have hi : i < vs.length := h1 (i, v) List.mem_cons_self
    rw [List.map_cons, List.nodup_cons] at h2
    have hw : writeAll vs ((i, v) :: ivs) = writeAll (vs.set i v) ivs := by
      simp [writeAll, setAt, hi]
    rw [hw]
    obtain ⟨a, b, c, d⟩ := ih (vs.set i v)
      (fun x hx => by rw [List.length_set]; exact h1 x (List.mem_cons_of_mem _ hx)) h2.2
    refine ⟨a, by rw [b, List.length_set], ?_, ?_⟩
    · intro x hx
      rcases List.mem_cons.mp hx with rfl | hx
      · rw [d i h2.1, List.getElem?_set_self hi]
      · exact c x hx
    · intro j hj
      rw [List.map_cons, List.mem_cons, not_or] at hj
      rw [d j hj.2, List.getElem?_set_ne (fun h => hj.1 h.symm)]

theorem nameIndex_spec {names : List String} {name : String} (h : name ∈ names) :
    ∃ i, nameIndex names name = .ok i ∧ i < names.length ∧ names[i]? = some name ∧
      ∀ j, j < i → names[j]? ≠ some name := by
  obtain ⟨i, hi⟩ := Option.isSome_iff_exists.mp (List.isSome_idxOf?.mpr h)
  obtain ⟨h1, h2, h3⟩ := List.idxOf?_eq_some_iff.mp hi
  refine ⟨i, ?_, h1, ?_, ?_⟩
  · unfold nameIndex; rw [hi]
  · rw [List.getElem?_eq_getElem h1, h2]
  · intro j hj he
    obtain ⟨_, he⟩ := List.getElem?_eq_some_iff.mp he
    exact h3 j hj he

theorem nameIndex_error {names : List String} {name : String} (h : name ∉ names) :
    nameIndex names name = .error .valueError := by
  unfold nameIndex
  rw [List.idxOf?_eq_none_iff.mpr h]

end Verif.Param
