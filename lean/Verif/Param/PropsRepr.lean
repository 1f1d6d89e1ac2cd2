import Verif.Param.Repr
import Verif.Param.Props

/-!
# C187, C188: listings of parameter objects
-/

set_option autoImplicit false

namespace Verif.Param

open Verif

/-! ## C187 -/

/-- **C187** Paths with a prefix: in order and with repetitions, exactly those of the entries listed by
`names_by_path_prefix` and `select_by_path_prefix`. -/
theorem byPrefix_spec {p : Param} (h : Wf p) (pre : List String) :
    ∃ idx : List Nat, idx.Pairwise (· < ·) ∧
      (∀ i, i ∈ idx ↔ ∃ q, p.paths[i]? = some q ∧ pre <+: q) ∧
      (p.getPaths pre).map some = idx.map (fun i => p.paths[i]?) ∧
      (∃ ns, p.namesByPrefix pre = .ok ns ∧ ns.map some = idx.map (fun i => p.names[i]?)) ∧
      (∃ vs, p.selectByPrefix pre = .ok vs ∧ vs.map some = idx.map (fun i => p.values[i]?)) := by
  have hm : ∀ i, i ∈ p.pathIndices pre true ↔ ∃ q, p.paths[i]? = some q ∧ pre <+: q := by
    intro i
    have := pathIndices_mem p pre true i
    simpa using this
  have hlt : ∀ i ∈ p.pathIndices pre true, i < p.dim := by
    intro i hi
    obtain ⟨q, hq, _⟩ := (hm i).mp hi
    rw [← h.paths]; exact (List.getElem?_eq_some_iff.mp hq).1
  have gen : ∀ {α : Type} (l : List α), l.length = p.dim → ∀ idx : List Nat, (∀ i ∈ idx, i < p.dim) →
      ∃ r, idx.mapM (fun (i : Nat) => pyGet l (i : Int)) = Except.ok r ∧
        r.map some = idx.map (fun i => l[i]?) := by
    intro α l hl idx
    induction idx with
    | nil => intro _; exact ⟨[], rfl, rfl⟩
    | cons i idx ih =>
      intro hi
      obtain ⟨r, h1, h2⟩ := ih fun j hj => hi j (List.mem_cons_of_mem _ hj)
      have hil : i < l.length := hl ▸ hi i List.mem_cons_self
      refine ⟨l[i] :: r, ?_, ?_⟩
      · rw [List.mapM_cons, pyGet_nat _ _ hil, h1]; rfl
      · rw [List.map_cons, List.map_cons, h2, List.getElem?_eq_getElem hil]
  refine ⟨p.pathIndices pre true, List.Pairwise.filter _ List.pairwise_lt_range, hm, ?_,
    gen p.names h.names _ hlt, gen p.values h.values _ hlt⟩
  unfold Param.getPaths Param.pathIndices
  simp only [if_true]
  generalize p.paths = l
  have key : ∀ (n : Nat), n ≤ l.length → ((l.take n).filter fun q => q.take pre.length == pre).map some =
      ((List.range n).filter fun i => (l.getD i []).take pre.length == pre).map (fun i => l[i]?) := by
    intro n
    induction n with
    | zero => intro _; rfl
    | succ n ih =>
      intro hn
      have e1 : l.take (n + 1) = l.take n ++ [l[n]] := by
        rw [List.take_succ, List.getElem?_eq_getElem (by omega)]; rfl
      have e2 : l.getD n [] = l[n] := by
        simp [List.getD, List.getElem?_eq_getElem (show n < l.length by omega)]
      rw [e1, List.range_succ, List.filter_append, List.filter_append, List.map_append, List.map_append,
        ih (by omega)]
      congr 1
      simp only [List.filter_cons, List.filter_nil, e2]
      split
      · simp [List.getElem?_eq_getElem (show n < l.length by omega)]
      · rfl
  have := key l.length le_rfl
  rwa [List.take_length] at this

/-- **C187** The lookup of a dictionary built in order: the last entry with the key. -/
theorem dictLookup_last {β : Type} (kv : List (String × β)) (k : String) (v : β) :
    dictLookup kv k = some v ↔ ∃ i : ℕ, kv[i]? = some (k, v) ∧ ∀ j, i < j → ∀ w, kv[j]? ≠ some (k, w) := by
  unfold dictLookup
  induction kv using List.reverseRecOn with
  | nil => simp
  | append_singleton l x ih =>
    obtain ⟨k', w⟩ := x
    rw [List.reverse_append, List.reverse_singleton, List.singleton_append, List.find?_cons]
    by_cases hk : k' = k
    · subst hk
      simp only [beq_self_eq_true, Option.map_some, Option.some.injEq]
      constructor
      · rintro rfl
        refine ⟨l.length, by simp, fun j hj w => ?_⟩
        rw [List.getElem?_eq_none (by simp; omega)]; simp
      · rintro ⟨i, h1, h2⟩
        by_cases hi : i < l.length
        · exact absurd (by simp) (h2 l.length hi w)
        · have : i = l.length := by
            have := (List.getElem?_eq_some_iff.mp h1).1
            simp at this; omega
          subst this
          simpa using h1
    · have hb : (k' == k) = false := by simpa using hk
      simp only [hb]
      rw [ih]
      constructor
      · rintro ⟨i, h1, h2⟩
        refine ⟨i, ?_, fun j hj w' hw => ?_⟩
        · rw [List.getElem?_append_left (List.getElem?_eq_some_iff.mp h1).1]; exact h1
        · by_cases hjl : j < l.length
          · rw [List.getElem?_append_left hjl] at hw
            exact h2 j hj w' hw
          · have := (List.getElem?_eq_some_iff.mp hw).1
            have hj' : j = l.length := by simp at this; omega
            subst hj'
            simp at hw
            exact hk hw.1
      · rintro ⟨i, h1, h2⟩
        have hi : i < l.length := by
          by_contra hi
          have := (List.getElem?_eq_some_iff.mp h1).1
          have hi' : i = l.length := by simp at this; omega
          subst hi'
          simp at h1
          exact hk h1.1
        refine ⟨i, by rwa [List.getElem?_append_left hi] at h1, fun j hj w' hw => ?_⟩
        refine h2 j hj w' ?_
        rw [List.getElem?_append_left (List.getElem?_eq_some_iff.mp hw).1]; exact hw

theorem entry_ok {p : Param} (h : Wf p) {i : Nat} (hi : i < p.dim) :
    ∃ (n : String) (v : ℝ) (q : List String) (nm : Norm) (b : Option (ℝ × ℝ)),
      p.names[i]? = some n ∧ p.values[i]? = some v ∧ p.paths[i]? = some q ∧ p.norms[i]? = some nm ∧
      p.bounds[i]? = some b ∧ p.entry i = .ok (n, ⟨v, q, nm.value, denormalize v nm, b⟩) := by
  have h1 : i < p.names.length := h.names ▸ hi
  have h2 : i < p.values.length := h.values ▸ hi
  have h3 : i < p.paths.length := h.paths ▸ hi
  have h4 : i < p.norms.length := h.norms ▸ hi
  have h5 : i < p.bounds.length := h.bounds ▸ hi
  have hd := denormalized_get h i _ _ (List.getElem?_eq_getElem h2) (List.getElem?_eq_getElem h4)
  obtain ⟨hdl, hde⟩ := List.getElem?_eq_some_iff.mp hd
  refine ⟨_, _, _, _, _, List.getElem?_eq_getElem h1, List.getElem?_eq_getElem h2, List.getElem?_eq_getElem h3,
    List.getElem?_eq_getElem h4, List.getElem?_eq_getElem h5, ?_⟩
  unfold Param.entry
  simp only [pyGet_nat _ _ h1, pyGet_nat _ _ h2, pyGet_nat _ _ h3, pyGet_nat _ _ h4, pyGet_nat _ _ h5,
    pyGet_nat _ _ hdl, hde, bind, Except.bind]
  rfl

/-- Spec: the names of the normalisations. -/
def specNorm : Norm → String
  | .log => "log"
  | .logInv => "log_inv"
  | .none => "none"

/-- **C187** `to_dict` never raises; the record of a name is that of the last entry with the name; the
keys are the names. -/
theorem toDict_spec {p : Param} (h : Wf p) : ∃ d, p.toDict = .ok d ∧
    (∀ name, name ∉ p.names → d name = none) ∧
    ∀ (i : ℕ) name, p.names[i]? = some name → (∀ j, i < j → p.names[j]? ≠ some name) →
      ∃ v q nm b, p.values[i]? = some v ∧ p.paths[i]? = some q ∧ p.norms[i]? = some nm ∧
        p.bounds[i]? = some b ∧ d name = some ⟨v, q, specNorm nm, denormalize v nm, b⟩ := by
  have hnv : ∀ nm : Norm, specNorm nm = nm.value := fun nm => by cases nm <;> rfl
  simp only [hnv]
  have key : ∀ n ≤ p.dim, ∃ l, (List.range n).mapM p.entry = Except.ok l ∧ l.length = n ∧
      ∀ i < n, ∃ x, p.entry i = .ok x ∧ l[i]? = some x := by
    intro n
    induction n with
    | zero => intro _; exact ⟨[], rfl, rfl, by simp⟩
    | succ n ih =>
      intro hn
      obtain ⟨l, h1, h2, h3⟩ := ih (by omega)
      obtain ⟨nm, v, q, no, b, _, _, _, _, _, he⟩ := entry_ok h (show n < p.dim by omega)
      refine ⟨l ++ [(nm, ⟨v, q, no.value, denormalize v no, b⟩)], ?_, by simp [h2], ?_⟩
      · rw [List.range_succ, List.mapM_append, h1]
        simp only [bind, Except.bind, List.mapM_cons, he, List.mapM_nil]
        rfl
      · intro i hi
        by_cases hin : i < n
        · obtain ⟨x, g1, g2⟩ := h3 i hin
          exact ⟨x, g1, by rw [List.getElem?_append_left (by omega)]; exact g2⟩
        · have : i = n := by omega
          subst this
          exact ⟨_, he, by rw [List.getElem?_append_right (by omega)]; simp [h2]⟩
  obtain ⟨l, h1, h2, h3⟩ := key p.dim le_rfl
  have hname : ∀ (j : ℕ) k w, l[j]? = some (k, w) → p.names[j]? = some k := by
    intro j k w hj
    have hjl := (List.getElem?_eq_some_iff.mp hj).1
    obtain ⟨x, g1, g2⟩ := h3 j (by omega)
    obtain ⟨nm, v, q, no, b, e1, _, _, _, _, he⟩ := entry_ok h (show j < p.dim by omega)
    rw [he] at g1
    obtain rfl := Except.ok.inj g1
    rw [g2] at hj
    cases hj
    exact e1
  refine ⟨dictLookup l, ?_, ?_, ?_⟩
  · unfold Param.toDict
    rw [h1]; rfl
  · intro name hn
    by_contra hne
    obtain ⟨v, hv⟩ := Option.ne_none_iff_exists'.mp hne
    obtain ⟨i, hi, _⟩ := (dictLookup_last l name v).mp hv
    exact hn (List.mem_of_getElem? (hname i _ _ hi))
  · intro i name hi hlast
    have hid : i < p.dim := h.names ▸ (List.getElem?_eq_some_iff.mp hi).1
    obtain ⟨nm, v, q, no, b, e1, e2, e3, e4, e5, he⟩ := entry_ok h hid
    rw [hi] at e1
    obtain rfl := Option.some.inj e1
    refine ⟨v, q, no, b, e2, e3, e4, e5, (dictLookup_last _ _ _).mpr ⟨i, ?_, ?_⟩⟩
    · obtain ⟨x, g1, g2⟩ := h3 i hid
      rw [he] at g1
      obtain rfl := Except.ok.inj g1
      exact g2
    · intro j hj w hw
      exact hlast j hj (hname j _ _ hw)

/-- **C187** `get_paths()` and the prefixes: every path is found under the empty prefix. -/
theorem getPaths_spec (p : Param) (r : List (List String)) (hr : p.AllPaths r) :
    p.getPaths [] = p.paths ∧ (∀ q, q ∈ r ↔ q ∈ p.getPaths []) ∧ r.length ≤ p.paths.length := by
  have h0 : p.getPaths [] = p.paths := by
    unfold Param.getPaths
    simp
  refine ⟨h0, fun q => by rw [h0]; exact hr.2 q, ?_⟩
  exact (List.subperm_of_subset hr.1 fun q hq => (hr.2 q).mp hq).length_le

/-! ## C188 -/

theorem ftos_error (k : ℕ) (x : Flt) : DataFrame.ftos k x = .error .valueError ∧ x = .nan ∨
    (∃ s, DataFrame.ftos k x = .ok s) ∧ x ≠ .nan := by
  classical
  rcases x with _ | v
  · exact Or.inl ⟨rfl, rfl⟩
  · right
    refine ⟨?_, by simp⟩
    unfold DataFrame.ftos
    simp only
    split
    · exact ⟨_, rfl⟩
    · split <;> exact ⟨_, rfl⟩

theorem exp_nan (v : Flt) : v.exp = .nan ↔ v = .nan := by
  classical
  rcases v with _ | v
  · simp [Flt.exp]
  · simp only [Flt.exp, reduceCtorEq, iff_false]
    split
    · simp
    · split <;> simp [Flt.fin]

theorem denormFlt_nan (v : Flt) (n : Norm) : denormFlt v n = .nan ↔ v = .nan := by
  cases n with
  | log => exact exp_nan v
  | logInv =>
    refine (exp_nan _).trans ?_
    rcases v with _ | v <;> simp [Flt.neg]
  | none => exact Iff.rfl

theorem cells_error (num : DataFrame.Shown → List Char) (bnd : ℝ × ℝ → List Char) (r : Row) :
    (r.value = .nan → r.cells num bnd = .error .valueError) ∧
    (r.value ≠ .nan → ∃ v d, r.cells num bnd = .ok [r.name ++ [':'], joinArrow r.path, r.norm.value.toList,
      (r.bounds.map bnd).getD "(-inf, inf)".toList, num v, num d] ∧
      DataFrame.ftos 3 r.value = .ok v ∧ DataFrame.ftos 3 (denormFlt r.value r.norm) = .ok d) := by
  constructor
  · intro h
    unfold Row.cells
    rw [h]; rfl
  · intro h
    rcases ftos_error 3 r.value with ⟨_, h1⟩ | ⟨⟨v, h1⟩, _⟩
    · exact absurd h1 h
    rcases ftos_error 3 (denormFlt r.value r.norm) with ⟨_, h2⟩ | ⟨⟨d, h2⟩, _⟩
    · exact absurd ((denormFlt_nan _ _).mp h2) h
    refine ⟨v, d, ?_, h1, h2⟩
    unfold Row.cells
    rw [h1, h2]
    simp only [bind, Except.bind]
    cases r.bounds <;> rfl

/-- Spec: the value a user reads. -/
noncomputable def specDenorm (v : ℝ) : Norm → ℝ
  | .log => Real.exp v
  | .logInv => 1 / Real.exp v
  | .none => v

/-- **C188** The cells of a row with a finite value: name, components of the path joined by arrows,
normalisation, bounds, value and denormalised value. -/
theorem cells_content (num : DataFrame.Shown → List Char) (bnd : ℝ × ℝ → List Char) (r : Row) (v : ℝ)
    (hv : r.value = .fin v) : ∃ a b, DataFrame.ftos 3 (.fin v) = .ok a ∧
      DataFrame.ftos 3 (.fin (specDenorm v r.norm)) = .ok b ∧
      r.cells num bnd = .ok [r.name ++ [':'], List.intercalate ['-', '>'] r.path, (specNorm r.norm).toList,
        (r.bounds.map bnd).getD "(-inf, inf)".toList, num a, num b] := by
  have hne : r.value ≠ .nan := by rw [hv]; intro h; cases h
  obtain ⟨a, b, h1, h2, h3⟩ := (cells_error num bnd r).2 hne
  have hj : ∀ l : List (List Char), joinArrow l = List.intercalate ['-', '>'] l := by
    intro l
    induction l with
    | nil => rfl
    | cons a l ih =>
      cases l with
      | nil => simp [joinArrow]
      | cons b l => simp [joinArrow, ih]
  have hd : denormFlt r.value r.norm = .fin (specDenorm v r.norm) := by
    rw [hv]
    cases r.norm with
    | log => simp [denormFlt, specDenorm, Flt.fin, Flt.exp]
    | logInv =>
      have : (-(v : EReal)) = ((-v : ℝ) : EReal) := (EReal.coe_neg v).symm
      simp only [denormFlt, specDenorm, Flt.fin, Flt.neg, this]
      simp [Flt.exp, Real.exp_neg, Flt.fin]
    | none => rfl
  have hn : r.norm.value = specNorm r.norm := by cases r.norm <;> rfl
  refine ⟨a, b, hv ▸ h2, hd ▸ h3, ?_⟩
  rw [h1, hj, hn]

/-- **C188** `repr` raises ValueError exactly when some value is NaN. -/
theorem repr_outcome (num : DataFrame.Shown → List Char) (bnd : ℝ × ℝ → List Char) (rows : List Row) :
    ((∃ r ∈ rows, r.value = .nan) → reprLines num bnd rows = .error .valueError) ∧
    ((∀ r ∈ rows, r.value ≠ .nan) → ∃ cells, rows.mapM (Row.cells num bnd) = .ok cells ∧
      cells.length = rows.length ∧ (∀ c ∈ cells, c.length = 6) ∧
      reprLines num bnd rows = .ok (tableLines ["Name:".toList, "Path".toList, "Norm".toList, "Bounds".toList, "Value".toList,
        "Denorm".toList] cells)) := by
  have key : ((∃ r ∈ rows, r.value = .nan) → rows.mapM (Row.cells num bnd) = .error .valueError) ∧
      ((∀ r ∈ rows, r.value ≠ .nan) → ∃ cells, rows.mapM (Row.cells num bnd) = .ok cells ∧
        cells.length = rows.length ∧ ∀ c ∈ cells, c.length = 6) := by
    induction rows with
    | nil => exact ⟨by simp, fun _ => ⟨[], rfl, rfl, by simp⟩⟩
    | cons r rows ih =>
      constructor
      · rintro ⟨x, hx, hxn⟩
        rw [List.mapM_cons]
        by_cases hr : r.value = .nan
        · rw [(cells_error num bnd r).1 hr]; rfl
        · obtain ⟨v, d, h1, _⟩ := (cells_error num bnd r).2 hr
          rcases List.mem_cons.mp hx with rfl | hx
          · exact absurd hxn hr
          rw [h1, ih.1 ⟨x, hx, hxn⟩]; rfl
      · intro h
        obtain ⟨cells, h1, h2, h3⟩ := ih.2 fun x hx => h x (List.mem_cons_of_mem _ hx)
        obtain ⟨v, d, g1, _⟩ := (cells_error num bnd r).2 (h r List.mem_cons_self)
        refine ⟨[r.name ++ [':'], joinArrow r.path, r.norm.value.toList,
            (r.bounds.map bnd).getD "(-inf, inf)".toList, num v, num d] :: cells, ?_, by simpa using h2, ?_⟩
        · rw [List.mapM_cons, g1, h1]; rfl
        · intro c hc
          rcases List.mem_cons.mp hc with rfl | hc
          · rfl
          · exact h3 c hc
  refine ⟨fun h => ?_, fun h => ?_⟩
  · unfold reprLines
    rw [key.1 h]; rfl
  · obtain ⟨cells, h1, h2, h3⟩ := key.2 h
    refine ⟨cells, h1, h2, h3, ?_⟩
    unfold reprLines
    rw [h1]; rfl

/-- **C188** is false of parameters with NaN: printing them raises. -/
theorem repr_nan_false : ∃ r : Row, r.value = .nan ∧ ∀ num bnd, reprLines num bnd [r] = .error .valueError :=
  ⟨⟨['x'], [], .none, none, .nan⟩, rfl, fun num bnd => (repr_outcome num bnd _).1 ⟨_, List.mem_cons_self, rfl⟩⟩

theorem rjust_length {w : Nat} {s : List Char} (h : s.length ≤ w) : (rjust w s).length = w := by
  simp [rjust]; omega

theorem joinCells_length : ∀ (l : List (List Char)), l ≠ [] →
    (joinCells l).length + 4 = (l.map fun c => c.length + 4).sum := by
  intro l
  induction l with
  | nil => intro h; exact absurd rfl h
  | cons a l ih =>
    intro _
    rcases l with _ | ⟨b, l⟩
    · simp [joinCells]
    · have := ih (by simp)
      simp only [joinCells, List.length_append, List.map_cons, List.sum_cons, List.length_cons, List.length_nil] at this ⊢
      omega

theorem joinCells_get : ∀ (l : List (List Char)) (j : Nat) (c : List Char), l[j]? = some c →
    ((joinCells l).drop (((l.take j).map fun c => c.length + 4).sum)).take c.length = c := by
  intro l
  induction l with
  | nil => intro j c h; simp at h
  | cons a l ih =>
    intro j c h
    rcases l with _ | ⟨b, l⟩
    · rcases j with _ | j
      · simp at h; subst h; simp [joinCells]
      · simp at h
    · rcases j with _ | j
      · simp at h; subst h
        simp [joinCells]
      · have := ih j c (by simpa using h)
        simp only [joinCells, List.take_succ_cons, List.map_cons, List.sum_cons] at this ⊢
        rw [List.append_assoc, ← List.drop_drop, ← List.drop_drop, List.drop_left, List.drop_append_of_le_length (by simp)]
        exact this

theorem foldr_max_le (l : List Nat) (a : Nat) (h : a ∈ l) : a ≤ l.foldr max 0 := by
  induction l with
  | nil => cases h
  | cons b l ih =>
    rcases List.mem_cons.mp h with rfl | h
    · simp
    · exact (ih h).trans (by simp)

/-- **C188** The table of a parameter with entries: one line per entry after the header, all of one
length; column `j` occupies the same places in every line, and there the line shows the cell of the
entry, preceded by blanks. -/
theorem table_aligned (hd : List (List Char)) (rows : List (List (List Char))) (hr : rows ≠ []) (hh : hd ≠ [])
    (hc : ∀ r ∈ rows, r.length = hd.length) :
    (tableLines hd rows).length = rows.length + 1 ∧
    (∃ n, ∀ l ∈ tableLines hd rows, l.length = n) ∧
    ∃ off wid : Nat → Nat, (∀ j, j + 1 < hd.length → off j + wid j + 4 = off (j + 1)) ∧
      ∀ (i : ℕ) (r : List (List Char)), (hd :: rows)[i]? = some r → ∀ (j : ℕ) c, r[j]? = some c →
        ∃ l : List Char, (tableLines hd rows)[i]? = some l ∧
          (l.drop (off j)).take (wid j) = List.replicate (wid j - c.length) ' ' ++ c ∧ c.length ≤ wid j := by
  have hw : (widths hd rows).length = hd.length := by
    unfold widths
    rw [if_neg (by simpa using hr)]; simp
  have hall : ∀ r ∈ hd :: rows, r.length = hd.length := by
    intro r h
    rcases List.mem_cons.mp h with rfl | h
    · rfl
    · exact hc r h
  have hle : ∀ r ∈ hd :: rows, ∀ (j : ℕ) (c : List Char) (w : ℕ), r[j]? = some c → (widths hd rows)[j]? = some w → c.length ≤ w := by
    intro r h j c w hj hwj
    unfold widths at hwj
    rw [if_neg (by simpa using hr), List.getElem?_map] at hwj
    have hjl : j < hd.length := hall r h ▸ (List.getElem?_eq_some_iff.mp hj).1
    rw [List.getElem?_range hjl] at hwj
    simp only [Option.map_some, Option.some.injEq] at hwj
    subst hwj
    rcases List.mem_cons.mp h with rfl | h
    · refine le_trans (le_of_eq ?_) (le_max_left _ _)
      simp [List.getD, hj]
    · refine le_trans (foldr_max_le _ _ ?_) (le_max_right _ _)
      refine List.mem_map.mpr ⟨c, ?_, rfl⟩
      refine List.mem_map.mpr ⟨r, h, ?_⟩
      simp [List.getD, hj]
  have hlen : ∀ r ∈ hd :: rows, ((r.zip (widths hd rows)).map fun x => rjust x.2 x.1).map (fun c => c.length + 4) =
      (widths hd rows).map (· + 4) := by
    intro r h
    apply List.ext_getElem?
    intro j
    simp only [List.getElem?_map]
    rcases hj : r[j]? with _ | c
    · have h1 : r.length ≤ j := List.getElem?_eq_none_iff.mp hj
      have h2 : (widths hd rows).length ≤ j := by rw [hw, ← hall r h]; exact h1
      rw [List.getElem?_eq_none (by simp; omega), List.getElem?_eq_none h2]; rfl
    · have h1 := (List.getElem?_eq_some_iff.mp hj).1
      have h2 : j < (widths hd rows).length := by rw [hw, ← hall r h]; exact h1
      have h3 := List.getElem?_eq_getElem h2
      rw [(List.getElem?_zip_eq_some (z := (c, (widths hd rows)[j]))).mpr ⟨hj, h3⟩, h3]
      simp only [Option.map_some]
      rw [rjust_length (hle r h j c _ hj h3)]
  refine ⟨by simp [tableLines], ⟨((widths hd rows).map (· + 4)).sum - 4, ?_⟩,
    fun j => (((widths hd rows).take j).map (· + 4)).sum, fun j => (widths hd rows).getD j 0, ?_, ?_⟩
  · intro l hl
    obtain ⟨r, h, rfl⟩ := List.mem_map.mp hl
    have h1 := joinCells_length ((r.zip (widths hd rows)).map fun x => rjust x.2 x.1) (by
      intro he
      have h3 := congrArg List.length he
      have h2 := hall r h
      have h4 : 0 < hd.length := List.length_pos_of_ne_nil hh
      rw [List.length_map, List.length_zip, hw, h2, List.length_nil] at h3
      omega)
    rw [hlen r h] at h1
    unfold line
    omega
  · intro j hj
    have h1 : j < (widths hd rows).length := by omega
    beta_reduce
    rw [List.take_succ, List.getElem?_eq_getElem h1]
    simp [List.getD, h1]
    omega
  · intro i r hi j c hj
    have h := List.mem_of_getElem? hi
    have h1 := (List.getElem?_eq_some_iff.mp hj).1
    have h2 : j < (widths hd rows).length := by rw [hw, ← hall r h]; exact h1
    have h3 := List.getElem?_eq_getElem h2
    have hwd : (widths hd rows).getD j 0 = (widths hd rows)[j] := by simp [List.getD, h2]
    have hcl := hle r h j c _ hj h3
    refine ⟨line (widths hd rows) r, ?_, ?_, by beta_reduce; rw [hwd]; exact hcl⟩
    · unfold tableLines
      rw [List.getElem?_map, hi]; rfl
    · have h4 : ((r.zip (widths hd rows)).map fun x => rjust x.2 x.1)[j]? = some (rjust (widths hd rows)[j] c) := by
        rw [List.getElem?_map, (List.getElem?_zip_eq_some (z := (c, (widths hd rows)[j]))).mpr ⟨hj, h3⟩]; rfl
      have h5 := joinCells_get _ _ _ h4
      rw [rjust_length hcl, List.map_take, hlen r h] at h5
      beta_reduce
      rw [hwd, List.map_take]
      exact h5

/-- **C188** Without entries there is one empty line: the headers are lost. -/
theorem table_empty (hd : List (List Char)) : tableLines hd [] = [[]] := by
  simp [tableLines, widths, line, joinCells]

/-- A parameter with one entry meets the hypotheses. -/
example : ∃ cells, [(⟨['x'], [['a'], ['b']], .log, none, .fin 0⟩ : Row)].mapM (Row.cells (fun _ => ['1']) fun _ => []) =
    .ok cells ∧ cells ≠ [] ∧ ∀ c ∈ cells, c.length = headers.length := by
  obtain ⟨cells, h1, h2, h3, _⟩ := (repr_outcome (fun _ => ['1']) (fun _ => [])
    [(⟨['x'], [['a'], ['b']], .log, none, .fin 0⟩ : Row)]).2 (by simp [Flt.fin])
  refine ⟨cells, h1, ?_, h3⟩
  rintro rfl
  simp at h2

end Verif.Param
