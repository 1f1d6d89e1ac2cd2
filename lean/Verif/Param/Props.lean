import Verif.Param.Lemmas
import Mathlib.Tactic.Linarith
import Mathlib.Tactic.NormNum

/-!
# Properties of `Param`: C15 – C19, C72, C73
-/

namespace Verif.Param

open Verif

/-- Values on which a normalisation is defined. -/
def Dom (v : ℝ) : Norm → Prop
  | .none => True
  | _ => 0 < v

/-! ## C15 -/

/-- **C15** Normalising and denormalising are inverse of each other. -/
theorem normalize_roundtrip (n : Norm) :
    (∀ v, Dom v n → denormalize (normalize v n) n = v) ∧
    (∀ w, normalize (denormalize w n) n = w) ∧ (∀ w, Dom (denormalize w n) n) := by
  cases n <;> refine ⟨?_, ?_, ?_⟩ <;> intro v <;>
    simp +contextual [normalize, denormalize, Dom, Real.exp_log, Real.exp_pos]

/-- **C15** Assigning `denormalized_values` and reading it back. -/
theorem setDenormalized_get {p : Param} (h : Wf p) (v : List ℝ) (hv : v.length = p.dim)
    (hd : ∀ x ∈ v.zip p.norms, Dom x.1 x.2) :
    ∃ q, p.setDenormalized v = .ok q ∧ q.denormalized = v ∧ Wf q ∧
      q.names = p.names ∧ q.paths = p.paths ∧ q.norms = p.norms ∧ q.bounds = p.bounds := by
  refine ⟨{ p with values := (v.zip p.norms).map (fun x => normalize x.1 x.2) },
    by unfold Param.setDenormalized; rw [if_neg (by simpa using hv)], ?_, ?_, rfl, rfl, rfl, rfl⟩
  · have hn := h.norms
    unfold Param.denormalized
    simp only
    generalize p.norms = ns at *
    have hl : v.length = ns.length := by omega
    clear hv hn h
    induction v generalizing ns with
    | nil => rfl
    | cons a v ih =>
      cases ns with
      | nil => simp at hl
      | cons n ns =>
        simp only [List.zip_cons_cons, List.map_cons, List.length_cons] at *
        rw [ih ns (fun x hx => hd x (List.mem_cons_of_mem _ hx)) (by omega),
          (normalize_roundtrip n).1 a (hd (a, n) List.mem_cons_self)]
  · refine ⟨?_, h.paths, h.names, h.norms, h.bounds⟩
    have := h.norms
    simp; omega

/-- Reading entry `i` of `denormalized_values`. -/
theorem denormalized_get {p : Param} (h : Wf p) (i : Nat) (v : ℝ) (n : Norm)
    (hv : p.values[i]? = some v) (hn : p.norms[i]? = some n) :
    p.denormalized[i]? = some (denormalize v n) := by
  unfold Param.denormalized
  rw [List.getElem?_map, (List.getElem?_zip_eq_some (z := (v, n))).mpr ⟨hv, hn⟩]; rfl

theorem setFromUnnormalized_gen (kw : List (String × ℝ)) : ∀ (p : Param), Wf p →
    (kw.map Prod.fst).Nodup → (∀ x ∈ kw, x.1 ∈ p.names) →
    ∃ q, p.setFromUnnormalized kw = (.ok (), q) ∧ Wf q ∧ q.dim = p.dim ∧
      q.names = p.names ∧ q.paths = p.paths ∧ q.norms = p.norms ∧ q.bounds = p.bounds ∧
      (∀ x ∈ kw, ∀ i n, nameIndex p.names x.1 = .ok i → p.norms[i]? = some n →
        q.values[i]? = some (normalize x.2 n)) ∧
      (∀ i, (∀ x ∈ kw, nameIndex p.names x.1 ≠ .ok i) → q.values[i]? = p.values[i]?) := by
  induction kw with
  | nil =>
    intro p h _ _
    exact ⟨p, rfl, h, rfl, rfl, rfl, rfl, rfl, by simp, by simp⟩
  | cons x kw ih =>
    obtain ⟨name, v⟩ := x
    intro p h hnd hin
    rw [List.map_cons, List.nodup_cons] at hnd
    obtain ⟨i, i1, i2, i3, _⟩ := nameIndex_spec (hin (name, v) List.mem_cons_self)
    have hin1 : i < p.norms.length := by rw [h.norms, ← h.names]; exact i2
    have hiv : i < p.values.length := by rw [h.values, ← h.names]; exact i2
    have hstep : p.setFromUnnormalized ((name, v) :: kw) =
        Param.setFromUnnormalized { p with values := p.values.set i (normalize v p.norms[i]) } kw := by
      simp only [Param.setFromUnnormalized, i1, pyGet_nat p.norms i hin1, setAt, if_pos hiv]
    obtain ⟨q, q1, q2, qd, q3, q4, q5, q6, q7, q8⟩ :=
      ih { p with values := p.values.set i (normalize v p.norms[i]) }
        ⟨by simpa using h.values, h.paths, h.names, h.norms, h.bounds⟩ hnd.2
        (fun x hx => hin x (List.mem_cons_of_mem _ hx))
    refine ⟨q, by rw [hstep, q1], q2, qd, q3, q4, q5, q6, ?_, ?_⟩
    · intro x hx j n hj hn
      rcases List.mem_cons.mp hx with rfl | hx
      · simp only at hj hn ⊢
        rw [i1] at hj
        cases hj
        rw [q8 i]
        · simp only
          rw [List.getElem?_set_self hiv]
          rw [List.getElem?_eq_getElem hin1] at hn
          cases hn; rfl
        · intro y hy hyi
          obtain ⟨k, k1, _, k3, _⟩ := nameIndex_spec (hin y (List.mem_cons_of_mem _ hy))
          simp only at hyi
          rw [k1] at hyi
          cases hyi
          rw [i3] at k3
          cases k3
          exact hnd.1 (List.mem_map.mpr ⟨y, hy, rfl⟩)
      · exact q7 x hx j n hj hn
    · intro j hj
      rw [q8 j (fun x hx => hj x (List.mem_cons_of_mem _ hx))]
      simp only
      rw [List.getElem?_set_ne]
      rintro rfl
      exact hj (name, v) List.mem_cons_self i1

/-- **C15** `set_from_unnormalized(**kw)` with known names: afterwards the
denormalized value of each named entry is the value given, and the other entries
are unchanged. -/
theorem setFromUnnormalized_get {p : Param} (h : Wf p) (kw : List (String × ℝ))
    (hnd : (kw.map Prod.fst).Nodup) (hin : ∀ x ∈ kw, x.1 ∈ p.names)
    (hd : ∀ x ∈ kw, ∀ i n, nameIndex p.names x.1 = .ok i → p.norms[i]? = some n → Dom x.2 n) :
    ∃ q, p.setFromUnnormalized kw = (.ok (), q) ∧ Wf q ∧
      (∀ x ∈ kw, ∃ i : Nat, nameIndex p.names x.1 = .ok i ∧ q.denormalized[i]? = some x.2) ∧
      (∀ i : Nat, (∀ x ∈ kw, p.names[i]? ≠ some x.1) → q.values[i]? = p.values[i]?) := by
  obtain ⟨q, q1, q2, _, q3, q4, q5, q6, q7, q8⟩ := setFromUnnormalized_gen kw p h hnd hin
  refine ⟨q, q1, q2, ?_, ?_⟩
  · intro x hx
    obtain ⟨i, i1, i2, i3, _⟩ := nameIndex_spec (hin x hx)
    have hin1 : i < p.norms.length := by rw [h.norms, ← h.names]; exact i2
    have hn := List.getElem?_eq_getElem hin1
    refine ⟨i, i1, ?_⟩
    rw [denormalized_get q2 i _ _ (q7 x hx i _ i1 hn) (by rw [q5]; exact hn),
      (normalize_roundtrip _).1 _ (hd x hx i _ i1 hn)]
  · intro i hi
    apply q8
    intro x hx he
    obtain ⟨k, k1, _, k3, _⟩ := nameIndex_spec (hin x hx)
    rw [k1] at he; cases he
    exact hi x hx k3

/-- A concrete two-entry parameter used in the examples. -/
noncomputable def exParam : Param :=
  ⟨[0, 1], 2, [["cov", "var"], ["cov", "len"]], ["s", "r"], [.log, .logInv], [Option.none, some (1/10, 2)]⟩

theorem exParam_wf : Wf exParam := ⟨rfl, rfl, rfl, rfl, rfl⟩

example : ∃ q, exParam.setFromUnnormalized [("r", 3)] = (.ok (), q) ∧ q.denormalized[1]? = some 3 := by
  obtain ⟨q, q1, _, q3, _⟩ := setFromUnnormalized_get exParam_wf [("r", 3)] (by simp)
    (by simp [exParam]) (by
      intro x hx i n _ hn
      simp at hx; subst hx
      cases n <;> simp [Dom])
  obtain ⟨i, i1, i2⟩ := q3 ("r", 3) (by simp)
  have : nameIndex exParam.names "r" = .ok 1 := by decide
  rw [this] at i1; cases i1
  exact ⟨q, q1, i2⟩

/-- **C74** A failing `set_from_unnormalized` does not leave the object
unchanged: the keyword arguments before the unknown name have been written. -/
theorem setFromUnnormalized_atomic_false :
    ¬ (∀ (p : Param) (kw : List (String × ℝ)) (e : PyErr) (q : Param), Wf p →
        p.setFromUnnormalized kw = (.error e, q) → q.values = p.values) := by
  intro H
  have := H exParam [("r", 1), ("zzz", 1)] .valueError
    ⟨[0, -Real.log 1], 2, exParam.paths, exParam.names, exParam.norms, exParam.bounds⟩
    exParam_wf (by
      have e1 : nameIndex exParam.names "r" = .ok 1 := by decide
      have e2 : nameIndex exParam.names "zzz" = .error .valueError := by decide
      have e3 : pyGet exParam.norms ((1 : Nat) : Int) = .ok .logInv := by decide
      have e4 : setAt exParam.values 1 (normalize 1 .logInv) = .ok [0, -Real.log 1] := by
        simp [setAt, exParam, normalize]
      simp only [Param.setFromUnnormalized, e1, e2, e3, e4]
      rfl)
  simp [exParam] at this

/-- **C74** partial: it is unchanged when the first name is unknown; and a
failure is always a `ValueError` for a well-formed object.  Missing: atomicity in
general (false). -/
theorem setFromUnnormalized_atomic_partial {p : Param} (name : String) (v : ℝ)
    (kw : List (String × ℝ)) (h : name ∉ p.names) :
    p.setFromUnnormalized ((name, v) :: kw) = (.error .valueError, p) := by
  simp only [Param.setFromUnnormalized, nameIndex_error h]

/-! ## C16 -/

/-- **C16** Construction either raises or gives fields of equal length. -/
theorem mkParam_wf (v : Option (List ℝ)) (paths : Option (List (List String)))
    (norms : Option (List NormArg)) (names : Option (List String))
    (bounds : Option (List (Option (ℝ × ℝ)))) (pre : String) (dim : Option Int) (p : Param)
    (h : mkParam v paths norms names bounds pre dim = .ok p) : Wf p := by
  have key : ∀ (vs : List ℝ) (ns : List Norm),
      (let q : Param := { values := vs, dim := vs.length,
                          paths := paths.getD (List.replicate vs.length ["param"]),
                          names := names.getD ((List.range vs.length).map (fun i => pre ++ toString i)),
                          norms := ns, bounds := bounds.getD (List.replicate vs.length Option.none) }
       if q.consistent then (.ok q : Py Param) else .error .valueError) = .ok p → Wf p := by
    intro vs ns hq
    simp only at hq
    split at hq
    · rename_i hc
      cases hq
      rw [consistent_iff] at hc
      exact ⟨rfl, hc.1, hc.2.1, hc.2.2.1, hc.2.2.2⟩
    · cases hq
  unfold mkParam at h
  cases v with
  | some vs =>
    simp only [bind, Except.bind] at h
    cases hn : parseNormalizations vs.length norms with
    | error e => rw [hn] at h; cases h
    | ok ns => rw [hn] at h; exact key vs ns h
  | none =>
    cases dim with
    | none =>
      simp only [bind, Except.bind] at h
      cases hn : parseNormalizations ([] : List ℝ).length norms with
      | error e => rw [hn] at h; cases h
      | ok ns => rw [hn] at h; exact key [] ns h
    | some d =>
      simp only [bind, Except.bind] at h
      by_cases hd : d < 0
      · rw [if_pos hd] at h; cases h
      · rw [if_neg hd] at h
        simp only at h
        cases hn : parseNormalizations (List.replicate d.toNat (0 : ℝ)).length norms with
        | error e => rw [hn] at h; cases h
        | ok ns => rw [hn] at h; exact key _ ns h

theorem writeAll_length (ivs : List (Nat × ℝ)) (vs : List ℝ) :
    (writeAll vs ivs).2.length = vs.length := by
  induction ivs generalizing vs with
  | nil => rfl
  | cons x ivs ih =>
    obtain ⟨i, v⟩ := x
    by_cases h : i < vs.length
    · have : writeAll vs ((i, v) :: ivs) = writeAll (vs.set i v) ivs := by simp [writeAll, setAt, h]
      rw [this, ih, List.length_set]
    · have : writeAll vs ((i, v) :: ivs) = (.error .indexError, vs) := by simp [writeAll, setAt, h]
      rw [this]

theorem setUnnorm_wf (kw : List (String × ℝ)) : ∀ (p : Param), Wf p →
    Wf (p.setFromUnnormalized kw).2 ∧ (p.setFromUnnormalized kw).2.dim = p.dim := by
  induction kw with
  | nil => intro p h; exact ⟨h, rfl⟩
  | cons x kw ih =>
    obtain ⟨name, v⟩ := x
    intro p h
    simp only [Param.setFromUnnormalized]
    cases nameIndex p.names name with
    | error e => exact ⟨h, rfl⟩
    | ok i =>
      simp only
      cases pyGet p.norms (i : Int) with
      | error e => exact ⟨h, rfl⟩
      | ok n =>
        simp only [setAt]
        by_cases hi : i < p.values.length
        · simp only [if_pos hi]
          exact ih { p with values := p.values.set i (normalize v n) }
            ⟨by simpa using h.values, h.paths, h.names, h.norms, h.bounds⟩
        · simp only [if_neg hi]; exact ⟨h, True.intro⟩

/-- A mutation keeps the number of parameters (only the `values` setter can
change it). -/
def Op.keepsDim (dim : Nat) : Op → Prop
  | .setValues v => v.length = dim
  | _ => True

theorem step_wf {p : Param} (h : Wf p) (op : Op) (ho : op.keepsDim p.dim) :
    Wf (p.step op) ∧ (p.step op).dim = p.dim := by
  cases op with
  | setValues v =>
    have hv : v.length = p.dim := ho
    exact ⟨⟨rfl, by simp [Param.step, Param.setValues, hv, h.paths],
      by simp [Param.step, Param.setValues, hv, h.names],
      by simp [Param.step, Param.setValues, hv, h.norms],
      by simp [Param.step, Param.setValues, hv, h.bounds]⟩, hv⟩
  | setDenormalized v =>
    show Wf (keepOn p (p.setDenormalized v)) ∧ (keepOn p (p.setDenormalized v)).dim = p.dim
    by_cases hl : v.length ≠ p.dim
    · have : p.setDenormalized v = .error .valueError := by
        unfold Param.setDenormalized; rw [if_pos hl]
      rw [this]; exact ⟨h, rfl⟩
    · have : p.setDenormalized v = .ok { p with values := (v.zip p.norms).map (fun x => normalize x.1 x.2) } := by
        unfold Param.setDenormalized; rw [if_neg hl]
      rw [this]
      have := h.norms
      refine ⟨⟨?_, h.paths, h.names, h.norms, h.bounds⟩, rfl⟩
      simp [keepOn]; omega
  | setByName n v =>
    show Wf (keepOn p (p.setByName n v)) ∧ (keepOn p (p.setByName n v)).dim = p.dim
    cases hn : nameIndex p.names n with
    | error e =>
      have : p.setByName n v = .error e := by unfold Param.setByName; rw [hn]; rfl
      rw [this]; exact ⟨h, rfl⟩
    | ok i =>
      by_cases hi : i < p.values.length
      · have : p.setByName n v = .ok { p with values := p.values.set i v } := by
          unfold Param.setByName setAt; rw [hn]; simp only [bind, Except.bind, if_pos hi]; rfl
        rw [this]
        refine ⟨⟨?_, h.paths, h.names, h.norms, h.bounds⟩, rfl⟩
        simpa [keepOn] using h.values
      · have : p.setByName n v = .error .indexError := by
          unfold Param.setByName setAt; rw [hn]; simp only [bind, Except.bind, if_neg hi]
        rw [this]; exact ⟨h, rfl⟩
  | setByPath path v m =>
    unfold Param.step Param.setByPath
    simp only
    split
    · exact ⟨h, rfl⟩
    · exact ⟨⟨by rw [writeAll_length]; exact h.values, h.paths, h.names, h.norms, h.bounds⟩, rfl⟩
  | setFromUnnormalized kw => exact setUnnorm_wf kw p h

/-- **C16** partial: the invariant holds after any sequence of mutations in
which the `values` setter is only given lists of the right length.  Missing: the
setter does not check the length (`fields_equal_length_false`). -/
theorem fields_equal_length_partial (p : Param) (h : Wf p) (ops : List Op)
    (ho : ∀ op ∈ ops, op.keepsDim p.dim) :
    Wf (ops.foldl Param.step p) ∧ (ops.foldl Param.step p).dim = p.dim := by
  induction ops generalizing p with
  | nil => exact ⟨h, rfl⟩
  | cons op ops ih =>
    obtain ⟨h1, h2⟩ := step_wf h op (ho op List.mem_cons_self)
    obtain ⟨h3, h4⟩ := ih (p.step op) h1 (fun o ho' => by
      rw [h2]; exact ho o (List.mem_cons_of_mem _ ho'))
    exact ⟨h3, h4.trans h2⟩

/-- **C16** is false of the code: `p.values = [1, 2, 3]` on a two-entry
parameter. -/
theorem fields_equal_length_false :
    ¬ (∀ (p : Param) (ops : List Op), Wf p → Wf (ops.foldl Param.step p)) := by
  intro H
  have := (H exParam [.setValues [1, 2, 3]] exParam_wf).names
  simp [Param.step, Param.setValues, exParam] at this

/-! ## C17 -/

theorem pathIndices_mem (p : Param) (path : List String) (m : Bool) (i : Nat) :
    i ∈ p.pathIndices path m ↔ ∃ q, p.paths[i]? = some q ∧
      (if m then path <+: q else q = path) := by
  unfold Param.pathIndices
  rw [List.mem_filter, List.mem_range]
  constructor
  · rintro ⟨h1, h2⟩
    refine ⟨p.paths[i], List.getElem?_eq_getElem h1, ?_⟩
    rw [List.getD_eq_getElem?_getD, List.getElem?_eq_getElem h1, Option.getD_some] at h2
    cases m with
    | true =>
      simp only [if_true, beq_iff_eq] at h2 ⊢
      rw [← h2]; exact List.take_prefix _ _
    | false => simpa using h2
  · rintro ⟨q, h1, h2⟩
    obtain ⟨hl, he⟩ := List.getElem?_eq_some_iff.mp h1
    refine ⟨hl, ?_⟩
    rw [List.getD_eq_getElem?_getD, h1, Option.getD_some]
    cases m with
    | true =>
      simp only [if_true, beq_iff_eq] at h2 ⊢
      exact (List.prefix_iff_eq_take.mp h2).symm
    | false => simpa using h2

/-- **C17** `set_by_path`: with the wrong number of values it raises and leaves
the object as it was; with the right number it succeeds, `get_by_path` returns
the values written, entries at other paths and all other fields are unchanged. -/
theorem setByPath_spec {p : Param} (h : Wf p) (path : List String) (v : List ℝ) (m : Bool) :
    (v.length ≠ (p.pathIndices path m).length →
      p.setByPath path v m = (.error .valueError, p)) ∧
    (v.length = (p.pathIndices path m).length → ∃ q,
      p.setByPath path v m = (.ok (), q) ∧ q.getByPath path m = .ok v ∧
      (∀ (i : Nat) r, p.paths[i]? = some r → ¬ (if m then path <+: r else r = path) →
        q.values[i]? = p.values[i]?) ∧
      q = { p with values := q.values }) := by
  constructor
  · intro hl
    unfold Param.setByPath
    simp only
    rw [if_pos (fun h => hl h.symm)]
  · intro hl
    have hidx : ∀ i ∈ p.pathIndices path m, i < p.values.length := by
      intro i hi
      obtain ⟨q, h1, _⟩ := (pathIndices_mem p path m i).mp hi
      rw [h.values, ← h.paths]
      exact (List.getElem?_eq_some_iff.mp h1).1
    have hnd : (p.pathIndices path m).Nodup := List.nodup_range.filter _
    have hz : ((p.pathIndices path m).zip v).map Prod.fst = p.pathIndices path m :=
      List.map_fst_zip (by omega)
    obtain ⟨w1, w2, w3, w4⟩ := writeAll_spec ((p.pathIndices path m).zip v) p.values
      (fun x hx => hidx x.1 (List.of_mem_zip hx).1) (by rw [hz]; exact hnd)
    refine ⟨{ p with values := (writeAll p.values ((p.pathIndices path m).zip v)).2 }, ?_, ?_, ?_, rfl⟩
    · unfold Param.setByPath
      simp only
      rw [if_neg (by simpa using hl.symm), w1]
    · unfold Param.getByPath
      have hpi : Param.pathIndices { p with values := (writeAll p.values ((p.pathIndices path m).zip v)).2 } path m
          = p.pathIndices path m := rfl
      rw [hpi]
      generalize p.pathIndices path m = idx at *
      generalize (writeAll p.values (idx.zip v)).2 = w at *
      clear w1 w4 hz hpi hnd
      have : ∀ (idx : List Nat) (v : List ℝ), v.length = idx.length →
          (∀ x ∈ idx.zip v, w[x.1]? = some x.2) →
          idx.mapM (fun (i : Nat) => pyGet w (i : Int)) = .ok v := by
        intro idx
        induction idx with
        | nil => intro v hv _; simp at hv; subst hv; rfl
        | cons i idx ih =>
          intro v hv hx
          cases v with
          | nil => simp at hv
          | cons a v =>
            have h1 := hx (i, a) (by simp)
            simp only at h1
            obtain ⟨hl, he⟩ := List.getElem?_eq_some_iff.mp h1
            rw [List.mapM_cons, pyGet_nat w i hl, he, ih v (by simpa using hv)
              (fun x hx' => hx x (by simp [hx']))]
            rfl
      exact this idx v hl w3
    · intro i r hr hne
      apply w4
      rw [hz]
      intro hi
      obtain ⟨q, h1, h2⟩ := (pathIndices_mem p path m i).mp hi
      rw [hr] at h1; cases h1
      exact hne h2

example : (exParam.pathIndices ["cov"] true).length = 2 := by decide

/-! ## C18 -/

/-- Which entry an integer index means: negative ones count from the end. -/
def entryOf (n : ℕ) (i : Int) (k : ℕ) : Prop := (i = k ∨ i = (k : Int) - n) ∧ k < n

theorem pyGet_entry {α : Type} (l : List α) {i : Int} {k : ℕ} (h : entryOf l.length i k) :
    pyGet l i = .ok (l[k]'h.2) := by
  obtain ⟨rfl | h1, hk⟩ := h
  · exact pyGet_nat l k hk
  · have hneg : ¬ 0 ≤ i := by omega
    have hge : -(l.length : Int) ≤ i := by omega
    have hk' : ((l.length : Int) + i).toNat = k := by omega
    simp [pyGet, hneg, hge, hk', hk]

theorem pyGet_outside {α : Type} (l : List α) {i : Int} (h : ∀ k, ¬ entryOf l.length i k) :
    pyGet l i = .error .indexError := by
  unfold pyGet
  split
  · next h0 =>
    have := h i.toNat
    have h2 : l.length ≤ i.toNat := by
      by_contra hc
      exact this ⟨Or.inl (by omega), by omega⟩
    simp [h2]
  · split
    · next h0 h1 =>
      exact absurd ⟨Or.inr (by omega), by omega⟩ (h ((l.length : Int) + i).toNat)
    · rfl

/-- **C18** `p[i]` is the parameter with the single entry `i` (negative indices count from the end),
with its value, path, name, normalization and bounds; other integers raise `IndexError`. -/
theorem getInt_spec {p : Param} (h : Wf p) (i : Int) :
    (∀ k, entryOf p.dim i k → ∃ q, p.getInt i = .ok q ∧ q.dim = 1 ∧
      q.values = p.values[k]?.toList ∧ q.paths = p.paths[k]?.toList ∧ q.names = p.names[k]?.toList ∧
      q.norms = p.norms[k]?.toList ∧ q.bounds = p.bounds[k]?.toList) ∧
    ((∀ k, ¬ entryOf p.dim i k) → p.getInt i = .error .indexError) := by
  constructor
  · intro k hk
    have e : ∀ {α : Type} (l : List α) (hl : l.length = p.dim), [i].mapM (pyGet l) = .ok [l[k]'(by rw [hl]; exact hk.2)] := by
      intro α l hl
      rw [List.mapM_cons, pyGet_entry l (k := k) (by rw [hl]; exact hk)]
      rfl
    unfold Param.getInt Param.pick
    rw [e _ h.values, e _ h.paths, e _ h.norms, e _ h.names, e _ h.bounds]
    simp only [bind, Except.bind]
    rw [mkParam_explicit _ _ _ _ _ _ rfl rfl rfl rfl]
    have hv : k < p.values.length := by rw [h.values]; exact hk.2
    have h2 : k < p.paths.length := by rw [h.paths]; exact hk.2
    have h3 : k < p.names.length := by rw [h.names]; exact hk.2
    have h4 : k < p.norms.length := by rw [h.norms]; exact hk.2
    have h5 : k < p.bounds.length := by rw [h.bounds]; exact hk.2
    exact ⟨_, rfl, rfl, by simp [hv], by simp [h2], by simp [h3], by simp [h4], by simp [h5]⟩
  · intro hk
    unfold Param.getInt Param.pick
    rw [List.mapM_cons, pyGet_outside p.values (by rw [h.values]; exact hk)]
    rfl

/-- **C18** `p[a:b]` cuts all fields alike: it is the first part, up to `b`, of which the entries
before `a` are dropped (both clipped by the slice rules of Python). -/
theorem getSlice_spec {p : Param} (h : Wf p) (a b : Int) :
    ∃ q, p.getSlice a b = .ok q ∧ Wf q ∧ q.values = pySlice p.values a b ∧
      q.paths = pySlice p.paths a b ∧ q.names = pySlice p.names a b ∧
      q.norms = pySlice p.norms a b ∧ q.bounds = pySlice p.bounds a b := by
  have e := pick_sub h (fun l => (l.take (pyClamp p.dim b)).drop (pyClamp p.dim a))
    (fun g l r hr => mapM_drop g _ _ _ (mapM_take g l r _ hr)) (fun l r hr => by simp [hr])
  have e2 : p.getSlice a b = p.pick (List.drop (pyClamp p.dim a)
      (List.take (pyClamp p.dim b) ((List.range p.dim).map Int.ofNat))) := by
    unfold Param.getSlice pySlice
    rw [List.length_map, List.length_range]
  refine ⟨_, e2.trans e, ?_, ?_, ?_, ?_, ?_, ?_⟩
  · constructor <;> simp [h.values, h.paths, h.names, h.norms, h.bounds]
  · simp [pySlice, h.values]
  · simp [pySlice, h.paths]
  · simp [pySlice, h.names]
  · simp [pySlice, h.norms]
  · simp [pySlice, h.bounds]

example : ∃ q, exParam.getInt (-1) = .ok q ∧ q.dim = 1 ∧ q.values = exParam.values[1]?.toList := by
  obtain ⟨q, h1, h2, h3, -⟩ := (getInt_spec exParam_wf (-1)).1 1 ⟨Or.inr rfl, by decide⟩
  exact ⟨q, h1, h2, h3⟩

example : exParam.getInt 2 = .error .indexError :=
  (getInt_spec exParam_wf 2).2 fun k hk => by
    have h2 : exParam.dim = 2 := rfl
    obtain ⟨h, hk⟩ := hk
    omega

example : ∃ q, exParam.getSlice 1 5 = .ok q ∧ q.values = pySlice exParam.values 1 5 := by
  obtain ⟨q, h1, -, h3, -⟩ := getSlice_spec exParam_wf 1 5
  exact ⟨q, h1, h3⟩

/-- **C18** Cutting a parameter anywhere (any integer, Python slice rules) and
concatenating the two parts gives the parameter back. -/
theorem concat_slices {p : Param} (h : Wf p) (k : Int) :
    ∃ a b, p.getTo k = .ok a ∧ p.getFrom k = .ok b ∧ concat [a, b] = .ok p := by
  refine ⟨_, _, getTo_eq h k, getFrom_eq h k, ?_⟩
  unfold concat
  simp only [List.isEmpty_cons, Bool.false_eq_true, if_false, List.map_cons, List.map_nil,
    List.flatten_cons, List.flatten_nil, List.append_nil, List.take_append_drop]
  rw [mkParam_explicit]
  · rw [h.values]
  · rw [h.paths, h.values]
  · rw [h.norms, h.values]
  · rw [h.names, h.values]
  · rw [h.bounds, h.values]

/-- **C18** Concatenating and cutting at the boundary gives the parts back. -/
theorem slices_concat {a b : Param} (ha : Wf a) (hb : Wf b) :
    ∃ p, concat [a, b] = .ok p ∧ Wf p ∧ p.getTo a.dim = .ok a ∧ p.getFrom a.dim = .ok b := by
  have hc : concat [a, b] = .ok ⟨a.values ++ b.values, (a.values ++ b.values).length,
      a.paths ++ b.paths, a.names ++ b.names, a.norms ++ b.norms, a.bounds ++ b.bounds⟩ := by
    unfold concat
    simp only [List.isEmpty_cons, Bool.false_eq_true, if_false, List.map_cons, List.map_nil,
      List.flatten_cons, List.flatten_nil, List.append_nil]
    apply mkParam_explicit <;>
      simp [ha.values, ha.paths, ha.names, ha.norms, ha.bounds, hb.values, hb.paths, hb.names,
        hb.norms, hb.bounds]
  have hw : Wf ⟨a.values ++ b.values, (a.values ++ b.values).length,
      a.paths ++ b.paths, a.names ++ b.names, a.norms ++ b.norms, a.bounds ++ b.bounds⟩ := by
    constructor <;>
      simp [ha.values, ha.paths, ha.names, ha.norms, ha.bounds, hb.values, hb.paths, hb.names,
        hb.norms, hb.bounds]
  refine ⟨_, hc, hw, ?_, ?_⟩
  · rw [getTo_eq hw]
    have : pyClamp (a.values ++ b.values).length (a.dim : Int) = a.dim := by
      simp [pyClamp, ha.values]
    simp only [this]
    rw [List.take_left' ha.values, List.take_left' ha.paths, List.take_left' ha.names,
      List.take_left' ha.norms, List.take_left' ha.bounds, ha.values]
  · rw [getFrom_eq hw]
    have : pyClamp (a.values ++ b.values).length (a.dim : Int) = a.dim := by
      simp [pyClamp, ha.values]
    simp only [this]
    rw [List.drop_left' ha.values, List.drop_left' ha.paths, List.drop_left' ha.names,
      List.drop_left' ha.norms, List.drop_left' ha.bounds, hb.values]

/-- **C18** Name lookup: `get_by_name` returns the value of the first entry with
that name and `ValueError` if there is none; `set_by_name` writes that entry
only. -/
theorem byName_spec {p : Param} (h : Wf p) (name : String) (v : ℝ) :
    (name ∉ p.names → p.getByName name = .error .valueError ∧ p.setByName name v = .error .valueError) ∧
    (name ∈ p.names → ∃ i, i < p.dim ∧ p.names[i]? = some name ∧ (∀ j, j < i → p.names[j]? ≠ some name) ∧
      (∃ w, p.values[i]? = some w ∧ p.getByName name = .ok w) ∧
      ∃ q, p.setByName name v = .ok q ∧ q.values[i]? = some v ∧ q.getByName name = .ok v ∧
        ∀ j, j ≠ i → q.values[j]? = p.values[j]?) := by
  constructor
  · intro hn
    unfold Param.getByName Param.setByName
    rw [nameIndex_error hn]; exact ⟨rfl, rfl⟩
  · intro hn
    obtain ⟨i, i1, i2, i3, i4⟩ := nameIndex_spec hn
    have hiv : i < p.values.length := by rw [h.values, ← h.names]; exact i2
    refine ⟨i, by rw [← h.names]; exact i2, i3, i4, ⟨p.values[i], List.getElem?_eq_getElem hiv, ?_⟩,
      { p with values := p.values.set i v }, ?_, ?_, ?_, ?_⟩
    · unfold Param.getByName; rw [i1]; exact pyGet_nat _ _ hiv
    · unfold Param.setByName setAt; rw [i1]; simp only [bind, Except.bind, if_pos hiv]; rfl
    · exact List.getElem?_set_self hiv
    · unfold Param.getByName; simp only; rw [i1]
      simp only [bind, Except.bind]
      rw [pyGet_nat _ _ (by simpa using hiv)]; simp
    · intro j hj; exact List.getElem?_set_ne (fun h => hj h.symm)

/-! ## C19 -/

/-- **C19** `check_bounds`: one flag per entry, true exactly when the entry has
no bounds or its denormalized value lies within them, ends included. -/
theorem checkBounds_spec {p : Param} (h : Wf p) :
    p.checkBounds.length = p.dim ∧
    ∀ (i : Nat) v n b, p.values[i]? = some v → p.norms[i]? = some n → p.bounds[i]? = some b →
      ∃ flag, p.checkBounds[i]? = some flag ∧
        (flag = true ↔ ∀ lo hi, b = some (lo, hi) → lo ≤ denormalize v n ∧ denormalize v n ≤ hi) := by
  have hdl : p.denormalized.length = p.dim := by
    unfold Param.denormalized; simp [h.values, h.norms]
  constructor
  · unfold Param.checkBounds; simp [hdl, h.bounds]
  · intro i v n b hv hn hb
    have hd := denormalized_get h i v n hv hn
    unfold Param.checkBounds
    rw [List.getElem?_map, (List.getElem?_zip_eq_some (z := (denormalize v n, b))).mpr ⟨hd, hb⟩]
    refine ⟨_, rfl, ?_⟩
    cases b with
    | none => simp
    | some b => obtain ⟨lo, hi⟩ := b; simp

example : exParam.values[1]? = some 1 ∧ exParam.norms[1]? = some .logInv ∧
    exParam.bounds[1]? = some (some (1/10, 2)) := ⟨rfl, rfl, rfl⟩

/-! ## C72: bounds of the covariance parameters -/

/-- **C72** is false of the code: `make_anisotropic_param(values,
logsigma2_bounds=(a, b))` documents bounds on `log σ²`, but `check_bounds`
compares them with `σ²`; a value within its log bounds is reported outside. -/
theorem anisotropic_logbounds_false :
    ¬ (∀ (values : List ℝ) (lo hi : ℝ) (p : Param),
        makeAnisotropic values (some (lo, hi)) Option.none "" = .ok p →
        ∀ v, values[0]? = some v → (p.checkBounds[0]? = some true ↔ lo ≤ v ∧ v ≤ hi)) := by
  intro H
  have hmk : makeAnisotropic [0, 0] (some (-1, 1 / 2)) Option.none "" =
      .ok ⟨[0, 0], 2, [["covparam", "variance"], ["covparam", "lengthscale"]],
        ["" ++ "sigma2", "" ++ "rho_" ++ toString 0], [.log, .logInv], [some (-1, 1 / 2), Option.none]⟩ := by
    exact mkParam_explicit [0, 0] _ [.log, .logInv] _ _ _ rfl rfl rfl rfl
  have := (H [0, 0] (-1) (1 / 2) _ hmk 0 rfl).mpr ⟨by norm_num, by norm_num⟩
  simp [Param.checkBounds, Param.denormalized, denormalize] at this
  norm_num at this

/-- **C72** what holds: construction succeeds for any nonempty vector, names the
first entry `sigma2` (log scale) and the others `rho_i` (inverse log scale), and
`check_bounds` compares `σ²` itself with the given bounds. -/
theorem anisotropic_partial (v0 : ℝ) (vs : List ℝ) (lo hi : ℝ) (rb : Option (ℝ × ℝ)) (pre : String) :
    ∃ p, makeAnisotropic (v0 :: vs) (some (lo, hi)) rb pre = .ok p ∧ Wf p ∧
      p.values = v0 :: vs ∧ p.denormalized = Real.exp v0 :: vs.map (fun v => Real.exp (-v)) ∧
      p.names[0]? = some (pre ++ "sigma2") ∧
      (∀ i, i < vs.length → p.names[i + 1]? = some (pre ++ "rho_" ++ toString i)) ∧
      (p.checkBounds[0]? = some true ↔ lo ≤ Real.exp v0 ∧ Real.exp v0 ≤ hi) := by
  have hmk : makeAnisotropic (v0 :: vs) (some (lo, hi)) rb pre = .ok ⟨v0 :: vs, (v0 :: vs).length,
      ["covparam", "variance"] :: List.replicate vs.length ["covparam", "lengthscale"],
      (pre ++ "sigma2") :: (List.range vs.length).map (fun i => pre ++ "rho_" ++ toString i),
      .log :: List.replicate vs.length .logInv,
      some (lo, hi) :: List.replicate vs.length rb⟩ := by
    have := mkParam_explicit (v0 :: vs)
      (["covparam", "variance"] :: List.replicate vs.length ["covparam", "lengthscale"])
      (.log :: List.replicate vs.length .logInv)
      ((pre ++ "sigma2") :: (List.range vs.length).map (fun i => pre ++ "rho_" ++ toString i))
      (some (lo, hi) :: List.replicate vs.length rb) "param_" (by simp) (by simp) (by simp) (by simp)
    rw [← this]
    unfold makeAnisotropic
    simp
  have hz : ∀ vs : List ℝ, ((vs.zip (List.replicate vs.length Norm.logInv)).map
      (fun x => denormalize x.1 x.2)) = vs.map (fun v => Real.exp (-v)) := by
    intro vs
    induction vs with
    | nil => rfl
    | cons a vs ih => simp [List.replicate_succ, denormalize] at *; exact ih
  refine ⟨_, hmk, ?_, rfl, ?_, rfl, ?_, ?_⟩
  · constructor <;> simp
  · simp only [Param.denormalized, List.zip_cons_cons, List.map_cons, hz]; rfl
  · intro i hi
    simp [hi]
  · simp [Param.checkBounds, Param.denormalized, denormalize]

/-- **C72** `make_anisotropic_param(d=d)`: unit variance and all ranges equal to `e`. -/
theorem anisotropic_default (d : ℕ) (lo hi : ℝ) (rb : Option (ℝ × ℝ)) (pre : String) :
    ∃ p, makeAnisotropicDefault d (some (lo, hi)) rb pre = .ok p ∧ Wf p ∧ p.dim = d + 1 ∧
      p.values = 0 :: List.replicate d (-1) ∧
      p.denormalized = 1 :: List.replicate d (Real.exp 1) := by
  obtain ⟨p, h1, h2, h3, h4, -⟩ := anisotropic_partial 0 (List.replicate d (-1)) lo hi rb pre
  refine ⟨p, h1, h2, ?_, h3, ?_⟩
  · rw [← h2.values, h3]; simp
  · rw [h4]; simp

example : ∃ p, makeAnisotropicDefault 2 (some (0, 5)) Option.none "" = .ok p ∧
    p.denormalized = [1, Real.exp 1, Real.exp 1] := by
  obtain ⟨p, h1, -, -, -, h5⟩ := anisotropic_default 2 0 5 Option.none ""
  exact ⟨p, h1, h5⟩

/-! ## C73: dictionary views -/

theorem dictLookup_nodup {β : Type} (kv : List (String × β)) (hnd : (kv.map Prod.fst).Nodup)
    (k : String) (v : β) (h : (k, v) ∈ kv) : dictLookup kv k = some v := by
  unfold dictLookup
  have hmem : (k, v) ∈ kv.reverse := List.mem_reverse.mpr h
  cases hf : kv.reverse.find? (fun x => x.1 == k) with
  | none =>
    have := List.find?_eq_none.mp hf (k, v) hmem
    simp at this
  | some y =>
    have h1 := List.mem_of_find?_eq_some hf
    have h2 := List.find?_some hf
    have h2' : y.1 = k := by simpa using h2
    obtain ⟨y1, y2⟩ := y
    simp only at h2'
    subst h2'
    have := List.inj_on_of_nodup_map hnd (List.mem_reverse.mp h1) h rfl
    cases this; rfl

/-- **C73** partial: with distinct names, `to_simple_dict` maps each name to the
denormalized value of the entry `get_by_name` reads.  Missing: parameters with
repeated names. -/
theorem simpleDict_partial {p : Param} (h : Wf p) (hnd : p.names.Nodup) (name : String)
    (hn : name ∈ p.names) : ∃ (i : Nat) (v : ℝ) (n : Norm), p.names[i]? = some name ∧ p.getByName name = .ok v ∧
      p.norms[i]? = some n ∧ p.simpleDict name = some (denormalize v n) := by
  obtain ⟨i, i1, i2, i3, _⟩ := nameIndex_spec hn
  have hiv : i < p.values.length := by rw [h.values, ← h.names]; exact i2
  have hin : i < p.norms.length := by rw [h.norms, ← h.names]; exact i2
  have hdl : p.denormalized.length = p.names.length := by
    unfold Param.denormalized; simp [h.values, h.norms, h.names]
  refine ⟨i, p.values[i], p.norms[i], i3, ?_, List.getElem?_eq_getElem hin, ?_⟩
  · unfold Param.getByName; rw [i1]; exact pyGet_nat _ _ hiv
  · apply dictLookup_nodup
    · rw [List.map_fst_zip (by omega)]; exact hnd
    · apply List.mem_of_getElem? (i := i)
      exact List.getElem?_zip_eq_some.mpr ⟨i3, denormalized_get h i _ _
        (List.getElem?_eq_getElem hiv) (List.getElem?_eq_getElem hin)⟩

/-- **C73** is false of the code: concatenating two default-named parameters
gives the name `param_0` twice; `get_by_name` reads the first, the dictionary
holds the last. -/
theorem simpleDict_false :
    ¬ (∀ (a b p : Param), Wf a → Wf b → concat [a, b] = .ok p →
        ∀ name v, p.getByName name = .ok v → (∀ n ∈ p.norms, n = .none) → p.simpleDict name = some v) := by
  intro H
  let a : Param := ⟨[1], 1, [["param"]], ["param_0"], [.none], [Option.none]⟩
  let b : Param := ⟨[2], 1, [["param"]], ["param_0"], [.none], [Option.none]⟩
  have hc : concat [a, b] = .ok ⟨[1, 2], 2, [["param"], ["param"]], ["param_0", "param_0"],
      [.none, .none], [Option.none, Option.none]⟩ :=
    mkParam_explicit [1, 2] _ [.none, .none] _ _ _ rfl rfl rfl rfl
  have hg : Param.getByName ⟨[1, 2], 2, [["param"], ["param"]], ["param_0", "param_0"],
      [.none, .none], [Option.none, Option.none]⟩ "param_0" = .ok 1 := by
    have : nameIndex ["param_0", "param_0"] "param_0" = .ok 0 := by decide
    unfold Param.getByName
    simp only [this]; rfl
  have := H a b _ ⟨rfl, rfl, rfl, rfl, rfl⟩ ⟨rfl, rfl, rfl, rfl, rfl⟩ hc "param_0" 1 hg (by simp)
  simp [Param.simpleDict, dictLookup, Param.denormalized, denormalize] at this

/-- The default names of two constructor calls do collide. -/
example : ∃ p, mkParam (some [1]) Option.none Option.none Option.none Option.none "param_" Option.none =
    .ok p ∧ p.names = ["param_0"] := by
  refine ⟨⟨[1], 1, [["param"]], ["param_0"], [.none], [Option.none]⟩, ?_, rfl⟩
  simp [mkParam, parseNormalizations, bind, Except.bind, Param.consistent]
  decide

/-- The string that names a normalization. -/
def normName : Norm → String
  | .log => "log"
  | .logInv => "log_inv"
  | .none => "none"

/-- **C16** Normalizations are read from their names in any case; other strings raise `ValueError`, objects
that are neither strings nor normalizations `TypeError`. -/
theorem parseNorm_spec (a : NormArg) :
    (∀ n, parseNorm a = .ok n ↔ a = .enum n ∨ ∃ s, a = .str s ∧ s.toLower = normName n) ∧
    (∀ e, parseNorm a = .error e ↔ (a = .other ∧ e = .typeError) ∨
      (e = .valueError ∧ ∃ s, a = .str s ∧ ∀ n, s.toLower ≠ normName n)) := by
  cases a with
  | enum m => simp [parseNorm, eq_comm]
  | other => simp [parseNorm, eq_comm]
  | str s =>
    have all : ∀ P : Norm → Prop, (∀ n, P n) ↔ P .log ∧ P .logInv ∧ P .none := fun P =>
      ⟨fun h => ⟨h _, h _, h _⟩, fun h n => by cases n <;> [exact h.1; exact h.2.1; exact h.2.2]⟩
    simp only [parseNorm]
    by_cases h1 : s.toLower = "log"
    · rw [h1]; simp [all, normName, h1]
    · by_cases h2 : s.toLower = "log_inv"
      · rw [h2]; simp [all, normName, h2]
      · by_cases h3 : s.toLower = "none"
        · rw [h3]; simp [all, normName, h3]
        · simp [all, normName, h1, h2, h3, Ne.symm h1, Ne.symm h2, Ne.symm h3, eq_comm]

/-- Concrete case of `parseNorm_spec`: the case of the letters does not matter. -/
example : ("Log_Inv" : String).toLower = normName .logInv := by decide +kernel

end Verif.Param
