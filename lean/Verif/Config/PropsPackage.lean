import Verif.Config.Package
import Verif.Config.Props

/-!
# C200-C203: importing the package, the element type, versions, attributes found on first access
-/

set_option autoImplicit false

namespace Verif.Config

open Verif

/-! ## C200: the backend in use -/

/-- What holds in every process: once the package is imported, so is `gpmp.num`, with one of the two
backends; the element type is resolved at that moment and only ever forgotten. -/
structure PInv (torch : Bool) (p : Proc) : Prop where
  num : p.pkg = true → p.num ≠ Option.none
  loaded : p.num ≠ Option.none → p.loaded = true
  backend : ∀ b, p.num = some b → IsBackend b ∧ (b = sTorch → torch = true)
  resolved : p.resolved = Option.none ∨ p.resolved = some sFloat64
  cfg : p.loaded = true → Inv p.st

theorem pinv_start (torch : Bool) (eb ed : Option Str) : PInv torch (Proc.start eb ed) :=
  ⟨(fun h => by cases h), (fun h => (h rfl).elim), (fun b h => by cases h), Or.inl rfl, (fun h => by cases h)⟩

theorem importConfig_inv {torch : Bool} {p : Proc} (h : PInv torch p) :
    PInv torch (importConfig p).2 ∧ (importConfig p).2.num = p.num ∧ (importConfig p).2.pkg = p.pkg ∧
      ((importConfig p).1 = .ok () → (importConfig p).2.loaded = true) := by
  unfold importConfig
  by_cases hl : p.loaded = true
  · rw [if_pos hl]
    exact ⟨h, rfl, rfl, fun _ => hl⟩
  · rw [if_neg hl]
    cases hi : init p.st.envBackend p.st.envDtype with
    | error e => exact ⟨h, rfl, rfl, (fun h => by cases h)⟩
    | ok st =>
      exact ⟨⟨h.num, fun _ => rfl, h.backend, Or.inl rfl, fun _ => init_inv hi⟩, rfl, rfl, fun _ => rfl⟩

theorem importNum_inv {torch : Bool} {p : Proc} (h : PInv torch p) (hl : p.loaded = true) :
    PInv torch (importNum torch p).2 ∧ (importNum torch p).2.pkg = p.pkg ∧
      (∀ b, p.num = some b → (importNum torch p).2.num = some b) ∧
      ((importNum torch p).1 = .ok () → (importNum torch p).2.num ≠ Option.none) := by
  unfold importNum
  cases hn : p.num with
  | some b =>
    refine ⟨h, rfl, fun b' hb => ?_, fun _ => ?_⟩
    · rw [hn]; exact hb
    · simp only; rw [hn]; simp
  | none =>
    have hi := initBackend_inv (torch := torch) (h.cfg hl)
    simp only
    rcases hr : initBackend torch p.st with ⟨r, st⟩
    rw [hr] at hi
    cases r with
    | error e =>
      exact ⟨⟨(fun hp => (h.num hp hn).elim), (fun hc => (hc rfl).elim), (fun b hb => by cases hb),
        h.resolved, fun _ => hi⟩, rfl, (fun b hb => by cases hb), (fun h => by cases h)⟩
    | ok b =>
      simp only
      by_cases hc : b = sTorch ∧ torch = false
      · rw [if_pos hc]
        exact ⟨⟨(fun hp => (h.num hp hn).elim), (fun hc => (hc rfl).elim), (fun b hb => by cases hb),
          h.resolved, fun _ => hi⟩, rfl, (fun b hb => by cases hb), (fun h => by cases h)⟩
      · rw [if_neg hc]
        refine ⟨⟨(fun _ => by simp), (fun _ => hl), ?_, Or.inr rfl, fun _ => hi⟩, rfl, (fun b hb => by cases hb),
          (fun _ => by simp)⟩
        intro b' hb'
        cases hb'
        refine ⟨?_, ?_⟩
        · -- the value returned is a backend
          unfold initBackend at hr
          cases hs : p.st.backend with
          | some b'' => rw [hs] at hr; cases hr; exact (h.cfg hl).backend _ hs
          | none =>
            rw [hs] at hr
            simp only at hr
            cases hd : detect torch p.st.envBackend with
            | error e => rw [hd] at hr; cases hr
            | ok b'' => rw [hd] at hr; cases hr; exact detect_value hd
        · intro ht
          cases torch
          · exact (hc ⟨ht, rfl⟩).elim
          · rfl

theorem importGpmp_inv {torch : Bool} {p : Proc} (h : PInv torch p) :
    PInv torch (importGpmp torch p).2 ∧ (∀ b, p.num = some b → (importGpmp torch p).2.num = some b) := by
  unfold importGpmp
  by_cases hp : p.pkg = true
  · rw [if_pos hp]; exact ⟨h, fun b hb => hb⟩
  · rw [if_neg hp]
    obtain ⟨h1, h2, h3, h4⟩ := importConfig_inv h
    rcases hc : importConfig p with ⟨r, p1⟩
    rw [hc] at h1 h2 h3 h4
    cases r with
    | error e => exact ⟨h1, fun b hb => h2.trans hb⟩
    | ok u =>
      obtain ⟨g1, g2, g3, g4⟩ := importNum_inv h1 (h4 rfl)
      simp only
      rcases hn : importNum torch p1 with ⟨r', p2⟩
      rw [hn] at g1 g2 g3 g4
      cases r' with
      | error e => exact ⟨g1, fun b hb => g3 b (h2.trans hb)⟩
      | ok u' =>
        exact ⟨⟨fun _ => g4 rfl, g1.loaded, g1.backend, g1.resolved, g1.cfg⟩, fun b hb => g3 b (h2.trans hb)⟩

theorem pstep_inv {torch : Bool} {p : Proc} (h : PInv torch p) (op : POp) :
    PInv torch (pstep torch p op).2 ∧ (∀ b, p.num = some b → (pstep torch p op).2.num = some b) := by
  cases op with
  | setenvBackend v =>
    exact ⟨⟨h.num, h.loaded, h.backend, h.resolved, fun hl => ⟨(h.cfg hl).backend, (h.cfg hl).dtype⟩⟩,
      fun b hb => hb⟩
  | setenvDtype v =>
    exact ⟨⟨h.num, h.loaded, h.backend, h.resolved, fun hl => ⟨(h.cfg hl).backend, (h.cfg hl).dtype⟩⟩,
      fun b hb => hb⟩
  | importGpmp => exact importGpmp_inv h
  | config op =>
    simp only [pstep]
    by_cases hp : p.pkg = true
    · rw [if_pos hp]
      refine ⟨⟨h.num, h.loaded, h.backend, ?_, fun hl => step_inv (h.cfg hl) op⟩, fun b hb => hb⟩
      simp only
      split
      · exact Or.inl rfl
      · exact h.resolved
    · rw [if_neg hp]; exact ⟨h, fun b hb => hb⟩
  | setDevice d =>
    simp only [pstep]
    by_cases hp : p.pkg = true
    · rw [if_pos hp]
      exact ⟨⟨h.num, h.loaded, h.backend, h.resolved, h.cfg⟩, fun b hb => hb⟩
    · rw [if_neg hp]; exact ⟨h, fun b hb => hb⟩

theorem prun_inv {torch : Bool} {p : Proc} (h : PInv torch p) (ops : List POp) :
    PInv torch (prun torch p ops) ∧ (∀ b, p.num = some b → (prun torch p ops).num = some b) := by
  induction ops generalizing p with
  | nil => exact ⟨h, fun b hb => hb⟩
  | cons op ops ih =>
    obtain ⟨h1, h2⟩ := pstep_inv h op
    obtain ⟨g1, g2⟩ := ih h1
    exact ⟨g1, fun b hb => g2 b (h2 b hb)⟩

/-- **C200** In every process, whatever is done: `gpmp.num` uses numpy or torch, the latter only if it
is installed; once chosen the choice never changes; and wherever a function of `gpmp.config` can be
called at all, the choice has already been made. -/
theorem num_backend_fixed (torch : Bool) (eb ed : Option Str) (ops ops' : List POp) :
    let p := prun torch (Proc.start eb ed) ops
    (∀ b, numBackend p = some b →
      (b = sNumpy ∨ b = sTorch ∧ torch = true) ∧ numBackend (prun torch p ops') = some b) ∧
    (p.pkg = true → ∃ b, numBackend p = some b) := by
  intro p
  obtain ⟨h, -⟩ := prun_inv (pinv_start torch eb ed) ops
  refine ⟨fun b hb => ⟨?_, (prun_inv h ops').2 b hb⟩, fun hp => Option.ne_none_iff_exists'.mp (h.num hp)⟩
  rcases (h.backend b hb).1 with h1 | h1
  · exact Or.inl h1
  · exact Or.inr ⟨h1, (h.backend b hb).2 h1⟩

/-- **C200** `set_backend` says it forces a backend; it succeeds, and `get_backend` then answers with
it, but `gpmp.num` goes on with the other one: the package has imported it before anybody can call
`set_backend`. -/
theorem setBackend_effect_false :
    ∃ p : Proc, p = prun true (Proc.start Option.none Option.none) [.importGpmp] ∧
      let r := pstep true p (.config (.setBackend (.str sNumpy)))
      r.1 = .ok () ∧ (getBackend true r.2.st).1 = .ok sNumpy ∧ numBackend r.2 = some sTorch :=
  ⟨_, rfl, rfl, rfl, rfl⟩

/-- **C200** The same for every process and argument: no call of `set_backend` or `update` ever changes
what `gpmp.num` uses. -/
theorem setBackend_no_effect (torch : Bool) (eb ed : Option Str) (ops : List POp) (op : Op) :
    let p := prun torch (Proc.start eb ed) ops
    numBackend (pstep torch p (.config op)).2 = numBackend p := by
  intro p
  simp only [pstep, numBackend]
  split <;> rfl

/-- **C200** What works: the environment variable, set before the first import. -/
theorem import_env_partial (torch : Bool) (eb : Option Str) :
    let r := pstep torch (Proc.start eb Option.none) .importGpmp
    (∀ e, eb = some e → lower e = sNumpy → r.1 = .ok () ∧ numBackend r.2 = some sNumpy) ∧
    (∀ e, eb = some e → lower e = sTorch → torch = true → r.1 = .ok () ∧ numBackend r.2 = some sTorch) ∧
    (∀ e, eb = some e → lower e = sTorch → torch = false → r.1 = .error errImport) ∧
    (∀ e, eb = some e → lower e = sJax → r.1 = .error .runtimeError) ∧
    ((∀ e, eb = some e → lower e ≠ sNumpy ∧ lower e ≠ sTorch ∧ lower e ≠ sJax) → r.1 = .ok () ∧
      numBackend r.2 = some (if torch then sTorch else sNumpy)) := by
  have hd : normalizeDtype (.str sFloat64) = .ok sFloat64 := rfl
  have ne1 : sNumpy ≠ sJax := by decide
  have ne2 : sTorch ≠ sJax := by decide
  have ne3 : sNumpy ≠ sTorch := by decide
  have key : pstep torch (Proc.start eb Option.none) .importGpmp =
      match importNum torch ⟨⟨Option.none, sFloat64, eb, Option.none⟩, true, Option.none, false,
        Option.none, ['c','p','u']⟩ with
      | (.error e, p2) => (.error e, p2)
      | (.ok _, p2) => (.ok (), { p2 with pkg := true }) := by
    simp only [pstep, importGpmp, importConfig, Proc.start, init, Option.getD_none, hd]
    rfl
  intro r
  have hr : r = _ := key
  clear_value r
  subst hr
  simp only [importNum, initBackend, detect]
  refine ⟨?_, ?_, ?_, ?_, ?_⟩
  · rintro e rfl he
    simp [he, ne1, ne3, numBackend]
  · rintro e rfl he ht
    simp [he, ne2, ht, numBackend]
  · rintro e rfl he ht
    simp [he, ne2, ht]
  · rintro e rfl he
    simp [he]
  · intro h
    cases eb with
    | none => cases torch <;> simp [numBackend, ne3]
    | some e =>
      obtain ⟨h1, h2, h3⟩ := h e rfl
      cases torch <;> simp [h1, h2, h3, numBackend, ne3]

/-- **C200** An import that failed because torch is not installed cannot be repaired in the process: the
choice is remembered by `gpmp.config`, and the environment variable is not looked at again. -/
theorem import_retry_false :
    ∃ p : Proc, p = prun false (Proc.start (some sTorch) Option.none) [.importGpmp, .setenvBackend (some sNumpy)] ∧
      (pstep false (Proc.start (some sTorch) Option.none) .importGpmp).1 = .error errImport ∧
      (pstep false p .importGpmp).1 = .error errImport ∧
      (pstep false (Proc.start (some sNumpy) Option.none) .importGpmp).1 = .ok () :=
  ⟨_, rfl, rfl, rfl, rfl⟩

/-! ## C201: the element type -/

/-- The calls that set the element type. -/
def setsDtype : POp → Prop
  | .config (.setDtype _) => True
  | .config (.update _ (some _)) => True
  | _ => False

theorem pstep_resolved {torch : Bool} {p : Proc} (h : PInv torch p) (hp : p.pkg = true) (op : POp)
    (hop : ¬ setsDtype op) : (pstep torch p op).2.resolved = p.resolved ∧ (pstep torch p op).2.pkg = true := by
  cases op with
  | setenvBackend v => exact ⟨rfl, hp⟩
  | setenvDtype v => exact ⟨rfl, hp⟩
  | importGpmp => simp only [pstep, importGpmp, if_pos hp]; exact ⟨trivial, hp⟩
  | config op =>
    simp only [pstep, if_pos hp]
    refine ⟨?_, hp⟩
    cases op with
    | setDtype a => exact (hop trivial).elim
    | update b d =>
      cases d with
      | none => rfl
      | some d => exact (hop trivial).elim
    | setBackend a => rfl
    | getBackend => rfl
    | initBackend => rfl
  | setDevice d => simp only [pstep, if_pos hp]; exact ⟨trivial, hp⟩

/-- **C201** After `import gpmp`, `gpmp.num.get_dtype()` is the double-precision type, as long as the
element type is not set. -/
theorem getDtype_partial (torch : Bool) (eb ed : Option Str) (ops : List POp)
    (hi : (pstep torch (Proc.start eb ed) .importGpmp).1 = .ok ()) (hops : ∀ op ∈ ops, ¬ setsDtype op) :
    getDtype (prun torch (Proc.start eb ed) (.importGpmp :: ops)) = some sFloat64 := by
  have h0 := pstep_inv (pinv_start torch eb ed) .importGpmp
  have hpk : (pstep torch (Proc.start eb ed) .importGpmp).2.pkg = true ∧
      (pstep torch (Proc.start eb ed) .importGpmp).2.resolved = some sFloat64 := by
    simp only [pstep, importGpmp] at hi ⊢
    rw [if_neg (by simp [Proc.start])] at hi ⊢
    have hn : (importConfig (Proc.start eb ed)).2.num = Option.none :=
      (importConfig_inv (pinv_start torch eb ed)).2.1
    rcases hc : importConfig (Proc.start eb ed) with ⟨r, p1⟩
    rw [hc] at hn hi
    cases r with
    | error e => cases hi
    | ok u =>
      simp only [importNum] at hi ⊢
      simp only at hn
      rw [hn] at hi ⊢
      simp only at hi ⊢
      rcases hb : initBackend torch p1.st with ⟨r', st⟩
      simp only [hb] at hi
      cases r' with
      | error e => cases hi
      | ok b =>
        simp only at hi ⊢
        by_cases hx : b = sTorch ∧ torch = false
        · rw [if_pos hx] at hi; cases hi
        · rw [if_neg hx]; exact ⟨rfl, rfl⟩
  have gen : ∀ (ops : List POp) (p : Proc), PInv torch p → p.pkg = true → p.resolved = some sFloat64 →
      (∀ op ∈ ops, ¬ setsDtype op) → (prun torch p ops).resolved = some sFloat64 := by
    intro ops
    induction ops with
    | nil => intro p _ _ hr _; exact hr
    | cons op ops ih =>
      intro p hinv hp hr ho
      have h1 := pstep_resolved hinv hp op (ho op (by simp))
      exact ih _ (pstep_inv hinv op).1 h1.2 (h1.1.trans hr) fun o hm => ho o (by simp [hm])
  exact gen ops _ h0.1 hpk.1 hpk.2 hops

/-- **C201** Setting the element type to the one in use makes `get_dtype()` answer `None`: nothing
resolves it again, because `gpmp.num` is imported once. -/
theorem getDtype_false :
    ∃ p : Proc, p = prun false (Proc.start Option.none Option.none)
        [.importGpmp, .config (.setDtype (.str sFloat64))] ∧
      p.st.dtype = sFloat64 ∧ getDtype p = Option.none := by
  refine ⟨_, rfl, ?_⟩
  decide

/-- **C201** Every call that sets the element type and succeeds has this effect; those that fail leave
`get_dtype()` as it was. -/
theorem getDtype_set (torch : Bool) (p : Proc) (hp : p.pkg = true) (op : POp) (h : setsDtype op) :
    ((pstep torch p op).1 = .ok () → getDtype (pstep torch p op).2 = Option.none) ∧
    (∀ e, (pstep torch p op).1 = .error e → getDtype (pstep torch p op).2 = getDtype p) := by
  cases op with
  | setenvBackend v => exact h.elim
  | setenvDtype v => exact h.elim
  | importGpmp => exact h.elim
  | setDevice d => exact h.elim
  | config op =>
    simp only [pstep, if_pos hp, getDtype]
    cases op with
    | setDtype a =>
      simp only [step, resetsResolved]
      exact ⟨fun h => by simp [h], fun e h => by simp [h]⟩
    | update b d =>
      cases d with
      | none => exact h.elim
      | some d =>
        simp only [resetsResolved]
        exact ⟨fun h => by simp [h], fun e h => by simp [h]⟩
    | _ => exact h.elim

/-- **C201** It stays so whatever is done. -/
theorem getDtype_lost (torch : Bool) (p : Proc) (h : PInv torch p) (hp : p.pkg = true)
    (hr : getDtype p = Option.none) (ops : List POp) : getDtype (prun torch p ops) = Option.none := by
  induction ops generalizing p with
  | nil => exact hr
  | cons op ops ih =>
    refine ih _ (pstep_inv h op).1 ?_ ?_
    · cases op with
      | importGpmp => simp only [pstep, importGpmp, if_pos hp]; exact hp
      | config op => simp only [pstep, if_pos hp]; exact hp
      | setDevice d => simp only [pstep, if_pos hp]; exact hp
      | setenvBackend v => exact hp
      | setenvDtype v => exact hp
    · cases op with
      | importGpmp => simp only [pstep, importGpmp, if_pos hp]; exact hr
      | config op =>
        simp only [pstep, if_pos hp, getDtype]
        split
        · rfl
        · exact hr
      | setDevice d => simp only [pstep, if_pos hp]; exact hr
      | setenvBackend v => exact hr
      | setenvDtype v => exact hr

/-- Concrete case: the premises of `getDtype_partial` with an environment variable and later calls. -/
example : (pstep false (Proc.start (some sNumpy) Option.none) .importGpmp).1 = .ok () ∧
    ∀ op ∈ [POp.config .getBackend, .setDevice [], .config (.setBackend (.str sTorch))], ¬ setsDtype op := by
  refine ⟨rfl, fun op hop => ?_⟩
  simp only [List.mem_cons, List.not_mem_nil, or_false] at hop
  rcases hop with rfl | rfl | rfl <;> exact id

/-! ## C202: versions -/

/-- **C202** The version of the package and that of its configuration agree when the file `VERSION` is
missing or says something. -/
theorem version_partial (v : VersionSources) (h : ∀ t, v.file = some t → strip t ≠ []) :
    readVersion v = configVersion v := by
  unfold readVersion configVersion
  cases hf : v.file with
  | none => rfl
  | some t => exact if_neg (h t hf)

/-- **C202** With an empty file they differ. -/
theorem version_false : ∃ v : VersionSources, readVersion v ≠ configVersion v ∧ v.file = some ['\n'] :=
  ⟨⟨some ['\n'], Option.none⟩, by decide, rfl⟩

/-- **C202** The version of the package is never empty (when that of the distribution is not), and
neither version begins or ends with a space or an end of line read from the file. -/
theorem version_nonempty (v : VersionSources) (h : v.dist ≠ some []) : readVersion v ≠ [] := by
  unfold readVersion
  cases hf : v.file with
  | some t =>
    simp only
    split
    · decide
    · assumption
  | none =>
    cases hd : v.dist with
    | none => decide
    | some d => rintro rfl; exact h hd

/-- **C202** Without a version file and without an installed distribution both versions are `0.0.0`; so is that of the package
when the file is blank. -/
theorem version_default (v : VersionSources) :
    (v.file = Option.none → v.dist = Option.none → readVersion v = ['0', '.', '0', '.', '0'] ∧ configVersion v = ['0', '.', '0', '.', '0']) ∧
    (v.file = some [' ', '\n'] → readVersion v = ['0', '.', '0', '.', '0']) := by
  refine ⟨fun h1 h2 => ?_, fun h => ?_⟩
  · simp only [readVersion, configVersion, h1, h2]
    exact ⟨rfl, rfl⟩
  · simp only [readVersion, h]
    rfl

/-- **C202** A version read from the file begins and ends with no space, tab or end of line. -/
theorem version_stripped (v : VersionSources) {t : Str} (h : v.file = some t) {c : Char}
    (hc : c = ' ' ∨ c = '\n' ∨ c = '\t' ∨ c = '\r') :
    (readVersion v).head? ≠ some c ∧ (readVersion v).getLast? ≠ some c ∧
    (configVersion v).head? ≠ some c ∧ (configVersion v).getLast? ≠ some c := by
  have key : (strip t).head? ≠ some c ∧ (strip t).getLast? ≠ some c := by
    have hw : (c = ' ' || c = '\n' || c = '\t' || c = '\r') = true := by
      rcases hc with rfl | rfl | rfl | rfl <;> decide
    have hd : ∀ l : Str, (l.dropWhile fun (c : Char) => c = ' ' || c = '\n' || c = '\t' || c = '\r').head? ≠ some c := by
      intro l hl
      have := List.head?_dropWhile_not (fun (c : Char) => c = ' ' || c = '\n' || c = '\t' || c = '\r') l
      rw [hl] at this
      simp only at this
      rw [hw] at this
      cases this
    constructor
    · intro hh
      simp only [strip] at hh
      have hp := List.reverse_prefix.mpr (List.dropWhile_suffix (fun (c : Char) => c = ' ' || c = '\n' || c = '\t' || c = '\r')
        (l := (t.dropWhile fun (c : Char) => c = ' ' || c = '\n' || c = '\t' || c = '\r').reverse))
      rw [List.reverse_reverse] at hp
      obtain ⟨u, hu⟩ := hp
      refine hd t ?_
      rw [← hu, List.head?_append, hh]
      rfl
    · simp only [strip, List.getLast?_reverse]
      exact hd _
  have hz : sZero.head? ≠ some c ∧ sZero.getLast? ≠ some c := by
    rcases hc with rfl | rfl | rfl | rfl <;> decide
  simp only [readVersion, configVersion, h]
  refine ⟨?_, ?_, key.1, key.2⟩
  · split
    · exact hz.1
    · exact key.1
  · split
    · exact hz.2
    · exact key.2

/-- Concrete case: what a usual file gives. -/
example : readVersion ⟨some ['0', '.', '9', '\n'], Option.none⟩ = ['0', '.', '9'] ∧
    configVersion ⟨some ['0', '.', '9', '\n'], Option.none⟩ = ['0', '.', '9'] := by decide

/-! ## C203: attributes found on first access -/

variable {Obj : Type}

theorem lookup_cons (g : List (Str × Obj)) (n m : Str) (o : Obj) :
    lookup ((n, o) :: g) m = if n = m then some o else lookup g m := by
  unfold lookup
  by_cases h : n = m <;> simp [List.find?_cons, h]

theorem getAttr_keeps (fetch : Str → Py Obj) (p : Pkg Obj) (name m : Str) (o : Obj)
    (h : lookup p.globals m = some o) : lookup (getAttr fetch p name).2.globals m = some o := by
  unfold getAttr
  cases hl : lookup p.globals name with
  | some o' => exact h
  | none =>
    simp only
    split
    · cases hf : fetch name with
      | error e => exact h
      | ok o' =>
        simp only [lookup_cons]
        rw [if_neg, h]
        rintro rfl
        rw [hl] at h
        cases h
    · exact h

theorem accesses_keeps (fetch : Nat → Str → Py Obj) (k : Nat) (p : Pkg Obj) (ns : List Str) (m : Str)
    (o : Obj) (h : lookup p.globals m = some o) : lookup (accesses fetch k p ns).globals m = some o := by
  induction ns generalizing k p with
  | nil => exact h
  | cons n ns ih => exact ih _ _ (getAttr_keeps _ _ _ _ _ h)

/-- **C203** An attribute that was found once is the same object at every later access, whatever is
accessed in between and whatever the modules would give now. -/
theorem getAttr_stable (fetch : Nat → Str → Py Obj) (p : Pkg Obj) (name : Str) (o : Obj) (ns : List Str)
    (h : (getAttr (fetch 0) p name).1 = .ok o) :
    (getAttr (fetch (ns.length + 1)) (accesses fetch 0 p (name :: ns)) name).1 = .ok o := by
  have hl : lookup (getAttr (fetch 0) p name).2.globals name = some o := by
    unfold getAttr at h ⊢
    cases hl : lookup p.globals name with
    | some o' => rw [hl] at h; cases h; exact hl
    | none =>
      rw [hl] at h
      simp only at h ⊢
      by_cases hz : name ∈ p.lazy
      · rw [if_pos hz] at h ⊢
        cases hf : fetch 0 name with
        | error e => rw [hf] at h; cases h
        | ok o' => rw [hf] at h; cases h; simp [lookup_cons]
      · rw [if_neg hz] at h; cases h
  have h2 := accesses_keeps fetch 1 _ ns name o hl
  show (getAttr _ (accesses fetch 1 (getAttr (fetch 0) p name).2 ns) name).1 = .ok o
  unfold getAttr
  unfold getAttr at h2
  rw [h2]

/-- **C203** A name that is neither bound nor served raises AttributeError; then, and when the import
fails, the package is left as it was, so that the access can be tried again. -/
theorem getAttr_fails (fetch : Str → Py Obj) (p : Pkg Obj) (name : Str) :
    (lookup p.globals name = none → name ∉ p.lazy → getAttr fetch p name = (.error .attributeError, p)) ∧
    (∀ e, (getAttr fetch p name).1 = .error e → (getAttr fetch p name).2 = p) := by
  constructor
  · intro h1 h2
    unfold getAttr
    rw [h1]
    exact if_neg h2
  · intro e h
    unfold getAttr at h ⊢
    cases hl : lookup p.globals name with
    | some o => rfl
    | none =>
      rw [hl] at h
      simp only at h ⊢
      by_cases hz : name ∈ p.lazy
      · rw [if_pos hz] at h ⊢
        cases hf : fetch name with
        | error e => rfl
        | ok o' => rw [hf] at h; cases h
      · rw [if_neg hz]

theorem lookup_mem {g : List (Str × Obj)} {n : Str} {o : Obj} (h : lookup g n = some o) :
    n ∈ g.map Prod.fst := by
  unfold lookup at h
  rw [Option.map_eq_some_iff] at h
  obtain ⟨x, hx, rfl⟩ := h
  have h1 := List.find?_some hx
  have h2 := List.mem_of_find?_eq_some hx
  simp only [decide_eq_true_eq] at h1
  exact List.mem_map.mpr ⟨x, h2, h1⟩

/-- **C203** `dir` of the package and of `gpmp.mcmc` lists every attribute that can be reached, also before
its first access. -/
theorem dir_complete (fetch : Str → Py Obj) (p : Pkg Obj) (name : Str) (o : Obj)
    (h : (getAttr fetch p name).1 = .ok o) : dirAll p name := by
  unfold getAttr at h
  cases hl : lookup p.globals name with
  | some o' => exact Or.inl (lookup_mem hl)
  | none =>
    rw [hl] at h
    simp only at h
    by_cases hz : name ∈ p.lazy
    · exact Or.inr hz
    · rw [if_neg hz] at h; cases h

/-- **C203** `dir(gpmp.modeldiagnosis)` does not: attributes bound by imports (such as the submodules)
are left out. -/
theorem dir_complete_false :
    ∃ (p : Pkg Nat) (all : List Str) (name : Str),
      (∀ n ∈ all, (lookup p.globals n).isSome) ∧ (getAttr (fun _ => .ok 0) p name).1 = .ok 1 ∧
        ¬ dirDiag all p name := by
  refine ⟨⟨[(['p','e','r','f'], 0), (['r','e','p','o','r','t'], 1)], []⟩, [['p','e','r','f']],
    ['r','e','p','o','r','t'], ?_, ?_, ?_⟩
  · decide
  · rfl
  · simp [dirDiag]

/-- **C203** It lists the names of `__all__` and those imported on demand, and only them. -/
theorem dirDiag_lists (all : List Str) (p : Pkg Obj) (name : Str) :
    dirDiag all p name ↔ name ∈ all ++ p.lazy := by simp [dirDiag]

example : dirDiag [['p','e','r','f']] (⟨[], [['p','l','o','t']]⟩ : Pkg Nat) ['p','l','o','t'] :=
  (dirDiag_lists _ _ _).mpr (by simp)

/-- **C203** The names that `gpmp.mcmc` advertises are those it serves, each from one module. -/
theorem mcmc_exports : mcmcAll = mcmcExports.map Prod.fst ∧ mcmcAll.Nodup := by
  constructor
  · rfl
  · decide

/-- Concrete case of `getAttr_stable`: the object is kept though the module would now give another. -/
example : (getAttr (fun _ => .ok 5) (accesses (fun k _ => .ok k) 0 (⟨[], [['a'], ['b']]⟩ : Pkg Nat)
    [['a'], ['b']]) ['a']).1 = .ok 0 := rfl

end Verif.Config
