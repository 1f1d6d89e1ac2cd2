import Verif.Plot.Model
import Verif.PyLemmas
import Mathlib.Tactic.FieldSimp
import Mathlib.Tactic.Linarith
import Mathlib.Tactic.NormNum
import Mathlib.Tactic.Positivity
import Mathlib.Tactic.Ring

/-!
# Theorems: figures of PIT values and of selection criteria (C212–C214)
-/

set_option autoImplicit false

namespace Verif.Plot

open Verif Verif.Designs

/-! ## C212: the distribution of PIT values -/

theorem stepAt_sorted (l p : List ℝ) (hl : l.Pairwise (· ≤ ·)) (hp : p.length = l.length) (t : ℝ)
    (ht : ∃ x ∈ l, t ≤ x) : stepAt (List.zip l p) t = p[l.countP (· < t)]? := by
  induction l generalizing p with
  | nil => obtain ⟨x, hx, _⟩ := ht; cases hx
  | cons a l ih =>
    cases p with
    | nil => simp at hp
    | cons b p =>
      rw [List.zip_cons_cons, stepAt]
      by_cases h : t ≤ a
      · rw [if_pos h]
        have : (a :: l).countP (· < t) = 0 := by
          rw [List.countP_eq_zero]
          intro x hx
          have : a ≤ x := by
            rcases List.mem_cons.mp hx with rfl | hx
            · exact le_rfl
            · exact (List.pairwise_cons.mp hl).1 x hx
          simp only [decide_eq_true_eq, not_lt]
          linarith
        rw [this]; rfl
      · rw [if_neg h, List.countP_cons_of_pos (by simpa using not_le.mp h)]
        rw [ih p (List.pairwise_cons.mp hl).2 (by simpa using hp), List.getElem?_cons_succ]
        obtain ⟨x, hx, hxt⟩ := ht
        rcases List.mem_cons.mp hx with rfl | hx
        · exact absurd hxt h
        · exact ⟨x, hx, hxt⟩

/-- **C212** What the figure shows at `t`: with `k` of the `n` values below `t`, `k / (n - 1)`; zero when
`n = 1`. -/
theorem pit_drawn (pit : List ℝ) (t : ℝ) (h0 : 0 < t) (ht : ∃ x ∈ pit, t ≤ x) :
    stepAt (pitCurve pit) t =
      some (if pit.length = 1 then 0 else (pit.countP (· < t) : ℝ) / ((pit.length : ℝ) - 1)) := by
  have hperm : (sortR pit).Perm pit := List.perm_insertionSort _ _
  have hc : (sortR pit).countP (· < t) = pit.countP (· < t) := hperm.countP_eq _
  have hl : (sortR pit).length = pit.length := hperm.length_eq
  rw [pitCurve, List.zip_cons_cons, stepAt, if_neg (by linarith),
    stepAt_sorted (sortR pit) _ (List.pairwise_insertionSort _ _) (by simp [linspace, hl]) t
      (by obtain ⟨x, hx, h⟩ := ht; exact ⟨x, hperm.mem_iff.mpr hx, h⟩), hc]
  have hk : pit.countP (· < t) < pit.length := by
    rcases lt_or_eq_of_le (List.countP_le_length (p := (· < t)) (l := pit)) with h | h
    · exact h
    · obtain ⟨x, hx, hxt⟩ := ht
      have := List.countP_eq_length.mp h x hx
      simp only [decide_eq_true_eq] at this
      linarith
  simp only [linspace, List.getElem?_map, List.getElem?_range hk, Option.map_some]
  congr 1
  split <;> ring

/-- The fraction of the values that are at most `t`: the empirical distribution function. -/
noncomputable def ecdf (l : List ℝ) (t : ℝ) : ℝ := (l.countP (· ≤ t) : ℝ) / l.length

/-- **C212** The figure is at most `1/n` above the empirical distribution function, wherever no value
lies (`n ≥ 2`). -/
theorem pit_ecdf_partial (pit : List ℝ) (t : ℝ) (h0 : 0 < t) (ht : ∃ x ∈ pit, t ≤ x) (hm : t ∉ pit)
    (hn : 2 ≤ pit.length) :
    ∃ y, stepAt (pitCurve pit) t = some y ∧ ecdf pit t ≤ y ∧ y ≤ ecdf pit t + 1 / pit.length := by
  refine ⟨_, pit_drawn pit t h0 ht, ?_⟩
  have hc : pit.countP (· ≤ t) = pit.countP (· < t) := by
    refine List.countP_congr fun x hx => ?_
    simp only [decide_eq_true_eq]
    exact ⟨fun h => lt_of_le_of_ne h fun e => hm (e ▸ hx), le_of_lt⟩
  have hk : pit.countP (· < t) < pit.length := by
    rcases lt_or_eq_of_le (List.countP_le_length (p := (· < t)) (l := pit)) with h | h
    · exact h
    · obtain ⟨x, hx, hxt⟩ := ht
      have := List.countP_eq_length.mp h x hx
      simp only [decide_eq_true_eq] at this
      linarith
  rw [if_neg (by omega), ecdf, hc]
  have hkr : (pit.countP (· < t) : ℝ) + 1 ≤ pit.length := by exact_mod_cast hk
  have hnr : (2 : ℝ) ≤ pit.length := by exact_mod_cast hn
  have hk0 : (0 : ℝ) ≤ pit.countP (· < t) := Nat.cast_nonneg _
  constructor
  · exact div_le_div_of_nonneg_left hk0 (by linarith) (by linarith)
  · rw [← add_div, div_le_div_iff₀ (by linarith) (by linarith)]
    nlinarith

/-- **C212** is false: with two values the curve is 1 between them, with one value it stays at 0. -/
theorem pit_ecdf_false :
    (stepAt (pitCurve [1 / 4, 3 / 4]) (1 / 2) = some 1 ∧ ecdf [1 / 4, 3 / 4] (1 / 2) = 1 / 2) ∧
    ∀ x t : ℝ, 0 < t → t ≤ x → stepAt (pitCurve [x]) t = some 0 := by
  refine ⟨⟨?_, ?_⟩, fun x t h0 ht => ?_⟩
  · rw [pit_drawn _ _ (by norm_num) ⟨3 / 4, by simp, by norm_num⟩]
    norm_num [List.countP_cons]
  · norm_num [ecdf, List.countP_cons]
  · rw [pit_drawn _ _ h0 ⟨x, by simp, ht⟩]
    simp

/-- Three values. -/
example : stepAt (pitCurve [0.9, 0.1, 0.5]) 0.7 = some 1 := by
  rw [pit_drawn _ _ (by norm_num) ⟨0.9, by simp, by norm_num⟩]
  norm_num [List.countP_cons]

/-! ## C213: cross sections of criteria -/

theorem mapM_forall₂ {α β : Type} {f : α → Py β} {l : List α} {r : List β} (h : l.mapM f = .ok r) :
    List.Forall₂ (fun a b => f a = .ok b) l r := by
  induction l generalizing r with
  | nil => cases h; exact .nil
  | cons a l ih =>
    rw [List.mapM_cons] at h
    cases ha : f a with
    | error e => rw [ha] at h; cases h
    | ok b =>
      cases hl : l.mapM f with
      | error e => rw [ha, hl] at h; cases h
      | ok r' =>
        rw [ha, hl] at h
        cases h
        exact .cons ha (ih hl)

/-- Position `k` of a vector of length `n` is meant by the Python index `idx`. -/
def Means (n : ℕ) (idx : ℤ) (k : ℕ) : Prop := k < n ∧ (idx = k ∨ idx = (k : ℤ) - n)

theorem pyGet_ok {α : Type} {l : List α} {i : ℤ} {x : α} (h : pyGet l i = .ok x) :
    ∃ k, Means l.length i k ∧ l[k]? = some x := by
  unfold pyGet at h
  split at h
  · cases hx : l[i.toNat]? with
    | none => rw [hx] at h; cases h
    | some a =>
      rw [hx] at h; cases h
      obtain ⟨hk, _⟩ := List.getElem?_eq_some_iff.mp hx
      exact ⟨i.toNat, ⟨hk, Or.inl (by omega)⟩, hx⟩
  · split at h
    · cases hx : l[((l.length : ℤ) + i).toNat]? with
      | none => rw [hx] at h; cases h
      | some a =>
        rw [hx] at h; cases h
        obtain ⟨hk, _⟩ := List.getElem?_eq_some_iff.mp hx
        exact ⟨_, ⟨hk, Or.inr (by omega)⟩, hx⟩
    · cases h

theorem pyGet_means {α : Type} {l : List α} {i : ℤ} {k : ℕ} {x : α} (h : Means l.length i k)
    (hx : l[k]? = some x) : pyGet l i = .ok x := by
  obtain ⟨hk, rfl | rfl⟩ := h
  · simp [pyGet, hx]
  · rw [pyGet, if_neg (by omega), if_pos (by omega)]
    have : ((l.length : ℤ) + ((k : ℤ) - l.length)).toNat = k := by omega
    rw [this, hx]

theorem Means.unique {n : ℕ} {i : ℤ} {k k' : ℕ} (h : Means n i k) (h' : Means n i k') : k = k' := by
  obtain ⟨a, b⟩ := h; obtain ⟨c, d⟩ := h'
  omega

theorem pos_means {n : ℕ} {i : ℤ} {k : ℕ} (h : Means n i k) : pos n i = .ok k := by
  obtain ⟨hk, rfl | rfl⟩ := h
  · simp [pos, hk]
  · rw [pos, if_neg (by omega), if_pos (by omega)]
    congr 1; omega

/-- What a panel must show: the line at the reference value of the parameter `k`, and over every
abscissa the value of each criterion at the reference vector in which that entry, and no other, is the
abscissa. -/
def Shows (fs : List Crit) (opt : Vec) (k : ℕ) (p : Panel) : Prop :=
  opt.val[k]? = some p.ref ∧
  List.Forall₂ (fun x vals => List.Forall₂ (fun f v => f ⟨opt.isInt, opt.val.set k x⟩ = .ok v) fs vals)
    p.grid p.values

theorem panel_shows {fs : List Crit} {names : Option (List String)} {delta : ℝ} {n : ℕ} {opt : Vec}
    {box : Option Box} {i : ℕ} {idx : ℤ} {p : Panel} (hf : opt.isInt = false)
    (h : panel fs names delta n opt box i idx = .ok p) :
    (∃ k, Means opt.val.length idx k ∧ Shows fs opt k p) ∧ gridFor delta n i p.ref box = .ok p.grid ∧
      title names idx = .ok p.title := by
  unfold panel at h
  cases ho : pyGet opt.val idx with
  | error e => rw [ho] at h; cases h
  | ok o =>
    cases hg : gridFor delta n i o box with
    | error e => simp only [ho, hg, bind, Except.bind] at h; cases h
    | ok g =>
      cases hv : g.mapM (column fs opt idx) with
      | error e => simp only [ho, hg, hv, bind, Except.bind] at h; cases h
      | ok v =>
        cases ht : title names idx with
        | error e => simp only [ho, hg, hv, ht, bind, Except.bind] at h; cases h
        | ok t =>
          simp only [ho, hg, hv, ht, bind, Except.bind, pure, Except.pure] at h
          cases h
          obtain ⟨k, hk, hx⟩ := pyGet_ok ho
          refine ⟨⟨k, hk, hx, ?_⟩, hg, rfl⟩
          refine (mapM_forall₂ hv).imp fun x vals hc => ?_
          simp only [column, Vec.store, pos_means hk, hf, coerce, bind, Except.bind, pure, Except.pure] at hc
          have := mapM_forall₂ hc
          simpa [hf] using this

theorem panels_get {fs : List Crit} {names : Option (List String)} {delta : ℝ} {n : ℕ} {opt : Vec}
    {box : Option Box} {ind : List ℤ} {ps : List Panel} (h : panels fs names delta n opt box ind = .ok ps) :
    ps.length = ind.length ∧ ∀ i idx p, ind[i]? = some idx → ps[i]? = some p →
      panel fs names delta n opt box i idx = .ok p := by
  have hF := mapM_forall₂ h
  refine ⟨by simpa using hF.length_eq.symm, fun i idx p hi hp => ?_⟩
  have hz : ind.zipIdx[i]? = some (idx, i) := by simp [List.getElem?_zipIdx, hi]
  obtain ⟨h1, e1⟩ := List.getElem?_eq_some_iff.mp hz
  obtain ⟨h2, e2⟩ := List.getElem?_eq_some_iff.mp hp
  have := hF.get h1 h2
  simpa [e1, e2] using this

/-- The criteria in the documented order of precedence. -/
def Criteria (a : CrossArgs) (fs : List Crit) : Prop :=
  a.crits = some fs ∨ (a.crits = none ∧ ∃ f, fs = [f] ∧
    (a.crit = some f ∨ (a.crit = none ∧ ∃ i, a.info = some i ∧ f = i.crit)))

/-- The reference vector in the documented order of precedence. -/
def Reference (a : CrossArgs) (opt : Vec) : Prop :=
  a.covparam = some opt ∨ (a.covparam = none ∧ ∃ i, a.info = some i ∧ opt = i.covparam)

/-- The indices of the individual panels: those asked for, by default all when no pooled figure is
asked for. -/
def Individual (a : CrossArgs) (opt : Vec) (ind : List ℤ) : Prop :=
  a.ind = some ind ∨ (a.ind = none ∧ a.indPooled = none ∧
    ind = (List.range opt.val.length).map fun (k : ℕ) => (k : ℤ))

theorem crossSections_ok {a : CrossArgs} {fig : CrossFigure} {fs : List Crit} {opt : Vec}
    (hC : Criteria a fs) (hR : Reference a opt) (h : crossSections a = .ok fig) :
    resolveNames fs.length a.critName a.critNames = .ok fig.names ∧
    (∀ ind, Individual a opt ind → ind ≠ [] ∧ ∃ ps, fig.single = some ps ∧
      panels fs a.paramNames a.delta a.nPoints opt a.box ind = .ok ps) ∧
    (a.ind = none → a.indPooled ≠ none → fig.single = none) ∧
    (∀ ind, a.indPooled = some ind → ∃ ps, fig.pooled = some ps ∧
      panels fs a.paramNames a.delta a.nPoints opt a.boxPooled ind = .ok ps) ∧
    (a.indPooled = none → fig.pooled = none) := by
  have hfs : resolveCrits a.info a.crit a.crits = .ok fs := by
    rcases hC with h | ⟨h, f, rfl, h' | ⟨h', i, h'', rfl⟩⟩ <;> simp [resolveCrits, *]
  have hopt : resolveRef a.info a.covparam = .ok opt := by
    rcases hR with h | ⟨h, i, h', rfl⟩ <;> simp [resolveRef, *]
  unfold crossSections at h
  simp only [hfs, hopt, bind, Except.bind] at h
  cases hn : resolveNames fs.length a.critName a.critNames with
  | error e => rw [hn] at h; cases h
  | ok names =>
    rw [hn] at h
    simp only at h
    split at h
    · cases h
    · rename_i single hs
      split at h
      · cases h
      · rename_i pooled hp
        cases h
        refine ⟨rfl, fun ind hind => ?_, fun h1 h2 => ?_, fun ind hind => ?_, fun hnone => ?_⟩
        · have key : optional (fun l => if l = [] then Except.error PyErr.valueError
              else panels fs a.paramNames a.delta a.nPoints opt a.box l) (some ind) = .ok single := by
            rcases hind with h | ⟨h, h', rfl⟩
            · rw [h] at hs; exact hs
            · rw [h, h'] at hs; exact hs
          simp only [optional] at key
          by_cases he : ind = []
          · rw [if_pos he] at key; cases key
          · rw [if_neg he] at key
            refine ⟨he, ?_⟩
            cases hq : panels fs a.paramNames a.delta a.nPoints opt a.box ind with
            | error e => rw [hq] at key; cases key
            | ok ps => rw [hq] at key; cases key; exact ⟨ps, rfl, rfl⟩
        · rw [h1] at hs
          cases hq : a.indPooled with
          | none => exact absurd hq h2
          | some l => rw [hq] at hs; cases hs; rfl
        · rw [hind] at hp
          simp only [optional] at hp
          cases hq : panels fs a.paramNames a.delta a.nPoints opt a.boxPooled ind with
          | error e => rw [hq] at hp; cases hp
          | ok ps => rw [hq] at hp; cases hp; exact ⟨ps, rfl, rfl⟩
        · rw [hnone] at hp; cases hp; rfl

/-- A list of panels shows the parameters `ind`, in order, with their titles. -/
def PanelsShow (a : CrossArgs) (fs : List Crit) (opt : Vec) (ind : List ℤ) (ps : List Panel) : Prop :=
  ps.length = ind.length ∧ ∀ (i : ℕ) (idx : ℤ) (p : Panel), ind[i]? = some idx → ps[i]? = some p →
    (∃ k, Means opt.val.length idx k ∧ Shows fs opt k p) ∧ p.grid.length = a.nPoints ∧
    (a.paramNames = none → p.title = "param " ++ toString idx) ∧
    (∀ l : List String, a.paramNames = some l → (l.length : ℤ) ≤ idx → p.title = "param " ++ toString idx) ∧
    ∀ (l : List String) (k : ℕ) (t : String), a.paramNames = some l → idx = k → l[k]? = some t → p.title = t

theorem gridFor_length {delta : ℝ} {n : ℕ} {i : ℤ} {o : ℝ} {box : Option Box} {g : List ℝ}
    (h : gridFor delta n i o box = .ok g) : g.length = n := by
  cases box with
  | none => cases h; simp [linspace]
  | some b =>
    simp only [gridFor, bind, Except.bind] at h
    split at h
    · cases h
    · split at h
      · cases h
      · cases h; simp [linspace]

theorem panelsShow {a : CrossArgs} {fs : List Crit} {opt : Vec} {box : Option Box} {ind : List ℤ}
    {ps : List Panel} (hf : opt.isInt = false)
    (h : panels fs a.paramNames a.delta a.nPoints opt box ind = .ok ps) : PanelsShow a fs opt ind ps := by
  obtain ⟨hl, hp⟩ := panels_get h
  refine ⟨hl, fun i idx p hi hpi => ?_⟩
  obtain ⟨h1, h2, h3⟩ := panel_shows hf (hp i idx p hi hpi)
  refine ⟨h1, gridFor_length h2, fun hn => ?_, fun l hn hl => ?_, fun l k t hn hk ht => ?_⟩
  · rw [hn] at h3; exact (Except.ok.inj h3).symm
  · rw [hn] at h3
    simp only [title, if_neg (not_lt.mpr hl)] at h3
    exact (Except.ok.inj h3).symm
  · subst hk
    have : (k : ℤ) < l.length := by
      have := (List.getElem?_eq_some_iff.mp ht).1
      exact_mod_cast this
    rw [hn] at h3
    simp only [title, if_pos this] at h3
    simp only [pyGet, Int.natCast_nonneg, if_true, Int.toNat_natCast, ht] at h3
    cases h3; rfl

/-- **C213** Every panel of the figure shows the criteria along its own parameter, all other parameters
being at the reference: `selection_criteria` take precedence over `selection_criterion`, which takes
precedence over that of `info`, and `covparam` over that of `info`. -/
theorem cross_sections_shown {a : CrossArgs} {fig : CrossFigure} {fs : List Crit} {opt : Vec}
    (hC : Criteria a fs) (hR : Reference a opt) (hf : opt.isInt = false) (h : crossSections a = .ok fig) :
    (∀ ind, Individual a opt ind → ∃ ps, fig.single = some ps ∧ PanelsShow a fs opt ind ps) ∧
    (a.ind = none → a.indPooled ≠ none → fig.single = none) ∧
    (∀ ind, a.indPooled = some ind → ∃ ps, fig.pooled = some ps ∧ PanelsShow a fs opt ind ps) ∧
    (a.indPooled = none → fig.pooled = none) := by
  obtain ⟨_, h1, h2, h3, h4⟩ := crossSections_ok hC hR h
  refine ⟨fun ind hi => ?_, h2, fun ind hi => ?_, h4⟩
  · obtain ⟨_, ps, hs, hp⟩ := h1 ind hi
    exact ⟨ps, hs, panelsShow hf hp⟩
  · obtain ⟨ps, hs, hp⟩ := h3 ind hi
    exact ⟨ps, hs, panelsShow hf hp⟩

/-- **C213** One name for each curve: those given, the base name for a single criterion, numbered names
otherwise. -/
theorem cross_names {a : CrossArgs} {fig : CrossFigure} {fs : List Crit} {opt : Vec}
    (hC : Criteria a fs) (hR : Reference a opt) (h : crossSections a = .ok fig) :
    fig.names.length = fs.length ∧ (∀ l, a.critNames = some l → fig.names = l) ∧
    (a.critNames = none → fs.length = 1 → fig.names = [a.critName]) ∧
    (a.critNames = none → fs.length ≠ 1 → ∀ k, k < fs.length →
      fig.names[k]? = some (a.critName ++ " #" ++ toString k)) := by
  obtain ⟨hn, _⟩ := crossSections_ok hC hR h
  unfold resolveNames at hn
  cases hc : a.critNames with
  | none =>
    rw [hc] at hn
    simp only [Except.ok.injEq] at hn
    rw [← hn]
    refine ⟨by split <;> simp [*], (by simp), fun _ h1 => by simp [h1], fun _ h1 k hk => ?_⟩
    rw [if_neg h1]
    simp [List.getElem?_range hk]
  | some l =>
    rw [hc] at hn
    simp only at hn
    split at hn
    · cases hn
    · rename_i hne
      cases hn
      exact ⟨not_not.mp hne, fun l' h' => by cases h'; rfl, by simp, by simp⟩

/-- **C213** What is refused. -/
theorem cross_refusals (a : CrossArgs) :
    (a.crits = none → a.crit = none → a.info = none → crossSections a = .error .valueError) ∧
    (∀ fs l, Criteria a fs → a.critNames = some l → l.length ≠ fs.length →
      crossSections a = .error .valueError) ∧
    (∀ fs, Criteria a fs → a.critNames = none → a.covparam = none → a.info = none →
      crossSections a = .error .valueError) ∧
    (∀ fs opt, Criteria a fs → a.critNames = none → Reference a opt → a.ind = some [] →
      crossSections a = .error .valueError) := by
  have hfs : ∀ fs, Criteria a fs → resolveCrits a.info a.crit a.crits = .ok fs := by
    rintro fs (h | ⟨h, f, rfl, h' | ⟨h', i, h'', rfl⟩⟩) <;> simp [resolveCrits, *]
  refine ⟨fun h1 h2 h3 => ?_, fun fs l hC hl hne => ?_, fun fs hC hn h1 h2 => ?_,
    fun fs opt hC hn hR hi => ?_⟩
  · simp [crossSections, resolveCrits, h1, h2, h3, bind, Except.bind]
  · simp only [crossSections, hfs fs hC, resolveNames, hl, bind, Except.bind, if_pos hne]
  · have := hfs fs hC
    simp only [crossSections, this, resolveNames, hn, bind, Except.bind]
    simp only [resolveRef, h1, h2]
  · have hopt : resolveRef a.info a.covparam = .ok opt := by
      rcases hR with h | ⟨h, i, h', rfl⟩ <;> simp [resolveRef, *]
    simp only [crossSections, hfs fs hC, resolveNames, hn, hopt, hi, optional, bind, Except.bind, if_true]
    rfl

/-- The abscissas are equally spaced from `lo` to `hi`. -/
def Spread (lo hi : ℝ) (n : ℕ) (g : List ℝ) : Prop :=
  g.length = n ∧ (2 ≤ n → ∀ k, k < n → g[k]? = some (lo + k * (hi - lo) / ((n : ℝ) - 1)))

theorem linspace_spread (lo hi : ℝ) (n : ℕ) : Spread lo hi n (linspace lo hi n) := by
  refine ⟨by simp [linspace], fun hn k hk => ?_⟩
  simp only [linspace, List.getElem?_map, List.getElem?_range hk, Option.map_some]
  rw [if_neg (by omega)]
  congr 1
  ring

/-- **C213** Without bounds the abscissas are spread over `delta` on both sides of the reference value;
the reference value itself is one of them exactly when their number is odd. -/
theorem cross_default_range {a : CrossArgs} {fig : CrossFigure} {fs : List Crit} {opt : Vec} {ps : List Panel}
    (hC : Criteria a fs) (hR : Reference a opt) (hf : opt.isInt = false) (h : crossSections a = .ok fig)
    (hs : (fig.single = some ps ∧ a.box = none) ∨ (fig.pooled = some ps ∧ a.boxPooled = none))
    (hd : 0 < a.delta) {p : Panel} (hp : p ∈ ps) :
    Spread (p.ref - a.delta) (p.ref + a.delta) a.nPoints p.grid ∧
    (2 ≤ a.nPoints → (p.ref ∈ p.grid ↔ a.nPoints % 2 = 1)) := by
  have hg : p.grid = linspace (p.ref - a.delta) (p.ref + a.delta) a.nPoints := by
    obtain ⟨_, h1, h2, h3, h4⟩ := crossSections_ok hC hR h
    obtain ⟨i, hi, rfl⟩ := List.mem_iff_getElem.mp hp
    rcases hs with ⟨hs, hb⟩ | ⟨hs, hb⟩
    · have : ∃ ind, Individual a opt ind := by
        unfold Individual
        cases h' : a.ind with
        | some l => exact ⟨l, Or.inl rfl⟩
        | none =>
          cases h'' : a.indPooled with
          | none => exact ⟨_, Or.inr ⟨rfl, rfl, rfl⟩⟩
          | some l => rw [h2 h' (by simp [h''])] at hs; cases hs
      obtain ⟨ind, hind⟩ := this
      obtain ⟨_, ps', e, hps⟩ := h1 ind hind
      rw [hs] at e; cases e
      obtain ⟨hl, hq⟩ := panels_get hps
      have := (panel_shows hf (hq i _ _ (List.getElem?_eq_getElem (hl ▸ hi)) (List.getElem?_eq_getElem hi))).2.1
      rw [hb] at this
      simpa [gridFor] using this.symm
    · cases h' : a.indPooled with
      | none => rw [h4 h'] at hs; cases hs
      | some ind =>
        obtain ⟨ps', e, hps⟩ := h3 ind h'
        rw [hs] at e; cases e
        obtain ⟨hl, hq⟩ := panels_get hps
        have := (panel_shows hf (hq i _ _ (List.getElem?_eq_getElem (hl ▸ hi)) (List.getElem?_eq_getElem hi))).2.1
        rw [hb] at this
        simpa [gridFor] using this.symm
  have hsp : Spread (p.ref - a.delta) (p.ref + a.delta) a.nPoints p.grid := hg ▸ linspace_spread _ _ _
  refine ⟨hsp, fun hn => ?_⟩
  have hn1 : (0 : ℝ) < (a.nPoints : ℝ) - 1 := by
    have : (2 : ℝ) ≤ a.nPoints := by exact_mod_cast hn
    linarith
  constructor
  · intro hm
    obtain ⟨k, hk, e⟩ := List.mem_iff_getElem.mp hm
    rw [hsp.1] at hk
    have e2 := hsp.2 hn k hk
    rw [List.getElem?_eq_getElem (by rw [hsp.1]; exact hk), e] at e2
    have e3 := Option.some.inj e2
    have : (2 * k : ℝ) = (a.nPoints : ℝ) - 1 := by
      have h5 : (k : ℝ) * (p.ref + a.delta - (p.ref - a.delta)) / ((a.nPoints : ℝ) - 1) = a.delta := by linarith
      rw [div_eq_iff hn1.ne'] at h5
      have h6 : a.delta * (2 * (k : ℝ) - ((a.nPoints : ℝ) - 1)) = 0 := by linarith
      rcases mul_eq_zero.mp h6 with h7 | h7 <;> linarith
    have h8 : ((2 * k + 1 : ℕ) : ℝ) = (a.nPoints : ℕ) := by push_cast; linarith
    have := Nat.cast_injective (R := ℝ) h8
    omega
  · intro ho
    obtain ⟨m, hm⟩ : ∃ m, a.nPoints = 2 * m + 1 := ⟨a.nPoints / 2, by omega⟩
    have e2 := hsp.2 hn m (by omega)
    have : p.ref - a.delta + (m : ℝ) * (p.ref + a.delta - (p.ref - a.delta)) / ((a.nPoints : ℝ) - 1) = p.ref := by
      have : ((a.nPoints : ℝ) - 1) = 2 * m := by rw [hm]; push_cast; ring
      have hm0 : (m : ℝ) ≠ 0 := by intro h0; rw [this, h0] at hn1; simp at hn1
      rw [this]; field_simp; ring
    rw [this] at e2
    exact List.mem_of_getElem? e2

/-- **C213** With bounds and all the parameters (no `ind`, no `ind_pooled`), the panel of each parameter
is spread over the bounds of that parameter. -/
theorem cross_bounds_partial {a : CrossArgs} {fig : CrossFigure} {fs : List Crit} {opt : Vec} {b : Box}
    {ps : List Panel} (hC : Criteria a fs) (hR : Reference a opt) (hf : opt.isInt = false)
    (h : crossSections a = .ok fig) (hs : fig.single = some ps) (hi : a.ind = none)
    (hip : a.indPooled = none) (hb : a.box = some b) {k : ℕ} {lo hi' : ℝ} (hlo : b.lo[k]? = some lo)
    (hhi : b.hi[k]? = some hi') {p : Panel} (hp : ps[k]? = some p) :
    Spread lo hi' a.nPoints p.grid := by
  obtain ⟨_, h1, _⟩ := crossSections_ok hC hR h
  obtain ⟨_, ps', e, hps⟩ := h1 _ (Or.inr ⟨hi, hip, rfl⟩)
  rw [hs] at e; cases e
  obtain ⟨hl, hq⟩ := panels_get hps
  have hk : k < opt.val.length := by
    have := (List.getElem?_eq_some_iff.mp hp).1
    rw [hl] at this; simpa using this
  have hidx : ((List.range opt.val.length).map fun (k : ℕ) => (k : ℤ))[k]? = some (k : ℤ) := by
    simp [List.getElem?_range hk]
  have := (panel_shows hf (hq k _ _ hidx hp)).2.1
  rw [hb] at this
  have h1 : pyGet b.lo (k : ℤ) = .ok lo := by simp [pyGet, hlo]
  have h2 : pyGet b.hi (k : ℤ) = .ok hi' := by simp [pyGet, hhi]
  simp only [gridFor, h1, h2, bind, Except.bind, pure, Except.pure, Except.ok.injEq] at this
  rw [← this]
  exact linspace_spread _ _ _

/-- A criterion. -/
noncomputable def sq : Crit := fun v => .ok ((v.val.map fun x => x ^ 2).sum)

/-- **C213** is false for a selection of parameters: the bounds are looked up by the position of the
panel.  Parameter 1 alone, with bounds `[9, 11]`, is drawn over `[-1, 1]`, the bounds of parameter 0. -/
theorem cross_bounds_false :
    ∃ p : Panel,
      crossSections
        { crit := some sq
          covparam := some ⟨false, [0, 10]⟩
          nPoints := 2
          ind := some [1]
          box := some ⟨[-1, 9], [1, 11]⟩ } = .ok ⟨["selection criterion"], some [p], none⟩ ∧
      p.title = "param 1" ∧ p.ref = 10 ∧ p.grid = [-1, 1] := by
  refine ⟨⟨"param 1", [-1, 1], [[1], [1]], 10⟩, ?_, rfl, rfl, rfl⟩
  have hg : linspace (-1) 1 2 = [-1, 1] := by
    simp [linspace, List.range_succ]; norm_num
  have hc1 : column [sq] ⟨false, [0, 10]⟩ 1 (-1) = .ok [1] := by
    simp [column, Vec.store, pos, coerce, sq, bind, Except.bind, pure, Except.pure]
  have hc2 : column [sq] ⟨false, [0, 10]⟩ 1 1 = .ok [1] := by
    simp [column, Vec.store, pos, coerce, sq, bind, Except.bind, pure, Except.pure]
  have hpan : panel [sq] none 5 2 ⟨false, [0, 10]⟩ (some ⟨[-1, 9], [1, 11]⟩) 0 1 =
      .ok ⟨"param 1", [-1, 1], [[1], [1]], 10⟩ := by
    simp [panel, pyGet, gridFor, hg, hc1, hc2, title, bind, Except.bind, pure, Except.pure]
    rfl
  simp [crossSections, resolveCrits, resolveNames, resolveRef, optional, panels, hpan, bind, Except.bind,
    pure, Except.pure, Except.map]

/-- **C213** is false for integer parameters: the abscissa is truncated before the criterion is
evaluated.  At the abscissa `-1/2` the value of the criterion at `0` is drawn. -/
theorem cross_integer_false :
    crossSections { crit := some sq, covparam := some ⟨true, [0]⟩, nPoints := 2, delta := 1 / 2 } =
      .ok ⟨["selection criterion"], some [⟨"param 0", [-1 / 2, 1 / 2], [[0], [0]], 0⟩], none⟩ ∧
    sq ⟨false, [-1 / 2]⟩ = .ok (1 / 4) := by
  refine ⟨?_, by simp [sq]; norm_num⟩
  have hg : linspace (-(1 / 2)) (1 / 2) 2 = [-1 / 2, 1 / 2] := by
    simp [linspace, List.range_succ]; norm_num
  have hc1 : column [sq] ⟨true, [0]⟩ 0 (-1 / 2) = .ok [0] := by
    have : ⌈(-1 / 2 : ℝ)⌉ = 0 := by rw [Int.ceil_eq_iff]; norm_num
    have h' : ¬ (0 : ℝ) ≤ -1 / 2 := by norm_num
    simp [column, Vec.store, pos, coerce, sq, bind, Except.bind, pure, Except.pure, this, h']
  have hc2 : column [sq] ⟨true, [0]⟩ 0 (1 / 2) = .ok [0] := by
    have : ⌊(1 / 2 : ℝ)⌋ = 0 := by rw [Int.floor_eq_iff]; norm_num
    have h' : (0 : ℝ) ≤ 1 / 2 := by norm_num
    rw [column, Vec.store]
    simp only [pos, coerce, if_pos h', this]
    simp [sq, bind, Except.bind, pure, Except.pure]
  have hpan : panel [sq] none (1 / 2) 2 ⟨true, [0]⟩ none 0 0 =
      .ok ⟨"param 0", [-1 / 2, 1 / 2], [[0], [0]], 0⟩ := by
    have h0 : pyGet [(0 : ℝ)] 0 = .ok 0 := rfl
    have hg' : gridFor (1 / 2) 2 0 0 none = .ok [-1 / 2, 1 / 2] := by
      simp only [gridFor, zero_sub, zero_add, hg]
    have hm : [-1 / 2, 1 / 2].mapM (column [sq] ⟨true, [0]⟩ 0) = .ok [[0], [0]] := by
      simp only [List.mapM_cons, hc1, hc2]; rfl
    have ht : title none 0 = .ok "param 0" := rfl
    simp only [panel, Nat.cast_zero, h0, hg', hm, ht, bind, Except.bind, pure, Except.pure]
  simp [crossSections, resolveCrits, resolveNames, resolveRef, optional, panels, bind, Except.bind,
    pure, Except.pure, Except.map]
  rw [show ((2 : ℝ)⁻¹) = 1 / 2 by norm_num, hpan]

end Verif.Plot
