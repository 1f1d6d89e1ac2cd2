import Verif.Plot.PropsCriteria
import Verif.Plot.Quantiles

/-!
# Theorems: cross sections of predictions, coverage intervals, leave-one-out bars (C215–C217)
-/

set_option autoImplicit false

namespace Verif.Plot

open Verif Verif.Designs Verif.Score ProbabilityTheory MeasureTheory

/-! ## C215: cross sections of predictions -/

/-- What a cross section through observation `a` along coordinate `d` must show, `p` and `q` being the
positions of the anchor and of the coordinate among `nA` anchors: the panel in row `q` and column `p`;
`nt` increasing abscissas, the value of the coordinate at the anchor and points equally spaced over the
bounds; the predictions at the points that differ from the anchor in that coordinate only; the
observations over their own coordinate. -/
def IsSection (predict : List (List ℝ) → Py (List ℝ × List ℝ)) (xi : Points) (z : List ℝ) (box : Box)
    (nt nA p a q d : ℕ) (s : Section) : Prop :=
  ∃ row xa za lo hi, xi.rows[a]? = some row ∧ row[d]? = some xa ∧ z[a]? = some za ∧ box.lo[d]? = some lo ∧
    box.hi[d]? = some hi ∧
    s.subplot = nA * q + p + 1 ∧
    s.t.length = nt ∧ s.t.Pairwise (· ≤ ·) ∧ (∃ g, Spread lo hi (nt - 1) g ∧ s.t.Perm (xa :: g)) ∧
    s.targets = s.t.map (fun u => row.set d u) ∧
    (∃ v, predict s.targets = .ok (s.mean, v) ∧ s.var = v.map (fun x => max x 0)) ∧
    s.data = List.zip (xi.rows.map fun r => r.getD d 0) z ∧
    s.anchor = (xa, za)

/-- Well-formed observations: rows of the same length. -/
def Points.WF (xi : Points) : Prop := ∀ r ∈ xi.rows, r.length = xi.dim

theorem panelSection_ok {predict : List (List ℝ) → Py (List ℝ × List ℝ)} {xi : Points} {z : List ℝ} {box : Box}
    {nt nA i k : ℕ} {anchor dim : ℤ} {s : Section} (hwf : xi.WF) (hf : xi.isInt = false)
    (hz : z.length = xi.rows.length) (hlo : box.lo.length = xi.dim) (hhi : box.hi.length = xi.dim) (hnt : 2 ≤ nt)
    (h : panelSection predict xi z box nt nA i anchor k dim = .ok s) :
    ∃ a d : ℕ, anchor = a ∧ dim = d ∧ a < xi.rows.length ∧ d < xi.dim ∧
      IsSection predict xi z box nt nA i a k d s := by
  unfold panelSection at h
  split at h
  · cases h
  · rename_i ha
    split at h
    · cases h
    · rename_i hd
      push Not at ha hd
      obtain ⟨a, rfl⟩ := Int.eq_ofNat_of_zero_le ha.1
      obtain ⟨d, rfl⟩ := Int.eq_ofNat_of_zero_le hd.1
      have ha' : a < xi.rows.length := by exact_mod_cast ha.2
      have hd' : d < xi.dim := by exact_mod_cast hd.2
      have hrow : xi.rows[a]? = some xi.rows[a] := List.getElem?_eq_getElem ha'
      have hrl : d < xi.rows[a].length := by rw [hwf _ (List.getElem_mem ha')]; exact hd'
      refine ⟨a, d, rfl, rfl, ha', hd', ?_⟩
      simp only [Int.toNat_natCast, hf] at h
      have e1 : xi.rows.getD a [] = xi.rows[a] := by simp [List.getD_eq_getElem?_getD, hrow]
      have e2 : xi.rows[a].getD d 0 = xi.rows[a][d] := by simp [List.getD_eq_getElem?_getD, hrl]
      have hl' : d < box.lo.length := by rw [hlo]; exact hd'
      have hh' : d < box.hi.length := by rw [hhi]; exact hd'
      have e3 : box.lo.getD d 0 = box.lo[d] := by simp [List.getD_eq_getElem?_getD, hl']
      have e4 : box.hi.getD d 0 = box.hi[d] := by simp [List.getD_eq_getElem?_getD, hh']
      have hza : a < z.length := by rw [hz]; exact ha'
      have e5 : z.getD a 0 = z[a] := by simp [List.getD_eq_getElem?_getD, hza]
      rw [e1, e2, e3, e4, e5] at h
      set t := abscissas box.lo[d] box.hi[d] xi.rows[a][d] nt with ht
      cases hp : predict (targets false xi.rows[a] d t) with
      | error e => simp only [hp, bind, Except.bind] at h; cases h
      | ok mv =>
        obtain ⟨m, v⟩ := mv
        simp only [hp, bind, Except.bind, pure, Except.pure] at h
        cases h
        have hperm : t.Perm (linspace box.lo[d] box.hi[d] (nt - 1) ++ [xi.rows[a][d]]) := List.perm_insertionSort _ _
        refine ⟨xi.rows[a], xi.rows[a][d], z[a], box.lo[d], box.hi[d], hrow, List.getElem?_eq_getElem hrl,
          List.getElem?_eq_getElem hza, List.getElem?_eq_getElem hl', List.getElem?_eq_getElem hh',
          by push_cast; rfl, ?_, List.pairwise_insertionSort _ _, ⟨_, linspace_spread _ _ _, ?_⟩, ?_,
          ⟨v, hp, rfl⟩, rfl, rfl⟩
        · show t.length = nt
          rw [hperm.length_eq]
          simp [linspace]; omega
        · exact hperm.trans (List.perm_append_comm)
        · simp [targets, coerce]

/-- The anchors: those asked for, the position of a smallest or a largest observation. -/
def IsAnchors (z : List ℝ) : Anchors → List ℤ → Prop
  | .none, l => ∃ k : ℕ, l = [(k : ℤ)] ∧ ∃ x, z[k]? = some x ∧ ∀ y ∈ z, x ≤ y
  | .str s, l => ∃ k : ℕ, l = [(k : ℤ)] ∧ ∃ x, z[k]? = some x ∧
      ((s = "min" ∧ ∀ y ∈ z, x ≤ y) ∨ (s = "max" ∧ ∀ y ∈ z, y ≤ x))
  | .int i, l => l = [i]
  | .list l', l => l = l'

/-- The swept coordinates: those asked for, by default all. -/
def IsDims (d : ℕ) : Dims → List ℤ → Prop
  | .none, l => l.length = d ∧ ∀ k : ℕ, k < d → l[k]? = some (k : ℤ)
  | .int i, l => l = [i]
  | .list l', l => l = l'

theorem argBest_ok {le : ℝ → ℝ → Prop} {z : List ℝ} {k : ℕ} (h : argBest le z = .ok k)
    (hex : ∃ x ∈ z, ∀ y ∈ z, le x y) : ∃ x, z[k]? = some x ∧ ∀ y ∈ z, le x y := by
  classical
  cases z with
  | nil => cases h
  | cons a l =>
    simp only [argBest, Except.ok.injEq] at h
    subst h
    obtain ⟨x, hx, hb⟩ := hex
    have hlt : (a :: l).findIdx (fun a_1 => decide (∀ b ∈ a :: l, le a_1 b)) < (a :: l).length :=
      List.findIdx_lt_length_of_exists ⟨x, hx, by simpa using hb⟩
    refine ⟨_, List.getElem?_eq_getElem hlt, ?_⟩
    have := List.findIdx_getElem (w := hlt)
    simpa using this

theorem exists_min (z : List ℝ) (hz : z ≠ []) : ∃ x ∈ z, ∀ y ∈ z, x ≤ y := by
  induction z with
  | nil => exact absurd rfl hz
  | cons a l ih =>
    by_cases hl : l = []
    · subst hl; exact ⟨a, by simp, by simp⟩
    · obtain ⟨x, hx, hm⟩ := ih hl
      rcases le_total a x with h | h
      · refine ⟨a, by simp, fun y hy => ?_⟩
        rcases List.mem_cons.mp hy with rfl | hy
        · exact le_rfl
        · exact h.trans (hm y hy)
      · refine ⟨x, List.mem_cons_of_mem _ hx, fun y hy => ?_⟩
        rcases List.mem_cons.mp hy with rfl | hy
        · exact h
        · exact hm y hy

theorem exists_max (z : List ℝ) (hz : z ≠ []) : ∃ x ∈ z, ∀ y ∈ z, y ≤ x := by
  obtain ⟨x, hx, h⟩ := exists_min (z.map fun y => -y) (by simpa using hz)
  obtain ⟨y, hy, rfl⟩ := List.mem_map.mp hx
  exact ⟨y, hy, fun w hw => neg_le_neg_iff.mp (h _ (List.mem_map.mpr ⟨w, hw, rfl⟩))⟩

theorem resolveAnchors_ok {z : List ℝ} {ind : Anchors} {l : List ℤ} (h : resolveAnchors z ind = .ok l) :
    IsAnchors z ind l := by
  have key : ∀ le : ℝ → ℝ → Prop, (∀ z : List ℝ, z ≠ [] → ∃ x ∈ z, ∀ y ∈ z, le x y) →
      ∀ l, (do let k ← argBest le z; return [(k : ℤ)] : Py (List ℤ)) = .ok l →
      ∃ k : ℕ, l = [(k : ℤ)] ∧ ∃ x, z[k]? = some x ∧ ∀ y ∈ z, le x y := by
    intro le hle l h
    cases hk : argBest le z with
    | error e => rw [hk] at h; cases h
    | ok k =>
      rw [hk] at h; cases h
      refine ⟨k, rfl, argBest_ok hk (hle z ?_)⟩
      rintro rfl; cases hk
  cases ind with
  | none => exact key _ exists_min l h
  | str s =>
    simp only [resolveAnchors] at h
    split at h
    · rename_i hs
      obtain ⟨k, e, x, hx, hm⟩ := key _ exists_min l h
      exact ⟨k, e, x, hx, Or.inl ⟨hs, hm⟩⟩
    · split at h
      · rename_i hs
        obtain ⟨k, e, x, hx, hm⟩ := key _ exists_max l h
        exact ⟨k, e, x, hx, Or.inr ⟨hs, hm⟩⟩
      · cases h
  | int i => exact (Except.ok.inj h).symm
  | list l' => exact (Except.ok.inj h).symm

theorem resolveDims_ok (d : ℕ) (ind : Dims) : IsDims d ind (resolveDims d ind) := by
  cases ind with
  | none => exact ⟨by simp [resolveDims], fun k hk => by simp [resolveDims, List.getElem?_range hk]⟩
  | int i => rfl
  | list l => rfl

theorem mapM_zipIdx {α β : Type} {f : α × ℕ → Py β} {l : List α} {r : List β} (h : l.zipIdx.mapM f = .ok r) :
    r.length = l.length ∧ ∀ (i : ℕ) (a : α) (b : β), l[i]? = some a → r[i]? = some b → f (a, i) = .ok b := by
  have hF := mapM_forall₂ h
  refine ⟨by simpa using hF.length_eq.symm, fun i a b hi hb => ?_⟩
  have hz : l.zipIdx[i]? = some (a, i) := by simp [List.getElem?_zipIdx, hi]
  obtain ⟨h1, e1⟩ := List.getElem?_eq_some_iff.mp hz
  obtain ⟨h2, e2⟩ := List.getElem?_eq_some_iff.mp hb
  have := hF.get h1 h2
  simpa [e1, e2] using this

/-- **C215** The cross sections: one for each anchor and each coordinate, in the order of the anchors. -/
theorem sections_shown {predict : List (List ℝ) → Py (List ℝ × List ℝ)} {xi : Points} {zRows : ℕ} {z : List ℝ}
    {box : Box} {indI : Anchors} {indDim : Dims} {nt : ℤ} {r : List Section} (hwf : xi.WF) (hf : xi.isInt = false)
    (h : crosssections predict xi zRows z box indI indDim nt = .ok r) :
    ∃ as ds ll, IsAnchors z indI as ∧ IsDims xi.dim indDim ds ∧ r = List.flatten ll ∧ ll.length = as.length ∧
      ∀ (p : ℕ) (ss : List Section), ll[p]? = some ss → ss.length = ds.length ∧
        ∀ (q : ℕ) (s : Section), ss[q]? = some s → ∃ a d : ℕ, as[p]? = some (a : ℤ) ∧ ds[q]? = some (d : ℤ) ∧
          IsSection predict xi z box nt.toNat as.length p a q d s := by
  unfold crosssections at h
  split at h
  · cases h
  · rename_i hb
    split at h
    · cases h
    · rename_i hzz
      split at h
      · cases h
      · rename_i hnt
        push Not at hb hzz hnt
        cases has : resolveAnchors z indI with
        | error e => rw [has] at h; cases h
        | ok as =>
          simp only [has, bind, Except.bind] at h
          split at h
          · cases h
          · split at h
            · cases h
            · rename_i ll hll
              cases h
              obtain ⟨hl, hg⟩ := mapM_zipIdx hll
              refine ⟨as, _, ll, resolveAnchors_ok has, resolveDims_ok _ _, rfl, hl, fun p ss hss => ?_⟩
              have hp : p < as.length := by rw [← hl]; exact (List.getElem?_eq_some_iff.mp hss).1
              have h1 := hg p as[p] ss (List.getElem?_eq_getElem hp) hss
              obtain ⟨hl2, hg2⟩ := mapM_zipIdx h1
              refine ⟨hl2, fun q s hs => ?_⟩
              have hq : q < (resolveDims xi.dim indDim).length := by rw [← hl2]; exact (List.getElem?_eq_some_iff.mp hs).1
              have h2 := hg2 q _ s (List.getElem?_eq_getElem hq) hs
              obtain ⟨a, d, e1, e2, -, -, hS⟩ := panelSection_ok hwf hf hzz.2 hb.1 hb.2 (by omega) h2
              exact ⟨a, d, (List.getElem?_eq_getElem hp).trans (congrArg some e1),
                (List.getElem?_eq_getElem hq).trans (congrArg some e2), hS⟩

/-- **C215** Each cross section has its own panel of the figure, which exists: row `q` and column `p` of
`ds.length` rows and `as.length` columns. -/
theorem sections_panels {nA nD p q p' q' : ℕ} (hp : p < nA) (hq : q < nD) (hp' : p' < nA) :
    subplot nD nA (nA * q + p + 1) = .ok (nA * q + p) ∧
    (nA * q + p + 1 = nA * q' + p' + 1 → p = p' ∧ q = q') := by
  constructor
  · have hlt : nA * q + p < nD * nA := by
      calc nA * q + p < nA * q + nA := by omega
        _ = nA * (q + 1) := by ring
        _ ≤ nA * nD := Nat.mul_le_mul_left _ hq
        _ = nD * nA := Nat.mul_comm _ _
    have e : ((nA : ℤ) * q + p + 1 - 1) = ((nA * q + p : ℕ) : ℤ) := by push_cast; ring
    rw [subplot, e, pos, if_pos (by omega), if_pos (by exact_mod_cast hlt)]
    rfl
  · intro h
    have h' : nA * q + p = nA * q' + p' := by omega
    have e1 := congrArg (· % nA) h'
    have e2 := congrArg (· / nA) h'
    simp only [Nat.mul_add_mod, Nat.mod_eq_of_lt hp, Nat.mod_eq_of_lt hp'] at e1
    have hpos : 0 < nA := by omega
    simp only [Nat.mul_add_div hpos, Nat.div_eq_of_lt hp, Nat.div_eq_of_lt hp', Nat.add_zero] at e2
    exact ⟨e1, e2⟩

/-- **C215** The abscissas contain the anchor and, with three points at least, both bounds; the curves go
over the anchor at the prediction for the anchor itself; the variances that are shown are not negative,
and those that were not negative are shown unchanged. -/
theorem section_facts {predict : List (List ℝ) → Py (List ℝ × List ℝ)} {xi : Points} {z : List ℝ} {box : Box}
    {nt nA p a q d : ℕ} {s : Section} (h : IsSection predict xi z box nt nA p a q d s) :
    s.anchor.1 ∈ s.t ∧ s.anchor ∈ s.data ∧
    (3 ≤ nt → (∀ lo, box.lo[d]? = some lo → lo ∈ s.t) ∧ ∀ hi, box.hi[d]? = some hi → hi ∈ s.t) ∧
    (∀ row, xi.rows[a]? = some row → row ∈ s.targets ∧
      ∀ w ∈ s.targets, ∀ k, k ≠ d → w[k]? = row[k]?) ∧
    (∀ x ∈ s.var, 0 ≤ x) ∧
    ∀ v, predict s.targets = .ok (s.mean, v) → (∀ x ∈ v, 0 ≤ x) → s.var = v := by
  obtain ⟨row, xa, za, lo, hi, h1, h2, h3, h4, h5, h6, h7, h8, ⟨g, hg, hperm⟩, h9, ⟨v, hv, hvar⟩, h10, h11⟩ := h
  have hmem : xa ∈ s.t := hperm.mem_iff.mpr (by simp)
  refine ⟨by rw [h11]; exact hmem, ?_, fun hn => ?_, fun row' hrow' => ?_, ?_, fun v' hv' hpos => ?_⟩
  · rw [h11, h10]
    refine List.mem_of_getElem? (i := a) ?_
    rw [List.getElem?_zip_eq_some]
    refine ⟨?_, h3⟩
    rw [List.getElem?_map, h1]
    simp [List.getD_eq_getElem?_getD, h2]
  · have hn2 : 2 ≤ nt - 1 := by omega
    have e0 := hg.2 hn2 0 (by omega)
    have e1 := hg.2 hn2 (nt - 2) (by omega)
    have hc : ((nt - 1 : ℕ) : ℝ) - 1 = ((nt - 2 : ℕ) : ℝ) := by
      rw [show nt - 1 = (nt - 2) + 1 by omega]; push_cast; ring
    have hc0 : ((nt - 2 : ℕ) : ℝ) ≠ 0 := by
      have : nt - 2 ≠ 0 := by omega
      exact_mod_cast this
    constructor
    · intro lo' hlo'
      rw [h4] at hlo'; cases hlo'
      refine hperm.mem_iff.mpr (List.mem_cons_of_mem _ (List.mem_of_getElem? (i := 0) ?_))
      rw [e0]; simp
    · intro hi' hhi'
      rw [h5] at hhi'; cases hhi'
      refine hperm.mem_iff.mpr (List.mem_cons_of_mem _ (List.mem_of_getElem? (i := nt - 2) ?_))
      rw [e1, hc]
      congr 1
      field_simp
      ring
  · rw [h1] at hrow'; cases hrow'
    refine ⟨?_, fun w hw k hk => ?_⟩
    · rw [h9]
      refine List.mem_map.mpr ⟨xa, hmem, ?_⟩
      obtain ⟨hlt, e⟩ := List.getElem?_eq_some_iff.mp h2
      rw [← e]
      exact List.set_getElem_self hlt
    · rw [h9] at hw
      obtain ⟨u, -, rfl⟩ := List.mem_map.mp hw
      rw [List.getElem?_set_ne (Ne.symm hk)]
  · rw [hvar]
    intro x hx
    obtain ⟨y, -, rfl⟩ := List.mem_map.mp hx
    exact le_max_right _ _
  · rw [hv] at hv'
    have e := Except.ok.inj hv'
    have e' := (Prod.mk.inj e).2
    subst e'
    rw [hvar]
    calc v.map (fun x => max x 0) = v.map id := List.map_congr_left fun x hx => max_eq_left (hpos x hx)
      _ = v := List.map_id v

/-- **C215** What is refused. -/
theorem sections_refusals (predict : List (List ℝ) → Py (List ℝ × List ℝ)) (xi : Points) (zRows : ℕ) (z : List ℝ)
    (box : Box) (indI : Anchors) (indDim : Dims) (nt : ℤ) :
    ((box.lo.length ≠ xi.dim ∨ box.hi.length ≠ xi.dim) →
      crosssections predict xi zRows z box indI indDim nt = .error .valueError) ∧
    ((zRows ≠ xi.rows.length ∨ z.length ≠ xi.rows.length) →
      crosssections predict xi zRows z box indI indDim nt = .error .valueError) ∧
    (nt < 2 → crosssections predict xi zRows z box indI indDim nt = .error .valueError) ∧
    (∀ s, indI = .str s → s ≠ "min" → s ≠ "max" →
      crosssections predict xi zRows z box indI indDim nt = .error .valueError) ∧
    (∀ i : ℤ, indI = .int i → (i < 0 ∨ i ≥ xi.rows.length) → box.lo.length = xi.dim → box.hi.length = xi.dim →
      zRows = xi.rows.length → z.length = xi.rows.length → 2 ≤ nt → resolveDims xi.dim indDim ≠ [] →
      crosssections predict xi zRows z box indI indDim nt = .error .indexError) := by
  refine ⟨fun h => by rw [crosssections, if_pos h], fun h => ?_, fun h => ?_, fun s hs h1 h2 => ?_,
    fun i hi ho h1 h2 h3 h4 h5 h6 => ?_⟩
  · rw [crosssections, if_pos h]; split <;> rfl
  · rw [crosssections, if_pos h]; split <;> (try split) <;> rfl
  · subst hs
    rw [crosssections]
    simp only [resolveAnchors, if_neg h1, if_neg h2, bind, Except.bind]
    split <;> (try split) <;> (try split) <;> rfl
  · subst hi
    rw [crosssections, if_neg (by push Not; exact ⟨h1, h2⟩), if_neg (by push Not; exact ⟨h3, h4⟩), if_neg (by omega)]
    simp only [resolveAnchors, bind, Except.bind]
    rw [if_neg (by push Not; exact ⟨by simp, h6⟩)]
    obtain ⟨d, ds, hd⟩ := List.exists_cons_of_ne_nil h6
    rw [hd]
    simp [List.mapM_cons, panelSection, if_pos ho, bind, Except.bind]

/-- **C215** is false for points stored as integers: the swept coordinate is truncated in the prediction
points, so that the value drawn at the abscissa `1/2` is the prediction at `0`. -/
theorem sections_integer_false (predict : List (List ℝ) → Py (List ℝ × List ℝ)) (v : List ℝ)
    (hv : predict [[0], [0], [1]] = .ok ([7, 7, 8], v)) :
    ∃ s, crosssections predict ⟨true, 1, [[0], [1]]⟩ 2 [7, 8] ⟨[1 / 2], [1]⟩ .none .none 3 = .ok [s] ∧
      s.t = [0, 1 / 2, 1] ∧ s.targets = [[0], [0], [1]] ∧ s.mean = [7, 7, 8] := by
  have hb : argBest (· ≤ ·) [(7 : ℝ), 8] = .ok 0 := by
    simp [argBest, List.findIdx_cons]
    norm_num
  have ht : abscissas (1 / 2) 1 0 (3 : ℤ).toNat = [0, 1 / 2, 1] := by
    have : linspace (1 / 2) 1 2 = [1 / 2, 1] := by
      simp [linspace, List.range_succ]; norm_num
    show sortR (linspace (1 / 2) 1 2 ++ [0]) = _
    rw [this]
    norm_num [sortR, List.insertionSort, List.orderedInsert]
  have hx : targets true [0] 0 [0, 1 / 2, 1] = [[0], [0], [1]] := by
    have h1 : ⌊(1 / 2 : ℝ)⌋ = 0 := by rw [Int.floor_eq_iff]; norm_num
    simp only [targets, coerce, List.map_cons, List.map_nil, if_true, List.set_cons_zero, h1]
    norm_num
  have hps : panelSection predict ⟨true, 1, [[0], [1]]⟩ [7, 8] ⟨[1 / 2], [1]⟩ (3 : ℤ).toNat 1 0 (0 : ℤ) 0 (0 : ℤ) =
      .ok ⟨1, [0, 1 / 2, 1], [[0], [0], [1]], [7, 7, 8], v.map (max · 0), [(0, 7), (1, 8)], (0, 7)⟩ := by
    simp only [panelSection]
    rw [if_neg (by simp), if_neg (by simp)]
    simp only [Int.toNat_zero, List.getD_cons_zero, ht, hx, hv, bind, Except.bind, pure, Except.pure]
    simp
  refine ⟨⟨1, [0, 1 / 2, 1], [[0], [0], [1]], [7, 7, 8], v.map (max · 0), [(0, 7), (1, 8)], (0, 7)⟩, ?_, rfl, rfl, rfl⟩
  rw [crosssections, if_neg (by simp), if_neg (by simp), if_neg (by norm_num)]
  have hr : resolveAnchors [7, 8] .none = .ok [0] := by
    simp [resolveAnchors, hb, bind, Except.bind, pure, Except.pure]
  have hd : resolveDims 1 .none = [0] := rfl
  simp only [hr, bind, Except.bind, hd]
  simp only [List.zipIdx_cons, List.zipIdx_nil, List.mapM_cons, List.mapM_nil, List.length_singleton, hps, bind,
    Except.bind, pure, Except.pure]
  simp

/-- A section through the second of two points of the plane. -/
example : ∃ s, crosssections (fun x => .ok (x.map fun _ => 0, x.map fun _ => -1)) ⟨false, 2, [[0, 0], [1, 1]]⟩ 2 [7, 8]
    ⟨[0, 0], [2, 2]⟩ (.int 1) (.int 0) 2 = .ok [s] ∧ s.var = [0, 0] := by
  have hps : panelSection (fun x => .ok (x.map fun _ => 0, x.map fun _ => -1)) ⟨false, 2, [[0, 0], [1, 1]]⟩ [7, 8]
      ⟨[0, 0], [2, 2]⟩ (2 : ℤ).toNat 1 0 1 0 0 =
      .ok ⟨1, [0, 1], [[0, 1], [1, 1]], [0, 0], [0, 0], [(0, 7), (1, 8)], (1, 8)⟩ := by
    have ht : abscissas 0 2 1 2 = [0, 1] := by
      show sortR (linspace 0 2 1 ++ [1]) = _
      have : linspace 0 2 1 = [0] := by simp [linspace, List.range_succ]
      rw [this]
      norm_num [sortR, List.insertionSort, List.orderedInsert]
    simp [panelSection, ht, targets, coerce, bind, Except.bind, pure, Except.pure]
  refine ⟨⟨1, [0, 1], [[0, 1], [1, 1]], [0, 0], [0, 0], [(0, 7), (1, 8)], (1, 8)⟩, ?_, rfl⟩
  rw [crosssections, if_neg (by simp), if_neg (by simp), if_neg (by norm_num)]
  simp only [resolveAnchors, resolveDims, bind, Except.bind, List.zipIdx_cons, List.zipIdx_nil, List.mapM_cons,
    List.mapM_nil, List.length_singleton, hps, pure, Except.pure]
  simp

/-! ## C216: coverage intervals -/

/-- What is assumed of `scipy.stats.norm.ppf`: it inverts the normal distribution function. -/
def Inverts (ppf : ℝ → ℝ) : Prop := ∀ p, 0 < p → p < 1 → Phi (ppf p) = p

/-- Probability that the normal law of mean `m` and standard deviation `s` gives to `(l, u]`. -/
noncomputable def normalProb (m s l u : ℝ) : ℝ :=
  cdf (gaussianReal m (NNReal.mk (s ^ 2) (sq_nonneg s))) u - cdf (gaussianReal m (NNReal.mk (s ^ 2) (sq_nonneg s))) l

theorem normalProb_sym (m d : ℝ) {v : ℝ} (hv : 0 < v) :
    normalProb m √v (m - d * √v) (m + d * √v) = 2 * Phi d - 1 := by
  have hs := Real.sqrt_pos.mpr hv
  rw [normalProb, cdf_gauss m hs, cdf_gauss m hs]
  rw [show (m + d * √v - m) / √v = d by field_simp; ring, show (m - d * √v - m) / √v = -d by field_simp; ring, Phi_neg]
  ring

/-- A band for the level `c`: wherever the variance is positive, the normal law with the mean and the
variance gives the probability `c` to the interval between its curves, which are symmetric about the
mean. -/
def IsBand (mean var : List ℝ) (c : ℝ) (b : Band) : Prop :=
  ∀ (i : ℕ) (m v : ℝ), mean[i]? = some m → var[i]? = some v → 0 < v →
    ∃ l u, b.lower[i]? = some l ∧ b.upper[i]? = some u ∧ l + u = 2 * m ∧ normalProb m √v l u = c

theorem isBand_of {ppf : ℝ → ℝ} (hppf : Inverts ppf) (mean var : List ℝ) {c : ℝ} (hc0 : 0 < c) (hc1 : c < 1)
    (lab : String) : IsBand mean var c
      ⟨lab, List.zipWith (fun m v => m - ppf ((1 + c) / 2) * Real.sqrt v) mean var,
        List.zipWith (fun m v => m + ppf ((1 + c) / 2) * Real.sqrt v) mean var⟩ := by
  intro i m v hm hv hpos
  refine ⟨_, _, by simp [List.getElem?_zipWith, hm, hv]; rfl, by simp [List.getElem?_zipWith, hm, hv]; rfl, by ring, ?_⟩
  rw [normalProb_sym m _ hpos, hppf _ (by linarith) (by linarith)]
  ring

/-- **C216** The default figure draws one band for each level, the last level first, with its label. -/
theorem bands_default {ppf : ℝ → ℝ} (hppf : Inverts ppf) (hue : Bool) (mean var ci : List ℝ) (labels : List String)
    (hci : ∀ c ∈ ci, 0 < c ∧ c < 1) (hn : ci.length ≤ 3) (hl : labels.length = ci.length) :
    ∃ bs, plotgp ppf .default hue mean var ci labels true = .ok bs ∧ bs.length = ci.length ∧
      ∀ (i : ℕ) (c : ℝ) (lab : String), ci.reverse[i]? = some c → labels.reverse[i]? = some lab →
        ∃ b, bs[i]? = some b ∧ b.label = lab ∧ IsBand mean var c b := by
  set g : ℝ × ℕ → Band := fun p => ⟨labels.reverse.getD p.2 "",
    List.zipWith (fun m v => m - p.1 * Real.sqrt v) mean var,
    List.zipWith (fun m v => m + p.1 * Real.sqrt v) mean var⟩ with hg
  have hok : plotgp ppf .default hue mean var ci labels true =
      .ok ((((ci.map fun l => ppf ((1 + l) / 2)).reverse).zipIdx).map g) := by
    simp only [plotgp, if_true, bind, Except.bind]
    refine mapM_ok_of_fun _ g _ fun p hp => ?_
    have hlt : p.2 < ci.length := by
      have := List.snd_lt_of_mem_zipIdx hp
      simpa using this
    rw [if_pos (by omega)]
    have hlt' : p.2 < labels.reverse.length := by rw [List.length_reverse, hl]; exact hlt
    have : pyGet labels.reverse (p.2 : ℤ) = .ok (labels.reverse.getD p.2 "") := by
      simp only [pyGet, Int.natCast_nonneg, if_true, Int.toNat_natCast, List.getElem?_eq_getElem hlt',
        List.getD_eq_getElem?_getD, Option.getD_some]
    simp only [this, hg, pure, Except.pure]
  refine ⟨_, hok, by simp, fun i c lab hc hlab => ?_⟩
  refine ⟨_, ?_, ?_, isBand_of hppf mean var (hci c ?_).1 (hci c ?_).2 lab⟩
  · have h1 : ((ci.map fun l => ppf ((1 + l) / 2)).reverse)[i]? = some (ppf ((1 + c) / 2)) := by
      rw [← List.map_reverse, List.getElem?_map, hc]; rfl
    simp [List.getElem?_zipIdx, h1, hg, List.getD_eq_getElem?_getD, hlab]
  · rfl
  · exact List.mem_reverse.mp (List.mem_of_getElem? hc)
  · exact List.mem_reverse.mp (List.mem_of_getElem? hc)

/-- **C216** The other figures draw one band, for the first level. -/
theorem bands_single {ppf : ℝ → ℝ} (hppf : Inverts ppf) (mean var ci : List ℝ) (labels : List String) (c : ℝ)
    (lab : String) (hc0 : 0 < c) (hc1 : c < 1) :
    (∃ b, plotgp ppf .bw false mean var (c :: ci) (lab :: labels) true = .ok [b] ∧ b.label = lab ∧ IsBand mean var c b) ∧
    (∃ b, plotgp ppf .simple false mean var (c :: ci) (lab :: labels) true = .ok [b] ∧ b.label = lab ∧
      IsBand mean var c b) ∧
    (∃ b, plotgp ppf .hue true mean var (c :: ci) (lab :: labels) true = .ok [b] ∧ b.label = lab ∧
      IsBand mean var c b) := by
  refine ⟨⟨_, ?_, rfl, isBand_of hppf mean var hc0 hc1 lab⟩, ⟨_, ?_, rfl, isBand_of hppf mean var hc0 hc1 lab⟩,
    ⟨_, ?_, rfl, isBand_of hppf mean var hc0 hc1 lab⟩⟩ <;>
  simp [plotgp, pyGet, bind, Except.bind, pure, Except.pure]

theorem mapM_mem {α β : Type} (f : α → Py β) (P : β → Prop) (hf : ∀ a b, f a = .ok b → P b) :
    ∀ (l : List α) (bs : List β), l.mapM f = .ok bs → ∀ b ∈ bs, P b
  | [], bs, h, b, hb => by
    simp [pure, Except.pure] at h
    subst h
    simp at hb
  | a :: l, bs, h, b, hb => by
    rw [List.mapM_cons] at h
    cases ha : f a with
    | error e => simp [ha, bind, Except.bind] at h
    | ok c =>
      cases hl : l.mapM f with
      | error e => simp [ha, hl, bind, Except.bind] at h
      | ok cs =>
        simp [ha, hl, bind, Except.bind, pure, Except.pure] at h
        subst h
        rcases List.mem_cons.mp hb with rfl | hb
        · exact hf a _ ha
        · exact mapM_mem f P hf l cs hl b hb

/-- **C216** Hidden labels are empty, in every figure. -/
theorem bands_hidden (ppf : ℝ → ℝ) (s : Scheme) (b : Bool) (mean var ci : List ℝ) (labels : List String)
    (bs : List Band) (h : plotgp ppf s b mean var ci labels false = .ok bs) : ∀ x ∈ bs, x.label = "" := by
  have hg : ∀ (l : List String) (i : ℤ) (x : String), (∀ y ∈ l, y = "") → pyGet l i = .ok x → x = "" := by
    intro l i x hl hx
    unfold pyGet at hx
    split at hx
    · split at hx
      · rename_i y hy
        rw [← Except.ok.inj hx]
        exact hl _ (List.mem_of_getElem? hy)
      · cases hx
    · split at hx
      · split at hx
        · rename_i y hy
          rw [← Except.ok.inj hx]
          exact hl _ (List.mem_of_getElem? hy)
        · cases hx
      · cases hx
  have h3 : ∀ y ∈ ["", "", ""], y = "" := by simp
  simp only [plotgp, Bool.false_eq_true, if_false, bind, Except.bind] at h
  split at h
  · cases h
  · rename_i v hv
    have hls : ∀ y ∈ v.2.1, y = "" := by
      have hp : pyGet ["", "", ""] 0 = .ok "" := by simp [pyGet]
      rw [hp] at hv
      cases hd : pyGet (ci.map fun l => ppf ((1 + l) / 2)) 0 <;> rw [hd] at hv <;> cases s <;> cases b <;>
        simp [pure, Except.pure] at hv <;> subst hv <;> simp
    refine mapM_mem _ _ (fun p x hx => ?_) _ _ h
    split at hx
    · split at hx
      · cases hx
      · rename_i l hl
        simp only [pure, Except.pure] at hx
        rw [← Except.ok.inj hx]
        exact hg _ _ _ hls hl
    · cases hx

/-- **C216** Higher levels give wider intervals. -/
theorem bands_nested {ppf : ℝ → ℝ} (hppf : Inverts ppf) {c c' : ℝ} (hc0 : 0 < c) (hlt : c < c') (hc1 : c' < 1) (m v : ℝ) :
    m - ppf ((1 + c') / 2) * √v ≤ m - ppf ((1 + c) / 2) * √v ∧ m + ppf ((1 + c) / 2) * √v ≤ m + ppf ((1 + c') / 2) * √v := by
  have h : ppf ((1 + c) / 2) ≤ ppf ((1 + c') / 2) := by
    by_contra hcon
    have := Phi_mono (not_le.mp hcon).le
    rw [hppf _ (by linarith) (by linarith), hppf _ (by linarith) (by linarith)] at this
    linarith
  have := mul_le_mul_of_nonneg_right h (Real.sqrt_nonneg v)
  constructor <;> linarith

/-- The default levels and labels. -/
def defaultLabels : List String := ["CI 95%", "CI 99%", "CI 99.9%"]

/-- **C216** With the default levels and labels, the bands are drawn from the widest to the narrowest
and each carries the label of its level. -/
theorem bands_labels {ppf : ℝ → ℝ} (hppf : Inverts ppf) (mean var : List ℝ) :
    ∃ b1 b2 b3, plotgp ppf .default false mean var [0.95, 0.99, 0.999] defaultLabels true = .ok [b1, b2, b3] ∧
      b1.label = "CI 99.9%" ∧ IsBand mean var 0.999 b1 ∧ b2.label = "CI 99%" ∧ IsBand mean var 0.99 b2 ∧
      b3.label = "CI 95%" ∧ IsBand mean var 0.95 b3 := by
  obtain ⟨bs, hok, hl, hb⟩ := bands_default hppf false mean var [0.95, 0.99, 0.999] defaultLabels
    (by simp only [List.mem_cons, List.not_mem_nil, or_false]; rintro c (rfl | rfl | rfl) <;> norm_num)
    (by simp) (by simp [defaultLabels])
  match bs, hl with
  | [b1, b2, b3], _ =>
    obtain ⟨_, e1, h1, h1'⟩ := hb 0 _ _ (by rfl) (by rfl)
    obtain ⟨_, e2, h2, h2'⟩ := hb 1 _ _ (by rfl) (by rfl)
    obtain ⟨_, e3, h3, h3'⟩ := hb 2 _ _ (by rfl) (by rfl)
    cases e1; cases e2; cases e3
    exact ⟨b1, b2, b3, hok, h1, h1', h2, h2', h3, h3'⟩

/-- **C216** is false when another number of levels is given without labels: the one band of level 0.95
is labelled "CI 99.9%". -/
theorem bands_labels_false {ppf : ℝ → ℝ} (hppf : Inverts ppf) (mean var : List ℝ) :
    ∃ b, plotgp ppf .default false mean var [0.95] defaultLabels true = .ok [b] ∧ b.label = "CI 99.9%" ∧
      IsBand mean var 0.95 b := by
  refine ⟨_, ?_, rfl, isBand_of hppf mean var (by norm_num) (by norm_num) "CI 99.9%"⟩
  simp [plotgp, pyGet, defaultLabels, bind, Except.bind, pure, Except.pure]

/-- **C216** What is refused: more than three levels (although any number of levels may be given), an
unknown scheme, the coloured scheme without a colour. -/
theorem bands_refusals (ppf : ℝ → ℝ) (mean var : List ℝ) (ci : List ℝ) (labels : List String) (b : Bool) :
    (3 < ci.length → 3 ≤ labels.length → plotgp ppf .default b mean var ci labels true = .error .indexError) ∧
    plotgp ppf .other b mean var ci labels true = .error .unboundLocalError ∧
    plotgp ppf .hue false mean var ci labels true = .error .typeError := by
  refine ⟨fun h hl => ?_, rfl, rfl⟩
  have hlen : 3 < ((ci.map fun l => ppf ((1 + l) / 2)).reverse).length := by simpa using h
  obtain ⟨d0, d1, d2, d3, ds, hd⟩ : ∃ d0 d1 d2 d3 ds, (ci.map fun l => ppf ((1 + l) / 2)).reverse = d0 :: d1 :: d2 :: d3 :: ds := by
    match (ci.map fun l => ppf ((1 + l) / 2)).reverse, hlen with
    | d0 :: d1 :: d2 :: d3 :: ds, _ => exact ⟨d0, d1, d2, d3, ds, rfl⟩
  obtain ⟨l0, l1, l2, ls, hls⟩ : ∃ l0 l1 l2 ls, labels.reverse = l0 :: l1 :: l2 :: ls := by
    have : 3 ≤ labels.reverse.length := by simpa using hl
    match labels.reverse, this with
    | l0 :: l1 :: l2 :: ls, _ => exact ⟨l0, l1, l2, ls, rfl⟩
  simp only [plotgp, if_true, bind, Except.bind, hd, hls]
  simp [List.zipIdx_cons, List.mapM_cons, pyGet, bind, Except.bind, pure, Except.pure]

/-- **C216** The numbers given in the documentation of `plotgp` for the three levels are correct to
`1e-6`. -/
theorem documented_quantiles {ppf : ℝ → ℝ} (hppf : Inverts ppf) :
    |ppf ((1 + 0.95) / 2) - 1.959964| < 1e-6 ∧ |ppf ((1 + 0.99) / 2) - 2.575829| < 1e-6 ∧
      |ppf ((1 + 0.999) / 2) - 3.290527| < 1e-6 := by
  have key : ∀ {c lo hi : ℝ}, 0 < c → c < 1 → Phi lo < (1 + c) / 2 → (1 + c) / 2 < Phi hi →
      lo < ppf ((1 + c) / 2) ∧ ppf ((1 + c) / 2) < hi := by
    intro c lo hi h0 h1 hl hh
    have e := hppf ((1 + c) / 2) (by linarith) (by linarith)
    constructor
    · by_contra hcon
      have := Phi_mono (not_lt.mp hcon); rw [e] at this; linarith
    · by_contra hcon
      have := Phi_mono (not_lt.mp hcon); rw [e] at this; linarith
  have h1 := key (c := 0.95) (by norm_num) (by norm_num) (lt_of_lt_of_eq Phi_95.1 (by norm_num))
    (lt_of_eq_of_lt (by norm_num) Phi_95.2)
  have h2 := key (c := 0.99) (by norm_num) (by norm_num) (lt_of_lt_of_eq Phi_99.1 (by norm_num))
    (lt_of_eq_of_lt (by norm_num) Phi_99.2)
  have h3 := key (c := 0.999) (by norm_num) (by norm_num) (lt_of_lt_of_eq Phi_999.1 (by norm_num))
    (lt_of_eq_of_lt (by norm_num) Phi_999.2)
  norm_num [abs_lt] at h1 h2 h3 ⊢
  refine ⟨⟨?_, ?_⟩, ⟨?_, ?_⟩, ?_, ?_⟩ <;> linarith [h1.1, h1.2, h2.1, h2.2, h3.1, h3.2]

/-- An inverse exists. -/
theorem exists_inverts : ∃ ppf, Inverts ppf := by
  have h : ∀ p : ℝ, ∃ x, 0 < p → p < 1 → Phi x = p := by
    intro p
    by_cases hp : 0 < p ∧ p < 1
    · obtain ⟨a, ha⟩ := (Phi_bot.eventually (gt_mem_nhds hp.1)).exists
      obtain ⟨b, hb⟩ := (Phi_top.eventually (lt_mem_nhds hp.2)).exists
      obtain ⟨x, hx⟩ := mem_range_of_exists_le_of_exists_ge Phi_continuous ⟨a, ha.le⟩ ⟨b, hb.le⟩
      exact ⟨x, fun _ _ => hx⟩
    · exact ⟨0, fun h0 h1 => absurd ⟨h0, h1⟩ hp⟩
  choose f hf using h
  exact ⟨f, fun p => hf p⟩

/-! ## C217: leave-one-out bars -/

/-- **C217** The bars of the leave-one-out figure, titled "95% coverage intervals": where the variance is
positive, the normal law of the prediction gives the bar a probability between 0.95 and 0.950006. -/
theorem loo_bars (zloom zloov : List ℝ) (i : ℕ) (m v : ℝ) (hm : zloom[i]? = some m) (hv : zloov[i]? = some v)
    (hpos : 0 < v) :
    ∃ c h, (looBars zloom zloov)[i]? = some (c, h) ∧ c = m ∧ 0.95 < normalProb m √v (c - h) (c + h) ∧
      normalProb m √v (c - h) (c + h) < 0.950006 := by
  refine ⟨m, 1.96 * √v, by simp [looBars, List.getElem?_zipWith, hm, hv], rfl, ?_, ?_⟩
  · rw [normalProb_sym m _ hpos]
    have := Phi_196.1
    norm_num at this ⊢
    linarith
  · rw [normalProb_sym m _ hpos]
    have := Phi_196.2
    norm_num at this ⊢
    linarith

/-- Two bars. -/
example : looBars [1, 2] [4, 0] = [(1, 1.96 * √4), (2, 1.96 * √0)] := rfl

end Verif.Plot
