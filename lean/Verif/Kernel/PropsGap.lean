import Verif.Kernel.Priors
import Mathlib.Tactic.Linarith
import Mathlib.Tactic.Ring
import Mathlib.Tactic.NormNum
import Mathlib.Tactic.FieldSimp
import Mathlib.Tactic.Positivity
import Mathlib.Analysis.SpecialFunctions.Gamma.Basic
import Mathlib.Analysis.SpecialFunctions.Gamma.Beta

/-!
# C87–C90: minimum gaps, default REMAP prior, roles of initial parameters, empirical bounds
-/

set_option autoImplicit false

namespace Verif.Kernel

open Verif

/-! ## C87: the minimum gap -/

/-- Specification: `g` is the smallest distance between two different values. -/
def IsMinGap (x : List ℝ) (g : ℝ) : Prop :=
  (∃ a ∈ x, ∃ b ∈ x, a < b ∧ g = b - a) ∧ ∀ a ∈ x, ∀ b ∈ x, a < b → g ≤ b - a

theorem diffs_mem {l : List ℝ} {t : ℝ} (h : t ∈ diffs l) : ∃ a ∈ l, ∃ b ∈ l, t = b - a := by
  induction l with
  | nil => simp [diffs] at h
  | cons a l ih =>
    cases l with
    | nil => simp [diffs] at h
    | cons b l =>
      rw [diffs] at h
      rcases List.mem_cons.mp h with h | h
      · exact ⟨a, by simp, b, by simp, h⟩
      · obtain ⟨c, hc, e, he, ht⟩ := ih h
        exact ⟨c, List.mem_cons_of_mem _ hc, e, List.mem_cons_of_mem _ he, ht⟩

theorem diffs_small {l : List ℝ} (hl : l.Pairwise (· ≤ ·)) {a b : ℝ} (ha : a ∈ l) (hb : b ∈ l)
    (hab : a < b) : ∃ t ∈ diffs l, 0 < t ∧ t ≤ b - a := by
  induction l with
  | nil => simp at ha
  | cons c l ih =>
    cases l with
    | nil =>
      simp only [List.mem_singleton] at ha hb
      subst ha; subst hb
      exact absurd hab (lt_irrefl _)
    | cons e l =>
      have hl' := (List.pairwise_cons.mp hl).2
      have hc := (List.pairwise_cons.mp hl).1
      rcases List.mem_cons.mp ha with rfl | ha
      · rcases List.mem_cons.mp hb with rfl | hb
        · exact absurd hab (lt_irrefl _)
        · by_cases he : a = e
          · subst he
            obtain ⟨t, ht, h⟩ := ih hl' List.mem_cons_self hb
            exact ⟨t, by rw [diffs]; exact List.mem_cons_of_mem _ ht, h⟩
          · have h1 : a ≤ e := hc e List.mem_cons_self
            have h2 : e ≤ b := by
              rcases List.mem_cons.mp hb with rfl | hb
              · exact le_rfl
              · exact (List.pairwise_cons.mp hl').1 b hb
            exact ⟨e - a, by rw [diffs]; exact List.mem_cons_self,
              by have := lt_of_le_of_ne h1 he; linarith, by linarith⟩
      · rcases List.mem_cons.mp hb with rfl | hb
        · rcases List.mem_cons.mp ha with h | h
          · exact absurd h hab.ne
          · exact absurd (hc a h) (not_le.mpr hab)
        · obtain ⟨t, ht, h⟩ := ih hl' ha hb
          exact ⟨t, by rw [diffs]; exact List.mem_cons_of_mem _ ht, h⟩

theorem foldl_min_spec (l : List ℝ) (g : ℝ) :
    (l.foldl min g = g ∨ l.foldl min g ∈ l) ∧ l.foldl min g ≤ g ∧ ∀ t ∈ l, l.foldl min g ≤ t := by
  induction l generalizing g with
  | nil => simp
  | cons a l ih =>
    obtain ⟨h1, h2, h3⟩ := ih (min g a)
    refine ⟨?_, le_trans h2 (min_le_left _ _), ?_⟩
    · rcases h1 with h1 | h1
      · rcases min_choice g a with h | h
        · left; rw [List.foldl_cons, h1, h]
        · right; rw [List.foldl_cons, h1, h]; exact List.mem_cons_self
      · right; exact List.mem_cons_of_mem _ h1
    · intro t ht
      rcases List.mem_cons.mp ht with rfl | ht
      · exact le_trans h2 (min_le_right _ _)
      · exact h3 t ht

/-- **C87** `_minimum_nonzero_gap_distance_1d` returns the smallest distance between
two different values of the column, and `inf` exactly when all values are equal. -/
theorem minGap_spec (x : List ℝ) :
    (∀ g, minGap x = some g ↔ IsMinGap x g) ∧
    (minGap x = none ↔ ∀ a ∈ x, ∀ b ∈ x, a = b) := by
  have main : (∃ g, minGap x = some g ∧ IsMinGap x g) ∨
      (minGap x = none ∧ ∀ a ∈ x, ∀ b ∈ x, a = b) := by
    unfold minGap
    by_cases hlen : x.length < 2
    · rw [if_pos hlen]
      refine Or.inr ⟨rfl, fun a ha b hb => ?_⟩
      match x, hlen with
      | [], _ => simp at ha
      | [c], _ =>
        simp only [List.mem_singleton] at ha hb
        rw [ha, hb]
      | _ :: _ :: _, h => simp at h
    · rw [if_neg hlen]
      have hs : (x.insertionSort (· ≤ ·)).Pairwise (· ≤ ·) := List.pairwise_insertionSort _ _
      have hmem : ∀ a, a ∈ x.insertionSort (· ≤ ·) ↔ a ∈ x := fun a =>
        (List.perm_insertionSort (· ≤ ·) x).mem_iff
      cases hf : (diffs (x.insertionSort (· ≤ ·))).filter (fun t => 0 < t) with
      | nil =>
        refine Or.inr ⟨by simp only [hf], fun a ha b hb => ?_⟩
        rw [List.filter_eq_nil_iff] at hf
        by_contra hne
        rcases lt_or_gt_of_ne hne with h | h
        · obtain ⟨t, ht, h0, _⟩ := diffs_small hs ((hmem a).2 ha) ((hmem b).2 hb) h
          exact hf t ht (by simpa using h0)
        · obtain ⟨t, ht, h0, _⟩ := diffs_small hs ((hmem b).2 hb) ((hmem a).2 ha) h
          exact hf t ht (by simpa using h0)
      | cons g gs =>
        refine Or.inl ⟨gs.foldl min g, by simp only [hf], ?_, ?_⟩
        · have hin : gs.foldl min g ∈ (diffs (x.insertionSort (· ≤ ·))).filter (fun t => 0 < t) := by
            rw [hf]
            rcases (foldl_min_spec gs g).1 with h | h
            · rw [h]; exact List.mem_cons_self
            · exact List.mem_cons_of_mem _ h
          obtain ⟨h1, h2⟩ := List.mem_filter.mp hin
          obtain ⟨a, ha, b, hb, h⟩ := diffs_mem h1
          have h2' : 0 < gs.foldl min g := by simpa using h2
          exact ⟨a, (hmem a).1 ha, b, (hmem b).1 hb, by linarith, h⟩
        · intro a ha b hb hab
          obtain ⟨t, ht, h0, hle⟩ := diffs_small hs ((hmem a).2 ha) ((hmem b).2 hb) hab
          have hin : t ∈ g :: gs := by
            rw [← hf]
            exact List.mem_filter.mpr ⟨ht, by simpa using h0⟩
          refine le_trans ?_ hle
          rcases List.mem_cons.mp hin with rfl | h
          · exact (foldl_min_spec gs t).2.1
          · exact (foldl_min_spec gs g).2.2 t h
  have uniq : ∀ g g', IsMinGap x g → IsMinGap x g' → g = g' := by
    rintro g g' ⟨⟨a, ha, b, hb, hab, h⟩, hg⟩ ⟨⟨a', ha', b', hb', hab', h'⟩, hg'⟩
    have h1 := hg a' ha' b' hb' hab'
    have h2 := hg' a ha b hb hab
    linarith
  rcases main with ⟨g0, h1, h2⟩ | ⟨h1, h2⟩
  · refine ⟨fun g => ⟨fun h => ?_, fun h => ?_⟩, ⟨fun h => ?_, fun h => ?_⟩⟩
    · rw [h1] at h; cases h; exact h2
    · rw [h1, uniq g0 g h2 h]
    · rw [h1] at h; cases h
    · obtain ⟨⟨a, ha, b, hb, hab, _⟩, _⟩ := h2
      exact absurd (h a ha b hb) hab.ne
  · refine ⟨fun g => ⟨fun h => ?_, fun h => ?_⟩, ⟨fun _ => h2, fun _ => h1⟩⟩
    · rw [h1] at h; cases h
    · obtain ⟨⟨a, ha, b, hb, hab, _⟩, _⟩ := h
      exact absurd (h2 a ha b hb) hab.ne

/-- Concrete case. -/
example : IsMinGap [3, 1, 1, 7] 2 := by
  refine ⟨⟨1, by simp, 3, by simp, by norm_num, by norm_num⟩, ?_⟩
  intro a ha b hb hab
  simp only [List.mem_cons, List.not_mem_nil, or_false] at ha hb
  rcases ha with rfl | rfl | rfl | rfl <;> rcases hb with rfl | rfl | rfl | rfl <;>
    first | (norm_num at hab; done) | norm_num

theorem minGap_pos {x : List ℝ} {g : ℝ} (h : minGap x = some g) : 0 < g := by
  obtain ⟨⟨a, _, b, _, hab, h⟩, _⟩ := ((minGap_spec x).1 g).1 h
  linarith

theorem foldl_max_spec (l : List ℝ) (g : ℝ) :
    (l.foldl max g = g ∨ l.foldl max g ∈ l) ∧ g ≤ l.foldl max g ∧ ∀ t ∈ l, t ≤ l.foldl max g := by
  induction l generalizing g with
  | nil => simp
  | cons a l ih =>
    obtain ⟨h1, h2, h3⟩ := ih (max g a)
    refine ⟨?_, le_trans (le_max_left _ _) h2, ?_⟩
    · rcases h1 with h1 | h1
      · rcases max_choice g a with h | h
        · left; rw [List.foldl_cons, h1, h]
        · right; rw [List.foldl_cons, h1, h]; exact List.mem_cons_self
      · right; exact List.mem_cons_of_mem _ h1
    · intro t ht
      rcases List.mem_cons.mp ht with rfl | ht
      · exact le_trans (le_max_right _ _) h2
      · exact h3 t ht

/-- Range of a column as a difference of extreme values. -/
theorem colRange_spec {x : List ℝ} (hx : x ≠ []) :
    ∃ a ∈ x, ∃ b ∈ x, colRange x = b - a ∧ ∀ t ∈ x, a ≤ t ∧ t ≤ b := by
  match x, hx with
  | c :: l, _ =>
    have hmin := foldl_min_spec l c
    have hmax := foldl_max_spec l c
    refine ⟨l.foldl min c, ?_, l.foldl max c, ?_, rfl, ?_⟩
    · rcases hmin.1 with h | h
      · rw [h]; exact List.mem_cons_self
      · exact List.mem_cons_of_mem _ h
    · rcases hmax.1 with h | h
      · rw [h]; exact List.mem_cons_self
      · exact List.mem_cons_of_mem _ h
    · intro t ht
      rcases List.mem_cons.mp ht with rfl | ht
      · exact ⟨hmin.2.1, hmax.2.1⟩
      · exact ⟨hmin.2.2 t ht, hmax.2.2 t ht⟩

/-! ## C88: the default REMAP prior is well defined -/

/-- The factor in closed form: `Γ(d/2+1)^(1/d) / √π`, the radius of the ball of unit
volume. -/
theorem rhoFactor_pos (d : ℕ) : 0 < rhoFactor d := by
  unfold rhoFactor
  positivity

theorem rhoFactor_one : rhoFactor 1 = 1 / 2 := by
  have hpi : Real.pi ^ (0.5 : ℝ) = Real.sqrt Real.pi := by
    rw [Real.sqrt_eq_rpow]; norm_num
  have hG : Real.Gamma (((1 : ℕ) : ℝ) / 2 + 1) = 1 / 2 * Real.sqrt Real.pi := by
    rw [Nat.cast_one, Real.Gamma_add_one (by norm_num), Real.Gamma_one_half_eq]
  have hs : 0 < Real.sqrt Real.pi := Real.sqrt_pos.mpr Real.pi_pos
  unfold rhoFactor
  rw [hG, Nat.cast_one, div_one, Real.exp_log (by positivity), hpi]
  field_simp

theorem Gamma_half_ge (d : ℕ) (hd : 1 ≤ d) :
    Real.sqrt Real.pi / 2 ≤ Real.Gamma ((d : ℝ) / 2 + 1) := by
  induction d using Nat.strong_induction_on with
  | _ d ih =>
    match d, hd with
    | 1, _ =>
      rw [Nat.cast_one, Real.Gamma_add_one (by norm_num), Real.Gamma_one_half_eq]
      linarith
    | 2, _ =>
      have : (((2 : ℕ) : ℝ) / 2 + 1) = 1 + 1 := by norm_num
      rw [this, Real.Gamma_add_one one_ne_zero, Real.Gamma_one]
      have : Real.sqrt Real.pi ≤ 2 := by
        rw [Real.sqrt_le_left (by norm_num)]
        linarith [Real.pi_le_four]
      linarith
    | d + 3, _ =>
      have h := ih (d + 1) (by omega) (by omega)
      have e : (((d + 3 : ℕ) : ℝ) / 2 + 1) = (((d + 1 : ℕ) : ℝ) / 2 + 1) + 1 := by
        push_cast; ring
      have hp : (0 : ℝ) < ((d + 1 : ℕ) : ℝ) / 2 + 1 := by positivity
      rw [e, Real.Gamma_add_one hp.ne']
      have h1 : (1 : ℝ) ≤ ((d + 1 : ℕ) : ℝ) / 2 + 1 := by
        have : (0 : ℝ) ≤ ((d + 1 : ℕ) : ℝ) / 2 := by positivity
        linarith
      have hG : 0 < Real.Gamma (((d + 1 : ℕ) : ℝ) / 2 + 1) := Real.Gamma_pos_of_pos hp
      nlinarith

/-- The unit-volume ball has radius at least one half, in every dimension. -/
theorem rhoFactor_ge (d : ℕ) (hd : 1 ≤ d) : 1 / 2 ≤ rhoFactor d := by
  have hpi : Real.pi ^ (0.5 : ℝ) = Real.sqrt Real.pi := by
    rw [Real.sqrt_eq_rpow]; norm_num
  have hs : 0 < Real.sqrt Real.pi := Real.sqrt_pos.mpr Real.pi_pos
  have hs2 : Real.sqrt Real.pi / 2 ≤ 1 := by
    have : Real.sqrt Real.pi ≤ 2 := by
      rw [Real.sqrt_le_left (by norm_num)]
      linarith [Real.pi_le_four]
    linarith
  unfold rhoFactor
  rw [hpi, le_div_iff₀ hs]
  have hG := Gamma_half_ge d hd
  have hd' : (0 : ℝ) < d := by exact_mod_cast hd
  have hlog : Real.log (Real.sqrt Real.pi / 2) ≤ Real.log (Real.Gamma ((d : ℝ) / 2 + 1)) / d := by
    rw [le_div_iff₀ hd']
    have h0 : Real.log (Real.sqrt Real.pi / 2) ≤ 0 := Real.log_nonpos (by positivity) hs2
    have h1 : Real.log (Real.sqrt Real.pi / 2) ≤ Real.log (Real.Gamma ((d : ℝ) / 2 + 1)) :=
      Real.log_le_log (by positivity) hG
    have h2 : (1 : ℝ) ≤ d := by exact_mod_cast hd
    nlinarith
  calc 1 / 2 * Real.sqrt Real.pi = Real.exp (Real.log (Real.sqrt Real.pi / 2)) := by
        rw [Real.exp_log (by positivity)]; ring
    _ ≤ _ := Real.exp_le_exp.mpr hlog

theorem minGap_pair {a b : ℝ} (h : a < b) : minGap [a, b] = some (b - a) := by
  refine ((minGap_spec _).1 _).2 ⟨⟨a, by simp, b, by simp, h, rfl⟩, ?_⟩
  intro c hc e he hce
  simp only [List.mem_cons, List.not_mem_nil, or_false] at hc he
  rcases hc with rfl | rfl <;> rcases he with rfl | rfl
  · exact absurd hce (lt_irrefl _)
  · exact le_rfl
  · exact absurd hce (not_lt.mpr h.le)
  · exact absurd hce (lt_irrefl _)

/-- **C88** is false: with the default settings every evaluation of the REMAP
criterion on two distinct points of the line raises `ValueError` (the initial range
is half the spread, the minimum range is the spread). -/
theorem remap_default_false (a b : ℝ) (h : a < b) :
    remapRefuses (1 / 20) [[a, b]] = .error .valueError := by
  have hr : colRange [a, b] = b - a := by
    simp [colRange, max_eq_right h.le, min_eq_left h.le]
  have hpos : 0 < b - a := by linarith
  unfold remapRefuses logrhoMin
  rw [if_neg (by norm_num)]
  simp only [List.map_cons, List.map_nil, List.length_cons, List.length_nil, zero_add,
    List.zip_cons_cons, List.zip_nil_left, List.mem_singleton, exists_eq_left]
  rw [if_pos]
  unfold logrhoGuess logrhoMin1
  simp only [rhoFactor_one, hr, minGap_pair h]
  rw [if_pos (by linarith)]
  refine le_trans ?_ (le_max_left _ _)
  rw [EReal.coe_le_coe_iff]
  exact Real.log_le_log (by linarith) (by linarith)

theorem colRange_const {x : List ℝ} (c : ℝ) (h : ∀ a ∈ x, a = c) : colRange x = 0 := by
  cases x with
  | nil => rfl
  | cons a l =>
    have hmax : ∀ l : List ℝ, (∀ b ∈ l, b = a) → l.foldl max a = a ∧ l.foldl min a = a := by
      intro l hl
      induction l with
      | nil => exact ⟨rfl, rfl⟩
      | cons b l ih =>
        have hb : b = a := hl b (by simp)
        simp only [List.foldl_cons, hb, max_self, min_self]
        exact ih fun b' hb' => hl b' (by simp [hb'])
    obtain ⟨h1, h2⟩ := hmax l fun b hb => (h b (by simp [hb])).trans (h a (by simp)).symm
    simp only [colRange, h1, h2, sub_self]

/-- **C88** It also raises whenever some coordinate is constant (both ranges are `-inf`). -/
theorem remap_flat_refused_false {factor : ℝ} (cols : List (List ℝ)) {x : List ℝ}
    (hx : x ∈ cols) (c : ℝ) (hc : ∀ a ∈ x, a = c) : remapRefuses factor cols = .error .valueError := by
  unfold remapRefuses logrhoMin
  by_cases hf : factor ≤ 0
  · rw [if_pos hf]
  rw [if_neg hf]
  dsimp only
  rw [if_pos]
  refine ⟨(logrhoGuess cols.length x, logrhoMin1 factor x), ?_, ?_⟩
  · rw [List.zip_map', List.mem_map]
    exact ⟨x, hx, rfl⟩
  · unfold logrhoGuess
    rw [colRange_const c hc, mul_zero, if_neg (lt_irrefl _)]
    exact bot_le

/-- A second coordinate that is always 1. -/
example : remapRefuses (1 / 20) [[0, 1, 3], [1, 1, 1]] = .error .valueError :=
  remap_flat_refused_false _ (x := [1, 1, 1]) (by simp) 1 (by simp)

/-- **C88** What does hold: the criterion is well defined as soon as every
coordinate has a gap smaller than `rhoFactor d` times its range; in particular when
some gap is less than half the range. -/
theorem remap_default_partial (cols : List (List ℝ))
    (h : ∀ x ∈ cols, ∃ g, minGap x = some g ∧ g < rhoFactor cols.length * colRange x) :
    remapRefuses (1 / 20) cols = .ok () := by
  unfold remapRefuses logrhoMin
  rw [if_neg (by norm_num)]
  simp only
  rw [if_neg]
  rintro ⟨p, hp, hle⟩
  rw [List.zip_map', List.mem_map] at hp
  obtain ⟨x, hx, rfl⟩ := hp
  obtain ⟨g, hg, hlt⟩ := h x hx
  have hgpos := minGap_pos hg
  have hd : 1 ≤ cols.length := List.length_pos_of_mem hx
  have hge := rhoFactor_ge cols.length hd
  have hrho : 0 < rhoFactor cols.length * colRange x := by linarith
  have hr : 0 < colRange x := by
    by_contra hc
    have : rhoFactor cols.length * colRange x ≤ 0 :=
      mul_nonpos_of_nonneg_of_nonpos (rhoFactor_pos _).le (not_lt.mp hc)
    linarith
  revert hle
  simp only [imp_false, not_le, logrhoGuess, logrhoMin1, hg]
  rw [if_pos hrho, if_pos (by positivity)]
  refine max_lt ?_ ?_
  · exact EReal.coe_lt_coe_iff.mpr (Real.log_lt_log hgpos hlt)
  · refine EReal.coe_lt_coe_iff.mpr (Real.log_lt_log (by positivity) ?_)
    nlinarith

/-- Corollary in terms of the design: three values not equally spaced suffice, in
every coordinate and every dimension. -/
theorem remap_default_partial_half (cols : List (List ℝ))
    (h : ∀ x ∈ cols, ∃ g, minGap x = some g ∧ g < colRange x / 2) :
    remapRefuses (1 / 20) cols = .ok () := by
  refine remap_default_partial cols fun x hx => ?_
  obtain ⟨g, hg, hlt⟩ := h x hx
  refine ⟨g, hg, lt_of_lt_of_le hlt ?_⟩
  have hge := rhoFactor_ge cols.length (List.length_pos_of_mem hx)
  have := minGap_pos hg
  nlinarith

/-- Concrete case: `0, 1, 4` on the line. -/
example : remapRefuses (1 / 20) [[0, 1, 4]] = .ok () := by
  refine remap_default_partial_half _ fun x hx => ?_
  simp only [List.mem_singleton] at hx
  subst hx
  refine ⟨1, ((minGap_spec _).1 _).2 ⟨⟨0, by simp, 1, by simp, by norm_num, by norm_num⟩, ?_⟩, ?_⟩
  · intro a ha b hb hab
    simp only [List.mem_cons, List.not_mem_nil, or_false] at ha hb
    rcases ha with rfl | rfl | rfl <;> rcases hb with rfl | rfl | rfl <;>
      first | (norm_num at hab; done) | norm_num
  · norm_num [colRange]

/-! ## C89: resolution of prior anchor and starting point -/

/-- **C89** `resolve_covparam0_prior_and_init` follows the documented policy, and
computes the initial guess at most once (shared by both roles). -/
theorem resolvePriorInit_spec {V : Type} (guess : ℕ → V) (cov0 prior init : Option V) :
    resolvePriorInit guess cov0 prior init =
      ((prior.or cov0).getD (guess 0), (init.or cov0).getD (guess 0),
        if (prior.or cov0).isNone ∨ (init.or cov0).isNone then 1 else 0) := by
  cases cov0 <;> cases prior <;> cases init <;> simp [resolvePriorInit]

/-- **C89** `resolve_covparam0_roles_for_update` follows the documented policy:
explicit value, `covparam0`, `model.covparam`, guess; it warns exactly when the prior
anchor comes from `covparam0` or the model (and warnings are on). -/
theorem resolveRoles_spec {V : Type} (guess : ℕ → V) (modelCov cov0 prior init : Option V)
    (warn : Bool) :
    resolveRoles guess modelCov cov0 prior init warn =
      (((prior.or cov0).or modelCov).getD (guess 0), ((init.or cov0).or modelCov).getD (guess 0),
        (if ((prior.or cov0).or modelCov).isNone ∨ ((init.or cov0).or modelCov).isNone then 1 else 0),
        warn && prior.isNone && (cov0.isSome || modelCov.isSome)) := by
  cases modelCov <;> cases cov0 <;> cases prior <;> cases init <;> simp [resolveRoles]

/-- Concrete case. -/
example : resolveRoles (fun k => k + 10) (some 1) none none (some 3) true = (1, 3, 0, true) := rfl

/-! ## C90: empirical bounds -/

/-- **C90** is false: with the default factors the bounds exclude the initial guess
of the length scale on two points, and exclude the empirical variance always. -/
theorem bounds_contain_guess_false :
    (∀ a b : ℝ, a < b → (lengthBounds 2 [a, b]).2 < -(logrhoGuess 1 [a, b])) ∧
    (∀ v : ℝ, 0 < v → Real.log v < (varBounds 2 10 v).1) := by
  constructor
  · intro a b h
    have hr : colRange [a, b] = b - a := by
      simp [colRange, max_eq_right h.le, min_eq_left h.le]
    unfold lengthBounds logrhoGuess
    simp only [rhoFactor_one, hr, minGap_pair h]
    rw [if_pos (by linarith), ← EReal.coe_neg, EReal.coe_lt_coe_iff]
    refine neg_lt_neg (Real.log_lt_log (by linarith) (by linarith))
  · intro v hv
    exact Real.log_lt_log hv (by linarith)

/-- **C90** What holds: the bounds are ordered, and contain a length scale exactly
when it is at least twice (`factor` times) the smallest gap. -/
theorem bounds_partial (factor : ℝ) (hf : 0 < factor) (x : List ℝ) :
    (lengthBounds factor x).1 ≤ (lengthBounds factor x).2 ∧
    (∀ rho g, 0 < rho → minGap x = some g →
      ((((-Real.log rho : ℝ) : EReal) ≤ (lengthBounds factor x).2) ↔ factor * g ≤ rho)) ∧
    (∀ lo hi v, 0 < lo → lo ≤ hi → 0 < v → (varBounds lo hi v).1 ≤ (varBounds lo hi v).2) := by
  refine ⟨?_, ?_, ?_⟩
  · unfold lengthBounds
    split <;> exact bot_le
  · intro rho g hrho hg
    have := minGap_pos hg
    unfold lengthBounds
    simp only [hg]
    rw [EReal.coe_le_coe_iff, neg_le_neg_iff, Real.log_le_log_iff (by positivity) hrho]
  · intro lo hi v h1 h2 h3
    exact Real.log_le_log (by positivity) (mul_le_mul_of_nonneg_right h2 h3.le)

end Verif.Kernel
