import Verif.Data.PropsStats
import Mathlib.Tactic.Positivity
import Mathlib.Algebra.Order.Floor.Semiring

/-!
# C71 quantiles and the robust scaler
-/

namespace Verif.Data

open Verif

/-- Sorted list of a column. -/
noncomputable abbrev sortCol (l : List ℝ) : List ℝ := l.insertionSort (· ≤ ·)

theorem sortCol_length (l : List ℝ) : (sortCol l).length = l.length := by
  simp [sortCol]

theorem sortCol_mono (l : List ℝ) {i j : Nat} (hij : i ≤ j) (hj : j < l.length) :
    (sortCol l).getD i 0 ≤ (sortCol l).getD j 0 := by
  have hs : (sortCol l).Pairwise (· ≤ ·) := List.pairwise_insertionSort _ l
  have hl := sortCol_length l
  rw [List.getD_eq_getElem?_getD, List.getD_eq_getElem?_getD,
    List.getElem?_eq_getElem (by omega), List.getElem?_eq_getElem (by omega)]
  simp only [Option.getD_some]
  rcases Nat.lt_or_eq_of_le hij with h | h
  · exact List.pairwise_iff_getElem.mp hs i j (by omega) (by omega) h
  · subst h; exact le_refl _

theorem sortCol_mem (l : List ℝ) {i : Nat} (hi : i < l.length) : (sortCol l).getD i 0 ∈ l := by
  have hl := sortCol_length l
  rw [List.getD_eq_getElem?_getD, List.getElem?_eq_getElem (by omega), Option.getD_some]
  exact (List.perm_insertionSort _ l).mem_iff.mp (List.getElem_mem _)

/-- Interpolated order statistic at (real) position `h`. -/
noncomputable def interp (l : List ℝ) (h : ℝ) : ℝ :=
  (sortCol l).getD ⌊h⌋₊ 0 + (h - ⌊h⌋₊) *
    ((sortCol l).getD (min (⌊h⌋₊ + 1) (l.length - 1)) 0 - (sortCol l).getD ⌊h⌋₊ 0)

theorem percentile_eq (l : List ℝ) (hl : l ≠ []) (q : ℝ) :
    percentile l q = .ok (interp l (q * ((l.length : ℝ) - 1))) := by
  unfold percentile
  rw [if_neg hl]; rfl

theorem interp_bounds (l : List ℝ) (h : ℝ) (h0 : 0 ≤ h) (hh : h ≤ (l.length : ℝ) - 1) :
    (sortCol l).getD ⌊h⌋₊ 0 ≤ interp l h ∧
    interp l h ≤ (sortCol l).getD (min (⌊h⌋₊ + 1) (l.length - 1)) 0 ∧ ⌊h⌋₊ < l.length := by
  have hf := Nat.floor_le h0
  have hf1 := Nat.lt_floor_add_one h
  have hlt : ⌊h⌋₊ < l.length := by
    have : (⌊h⌋₊ : ℝ) < (l.length : ℝ) := by linarith
    exact_mod_cast this
  have hm := sortCol_mono l (i := ⌊h⌋₊) (j := min (⌊h⌋₊ + 1) (l.length - 1)) (by omega) (by omega)
  unfold interp
  set a := (sortCol l).getD ⌊h⌋₊ 0
  set b := (sortCol l).getD (min (⌊h⌋₊ + 1) (l.length - 1)) 0
  refine ⟨?_, ?_, hlt⟩
  · nlinarith
  · nlinarith

theorem interp_mono (l : List ℝ) (h h' : ℝ) (h0 : 0 ≤ h) (hle : h ≤ h')
    (hh : h' ≤ (l.length : ℝ) - 1) : interp l h ≤ interp l h' := by
  obtain ⟨_, a2, a3⟩ := interp_bounds l h h0 (hle.trans hh)
  obtain ⟨b1, _, b3⟩ := interp_bounds l h' (h0.trans hle) hh
  have hfl : ⌊h⌋₊ ≤ ⌊h'⌋₊ := Nat.floor_mono hle
  rcases Nat.lt_or_eq_of_le hfl with hlt | heq
  · exact a2.trans ((sortCol_mono l (by omega) b3).trans b1)
  · have hm := sortCol_mono l (i := ⌊h⌋₊) (j := min (⌊h⌋₊ + 1) (l.length - 1)) (by omega) (by omega)
    unfold interp
    rw [← heq]
    nlinarith

/-- **C71** A quantile level outside `[0,1]` is refused. -/
theorem reduceQuantile_refuses (ds : List (List ℝ)) (q : ℝ) (hq : q < 0 ∨ 1 < q) :
    reduceQuantile ds q = .error .valueError := by
  unfold reduceQuantile
  rw [if_pos]
  rintro ⟨h1, h2⟩
  rcases hq with h | h <;> linarith

theorem reduceQuantile_eq (ds : List (List ℝ)) (hne : ds.flatten ≠ []) (q : ℝ)
    (h0 : 0 ≤ q) (h1 : q ≤ 1) : reduceQuantile ds q =
      .ok (interp ds.flatten (q * ((ds.flatten.length : ℝ) - 1))) := by
  unfold reduceQuantile
  rw [if_neg (by simp [h0, h1])]
  have : ds ≠ [] := by rintro rfl; exact hne rfl
  have e : gnpConcat ds = .ok ds.flatten := by
    unfold gnpConcat; rw [if_neg (by simpa using this)]
  rw [e]
  exact percentile_eq _ hne q

/-- **C71** On nonempty data the quantiles are nondecreasing in the level, run
from the minimum (level 0) to the maximum (level 1), and depend only on the
multiset of values: not on the sharding nor on the row order. -/
theorem reduceQuantile_spec (ds : List (List ℝ)) (hne : ds.flatten ≠ []) :
    ∃ Q : ℝ → ℝ, (∀ q, 0 ≤ q → q ≤ 1 → reduceQuantile ds q = .ok (Q q)) ∧
      (∀ q q', 0 ≤ q → q ≤ q' → q' ≤ 1 → Q q ≤ Q q') ∧
      IsMinOf (Q 0) ds.flatten ∧ IsMaxOf (Q 1) ds.flatten ∧
      (∀ ds' : List (List ℝ), ds'.flatten.Perm ds.flatten →
        ∀ q, 0 ≤ q → q ≤ 1 → reduceQuantile ds' q = .ok (Q q)) := by
  have hpos : 0 < ds.flatten.length := List.length_pos_iff.mpr hne
  have hpos' : (1 : ℝ) ≤ ds.flatten.length := by exact_mod_cast hpos
  refine ⟨fun q => interp ds.flatten (q * ((ds.flatten.length : ℝ) - 1)),
    fun q h0 h1 => reduceQuantile_eq ds hne q h0 h1, ?_, ?_, ?_, ?_⟩
  · intro q q' h0 hle h1
    apply interp_mono
    · exact mul_nonneg h0 (by linarith)
    · exact mul_le_mul_of_nonneg_right hle (by linarith)
    · nlinarith
  · have e : interp ds.flatten (0 * ((ds.flatten.length : ℝ) - 1)) = (sortCol ds.flatten).getD 0 0 := by
      unfold interp; simp
    simp only [e]
    refine ⟨sortCol_mem _ hpos, ?_⟩
    intro x hx
    obtain ⟨i, hi, rfl⟩ := List.getElem_of_mem ((List.perm_insertionSort (· ≤ ·) ds.flatten).mem_iff.mpr hx)
    have := sortCol_mono ds.flatten (i := 0) (j := i) (by omega) (by rw [← sortCol_length]; exact hi)
    rwa [List.getD_eq_getElem?_getD (i := i), List.getElem?_eq_getElem hi, Option.getD_some] at this
  · have e : interp ds.flatten (1 * ((ds.flatten.length : ℝ) - 1)) =
        (sortCol ds.flatten).getD (ds.flatten.length - 1) 0 := by
      have : (1 : ℝ) * ((ds.flatten.length : ℝ) - 1) = ((ds.flatten.length - 1 : Nat) : ℝ) := by
        rw [Nat.cast_sub hpos]; simp
      unfold interp
      rw [this, Nat.floor_natCast]; simp
    simp only [e]
    refine ⟨sortCol_mem _ (by omega), ?_⟩
    intro x hx
    obtain ⟨i, hi, rfl⟩ := List.getElem_of_mem ((List.perm_insertionSort (· ≤ ·) ds.flatten).mem_iff.mpr hx)
    have hi' : i < ds.flatten.length := by rw [← sortCol_length]; exact hi
    have := sortCol_mono ds.flatten (i := i) (j := ds.flatten.length - 1) (by omega) (by omega)
    rwa [List.getD_eq_getElem?_getD (i := i), List.getElem?_eq_getElem hi, Option.getD_some] at this
  · intro ds' hp q h0 h1
    have hne' : ds'.flatten ≠ [] := by
      intro h; rw [h] at hp; exact hne hp.symm.eq_nil
    rw [reduceQuantile_eq ds' hne' q h0 h1]
    have hs : sortCol ds'.flatten = sortCol ds.flatten := by
      apply List.Perm.eq_of_pairwise' (r := (· ≤ ·))
      · exact List.pairwise_insertionSort _ _
      · exact List.pairwise_insertionSort _ _
      · exact (List.perm_insertionSort _ _).trans (hp.trans (List.perm_insertionSort _ _).symm)
    simp only [interp, hs, hp.length_eq]

/-- **C71** The quantile of level `(k + t) / (n - 1)` is the linear interpolation, at fraction
`t`, of the `k`-th and the next value of the sorted data; a single value is its own quantile
of every level. -/
theorem reduceQuantile_interp (ds : List (List ℝ)) (s : List ℝ) (hs : s.Pairwise (· ≤ ·))
    (hp : s.Perm ds.flatten) :
    (∀ (k : ℕ) (t : ℝ) (hk : k + 1 < s.length), 0 ≤ t → t ≤ 1 →
      reduceQuantile ds ((k + t) / ((s.length : ℝ) - 1)) =
        .ok ((1 - t) * s[k] + t * s[k + 1])) ∧
    (∀ (x q : ℝ), s = [x] → 0 ≤ q → q ≤ 1 → reduceQuantile ds q = .ok x) := by
  have hsort : sortCol ds.flatten = s :=
    List.Perm.eq_of_pairwise' (r := (· ≤ ·)) (List.pairwise_insertionSort _ _) hs
      ((List.perm_insertionSort _ _).trans hp.symm)
  have hlen : ds.flatten.length = s.length := hp.length_eq.symm
  refine ⟨fun k t hk h0 h1 => ?_, fun x q hx h0 h1 => ?_⟩
  · have hne : ds.flatten ≠ [] := by
      intro h; rw [h] at hlen; simp at hlen; omega
    have hn : (k : ℝ) + 1 + 1 ≤ s.length := by exact_mod_cast hk
    have hk0 : (0 : ℝ) ≤ k := Nat.cast_nonneg k
    have hd : (0 : ℝ) < (s.length : ℝ) - 1 := by linarith
    rw [reduceQuantile_eq ds hne _ (div_nonneg (by linarith) hd.le)
      ((div_le_one hd).mpr (by linarith)), hlen, div_mul_cancel₀ _ hd.ne']
    have g : ∀ i (hi : i < s.length), s.getD i 0 = s[i] := fun i hi => by
      rw [List.getD_eq_getElem?_getD, List.getElem?_eq_getElem hi, Option.getD_some]
    unfold interp
    rw [hsort, hlen]
    rcases lt_or_eq_of_le h1 with h | rfl
    · have hf : ⌊(k : ℝ) + t⌋₊ = k := by
        rw [Nat.floor_eq_iff (by linarith)]
        exact ⟨by linarith, by linarith⟩
      rw [hf, show min (k + 1) (s.length - 1) = k + 1 by omega, g k (by omega), g (k + 1) hk]
      congr 1; ring
    · have hf : ⌊(k : ℝ) + 1⌋₊ = k + 1 := by
        have := Nat.floor_natCast (R := ℝ) (k + 1)
        rwa [Nat.cast_succ] at this
      rw [hf, g (k + 1) hk]
      push_cast
      congr 1; ring
  · have hne : ds.flatten ≠ [] := by
      intro h; rw [h, hx] at hlen; simp at hlen
    rw [reduceQuantile_eq ds hne _ h0 h1, hlen]
    unfold interp
    rw [hsort, hlen, hx]
    simp

/-- The median of 3, 1, 2, 7 is halfway between 2 and 3. -/
example : reduceQuantile [[3, 1], [2, 7]] (1 / 2) = .ok (5 / 2) := by
  have hp : ([1, 2, 3, 7] : List ℕ).Perm [3, 1, 2, 7] := by decide
  have hr := hp.map (fun n : ℕ => (n : ℝ))
  have h := (reduceQuantile_interp [[3, 1], [2, 7]] [1, 2, 3, 7] (by norm_num)
    (by simpa using hr)).1 1 (1 / 2) (by simp) (by norm_num) (by norm_num)
  norm_num at h
  rw [h]

example : ([[3, 1], [2]] : List (List ℝ)).flatten ≠ [] := by simp

theorem interp_affine (l : List ℝ) (hl : l ≠ []) (m d : ℝ) (hd : 0 < d) (h : ℝ) (h0 : 0 ≤ h)
    (hh : h ≤ (l.length : ℝ) - 1) :
    interp (l.map (fun x => (x - m) / d)) h = (interp l h - m) / d := by
  have hs : sortCol (l.map (fun x => (x - m) / d)) = (sortCol l).map (fun x => (x - m) / d) := by
    symm
    apply List.map_insertionSort
    intro a _ b _
    rw [div_le_div_iff_of_pos_right hd]
    constructor <;> intro h <;> linarith
  obtain ⟨_, _, hlt⟩ := interp_bounds l h h0 hh
  have hl' := sortCol_length l
  have g : ∀ i, i < l.length → ((sortCol l).map (fun x => (x - m) / d)).getD i 0 =
      ((sortCol l).getD i 0 - m) / d := by
    intro i hi
    rw [List.getD_eq_getElem?_getD, List.getD_eq_getElem?_getD, List.getElem?_map,
      List.getElem?_eq_getElem (by omega)]
    rfl
  unfold interp
  rw [hs, List.length_map, g _ hlt, g _ (by omega)]
  field_simp
  ring

/-- **C71** `RobustScaler.fit` with quartile levels in `[0,100]`: the fitted
column is sent to median zero, and to interquartile range one unless that range
is below `1e-8`. -/
theorem robust_standardises (l : List ℝ) (hl : l ≠ []) (qlo qhi : ℝ)
    (h1 : 0 ≤ qlo) (h2 : qlo ≤ qhi) (h3 : qhi ≤ 100) :
    ∃ s, fitRobust l qlo qhi = .ok s ∧
      percentile (l.map s.transform) (1 / 2) = .ok 0 ∧
      ∃ lo hi, percentile l (qlo / 100) = .ok lo ∧ percentile l (qhi / 100) = .ok hi ∧
        (1e-8 ≤ hi - lo →
          ∃ lo' hi', percentile (l.map s.transform) (qlo / 100) = .ok lo' ∧
            percentile (l.map s.transform) (qhi / 100) = .ok hi' ∧ hi' - lo' = 1) := by
  have hpos : 0 < l.length := List.length_pos_iff.mpr hl
  have hpos' : (1 : ℝ) ≤ l.length := by exact_mod_cast hpos
  have hml : ∀ f : ℝ → ℝ, l.map f ≠ [] := by intro f; simpa using hl
  have aff : ∀ (s : Scaler), 0 < s.scale → ∀ q : ℝ, 0 ≤ q → q ≤ 1 →
      percentile (l.map s.transform) q =
        .ok ((interp l (q * ((l.length : ℝ) - 1)) - s.shift) / s.scale) := by
    intro s hs q q0 q1
    rw [percentile_eq _ (hml _), List.length_map]
    congr 1
    exact interp_affine l hl s.shift s.scale hs _ (mul_nonneg q0 (by linarith)) (by nlinarith)
  refine ⟨mkScaler (interp l (50 / 100 * ((l.length : ℝ) - 1)))
    (interp l (qhi / 100 * ((l.length : ℝ) - 1)) - interp l (qlo / 100 * ((l.length : ℝ) - 1))), ?_, ?_,
    interp l (qlo / 100 * ((l.length : ℝ) - 1)), interp l (qhi / 100 * ((l.length : ℝ) - 1)),
    percentile_eq l hl _, percentile_eq l hl _, ?_⟩
  · unfold fitRobust
    rw [percentile_eq l hl, percentile_eq l hl, percentile_eq l hl]; rfl
  · rw [aff _ (mkScaler_scale_pos _ _) _ (by norm_num) (by norm_num)]
    congr 1
    rw [show (1 / 2 : ℝ) = 50 / 100 by norm_num]
    simp [mkScaler]
  · intro he
    change scalerEps ≤ _ at he
    refine ⟨_, _, aff _ (mkScaler_scale_pos _ _) _ (by positivity) (by linarith),
      aff _ (mkScaler_scale_pos _ _) _ (by linarith) (by linarith), ?_⟩
    simp only [mkScaler, if_neg (not_lt.mpr he)]
    rw [← sub_div]
    rw [sub_sub_sub_cancel_right]
    exact div_self (by have := scalerEps_pos; linarith)

end Verif.Data
