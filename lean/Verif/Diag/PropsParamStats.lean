import Verif.Diag.ParamStats
import Mathlib.Tactic.Linarith
import Mathlib.Tactic.Ring
import Mathlib.Tactic.FieldSimp
import Mathlib.Tactic.NormNum
import Mathlib.Analysis.SpecialFunctions.Exp
import Mathlib.Algebra.BigOperators.Intervals

/-!
# Properties of grid statistics of a criterion
-/

set_option autoImplicit false

namespace Verif.ParamStats

open Verif

/-! ## Specification -/

/-- The trapezoidal rule on the first `m` panels of width `h`. -/
noncomputable def trap (h : ℝ) (m : ℕ) (y : ℕ → ℝ) : ℝ := h * ∑ i ∈ Finset.range m, (y i + y (i + 1)) / 2

/-- `exp(-v)` for a criterion value `v`, infinite values having no weight. -/
noncomputable def weight (v : EReal) : ℝ := open Classical in if v = ⊤ then 0 else Real.exp (-v.toReal)

/-- `r` is the number whose level is `q` when the cumulated weights are interpolated linearly
between the `k` points `x`. -/
def IsQuantile (h : ℝ) (k : ℕ) (x p : ℕ → ℝ) (q r : ℝ) : Prop :=
  let c := fun i => trap h i p / trap h (k - 1) p
  ∃ i, i + 1 < k ∧ c i ≤ q ∧ q < c (i + 1) ∧ r = x i + (q - c i) / (c (i + 1) - c i) * (x (i + 1) - x i)

/-! ## Sums -/

theorem range_sum (k : ℕ) (r : ℕ → ℝ) : ((List.range k).map r).sum = ∑ i ∈ Finset.range k, r i := by
  induction k with
  | zero => simp
  | succ k ih => rw [List.range_succ, List.map_append, List.sum_append, ih, Finset.sum_range_succ]; simp

theorem lin_step (lo hi : ℝ) (k i : ℕ) : lin lo hi k (i + 1) - lin lo hi k i = (hi - lo) / ((k : ℝ) - 1) := by
  unfold lin; push_cast; ring

theorem trapz_fin {lo hi : ℝ} {k m : ℕ} {y : ℕ → Flt} {r : ℕ → ℝ} (hy : ∀ i < m, y i = Flt.fin (r i)) :
    trapz m (fun i => Flt.fin (lin lo hi k i)) y = Flt.fin (trap ((hi - lo) / ((k : ℝ) - 1)) (m - 1) r) := by
  unfold trapz trap
  have : ((List.range (m - 1)).map fun i =>
      Flt.div (((Flt.fin (lin lo hi k (i + 1))).sub (Flt.fin (lin lo hi k i))).mul ((y (i + 1)).add (y i)))
        (Flt.fin 2)) =
      ((List.range (m - 1)).map fun i => (hi - lo) / ((k : ℝ) - 1) * ((r i + r (i + 1)) / 2)).map Flt.fin := by
    rw [List.map_map]
    apply List.map_congr_left
    intro i hi'
    have hi' := List.mem_range.mp hi'
    rw [hy i (by omega), hy (i + 1) (by omega), Flt.sub_fin, Flt.add_fin, Flt.mul_fin, Flt.div_fin two_ne_zero,
      lin_step]
    simp only [Function.comp]
    congr 1; ring
  rw [this, Flt.foldl_add_fin, range_sum, zero_add, Finset.mul_sum]

theorem trapz_nan {m : ℕ} {x y : ℕ → Flt} {i : ℕ} (h : i < m) (hm : 2 ≤ m) (hy : y i = .nan) :
    trapz m x y = .nan := by
  unfold trapz
  have key : ∀ (l : List Flt) (c : Flt), Flt.nan ∈ l → l.foldl Flt.add c = .nan := by
    intro l
    induction l with
    | nil => intro c h; cases h
    | cons a l ih =>
      intro c h
      rcases List.mem_cons.mp h with rfl | h
      · simp [Flt.foldl_add_nan]
      · exact ih _ h
  apply key
  have hd : ∀ a, Flt.div .nan a = .nan := fun a => by cases a <;> rfl
  by_cases h1 : i + 1 < m
  · refine List.mem_map.mpr ⟨i, List.mem_range.mpr (by omega), ?_⟩
    simp [hy, hd]
  · refine List.mem_map.mpr ⟨i - 1, List.mem_range.mpr (by omega), ?_⟩
    have : i - 1 + 1 = i := by omega
    simp [this, hy, hd]

theorem trap_nonneg {h : ℝ} {m : ℕ} {y : ℕ → ℝ} (hh : 0 ≤ h) (hy : ∀ i ≤ m, 0 ≤ y i) : 0 ≤ trap h m y := by
  unfold trap
  refine mul_nonneg hh (Finset.sum_nonneg fun i hi => ?_)
  have hi := Finset.mem_range.mp hi
  have := hy i (by omega); have := hy (i + 1) (by omega)
  linarith

theorem trap_pos {h : ℝ} {m : ℕ} {y : ℕ → ℝ} (hh : 0 < h) (hm : 1 ≤ m) (hy : ∀ i ≤ m, 0 ≤ y i) {j : ℕ} (hj : j ≤ m)
    (hp : 0 < y j) : 0 < trap h m y := by
  unfold trap
  refine mul_pos hh (Finset.sum_pos' (fun i hi => ?_) ?_)
  · have hi := Finset.mem_range.mp hi
    have := hy i (by omega); have := hy (i + 1) (by omega)
    linarith
  · by_cases h1 : j < m
    · refine ⟨j, Finset.mem_range.mpr h1, ?_⟩
      have := hy (j + 1) (by omega)
      linarith
    · refine ⟨j - 1, Finset.mem_range.mpr (by omega), ?_⟩
      have e : j - 1 + 1 = j := by omega
      have := hy (j - 1) (by omega)
      rw [e]; linarith

theorem trap_congr {h : ℝ} {m : ℕ} {y z : ℕ → ℝ} (hy : ∀ i ≤ m, y i = z i) : trap h m y = trap h m z := by
  unfold trap
  congr 1
  refine Finset.sum_congr rfl fun i hi => ?_
  have hi := Finset.mem_range.mp hi
  rw [hy i (by omega), hy (i + 1) (by omega)]

theorem trap_add (h : ℝ) (m : ℕ) (y z : ℕ → ℝ) : trap h m (fun i => y i + z i) = trap h m y + trap h m z := by
  unfold trap
  rw [← mul_add, ← Finset.sum_add_distrib]
  congr 1
  exact Finset.sum_congr rfl fun i _ => by ring

theorem trap_smul (h : ℝ) (m : ℕ) (c : ℝ) (y : ℕ → ℝ) : trap h m (fun i => c * y i) = c * trap h m y := by
  unfold trap
  rw [mul_left_comm]
  congr 1
  rw [Finset.mul_sum]
  exact Finset.sum_congr rfl fun i _ => by ring

theorem trap_succ (h : ℝ) (m : ℕ) (y : ℕ → ℝ) : trap h (m + 1) y = trap h m y + h * ((y m + y (m + 1)) / 2) := by
  unfold trap
  rw [Finset.sum_range_succ, mul_add]

/-! ## Interpolation and the mode -/

theorem takeWhile_range (p : ℕ → Bool) (k : ℕ) : ∃ m ≤ k, (List.range k).takeWhile p = List.range m ∧
    (∀ i < m, p i = true) ∧ (m < k → p m = false) := by
  induction k with
  | zero => exact ⟨0, le_refl _, by simp, by simp, by simp⟩
  | succ k ih =>
    obtain ⟨m, hm, h1, h2, h3⟩ := ih
    rw [List.range_succ, List.takeWhile_append, h1]
    simp only [List.length_range]
    by_cases e : m = k
    · subst e
      simp only [if_true]
      cases hp : p m with
      | true => exact ⟨m + 1, le_refl _, by simp [hp, List.range_succ], fun i hi => by
          rcases Nat.lt_succ_iff_lt_or_eq.mp hi with h | rfl
          · exact h2 i h
          · exact hp, fun h => by omega⟩
      | false => exact ⟨m, by omega, by simp [hp], h2, fun _ => hp⟩
    · rw [if_neg e]
      exact ⟨m, by omega, rfl, h2, fun _ => h3 (by omega)⟩

theorem interp_fin {k : ℕ} {xp fp : ℕ → Flt} {c x : ℕ → ℝ} {q : ℝ} (hk : 2 ≤ k) (hx : ∀ i < k, xp i = Flt.fin (c i))
    (hf : ∀ i, fp i = Flt.fin (x i)) (h0 : c 0 ≤ q) (h1 : q < c (k - 1)) :
    ∃ i, i + 1 < k ∧ c i ≤ q ∧ q < c (i + 1) ∧
      interp k xp fp (Flt.fin q) = Flt.fin (x i + (q - c i) / (c (i + 1) - c i) * (x (i + 1) - x i)) := by
  classical
  obtain ⟨m, hm, e1, e2, e3⟩ := takeWhile_range (fun i => decide (Flt.le (xp i) (Flt.fin q))) k
  unfold interp
  have e1' : (List.takeWhile (fun i => decide ((xp i).le (Flt.fin q))) (List.range k)).length = m := by
    have := congrArg List.length e1
    rw [List.length_range] at this
    rw [← this]
  rw [e1']
  have p0 : m ≠ 0 := by
    rintro rfl
    have := e3 (by omega)
    rw [hx 0 (by omega)] at this
    simp at this
    linarith
  have pk : m ≠ k := by
    rintro rfl
    have := e2 (m - 1) (by omega)
    rw [hx (m - 1) (by omega)] at this
    simp at this
    linarith
  rw [if_neg p0, if_neg pk]
  have hmk : m < k := by omega
  have a1 := e2 (m - 1) (by omega)
  have a2 := e3 hmk
  rw [hx _ (by omega)] at a1 a2
  simp at a1 a2
  have e : m - 1 + 1 = m := by omega
  refine ⟨m - 1, by omega, a1, by rw [e]; exact a2, ?_⟩
  dsimp only
  rw [e, hx (m - 1) (by omega), hx m hmk, hf, hf]
  by_cases hq : c (m - 1) = q
  · rw [if_pos (by rw [hq]), hq]; simp
  · rw [if_neg (by rw [Flt.fin_inj]; exact hq), Flt.sub_fin, Flt.sub_fin, Flt.sub_fin,
      Flt.div_fin (by linarith), Flt.mul_fin, Flt.add_fin]
    congr 1; ring

theorem argmax_spec {k : ℕ} {w : ℕ → Flt} {r : ℕ → ℝ} (hk : 1 ≤ k) (hw : ∀ i < k, w i = Flt.fin (r i)) :
    argmax k w < k ∧ (∀ i < k, r i ≤ r (argmax k w)) ∧ ∀ i < argmax k w, r i < r (argmax k w) := by
  classical
  have key : ∀ m ≤ k, let b := (List.range m).foldl (fun b i => if Flt.lt (w b) (w i) then i else b) 0
      (b < max m 1) ∧ (∀ i < m, r i ≤ r b) ∧ ∀ i < b, r i < r b := by
    intro m
    induction m with
    | zero => intro _; simp
    | succ m ih =>
      intro hm
      obtain ⟨h1, h2, h3⟩ := ih (by omega)
      simp only [List.range_succ, List.foldl_append, List.foldl_cons, List.foldl_nil]
      set b := (List.range m).foldl (fun b i => if Flt.lt (w b) (w i) then i else b) 0
      rw [hw b (by omega), hw m (by omega)]
      by_cases h : r b < r m
      · rw [if_pos (by simpa using h)]
        refine ⟨by omega, fun i hi => ?_, fun i hi => ?_⟩
        · rcases Nat.lt_succ_iff_lt_or_eq.mp hi with h' | rfl
          · exact (h2 i h').trans h.le
          · exact le_refl _
        · exact lt_of_le_of_lt (h2 i hi) h
      · rw [if_neg (by simpa using h)]
        refine ⟨by omega, fun i hi => ?_, h3⟩
        rcases Nat.lt_succ_iff_lt_or_eq.mp hi with h' | rfl
        · exact h2 i h'
        · exact not_lt.mp h
  have := key k le_rfl
  unfold argmax
  refine ⟨?_, this.2⟩
  have := this.1
  simp only [max_eq_left hk] at this
  convert this

/-! ## The weights -/

theorem npMax_num {l : List EReal} (h : l ≠ []) : ∃ M ∈ l, (∀ x ∈ l, x ≤ M) ∧ npMax (l.map .num) = .ok (.num M) := by
  cases l with
  | nil => exact absurd rfl h
  | cons a l =>
    simp only [List.map_cons, npMax]
    clear h
    induction l generalizing a with
    | nil => exact ⟨a, by simp, by simp, rfl⟩
    | cons b l ih =>
      obtain ⟨M, h1, h2, h3⟩ := ih (max a b)
      refine ⟨M, ?_, ?_, ?_⟩
      · rcases List.mem_cons.mp h1 with rfl | h1
        · rcases max_choice a b with h | h <;> rw [h] <;> simp
        · simp [h1]
      · have := h2 (max a b) (by simp)
        intro x hx
        rcases List.mem_cons.mp hx with rfl | hx
        · exact (le_max_left _ _).trans this
        rcases List.mem_cons.mp hx with rfl | hx
        · exact (le_max_right _ _).trans this
        · exact h2 x (by simp [hx])
      · simpa [fmax] using h3

theorem npMax_nan {l : List Flt} (h : Flt.nan ∈ l) : npMax l = .ok .nan := by
  have hn : ∀ l : List Flt, l.foldl fmax .nan = .nan := by
    intro l
    induction l with
    | nil => rfl
    | cons a l ih => simpa [fmax] using ih
  cases l with
  | nil => cases h
  | cons a l =>
    simp only [npMax]
    congr 1
    rcases List.mem_cons.mp h with rfl | h
    · exact hn l
    · induction l generalizing a with
      | nil => cases h
      | cons b l ih =>
        simp only [List.foldl_cons]
        rcases List.mem_cons.mp h with rfl | h
        · have : fmax a .nan = .nan := by cases a <;> rfl
          rw [this, hn]
        · exact ih _ (by simp [h]) h

theorem mapM_ok {α β : Type} (l : List α) {f : α → Py β} {g : α → β} (h : ∀ a ∈ l, f a = .ok (g a)) :
    l.mapM f = .ok (l.map g) := by
  induction l with
  | nil => rfl
  | cons a l ih =>
    rw [List.mapM_cons, h a (by simp), ih fun b hb => h b (by simp [hb])]
    rfl

/-- The criterion on the grid. -/
def OnGrid (f : ℝ → Py Flt) (lo hi : ℝ) (k : ℕ) (v : ℕ → EReal) : Prop :=
  ∀ i < k, f (lin lo hi k i) = .ok (.num (v i))

theorem weights {k : ℕ} {v : ℕ → EReal} (hb : ∀ i < k, v i ≠ ⊥) (ht : ∃ i < k, v i ≠ ⊤) :
    ∃ (M : EReal) (E : ℝ), 0 < E ∧ npMax ((List.range k).map fun i => (Flt.num (v i)).neg) = .ok (.num M) ∧
      ∀ i < k, (((Flt.num (v i)).neg).sub (.num M)).exp = Flt.fin (E * weight (v i)) := by
  obtain ⟨j, hj, hj'⟩ := ht
  obtain ⟨M, h1, h2, h3⟩ := npMax_num (l := (List.range k).map fun i => - v i) (by
    intro h
    have := congrArg List.length h
    simp at this
    omega)
  obtain ⟨i0, hi0, rfl⟩ := List.mem_map.mp h1
  have hi0 := List.mem_range.mp hi0
  have t1 : v i0 ≠ ⊤ := by
    intro h
    have := h2 (- v j) (List.mem_map.mpr ⟨j, List.mem_range.mpr hj, rfl⟩)
    rw [h, EReal.neg_top, le_bot_iff, EReal.neg_eq_bot_iff] at this
    exact hj' this
  have t2 := hb i0 hi0
  generalize ht : v i0 = t at t1 t2 h3
  induction t with
  | bot => exact absurd rfl t2
  | top => exact absurd rfl t1
  | coe t =>
    refine ⟨-(t : EReal), Real.exp t, Real.exp_pos _, ?_, ?_⟩
    · rw [List.map_map] at h3
      exact h3
    · intro i hi
      have b1 := hb i hi
      generalize v i = x at b1
      have e : Flt.num (-(t : EReal)) = Flt.fin (-t) := rfl
      induction x with
      | bot => exact absurd rfl b1
      | top =>
        simp only [weight, if_true, mul_zero]
        have : (Flt.num ⊤).neg.sub (Flt.num (-(t : EReal))) = .num ⊥ := by
          rw [e]
          simp [Flt.neg, Flt.sub, Flt.add, Flt.fin]
        rw [this, Flt.exp_bot]
      | coe x =>
        have e2 : (Flt.num (x : EReal)).neg = Flt.fin (-x) := rfl
        rw [e, e2, Flt.sub_fin, Flt.exp_fin, weight, if_neg (EReal.coe_ne_top x), EReal.toReal_coe, ← Real.exp_add]
        congr 2; ring

/-! ## Values -/

/-- The statistics of the weights `exp(-v)` on `k` points from `lo` to `hi`. -/
structure Summary (lo hi : ℝ) (k : ℕ) (v : ℕ → EReal) (s : Stats) : Prop where
  mean : s.mean = Flt.fin (trap ((hi - lo) / ((k : ℝ) - 1)) (k - 1) (fun i => lin lo hi k i * weight (v i)) /
    trap ((hi - lo) / ((k : ℝ) - 1)) (k - 1) fun i => weight (v i))
  var : s.var = Flt.fin (trap ((hi - lo) / ((k : ℝ) - 1)) (k - 1) (fun i => lin lo hi k i ^ 2 * weight (v i)) /
    trap ((hi - lo) / ((k : ℝ) - 1)) (k - 1) (fun i => weight (v i)) -
    (trap ((hi - lo) / ((k : ℝ) - 1)) (k - 1) (fun i => lin lo hi k i * weight (v i)) /
    trap ((hi - lo) / ((k : ℝ) - 1)) (k - 1) fun i => weight (v i)) ^ 2)
  q10 : ∃ r, s.q10 = Flt.fin r ∧
    IsQuantile ((hi - lo) / ((k : ℝ) - 1)) k (lin lo hi k) (fun i => weight (v i)) (1 / 10) r
  q25 : ∃ r, s.q25 = Flt.fin r ∧
    IsQuantile ((hi - lo) / ((k : ℝ) - 1)) k (lin lo hi k) (fun i => weight (v i)) (1 / 4) r
  q50 : ∃ r, s.q50 = Flt.fin r ∧
    IsQuantile ((hi - lo) / ((k : ℝ) - 1)) k (lin lo hi k) (fun i => weight (v i)) (1 / 2) r
  q75 : ∃ r, s.q75 = Flt.fin r ∧
    IsQuantile ((hi - lo) / ((k : ℝ) - 1)) k (lin lo hi k) (fun i => weight (v i)) (3 / 4) r
  q90 : ∃ r, s.q90 = Flt.fin r ∧
    IsQuantile ((hi - lo) / ((k : ℝ) - 1)) k (lin lo hi k) (fun i => weight (v i)) (9 / 10) r
  mode : ∃ i < k, s.mode = Flt.fin (lin lo hi k i) ∧ (∀ j < k, v i ≤ v j) ∧ ∀ j < i, v i < v j

theorem weight_nonneg (v : EReal) : 0 ≤ weight v := by
  unfold weight; split_ifs
  · exact le_refl _
  · exact (Real.exp_pos _).le

theorem weight_pos {v : EReal} (h : v ≠ ⊤) : 0 < weight v := by
  unfold weight; rw [if_neg h]; exact Real.exp_pos _

theorem weight_le {a b : EReal} (ha : a ≠ ⊥) (hb : b ≠ ⊥) : weight a ≤ weight b ↔ b ≤ a := by
  unfold weight
  induction a with
  | bot => exact absurd rfl ha
  | top =>
    simp only [if_true, le_top, iff_true]
    exact weight_nonneg b
  | coe a =>
    rw [if_neg (EReal.coe_ne_top a)]
    induction b with
    | bot => exact absurd rfl hb
    | top =>
      simp only [if_true, EReal.toReal_coe]
      constructor
      · intro h; exact absurd h (not_le.mpr (Real.exp_pos _))
      · intro h; exact absurd (top_le_iff.mp h) (EReal.coe_ne_top a)
    | coe b =>
      rw [if_neg (EReal.coe_ne_top b)]
      simp

theorem onGrid_vals {f : ℝ → Py Flt} {lo hi : ℝ} {k : ℕ} {v : ℕ → EReal} (h : OnGrid f lo hi k v) :
    ((List.range k).mapM fun i => f (lin lo hi k i)) = .ok ((List.range k).map fun i => .num (v i)) :=
  mapM_ok _ fun i hi => h i (List.mem_range.mp hi)

theorem getD_range {k i : ℕ} (h : i < k) (v : ℕ → Flt) : ((List.range k).map v).getD i .nan = v i := by
  simp [List.getD, h]

theorem step_pos {lo hi : ℝ} {k : ℕ} (hk : 2 ≤ k) (h : lo < hi) : 0 < (hi - lo) / ((k : ℝ) - 1) := by
  have : (2 : ℝ) ≤ k := by exact_mod_cast hk
  exact div_pos (by linarith) (by linarith)

/-- **C146** On an interval with at least two points, for a criterion with values that are numbers
or `+inf`, not all infinite, the function returns the mean, variance, quantiles and mode of the
weights `exp(-criterion)` on the grid. -/
theorem fast_values {f : ℝ → Py Flt} {lo hi : ℝ} {k : ℕ} {v : ℕ → EReal} (hk : 2 ≤ k) (hlt : lo < hi)
    (hv : OnGrid f lo hi k v) (hb : ∀ i < k, v i ≠ ⊥) (ht : ∃ i < k, v i ≠ ⊤) :
    ∃ s, fastStats f lo hi k = .ok s ∧ Summary lo hi k v s := by
  obtain ⟨M, E, hE, hM, hw⟩ := weights hb ht
  obtain ⟨j, hj, hj'⟩ := ht
  unfold fastStats
  rw [if_neg (by omega)]
  simp only [Int.toNat_natCast, bind, Except.bind, onGrid_vals hv, List.map_map, Function.comp_def, hM]
  set h := (hi - lo) / ((k : ℝ) - 1) with hh
  have hpos : 0 < h := step_pos hk hlt
  generalize hW : (fun i => (((((List.range k).map fun i => Flt.num (v i)).getD i .nan).neg).sub (.num M)).exp) = w
  have hwi : ∀ i < k, w i = Flt.fin (E * weight (v i)) := fun i hi => by
    rw [← hW]; dsimp only; rw [getD_range hi]; exact hw i hi
  have hT : 0 < trap h (k - 1) fun i => weight (v i) :=
    trap_pos hpos (by omega) (fun i _ => weight_nonneg _) (j := j) (by omega) (weight_pos hj')
  have hZ : trapz k (fun i => Flt.fin (lin lo hi k i)) w = Flt.fin (E * trap h (k - 1) fun i => weight (v i)) := by
    rw [trapz_fin hwi, trap_smul]
  have hZ0 : E * trap h (k - 1) (fun i => weight (v i)) ≠ 0 := (mul_pos hE hT).ne'
  have hm : (trapz k (fun i => Flt.fin (lin lo hi k i)) fun i => (Flt.fin (lin lo hi k i)).mul (w i)) =
      Flt.fin (E * trap h (k - 1) fun i => lin lo hi k i * weight (v i)) := by
    rw [trapz_fin (r := fun i => E * (lin lo hi k i * weight (v i))) (fun i hi' => by
      rw [hwi i hi', Flt.mul_fin]; congr 1; ring), trap_smul]
  have hs : (trapz k (fun i => Flt.fin (lin lo hi k i)) fun i =>
      ((Flt.fin (lin lo hi k i)).mul (Flt.fin (lin lo hi k i))).mul (w i)) =
      Flt.fin (E * trap h (k - 1) fun i => lin lo hi k i ^ 2 * weight (v i)) := by
    rw [trapz_fin (r := fun i => E * (lin lo hi k i ^ 2 * weight (v i))) (fun i hi' => by
      rw [hwi i hi', Flt.mul_fin, Flt.mul_fin]; congr 1; ring), trap_smul]
  have hq : ∀ q : ℝ, 0 < q → q < 1 → ∃ r, interp k (fun i => (cumtrapz (fun i => Flt.fin (lin lo hi k i)) w i).div
      (Flt.fin (E * trap h (k - 1) fun i => weight (v i)))) (fun i => Flt.fin (lin lo hi k i)) (Flt.fin q) = Flt.fin r ∧
      IsQuantile h k (lin lo hi k) (fun i => weight (v i)) q r := by
    intro q q0 q1
    obtain ⟨i, a1, a2, a3, a4⟩ := interp_fin (k := k)
      (xp := fun i => (cumtrapz (fun i => Flt.fin (lin lo hi k i)) w i).div
        (Flt.fin (E * trap h (k - 1) fun i => weight (v i)))) (fp := fun i => Flt.fin (lin lo hi k i))
      (c := fun i => trap h i (fun i => weight (v i)) / trap h (k - 1) (fun i => weight (v i)))
      (x := lin lo hi k) (q := q) hk
      (fun i hi' => by
        rw [cumtrapz, trapz_fin (r := fun i => E * weight (v i)) (fun i hi => hwi i (by omega)), Flt.div_fin hZ0,
          trap_smul]
        congr 1
        simp only [Nat.add_sub_cancel]
        rw [← hh]
        field_simp)
      (fun i => rfl) (by simp [trap]; exact q0.le) (by
        rw [div_self hT.ne']; exact q1)
    exact ⟨_, a4, i, a1, a2, a3, rfl⟩
  obtain ⟨b1, b2, b3⟩ := argmax_spec (k := k) (by omega) hwi
  unfold statsOf
  dsimp only
  rw [hZ, if_neg (by
    rw [not_or, not_not]
    exact ⟨⟨_, rfl⟩, by rw [Flt.fin_le]; exact not_le.mpr (mul_pos hE hT)⟩)]
  refine ⟨_, rfl, ?_, ?_, hq _ (by norm_num) (by norm_num), hq _ (by norm_num) (by norm_num),
    hq _ (by norm_num) (by norm_num), hq _ (by norm_num) (by norm_num), hq _ (by norm_num) (by norm_num), ?_⟩
  · dsimp only
    rw [hm, Flt.div_fin hZ0, mul_div_mul_left _ _ hE.ne']
  · dsimp only
    rw [hm, hs, Flt.div_fin hZ0, Flt.div_fin hZ0, mul_div_mul_left _ _ hE.ne', mul_div_mul_left _ _ hE.ne', Flt.mul_fin,
      Flt.sub_fin, sq]
  · refine ⟨_, b1, rfl, fun j hj => ?_, fun j hj => ?_⟩
    · rw [← weight_le (hb j hj) (hb _ b1)]
      exact le_of_mul_le_mul_left (b2 j hj) hE
    · rw [← not_le, ← weight_le (hb _ b1) (hb j (by omega)), not_le]
      exact lt_of_mul_lt_mul_left (b3 j hj) hE.le

example : ∃ s, fastStats (fun x => .ok (Flt.fin (x ^ 2))) 0 1 2 = .ok s ∧
    Summary 0 1 2 (fun i => (((lin 0 1 2 i) ^ 2 : ℝ) : EReal)) s :=
  fast_values le_rfl one_pos (fun _ _ => rfl) (fun _ _ => EReal.coe_ne_bot _) ⟨0, two_pos, EReal.coe_ne_top _⟩

/-! ## Bounds -/

theorem lin_mono {lo hi : ℝ} {k i j : ℕ} (hk : 2 ≤ k) (h : lo < hi) (hij : i ≤ j) : lin lo hi k i ≤ lin lo hi k j := by
  unfold lin
  have := step_pos hk h
  have : (i : ℝ) ≤ j := by exact_mod_cast hij
  nlinarith

theorem lin_last {lo hi : ℝ} {k : ℕ} (hk : 2 ≤ k) : lin lo hi k (k - 1) = hi := by
  unfold lin
  have : (2 : ℝ) ≤ k := by exact_mod_cast hk
  have : (k : ℝ) - 1 ≠ 0 := by linarith
  rw [Nat.cast_sub (by omega), Nat.cast_one]
  field_simp
  ring

theorem lin_zero (lo hi : ℝ) (k : ℕ) : lin lo hi k 0 = lo := by simp [lin]

theorem lin_bounds {lo hi : ℝ} {k i : ℕ} (hk : 2 ≤ k) (h : lo < hi) (hi' : i < k) :
    lo ≤ lin lo hi k i ∧ lin lo hi k i ≤ hi := by
  constructor
  · have := lin_mono hk h (Nat.zero_le i)
    rwa [lin_zero] at this
  · have := lin_mono hk h (show i ≤ k - 1 by omega)
    rwa [lin_last hk] at this

theorem trap_mono {h : ℝ} {p : ℕ → ℝ} (hh : 0 ≤ h) (hp : ∀ i, 0 ≤ p i) {i j : ℕ} (hij : i ≤ j) :
    trap h i p ≤ trap h j p := by
  induction j, hij using Nat.le_induction with
  | base => exact le_refl _
  | succ j _ ih =>
    rw [trap_succ]
    have : 0 ≤ h * ((p j + p (j + 1)) / 2) := mul_nonneg hh (by have := hp j; have := hp (j + 1); linarith)
    linarith

theorem quantile_between {h : ℝ} {k : ℕ} {x p : ℕ → ℝ} {q r : ℝ} (hx : ∀ i, i + 1 < k → x i ≤ x (i + 1))
    (H : IsQuantile h k x p q r) : ∃ i, i + 1 < k ∧ x i ≤ r ∧ r ≤ x (i + 1) ∧
      trap h i p / trap h (k - 1) p ≤ q ∧ q < trap h (i + 1) p / trap h (k - 1) p := by
  obtain ⟨i, h1, h2, h3, h4⟩ := H
  refine ⟨i, h1, ?_, ?_, h2, h3⟩ <;> dsimp only at h2 h3 h4
  · rw [h4]
    have : 0 ≤ (q - trap h i p / trap h (k - 1) p) / (trap h (i + 1) p / trap h (k - 1) p - trap h i p / trap h (k - 1) p) :=
      div_nonneg (by linarith) (by linarith)
    have := mul_nonneg this (sub_nonneg.mpr (hx i h1))
    linarith
  · rw [h4]
    have : (q - trap h i p / trap h (k - 1) p) / (trap h (i + 1) p / trap h (k - 1) p - trap h i p / trap h (k - 1) p) ≤ 1 :=
      (div_le_one (by linarith)).mpr (by linarith)
    have := mul_le_mul_of_nonneg_right this (sub_nonneg.mpr (hx i h1))
    linarith

theorem quantile_mono {h : ℝ} {k : ℕ} {x p : ℕ → ℝ} {q q' r r' : ℝ} (hh : 0 ≤ h) (hp : ∀ i, 0 ≤ p i)
    (hx : ∀ i j, i ≤ j → j < k → x i ≤ x j)
    (hT : 0 < trap h (k - 1) p) (hq : q ≤ q') (H : IsQuantile h k x p q r) (H' : IsQuantile h k x p q' r') :
    r ≤ r' := by
  have hx1 : ∀ i, i + 1 < k → x i ≤ x (i + 1) := fun i hi => hx _ _ (by omega) hi
  obtain ⟨i, h1, h2, h3, h4⟩ := H
  obtain ⟨i', h1', h2', h3', h4'⟩ := H'
  dsimp only at h2 h3 h4 h2' h3' h4'
  rcases lt_trichotomy i i' with hlt | heq | hlt
  · obtain ⟨a, _, _, c1, c2, c3⟩ := quantile_between hx1 ⟨i, h1, h2, h3, h4⟩
    have e1 : r ≤ x (i + 1) := by
      rw [h4]
      have : (q - trap h i p / trap h (k - 1) p) / (trap h (i + 1) p / trap h (k - 1) p - trap h i p / trap h (k - 1) p) ≤ 1 :=
        (div_le_one (by linarith)).mpr (by linarith)
      have := mul_le_mul_of_nonneg_right this (sub_nonneg.mpr (hx1 i h1))
      linarith
    have e2 : x i' ≤ r' := by
      rw [h4']
      have : 0 ≤ (q' - trap h i' p / trap h (k - 1) p) / (trap h (i' + 1) p / trap h (k - 1) p - trap h i' p / trap h (k - 1) p) :=
        div_nonneg (by linarith) (by linarith)
      have := mul_nonneg this (sub_nonneg.mpr (hx1 i' h1'))
      linarith
    exact e1.trans ((hx _ _ (by omega) (by omega)).trans e2)
  · subst heq
    rw [h4, h4']
    have hd : 0 < trap h (i + 1) p / trap h (k - 1) p - trap h i p / trap h (k - 1) p := by linarith
    have := mul_le_mul_of_nonneg_right ((div_le_div_iff_of_pos_right hd).mpr
      (show q - trap h i p / trap h (k - 1) p ≤ q' - trap h i p / trap h (k - 1) p by linarith))
      (sub_nonneg.mpr (hx1 i h1))
    linarith
  · exfalso
    have := (div_le_div_iff_of_pos_right hT).mpr (trap_mono hh hp (show i' + 1 ≤ i by omega))
    linarith

/-- **C146** The mean, the quantiles and the mode lie in the interval, the quantiles are ordered,
and the variance is between zero and the product of the distances from the mean to the bounds. -/
theorem fast_bounds {lo hi : ℝ} {k : ℕ} {v : ℕ → EReal} {s : Stats} (hk : 2 ≤ k) (hlt : lo < hi)
    (ht : ∃ i < k, v i ≠ ⊤) (H : Summary lo hi k v s) :
    ∃ m v2 a b c d e o : ℝ, s = ⟨.fin m, .fin v2, .fin a, .fin b, .fin c, .fin d, .fin e, .fin o⟩ ∧
      lo ≤ m ∧ m ≤ hi ∧ 0 ≤ v2 ∧ v2 ≤ (hi - m) * (m - lo) ∧
      lo ≤ a ∧ a ≤ b ∧ b ≤ c ∧ c ≤ d ∧ d ≤ e ∧ e ≤ hi ∧ lo ≤ o ∧ o ≤ hi := by
  obtain ⟨hm, hv, ⟨a, a1, a2⟩, ⟨b, b1, b2⟩, ⟨c, c1, c2⟩, ⟨d, d1, d2⟩, ⟨e, e1, e2⟩, ⟨i, i1, i2, -⟩⟩ := H
  obtain ⟨j, hj, hj'⟩ := ht
  have hpos := step_pos hk hlt
  generalize (hi - lo) / ((k : ℝ) - 1) = h at *
  have hT : 0 < trap h (k - 1) fun i => weight (v i) :=
    trap_pos hpos (by omega) (fun i _ => weight_nonneg _) (j := j) (by omega) (weight_pos hj')
  have hx : ∀ i j, i ≤ j → j < k → lin lo hi k i ≤ lin lo hi k j := fun i j hij _ => lin_mono hk hlt hij
  have qm := fun {q q' r r' : ℝ} (hq : q ≤ q') => quantile_mono (k := k) (x := lin lo hi k) (q := q) (q' := q') (r := r)
    (r' := r') hpos.le (fun i => weight_nonneg (v i)) hx hT hq
  obtain ⟨u, u1, u2, -, -⟩ := quantile_between (fun i hi => hx _ _ (by omega) hi) a2
  obtain ⟨w, w1, -, w2, -⟩ := quantile_between (fun i hi => hx _ _ (by omega) hi) e2
  generalize hT' : trap h (k - 1) (fun i => weight (v i)) = T at *
  generalize hA : trap h (k - 1) (fun i => lin lo hi k i * weight (v i)) = A at *
  generalize hB : trap h (k - 1) (fun i => lin lo hi k i ^ 2 * weight (v i)) = B at *
  have lin3 : ∀ α β γ : ℝ, (∀ i < k, 0 ≤ α * lin lo hi k i ^ 2 + β * lin lo hi k i + γ) → 0 ≤ α * B + β * A + γ * T := by
    intro α β γ hn
    have : trap h (k - 1) (fun i => (α * (lin lo hi k i ^ 2 * weight (v i)) + β * (lin lo hi k i * weight (v i))) +
        γ * weight (v i)) = α * B + β * A + γ * T := by
      rw [trap_add, trap_add, trap_smul, trap_smul, trap_smul, hA, hB, hT']
    rw [← this]
    refine trap_nonneg hpos.le fun i hi' => ?_
    have := mul_nonneg (hn i (by omega)) (weight_nonneg (v i))
    linarith
  have hA' : A = A / T * T := by field_simp
  have hB' : B = B / T * T := by field_simp
  refine ⟨A / T, B / T - (A / T) ^ 2, a, b, c, d, e, lin lo hi k i, ?_, ?_, ?_, ?_, ?_,
    (lin_bounds hk hlt (by omega)).1.trans u2, qm (by norm_num) a2 b2, qm (by norm_num) b2 c2,
    qm (by norm_num) c2 d2, qm (by norm_num) d2 e2, w2.trans (lin_bounds hk hlt w1).2,
    (lin_bounds hk hlt i1).1, (lin_bounds hk hlt i1).2⟩
  · cases s
    simp only [Stats.mk.injEq]
    exact ⟨hm, hv, a1, b1, c1, d1, e1, i2⟩
  · rw [le_div_iff₀ hT]
    have := lin3 0 1 (-lo) fun i hi' => by have := (lin_bounds hk hlt hi').1; linarith
    linarith
  · rw [div_le_iff₀ hT]
    have := lin3 0 (-1) hi fun i hi' => by have := (lin_bounds hk hlt hi').2; linarith
    linarith
  · have := lin3 1 (-2 * (A / T)) ((A / T) ^ 2) fun i _ => by
      have := sq_nonneg (lin lo hi k i - A / T); nlinarith
    rw [hA', hB'] at this
    simp only [div_mul_cancel₀ _ hT.ne'] at this
    have e : 1 * B + -2 * (A / T) * A + (A / T) ^ 2 * T = (B / T - (A / T) ^ 2) * T := by field_simp; ring
    rw [e] at this
    exact nonneg_of_mul_nonneg_left this hT
  · have := lin3 (-1) (lo + hi) (-(lo * hi)) fun i hi' => by
      have := lin_bounds hk hlt hi'
      nlinarith [mul_nonneg (sub_nonneg.mpr this.1) (sub_nonneg.mpr this.2)]
    have e : -1 * B + (lo + hi) * A + -(lo * hi) * T = ((hi - A / T) * (A / T - lo) - (B / T - (A / T) ^ 2)) * T := by
      field_simp; ring
    rw [e] at this
    have := nonneg_of_mul_nonneg_left this hT
    linarith

/-! ## When it raises -/

theorem trap_zero (m : ℕ) (y : ℕ → ℝ) : trap 0 m y = 0 := by simp [trap]

theorem trap_neg (h : ℝ) (m : ℕ) (y : ℕ → ℝ) : trap (-h) m y = - trap h m y := by simp [trap]

theorem statsOf_error {k : ℕ} {x w : ℕ → Flt} (h : trapz k x w = .nan ∨ ∃ r : ℝ, r ≤ 0 ∧ trapz k x w = Flt.fin r) :
    statsOf k x w = .error .valueError := by
  unfold statsOf
  dsimp only
  rw [if_pos]
  rcases h with h | ⟨r, hr, h⟩
  · left
    rintro ⟨r, hr⟩
    rw [h] at hr
    cases hr
  · right
    rw [h, Flt.fin_le]
    exact hr

/-- **C147** The function returns statistics exactly for two points or more, a lower bound below
the upper bound, and a criterion on the grid which is never NaN or `-inf` and not everywhere
`+inf`; otherwise it raises `ValueError`. -/
theorem fast_accepts (g : ℝ → Flt) (lo hi : ℝ) (n : ℤ) :
    ((∃ s, fastStats (fun x => .ok (g x)) lo hi n = .ok s) ↔
      2 ≤ n ∧ lo < hi ∧ (∀ i < n.toNat, g (lin lo hi n.toNat i) ≠ .nan ∧ g (lin lo hi n.toNat i) ≠ .num ⊥) ∧
        ∃ i < n.toNat, g (lin lo hi n.toNat i) ≠ .num ⊤) ∧
    ((∃ s, fastStats (fun x => .ok (g x)) lo hi n = .ok s) ∨
      fastStats (fun x => .ok (g x)) lo hi n = .error .valueError) := by
  by_cases hcond : 2 ≤ n ∧ lo < hi ∧
      (∀ i < n.toNat, g (lin lo hi n.toNat i) ≠ .nan ∧ g (lin lo hi n.toNat i) ≠ .num ⊥) ∧
      ∃ i < n.toNat, g (lin lo hi n.toNat i) ≠ .num ⊤
  · suffices h : ∃ s, fastStats (fun x => .ok (g x)) lo hi n = .ok s from ⟨⟨fun _ => hcond, fun _ => h⟩, Or.inl h⟩
    obtain ⟨h2, hlt, hv, ht⟩ := hcond
    obtain ⟨k, rfl⟩ := Int.eq_ofNat_of_zero_le (show 0 ≤ n by omega)
    simp only [Int.ofNat_eq_natCast, Int.toNat_natCast] at hv ht ⊢
    have hnum : ∀ i, ∃ v, i < k → g (lin lo hi k i) = .num v := fun i => by
      by_cases hi' : i < k
      · rcases hg : g (lin lo hi k i) with _ | v
        · exact absurd hg (hv i hi').1
        · exact ⟨v, fun _ => rfl⟩
      · exact ⟨0, fun h => absurd h hi'⟩
    choose v hvv using hnum
    obtain ⟨s, hs, -⟩ := fast_values (f := fun x => .ok (g x)) (v := v) (by omega) hlt (fun i hi' => by dsimp only; rw [hvv i hi'])
      (fun i hi' h => (hv i hi').2 (by rw [hvv i hi', h]))
      (by obtain ⟨i, hi', h⟩ := ht; exact ⟨i, hi', fun h' => h (by rw [hvv i hi', h'])⟩)
    exact ⟨s, hs⟩
  · suffices h : fastStats (fun x => .ok (g x)) lo hi n = .error .valueError by
      refine ⟨⟨fun ⟨s, hs⟩ => ?_, fun h' => absurd h' hcond⟩, Or.inr h⟩
      rw [h] at hs; cases hs
    unfold fastStats
    by_cases hn : n < 0
    · rw [if_pos hn]
    rw [if_neg hn]
    obtain ⟨k, rfl⟩ := Int.eq_ofNat_of_zero_le (show 0 ≤ n by omega)
    simp only [Int.ofNat_eq_natCast, Int.toNat_natCast] at hcond ⊢
    rw [mapM_ok (List.range k) (g := fun i => g (lin lo hi k i)) (fun _ _ => rfl)]
    simp only [bind, Except.bind, List.map_map, Function.comp_def]
    by_cases h0 : k = 0
    · subst h0; simp [npMax]
    by_cases h1 : k = 1
    · subst h1
      simp only [List.range_one, List.map_cons, List.map_nil, npMax]
      exact statsOf_error (Or.inr ⟨0, le_refl _, rfl⟩)
    have hk : 2 ≤ k := by omega
    have getw : ∀ M : Flt, ∀ i < k, ((((List.map (fun i => g (lin lo hi k i)) (List.range k)).getD i .nan).neg).sub M).exp =
        (((g (lin lo hi k i)).neg).sub M).exp := fun M i hi' => by rw [getD_range hi']
    by_cases hnan : ∃ i < k, g (lin lo hi k i) = .nan
    · obtain ⟨i, hi', hin⟩ := hnan
      rw [npMax_nan (List.mem_map.mpr ⟨i, List.mem_range.mpr hi', by rw [hin]; rfl⟩)]
      refine statsOf_error (Or.inl (trapz_nan hi' hk ?_))
      rw [getw _ _ hi']
      simp
    have hnum : ∀ i, ∃ v, i < k → g (lin lo hi k i) = .num v := fun i => by
      by_cases hi' : i < k
      · rcases hg : g (lin lo hi k i) with _ | v
        · exact absurd ⟨i, hi', hg⟩ hnan
        · exact ⟨v, fun _ => rfl⟩
      · exact ⟨0, fun h => absurd h hi'⟩
    choose v hvv using hnum
    have hmap : (List.map (fun i => (g (lin lo hi k i)).neg) (List.range k)) = ((List.range k).map fun i => - v i).map .num := by
      rw [List.map_map]
      refine List.map_congr_left fun i hi' => ?_
      rw [hvv i (List.mem_range.mp hi')]
      rfl
    by_cases hbad : (∃ i < k, v i = ⊥) ∨ ∀ i < k, v i = ⊤
    · obtain ⟨M, m1, m2, m3⟩ := npMax_num (l := (List.range k).map fun i => - v i) (by
        intro h
        have := congrArg List.length h
        simp at this
        omega)
      rw [hmap, m3]
      rcases hbad with ⟨i, hi', hbot⟩ | hall
      · have : M = ⊤ := by
          have := m2 (- v i) (List.mem_map.mpr ⟨i, List.mem_range.mpr hi', rfl⟩)
          rw [hbot, EReal.neg_bot, top_le_iff] at this
          exact this
        refine statsOf_error (Or.inl (trapz_nan hi' hk ?_))
        rw [getw _ _ hi', hvv i hi', hbot, this]
        simp [Flt.neg, Flt.sub, Flt.add]
      · obtain ⟨i, hi', rfl⟩ := List.mem_map.mp m1
        have hi' := List.mem_range.mp hi'
        refine statsOf_error (Or.inl (trapz_nan hi' hk ?_))
        rw [getw _ _ hi', hvv i hi', hall i hi']
        simp [Flt.neg, Flt.sub, Flt.add]
    rw [not_or, not_exists, not_forall] at hbad
    obtain ⟨b1, j, b2⟩ := hbad
    rw [Classical.not_imp] at b2
    have b1' : ∀ i < k, v i ≠ ⊥ := fun i hi' h => b1 i ⟨hi', h⟩
    have hle : hi ≤ lo := by
      by_contra hlt
      refine hcond ⟨by omega, not_le.mp hlt, fun i hi' => ?_, j, b2.1, ?_⟩
      · rw [hvv i hi']
        exact ⟨fun h => Flt.noConfusion h, fun h => b1' i hi' (by injection h)⟩
      · rw [hvv j b2.1]
        intro h; injection h with h; exact b2.2 h
    obtain ⟨M, E, hE, hM, hw⟩ := weights b1' ⟨j, b2⟩
    have hmap2 : (List.map (fun i => (g (lin lo hi k i)).neg) (List.range k)) =
        (List.range k).map fun i => (Flt.num (v i)).neg := by
      refine List.map_congr_left fun i hi' => ?_
      rw [hvv i (List.mem_range.mp hi')]
    rw [hmap2, hM]
    refine statsOf_error (Or.inr ⟨_, ?_, trapz_fin (r := fun i => E * weight (v i)) fun i hi' => by
      rw [getw _ _ hi', hvv i hi']; exact hw i hi'⟩)
    have hk2 : (2 : ℝ) ≤ k := by exact_mod_cast hk
    have := trap_nonneg (h := -((hi - lo) / ((k : ℝ) - 1))) (m := k - 1) (y := fun i => E * weight (v i))
      (by
        rw [← neg_div, neg_sub]
        exact div_nonneg (by linarith) (by linarith))
      (fun i _ => mul_nonneg hE.le (weight_nonneg _))
    rw [trap_neg] at this
    linarith

example : ∃ s, fastStats (fun x => .ok (if x = 0 then .num ⊤ else Flt.fin x)) 0 1 3 = .ok s := by
  classical
  refine (fast_accepts _ 0 1 3).1.mpr ⟨by norm_num, one_pos, fun i _ => ?_, 1, by decide, ?_⟩
  · split_ifs
    · exact ⟨fun h => Flt.noConfusion h, fun h => top_ne_bot (α := EReal) (by injection h)⟩
    · exact ⟨fun h => Flt.noConfusion h, fun h => EReal.coe_ne_bot _ (by injection h)⟩
  · have : lin 0 1 (3 : ℤ).toNat 1 = 1 / 2 := by
      rw [show (3 : ℤ).toNat = 3 from rfl]; unfold lin; norm_num
    rw [this]
    norm_num
    intro h; injection h with h; exact EReal.coe_ne_top _ h

/-! ## Shifts -/

theorem num_sub_fin (x : EReal) (c : ℝ) : (Flt.num x).sub (Flt.fin c) = .num (x + ((-c : ℝ) : EReal)) := by
  simp only [Flt.sub, Flt.neg_fin]
  simp only [Flt.fin, Flt.add]
  rw [if_neg]
  rintro (⟨-, h⟩ | ⟨-, h⟩)
  · exact EReal.coe_ne_bot _ h
  · exact EReal.coe_ne_top _ h

theorem fin_sub_num (x : EReal) (c : ℝ) : (Flt.fin c).sub (.num x) = .num ((c : EReal) + -x) := by
  simp only [Flt.sub, Flt.neg]
  simp only [Flt.fin, Flt.add]
  rw [if_neg]
  rintro (⟨h, -⟩ | ⟨h, -⟩)
  · exact EReal.coe_ne_top _ h
  · exact EReal.coe_ne_bot _ h

theorem add_sub_shift (a M : Flt) (c : ℝ) :
    (((a.add (Flt.fin c)).neg).sub (M.sub (Flt.fin c))) = (a.neg).sub M := by
  rcases a with _ | a
  · simp [Flt.neg]
  rcases M with _ | M
  · simp
  induction a with
  | bot =>
    induction M with
    | bot => simp [Flt.neg, Flt.sub, Flt.add, Flt.fin]
    | top => simp [Flt.neg, Flt.sub, Flt.add, Flt.fin]
    | coe M =>
      have : (Flt.num (M : EReal)) = Flt.fin M := rfl
      have e1 : ((Flt.num ⊤).add (Flt.fin c)).neg = .num ⊥ := by simp [Flt.neg, Flt.add, Flt.fin]
      have e2 : ((Flt.num ⊥).add (Flt.fin c)).neg = .num ⊤ := by simp [Flt.neg, Flt.add, Flt.fin]
      rw [this, Flt.sub_fin]
      first
      | rw [e1, show (Flt.num ⊤).neg = .num ⊥ from by simp [Flt.neg], num_sub_fin, num_sub_fin]; simp
      | rw [e2, show (Flt.num ⊥).neg = .num ⊤ from by simp [Flt.neg], num_sub_fin, num_sub_fin, EReal.top_add_coe,
          EReal.top_add_coe]
  | top =>
    induction M with
    | bot => simp [Flt.neg, Flt.sub, Flt.add, Flt.fin]
    | top => simp [Flt.neg, Flt.sub, Flt.add, Flt.fin]
    | coe M =>
      have : (Flt.num (M : EReal)) = Flt.fin M := rfl
      have e1 : ((Flt.num ⊤).add (Flt.fin c)).neg = .num ⊥ := by simp [Flt.neg, Flt.add, Flt.fin]
      have e2 : ((Flt.num ⊥).add (Flt.fin c)).neg = .num ⊤ := by simp [Flt.neg, Flt.add, Flt.fin]
      rw [this, Flt.sub_fin]
      first
      | rw [e1, show (Flt.num ⊤).neg = .num ⊥ from by simp [Flt.neg], num_sub_fin, num_sub_fin]; simp
      | rw [e2, show (Flt.num ⊥).neg = .num ⊤ from by simp [Flt.neg], num_sub_fin, num_sub_fin, EReal.top_add_coe,
          EReal.top_add_coe]
  | coe a =>
    have e : (Flt.num (a : EReal)) = Flt.fin a := rfl
    rw [e, Flt.add_fin, Flt.neg_fin, Flt.neg_fin]
    induction M with
    | bot => rw [num_sub_fin, EReal.bot_add, fin_sub_num, fin_sub_num]; simp
    | top => rw [num_sub_fin, EReal.top_add_coe, fin_sub_num, fin_sub_num]; simp
    | coe M =>
      have : (Flt.num (M : EReal)) = Flt.fin M := rfl
      rw [this, Flt.sub_fin, Flt.sub_fin, Flt.sub_fin]
      congr 1; ring

theorem fmax_sub (a b : Flt) (c : ℝ) : fmax (a.sub (Flt.fin c)) (b.sub (Flt.fin c)) = (fmax a b).sub (Flt.fin c) := by
  rcases a with _ | a
  · simp [fmax]
  rcases b with _ | b
  · have : fmax (Flt.num a) .nan = .nan := rfl
    rw [this]
    have : ∀ x, fmax x .nan = .nan := fun x => by cases x <;> rfl
    simp [this]
  rw [num_sub_fin, num_sub_fin]
  simp only [fmax]
  rw [num_sub_fin]
  congr 1
  exact (max_add_add_right a b _)

theorem neg_add_fin (a : Flt) (c : ℝ) : (a.add (Flt.fin c)).neg = a.neg.sub (Flt.fin c) := by
  rcases a with _ | a
  · rfl
  induction a with
  | bot => simp [Flt.neg, Flt.sub, Flt.add, Flt.fin]
  | top => simp [Flt.neg, Flt.sub, Flt.add, Flt.fin]
  | coe a =>
    have e : (Flt.num (a : EReal)) = Flt.fin a := rfl
    rw [e, Flt.add_fin, Flt.neg_fin, Flt.neg_fin, Flt.sub_fin]
    congr 1; ring

theorem npMax_shift (l : List Flt) (c : ℝ) :
    npMax (l.map fun a => a.sub (Flt.fin c)) = (npMax l).map fun M => M.sub (Flt.fin c) := by
  cases l with
  | nil => rfl
  | cons a l =>
    simp only [List.map_cons, npMax, Except.map]
    congr 1
    induction l generalizing a with
    | nil => rfl
    | cons b l ih => simp only [List.map_cons, List.foldl_cons, fmax_sub, ih]

/-- **C148** Adding a constant to the criterion changes nothing, whatever its values. -/
theorem fast_shift (g : ℝ → Flt) (c lo hi : ℝ) (n : ℤ) :
    fastStats (fun x => .ok ((g x).add (Flt.fin c))) lo hi n = fastStats (fun x => .ok (g x)) lo hi n := by
  unfold fastStats
  split_ifs with hn
  · rfl
  dsimp only
  rw [mapM_ok (List.range n.toNat) (g := fun i => (g (lin lo hi n.toNat i)).add (Flt.fin c)) (fun _ _ => rfl),
    mapM_ok (List.range n.toNat) (g := fun i => g (lin lo hi n.toNat i)) (fun _ _ => rfl)]
  simp only [bind, Except.bind, List.map_map, Function.comp_def]
  have h1 : (List.range n.toNat).map (fun i => ((g (lin lo hi n.toNat i)).add (Flt.fin c)).neg) =
      ((List.range n.toNat).map fun i => (g (lin lo hi n.toNat i)).neg).map fun a => a.sub (Flt.fin c) := by
    rw [List.map_map]
    exact List.map_congr_left fun i _ => neg_add_fin _ _
  rw [h1, npMax_shift]
  rcases npMax ((List.range n.toNat).map fun i => (g (lin lo hi n.toNat i)).neg) with e | M
  · rfl
  · simp only [Except.map]
    congr 1
    funext i
    by_cases hi' : i < n.toNat
    · rw [getD_range hi', getD_range hi', add_sub_shift]
    · have : ∀ v : ℕ → Flt, ((List.range n.toNat).map v).getD i .nan = .nan := fun v => by
        simp [List.getD, hi']
      rw [this, this]
      simp [Flt.neg]

example : fastStats (fun x => .ok ((Flt.fin (x ^ 2)).add (Flt.fin 1000))) 0 1 3 =
    fastStats (fun x => .ok (Flt.fin (x ^ 2))) 0 1 3 := fast_shift _ 1000 0 1 3

/-! ## One parameter at a time -/

theorem pos_nat {len p : ℕ} (h : p < len) : pos len (p : ℤ) = .ok p := by
  unfold pos
  rw [pyGet_nat _ _ (by simpa using h)]
  simp

theorem pos_neg {len p : ℕ} (h : p < len) : pos len ((p : ℤ) - len) = .ok p := by
  unfold pos pyGet
  rw [if_neg (by omega), if_pos (by simp)]
  have : (((List.range len).length : ℤ) + ((p : ℤ) - len)).toNat = p := by simp
  rw [this]
  simp [h]

/-- **C148** The function of one parameter is the criterion where that entry of the reference is
replaced, the other entries being those of the reference. -/
theorem single_floats (crit : List ℝ → Py Flt) (l : List ℝ) {p : ℕ} (h : p < l.length) (x : ℝ) :
    single crit (.floats l) p x = crit (l.set p x) ∧ single crit (.floats l) ((p : ℤ) - l.length) x = crit (l.set p x) := by
  constructor
  · simp only [single, Vec.set, pos_nat h, bind, Except.bind, pure, Except.pure, Vec.vals]
  · simp only [single, Vec.set, pos_neg h, bind, Except.bind, pure, Except.pure, Vec.vals]

/-- **C148** For a reference made of integers this fails: the value is truncated. -/
theorem single_ints_false : ∃ (crit : List ℝ → Py Flt) (l : List ℤ) (x : ℝ),
    single crit (.ints l) 0 x ≠ crit ((Vec.ints l).vals.set 0 x) ∧
    ∀ y, 0 ≤ y → y < 1 → single crit (.ints l) 0 y = single crit (.ints l) 0 0 := by
  have ht : ∀ y : ℝ, 0 ≤ y → y < 1 → trunc y = 0 := fun y h0 h1 => by
    unfold trunc
    rw [if_pos h0, Int.floor_eq_zero_iff]
    exact ⟨h0, h1⟩
  have hs : ∀ y : ℝ, 0 ≤ y → y < 1 →
      single (fun l => .ok (Flt.fin (l.headD 0))) (.ints [0]) 0 y = .ok (Flt.fin 0) := fun y h0 h1 => by
    have : pos [(0 : ℤ)].length 0 = .ok 0 := pos_nat (p := 0) (by simp)
    simp only [single, Vec.set, this, bind, Except.bind, pure, Except.pure, Vec.vals, ht y h0 h1]
    simp
  refine ⟨fun l => .ok (Flt.fin (l.headD 0)), [0], 1 / 2, ?_, fun y h0 h1 => ?_⟩
  · rw [hs _ (by norm_num) (by norm_num)]
    simp only [Vec.vals, List.map_cons, List.map_nil, List.set_cons_zero, List.headD_cons]
    intro h
    injection h with h
    rw [Flt.fin_inj] at h
    norm_num at h
  · rw [hs y h0 h1, hs 0 le_rfl one_pos]

/-! ## The table -/

variable {M X I : Type}

/-- **C149** Each argument is the one given, or else the attribute of `info`; one missing raises
`ValueError`. -/
theorem resolve_spec (info : Option (Info M X)) (model : Option M) (xi : Option X) (crit : Option (List ℝ → Py Flt))
    (cp : Option Vec) :
    (∀ f c m x, resolve info model xi crit cp = .ok (f, c, m, x) ↔
      (crit = some f ∨ crit = none ∧ ∃ i, info = some i ∧ i.criterion = f) ∧
      (cp = some c ∨ cp = none ∧ ∃ i, info = some i ∧ i.covparam = c) ∧
      (model = some m ∨ model = none ∧ ∃ i, info = some i ∧ i.model = some m) ∧
      (xi = some x ∨ xi = none ∧ ∃ i, info = some i ∧ i.xi = some x)) ∧
    ((¬ ∃ r, resolve info model xi crit cp = .ok r) → resolve info model xi crit cp = .error .valueError) := by
  constructor
  · intro f c m x
    unfold resolve
    cases info with
    | none => cases crit <;> cases cp <;> cases model <;> cases xi <;> simp
    | some i =>
      cases crit <;> cases cp <;> cases model <;> cases xi <;> cases hm : i.model <;> cases hx : i.xi <;>
        simp [hm, hx]
  · intro h
    unfold resolve at *
    dsimp only at *
    split
    · rename_i f c m x h1 h2 h3 h4
      exact absurd ⟨(f, c, m, x), by simp only [h1, h2, h3, h4]⟩ h
    · rfl

theorem mapM_forall₂ {α β : Type} (f : α → Py β) (l : List α) (t : List β) :
    l.mapM f = .ok t ↔ List.Forall₂ (fun a b => f a = .ok b) l t := by
  induction l generalizing t with
  | nil =>
    rw [List.mapM_nil]
    simp only [List.forall₂_nil_left_iff, pure, Except.pure, Except.ok.injEq]
    exact eq_comm
  | cons a l ih =>
    rw [List.mapM_cons]
    rcases hf : f a with e | b
    · simp only [bind, Except.bind]
      constructor
      · intro h; cases h
      · intro h; cases h with | cons h1 _ => rw [hf] at h1; cases h1
    · rcases hm : l.mapM f with e | t'
      · simp only [bind, Except.bind]
        constructor
        · intro h; cases h
        · intro h; cases h with | cons _ h2 => rw [← ih, hm] at h2; cases h2
      · simp only [bind, Except.bind, pure, Except.pure, Except.ok.injEq]
        constructor
        · rintro rfl; exact .cons hf ((ih _).mp hm)
        · intro h
          cases h with
          | cons h1 h2 =>
            rw [hf] at h1
            rw [← ih, hm] at h2
            injection h1 with h1; injection h2 with h2
            rw [h1, h2]

/-- What a row of the table should be: parameter `j` moves in the box, or within `delta` of the
reference, the other parameters are those of the reference. -/
def RowOf (f : List ℝ → Py Flt) (l : List ℝ) (delta : ℝ) (box : Option (List ℝ × List ℝ)) (n : ℤ) (j : ℤ)
    (row : String × Stats) : Prop :=
  ∃ p : ℕ, ∃ hp : p < l.length, (j = p ∨ j = (p : ℤ) - l.length) ∧ row.1 = "param_" ++ toString j ∧
    ∃ lo hi, (match box with
      | none => lo = l[p] - delta ∧ hi = l[p] + delta
      | some b => pyGet b.1 j = .ok lo ∧ pyGet b.2 j = .ok hi) ∧
    fastStats (fun x => f (l.set p x)) lo hi n = .ok row.2

theorem pyGet_iff {α : Type} (l : List α) (j : ℤ) (a : α) :
    pyGet l j = .ok a ↔ ∃ p : ℕ, ∃ hp : p < l.length, (j = p ∨ j = (p : ℤ) - l.length) ∧ l[p] = a := by
  unfold pyGet
  split_ifs with h0 h1
  · obtain ⟨k, rfl⟩ := Int.eq_ofNat_of_zero_le h0
    simp only [Int.toNat_natCast]
    constructor
    · intro h
      by_cases hk : k < l.length
      · rw [List.getElem?_eq_getElem hk] at h
        injection h with h
        exact ⟨k, hk, Or.inl rfl, h⟩
      · rw [List.getElem?_eq_none (by omega)] at h
        cases h
    · rintro ⟨p, hp, h | h, rfl⟩
      · have : k = p := by exact_mod_cast h
        subst this
        rw [List.getElem?_eq_getElem hp]
      · omega
  · have e : ∃ k : ℕ, (l.length : ℤ) + j = k := Int.eq_ofNat_of_zero_le (by omega)
    obtain ⟨k, hk⟩ := e
    have hk' : k < l.length := by omega
    rw [hk, Int.toNat_natCast, List.getElem?_eq_getElem hk']
    constructor
    · intro h
      injection h with h
      exact ⟨k, hk', Or.inr (by omega), h⟩
    · rintro ⟨p, hp, h | h, rfl⟩
      · omega
      · have : p = k := by omega
        subst this; rfl
  · constructor
    · intro h; cases h
    · rintro ⟨p, hp, h | h, rfl⟩ <;> omega

theorem row_iff (f : List ℝ → Py Flt) (l : List ℝ) (delta : ℝ) (box : Option (List ℝ × List ℝ)) (n j : ℤ)
    (row : String × Stats) : (do
      let opt ← pyGet (Vec.floats l).vals j
      let (lo, hi) ← range opt delta box j
      let s ← fastStats (single f (.floats l) j) lo hi n
      return ("param_" ++ toString j, s) : Py (String × Stats)) = .ok row ↔ RowOf f l delta box n j row := by
  have hsingle : ∀ p : ℕ, p < l.length → (j = p ∨ j = (p : ℤ) - l.length) →
      single f (.floats l) j = fun x => f (l.set p x) := fun p hp hj => by
    funext x
    rcases hj with rfl | rfl
    · exact (single_floats f l hp x).1
    · exact (single_floats f l hp x).2
  constructor
  · intro h
    rcases ho : pyGet (Vec.floats l).vals j with e | opt
    · rw [ho] at h; cases h
    rcases hr : range opt delta box j with e | ⟨lo, hi⟩
    · rw [ho] at h; simp only [bind, Except.bind, hr] at h; cases h
    rcases hs : fastStats (single f (.floats l) j) lo hi n with e | s
    · rw [ho] at h; simp only [bind, Except.bind, hr, hs] at h; cases h
    rw [ho] at h
    simp only [bind, Except.bind, hr, hs, pure, Except.pure, Except.ok.injEq] at h
    subst h
    obtain ⟨p, hp, hj, rfl⟩ := (pyGet_iff _ _ _).mp ho
    refine ⟨p, hp, hj, rfl, lo, hi, ?_, by rw [← hsingle p hp hj]; exact hs⟩
    cases box with
    | none =>
      simp only [range, Except.ok.injEq, Prod.mk.injEq] at hr
      exact ⟨hr.1.symm, hr.2.symm⟩
    | some b =>
      simp only [range, bind, Except.bind] at hr
      rcases h1 : pyGet b.1 j with e | u
      · rw [h1] at hr; cases hr
      rcases h2 : pyGet b.2 j with e | u'
      · rw [h1, h2] at hr; cases hr
      rw [h1, h2] at hr
      simp only [pure, Except.pure, Except.ok.injEq, Prod.mk.injEq] at hr
      exact ⟨by rw [h1, hr.1], by rw [h2, hr.2]⟩
  · rintro ⟨p, hp, hj, hn, lo, hi, hb, hs⟩
    have ho : pyGet (Vec.floats l).vals j = .ok l[p] := (pyGet_iff _ _ _).mpr ⟨p, hp, hj, rfl⟩
    rw [ho, hsingle p hp hj]
    have hr : range l[p] delta box j = .ok (lo, hi) := by
      cases box with
      | none => simp only [range, hb.1, hb.2]
      | some b => simp only [range, bind, Except.bind, hb.1, hb.2, pure, Except.pure]
    simp only [bind, Except.bind, hr, hs, pure, Except.pure]
    rw [← hn]

/-- **C149** The table has one row for each index, in order, with the statistics of the criterion
along that parameter; without indices there is one row for each parameter; the Fisher information
is that of the model at the reference. -/
theorem tableFast_spec (fisher : M → X → List ℝ → ℝ → Py I) (info : Option (Info M X)) (model : Option M)
    (xi : Option X) (crit : Option (List ℝ → Py Flt)) (cp : Option Vec) (ind : Option (List ℤ))
    (box : Option (List ℝ × List ℝ)) (delta : ℝ) (n : ℤ) {f : List ℝ → Py Flt} {l : List ℝ} {m : M} {x : X}
    (h : resolve info model xi crit cp = .ok (f, .floats l, m, x)) (t : List (String × Stats)) (i : I) :
    tableFast fisher info model xi crit cp ind box delta n = .ok (t, i) ↔
      fisher m x l (1 / 1000) = .ok i ∧
      List.Forall₂ (RowOf f l delta box n) (ind.getD ((List.range l.length).map fun (i : ℕ) => (i : ℤ))) t := by
  have hrows : ∀ ind t, rows (fun g _ lo hi => fastStats g lo hi n) f (.floats l) delta box ind = .ok t ↔
      List.Forall₂ (RowOf f l delta box n) ind t := fun ind t => by
    unfold rows
    rw [mapM_forall₂]
    constructor <;> intro h <;> refine h.imp fun j r hr => ?_
    · exact (row_iff f l delta box n j r).mp hr
    · exact (row_iff f l delta box n j r).mpr hr
  unfold tableFast
  rw [h]
  simp only [bind, Except.bind, Vec.vals]
  rw [← hrows]
  rcases rows (fun g _ lo hi => fastStats g lo hi n) f (.floats l) delta box
    (ind.getD ((List.range l.length).map fun (i : ℕ) => (i : ℤ))) with e | t'
  · constructor
    · intro h; cases h
    · rintro ⟨_, h⟩; cases h
  · dsimp only
    rcases fisher m x l (1 / 1000) with e | i'
    · constructor
      · intro h; cases h
      · rintro ⟨h, _⟩; cases h
    · simp only [pure, Except.pure, Except.ok.injEq, Prod.mk.injEq]
      tauto

/-- **C149** Without a box a positive half-width is needed: otherwise, when there is a parameter,
the table raises. -/
theorem tableFast_delta (fisher : M → X → List ℝ → ℝ → Py I) (info : Option (Info M X)) (model : Option M)
    (xi : Option X) (crit : Option (List ℝ → Py Flt)) (cp : Option Vec) (delta : ℝ) (n : ℤ)
    {f : List ℝ → Flt} {l : List ℝ} {m : M} {x : X}
    (h : resolve info model xi crit cp = .ok (fun a => .ok (f a), .floats l, m, x)) (hl : l ≠ []) (hd : delta ≤ 0) :
    ¬ ∃ r, tableFast fisher info model xi crit cp none none delta n = .ok r := by
  rintro ⟨⟨t, i⟩, hr⟩
  rw [tableFast_spec fisher info model xi crit cp none none delta n h] at hr
  obtain ⟨-, hr⟩ := hr
  cases l with
  | nil => exact hl rfl
  | cons a l =>
    simp only [Option.getD_none, List.length_cons, List.range_succ_eq_map, List.map_cons] at hr
    cases hr with
    | cons h1 _ =>
      obtain ⟨p, hp, -, -, lo, hi, ⟨rfl, rfl⟩, hs⟩ := h1
      have := ((fast_accepts (fun x => f ((a :: l).set p x)) _ _ n).1.mp ⟨_, hs⟩).2.1
      linarith

example (fisher : Unit → Unit → List ℝ → ℝ → Py Unit) :
    ¬ ∃ r, tableFast fisher none (some ()) (some ()) (some fun a => .ok (Flt.fin a.sum)) (some (.floats [1, 2])) none none
      0 5 = .ok r :=
  tableFast_delta fisher none _ _ _ _ 0 5 (f := fun a => Flt.fin a.sum) (l := [1, 2]) rfl (by simp) le_rfl

end Verif.ParamStats
