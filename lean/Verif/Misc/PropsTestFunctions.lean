import Verif.Misc.TestFunctions
import Mathlib.Analysis.SpecialFunctions.Trigonometric.Bounds
import Mathlib.Analysis.Real.Pi.Bounds
import Mathlib.Tactic.FieldSimp
import Mathlib.LinearAlgebra.Matrix.Notation

/-!
# Properties of the test functions
-/

set_option autoImplicit false

namespace Verif.TestFunctions

open Real

/-! ## Dette and Pepelyshev -/

/-- The published function of eight variables. -/
noncomputable def published (x : Fin 8 → ℝ) : ℝ :=
  4 * (x 0 - 2 + 8 * x 1 - 8 * x 1 ^ 2) ^ 2 + (3 - 4 * x 1) ^ 2 + 16 * √(x 2 + 1) * (2 * x 2 - 1) ^ 2 +
    4 * log (1 + x 2 + x 3) + 5 * log (1 + x 2 + x 3 + x 4) + 6 * log (1 + x 2 + x 3 + x 4 + x 5) +
    7 * log (1 + x 2 + x 3 + x 4 + x 5 + x 6) + 8 * log (1 + x 2 + x 3 + x 4 + x 5 + x 6 + x 7)

theorem detpepLoop_value (x : Fin 8 → ℝ) : detpepLoop x = (8, x 2 + x 3 + x 4 + x 5 + x 6 + x 7) := by
  simp only [detpepLoop, List.foldl_cons, List.foldl_nil]
  have h : (List.range (8 + 1)).drop 3 = [3, 4, 5, 6, 7, 8] := by decide
  rw [h]
  simp

/-- **C70** `detpep8d` has only the last of the five logarithmic terms: four are missing. -/
theorem detpep8d_missing (x : Fin 8 → ℝ) : published x - detpep8d x =
    4 * log (1 + x 2 + x 3) + 5 * log (1 + x 2 + x 3 + x 4) + 6 * log (1 + x 2 + x 3 + x 4 + x 5) +
      7 * log (1 + x 2 + x 3 + x 4 + x 5 + x 6) := by
  unfold detpep8d published
  simp only [detpepLoop_value]
  rw [show 1 + (x 2 + x 3 + x 4 + x 5 + x 6 + x 7) = 1 + x 2 + x 3 + x 4 + x 5 + x 6 + x 7 by ring]
  push_cast
  ring

/-- **C70** On the cube it agrees with the published function only where the coordinates three to
seven vanish; elsewhere it is smaller. -/
theorem detpep8d_agrees {x : Fin 8 → ℝ} (hx : ∀ i, 0 ≤ x i) :
    detpep8d x ≤ published x ∧
    (detpep8d x = published x ↔ x 2 = 0 ∧ x 3 = 0 ∧ x 4 = 0 ∧ x 5 = 0 ∧ x 6 = 0) := by
  have h := detpep8d_missing x
  have h2 := hx 2
  have h3 := hx 3
  have h4 := hx 4
  have h5 := hx 5
  have h6 := hx 6
  have l1 : 0 ≤ log (1 + x 2 + x 3) := log_nonneg (by linarith)
  have l2 : 0 ≤ log (1 + x 2 + x 3 + x 4) := log_nonneg (by linarith)
  have l3 : 0 ≤ log (1 + x 2 + x 3 + x 4 + x 5) := log_nonneg (by linarith)
  have l4 : 0 ≤ log (1 + x 2 + x 3 + x 4 + x 5 + x 6) := log_nonneg (by linarith)
  refine ⟨by linarith, ?_, ?_⟩
  · intro he
    have h0 : log (1 + x 2 + x 3 + x 4 + x 5 + x 6) = 0 := by linarith
    have h1 : 1 + x 2 + x 3 + x 4 + x 5 + x 6 = 1 := by
      rcases log_eq_zero.mp h0 with h | h | h
      · linarith
      · exact h
      · linarith
    refine ⟨?_, ?_, ?_, ?_, ?_⟩ <;> linarith
  · rintro ⟨e2, e3, e4, e5, e6⟩
    rw [e2, e3, e4, e5, e6] at h
    simp at h
    linarith

/-- **C70** A point of the cube where it is wrong. -/
theorem detpep8d_false : ∃ x : Fin 8 → ℝ, (∀ i, 0 ≤ x i ∧ x i ≤ 1) ∧ detpep8d x ≠ published x := by
  refine ⟨fun _ => 1, fun i => ⟨by norm_num, le_rfl⟩, fun h => ?_⟩
  have := ((detpep8d_agrees (x := fun _ => 1) fun i => by norm_num).2.mp h).1
  norm_num at this

/-! ## Branin-Hoo -/

/-- **C140** The Branin-Hoo function is at least `5/(4π)`, with equality exactly at the odd
multiples of `π` with the matching second coordinate. -/
theorem braninhoo_min (x : Fin 2 → ℝ) :
    5 / (4 * π) ≤ braninhoo x ∧
    (braninhoo x = 5 / (4 * π) ↔ ∃ k : ℤ, x 0 = π + k * (2 * π) ∧ x 1 = 5.1 / (4 * π ^ 2) * x 0 ^ 2 - 5 / π * x 0 + 6) := by
  have hp := pi_pos
  have h3 := pi_gt_three
  have hc : 0 < 10 * (1 - 1 / (8 * π)) := by
    have : 1 / (8 * π) < 1 := by
      rw [div_lt_one (by positivity)]; linarith
    linarith
  have hm : 5 / (4 * π) = 10 - 10 * (1 - 1 / (8 * π)) := by
    field_simp
    ring
  have hcos := neg_one_le_cos (x 0)
  unfold braninhoo
  dsimp only
  set q := x 1 - 5.1 / (4 * π ^ 2) * x 0 ^ 2 + 5 / π * x 0 - 6 with hq
  have hq0 := sq_nonneg q
  have hcc : 0 ≤ 10 * (1 - 1 / (8 * π)) * (cos (x 0) + 1) := mul_nonneg hc.le (by linarith)
  rw [hm]
  refine ⟨by nlinarith, ?_, ?_⟩
  · intro he
    have e1 : q ^ 2 = 0 := by nlinarith
    have e2 : 10 * (1 - 1 / (8 * π)) * (cos (x 0) + 1) = 0 := by nlinarith
    have e3 : cos (x 0) = -1 := by
      rcases mul_eq_zero.mp e2 with h | h
      · exact absurd h hc.ne'
      · linarith
    obtain ⟨k, hk⟩ := cos_eq_neg_one_iff |>.mp e3
    refine ⟨k, hk.symm, ?_⟩
    have : q = 0 := by simpa using e1
    linarith
  · rintro ⟨k, hk, h1⟩
    have e3 : cos (x 0) = -1 := cos_eq_neg_one_iff |>.mpr ⟨k, hk.symm⟩
    have e1 : q = 0 := by linarith
    rw [e1, e3]
    ring

/-- **C140** On the usual domain it has exactly three minimisers. -/
theorem braninhoo_minimisers {x : Fin 2 → ℝ} (h0 : -5 ≤ x 0 ∧ x 0 ≤ 10) :
    braninhoo x = 5 / (4 * π) ↔
      (x 0 = -π ∧ x 1 = 12.275) ∨ (x 0 = π ∧ x 1 = 2.275) ∨ (x 0 = 3 * π ∧ x 1 = 2.475) := by
  have hp := pi_pos
  have h3 := pi_gt_three
  have h4 := pi_lt_four
  rw [(braninhoo_min x).2]
  constructor
  · rintro ⟨k, hk, h1⟩
    have k1 : (-2 : ℝ) < k := by
      by_contra hc
      have : (k : ℝ) * (2 * π) ≤ -2 * (2 * π) := mul_le_mul_of_nonneg_right (not_lt.mp hc) (by positivity)
      linarith [h0.1]
    have k2 : (k : ℝ) < 2 := by
      by_contra hc
      have : 2 * (2 * π) ≤ (k : ℝ) * (2 * π) := mul_le_mul_of_nonneg_right (not_lt.mp hc) (by positivity)
      linarith [h0.2]
    have k1' : -2 < k := by exact_mod_cast k1
    have k2' : k < 2 := by exact_mod_cast k2
    have hk3 : k = -1 ∨ k = 0 ∨ k = 1 := by omega
    rcases hk3 with rfl | rfl | rfl
    · left
      have e : x 0 = -π := by rw [hk]; push_cast; ring
      refine ⟨e, ?_⟩
      rw [h1, e]
      field_simp
      norm_num
    · right; left
      have e : x 0 = π := by rw [hk]; push_cast; ring
      refine ⟨e, ?_⟩
      rw [h1, e]
      field_simp
      norm_num
    · right; right
      have e : x 0 = 3 * π := by rw [hk]; push_cast; ring
      refine ⟨e, ?_⟩
      rw [h1, e]
      field_simp
      norm_num
  · rintro (⟨e, h1⟩ | ⟨e, h1⟩ | ⟨e, h1⟩)
    · refine ⟨-1, by rw [e]; push_cast; ring, ?_⟩
      rw [h1, e]
      field_simp
      norm_num
    · refine ⟨0, by rw [e]; push_cast; ring, ?_⟩
      rw [h1, e]
      field_simp
      norm_num
    · refine ⟨1, by rw [e]; push_cast; ring, ?_⟩
      rw [h1, e]
      field_simp
      norm_num

/-! ## Wave -/

/-- The documented formula. -/
noncomputable def waveDoc (x : Fin 2 → ℝ) : ℝ :=
  exp (1.8 * (x 0 + x 1)) + 3 * x 0 + 6 * x 1 ^ 2 + 3 * sin (4 * π * x 0)

/-- **C141** `wave` agrees with its documentation exactly for equal coordinates. -/
theorem wave_doc (x : Fin 2 → ℝ) : wave x = waveDoc x ↔ x 0 = x 1 := by
  unfold wave waveDoc
  constructor <;> intro h <;> linarith

/-- **C141** The documented formula is not the one computed. -/
theorem wave_false : ∃ x : Fin 2 → ℝ, (∀ i, -1 ≤ x i ∧ x i ≤ 1) ∧ wave x ≠ waveDoc x := by
  refine ⟨![0, 1], ?_, fun h => ?_⟩
  · intro i; fin_cases i <;> norm_num
  · have := (wave_doc _).mp h
    norm_num at this

/-- **C141** `twobumps` is minus `0.7 x + sin(5x+1) + 0.1 sin(10x)`. -/
theorem twobumps_doc (x : ℝ) : twobumps x = -(7 / 10 * x + sin (5 * x + 1) + 1 / 10 * sin (10 * x)) := by
  unfold twobumps
  norm_num

/-! ## Hartmann -/

theorem inner_sum {d : ℕ} (hd : d ≤ 6) (x : Fin d → ℝ) (i : Fin 4) :
    inner hd x i = ∑ j, A i (j.castLE hd) * (x j - P i (j.castLE hd)) ^ 2 := by
  unfold inner
  rw [Fin.sum_univ_def, List.sum_eq_foldl, List.foldl_map]

theorem outer_sum {d : ℕ} (hd : d ≤ 6) (x : Fin d → ℝ) :
    outer hd x = ∑ i, alpha i * exp (-∑ j, A i (j.castLE hd) * (x j - P i (j.castLE hd)) ^ 2) := by
  unfold outer
  rw [Fin.sum_univ_def, List.sum_eq_foldl, List.foldl_map]
  simp only [inner_sum]

/-- **C142** `hartmann6` is the documented sum. -/
theorem hartmann6_doc (x : Fin 6 → ℝ) :
    hartmann6 x = -∑ i, alpha i * exp (-∑ j, A i j * (x j - P i j) ^ 2) := by
  unfold hartmann6
  rw [outer_sum]
  rfl

/-- **C142** `hartmann6` with the coefficients written out. -/
theorem hartmann6_coefficients (x : Fin 6 → ℝ) :
    hartmann6 x = -(1 * exp (-(10 * (x 0 - 0.1312) ^ 2 + 3 * (x 1 - 0.1696) ^ 2 + 17 * (x 2 - 0.5569) ^ 2 +
        3.5 * (x 3 - 0.0124) ^ 2 + 1.7 * (x 4 - 0.8283) ^ 2 + 8 * (x 5 - 0.5886) ^ 2)) +
      1.2 * exp (-(0.05 * (x 0 - 0.2329) ^ 2 + 10 * (x 1 - 0.4135) ^ 2 + 17 * (x 2 - 0.8307) ^ 2 +
        0.1 * (x 3 - 0.3736) ^ 2 + 8 * (x 4 - 0.1004) ^ 2 + 14 * (x 5 - 0.9991) ^ 2)) +
      3 * exp (-(3 * (x 0 - 0.2348) ^ 2 + 3.5 * (x 1 - 0.1451) ^ 2 + 1.7 * (x 2 - 0.3522) ^ 2 +
        10 * (x 3 - 0.2883) ^ 2 + 17 * (x 4 - 0.3047) ^ 2 + 8 * (x 5 - 0.6650) ^ 2)) +
      3.2 * exp (-(17 * (x 0 - 0.4047) ^ 2 + 8 * (x 1 - 0.8828) ^ 2 + 0.05 * (x 2 - 0.8732) ^ 2 +
        10 * (x 3 - 0.5743) ^ 2 + 0.1 * (x 4 - 0.1091) ^ 2 + 14 * (x 5 - 0.0381) ^ 2))) := by
  rw [hartmann6_doc]
  simp only [Fin.sum_univ_four, Fin.sum_univ_six, alpha, A, P, Matrix.cons_val]
  norm_num

/-- **C142** `hartmann4` with the coefficients written out. -/
theorem hartmann4_coefficients (x : Fin 4 → ℝ) :
    hartmann4 x = (1.1 - (1 * exp (-(10 * (x 0 - 0.1312) ^ 2 + 3 * (x 1 - 0.1696) ^ 2 + 17 * (x 2 - 0.5569) ^ 2 + 3.5 * (x 3 - 0.0124) ^ 2)) +
      1.2 * exp (-(0.05 * (x 0 - 0.2329) ^ 2 + 10 * (x 1 - 0.4135) ^ 2 + 17 * (x 2 - 0.8307) ^ 2 + 0.1 * (x 3 - 0.3736) ^ 2)) +
      3 * exp (-(3 * (x 0 - 0.2348) ^ 2 + 3.5 * (x 1 - 0.1451) ^ 2 + 1.7 * (x 2 - 0.3522) ^ 2 + 10 * (x 3 - 0.2883) ^ 2)) +
      3.2 * exp (-(17 * (x 0 - 0.4047) ^ 2 + 8 * (x 1 - 0.8828) ^ 2 + 0.05 * (x 2 - 0.8732) ^ 2 + 10 * (x 3 - 0.5743) ^ 2)))) / 0.839 := by
  unfold hartmann4
  rw [outer_sum]
  simp only [inner_sum, Fin.sum_univ_four, alpha, A, P, Matrix.cons_val, Fin.castLE]
  norm_num

theorem alpha_pos (i : Fin 4) : 0 < alpha i := by
  fin_cases i <;> norm_num [alpha]

theorem A_nonneg (i : Fin 4) (j : Fin 6) : 0 ≤ A i j := by
  fin_cases i <;> fin_cases j <;> norm_num [A]

/-- **C142** `hartmann6` is negative and at least `-8.4`. -/
theorem hartmann6_bounds (x : Fin 6 → ℝ) : -8.4 ≤ hartmann6 x ∧ hartmann6 x < 0 := by
  rw [hartmann6_doc]
  constructor
  · have : ∑ i, alpha i * exp (-∑ j, A i j * (x j - P i j) ^ 2) ≤ ∑ i, alpha i * 1 := by
      refine Finset.sum_le_sum fun i _ => mul_le_mul_of_nonneg_left (exp_le_one_iff.mpr ?_) (alpha_pos i).le
      exact neg_nonpos.mpr (Finset.sum_nonneg fun j _ => mul_nonneg (A_nonneg i j) (sq_nonneg _))
    have h2 : ∑ i, alpha i * 1 = 8.4 := by
      simp only [Fin.sum_univ_four, alpha, Matrix.cons_val]
      norm_num
    linarith
  · have : 0 < ∑ i, alpha i * exp (-∑ j, A i j * (x j - P i j) ^ 2) :=
      Finset.sum_pos (fun i _ => mul_pos (alpha_pos i) (exp_pos _)) ⟨0, Finset.mem_univ _⟩
    linarith

theorem exp_neg_le {q : ℝ} (hq : 0 ≤ q) : exp (-q) ≤ 1 / (1 + q + q ^ 2 / 2) := by
  rw [exp_neg, ← one_div]
  exact one_div_le_one_div_of_le (by positivity) (quadratic_le_exp_of_nonneg hq)

/-- **C142** The documented minimum of `hartmann4` is wrong: at the documented minimiser its value
is above `-3.4`, not `-3.86278`. -/
theorem hartmann4_false : -3.4 < hartmann4 ![0.20169, 0.15001, 0.47687, 0.27533] := by
  unfold hartmann4
  rw [outer_sum, lt_div_iff₀ (by norm_num)]
  have hb : ∀ q b : ℝ, 0 ≤ q → 1 / (1 + q + q ^ 2 / 2) ≤ b → exp (-q) ≤ b := fun q b hq h => (exp_neg_le hq).trans h
  have h0 : inner (by norm_num) (![0.20169, 0.15001, 0.47687, 0.27533] : Fin 4 → ℝ) 0 = 0.40168396775 := by
    rw [inner_sum]
    simp only [Fin.sum_univ_four, A, P, Fin.castLE, Matrix.cons_val]
    norm_num
  have h1 : inner (by norm_num) (![0.20169, 0.15001, 0.47687, 0.27533] : Fin 4 → ℝ) 1 = 2.823610574795 := by
    rw [inner_sum]
    simp only [Fin.sum_univ_four, A, P, Fin.castLE, Matrix.cons_val]
    norm_num
  have h2 : inner (by norm_num) (![0.20169, 0.15001, 0.47687, 0.27533] : Fin 4 → ℝ) 2 = 0.03147783878 := by
    rw [inner_sum]
    simp only [Fin.sum_univ_four, A, P, Fin.castLE, Matrix.cons_val]
    norm_num
  have h3 : inner (by norm_num) (![0.20169, 0.15001, 0.47687, 0.27533] : Fin 4 → ℝ) 3 = 5.898155976945 := by
    rw [inner_sum]
    simp only [Fin.sum_univ_four, A, P, Fin.castLE, Matrix.cons_val]
    norm_num
  simp only [← inner_sum, Fin.sum_univ_four, h0, h1, h2, h3, alpha, Matrix.cons_val]
  have b0 := hb 0.40168396775 0.68 (by norm_num) (by norm_num)
  have b1 := hb 2.823610574795 0.13 (by norm_num) (by norm_num)
  have b2 := hb 0.03147783878 0.97 (by norm_num) (by norm_num)
  have b3 := hb 5.898155976945 0.05 (by norm_num) (by norm_num)
  norm_num at b0 b1 b2 b3 ⊢
  linarith

/-! ## Borehole -/

/-- **C143** The flow is that of three resistances in series. -/
theorem borehole_series {x : Fin 8 → ℝ} (h0 : 0 < x 0) (h1 : x 0 < x 1) (h2 : 0 < x 2) (h4 : 0 < x 4) (h6 : 0 < x 6)
    (h7 : 0 < x 7) : borehole x = 2 * π * (x 3 - x 5) /
      (log (x 1 / x 0) / x 2 + 2 * x 6 / (x 0 ^ 2 * x 7) + log (x 1 / x 0) / x 4) := by
  have hl : 0 < log (x 1 / x 0) := log_pos ((one_lt_div h0).mpr h1)
  unfold borehole
  dsimp only
  generalize log (x 1 / x 0) = l at hl ⊢
  field_simp

/-- The usual domain. -/
def Hole (x : Fin 8 → ℝ) : Prop :=
  0.05 ≤ x 0 ∧ x 0 ≤ 0.15 ∧ 100 ≤ x 1 ∧ x 1 ≤ 50000 ∧ 63070 ≤ x 2 ∧ x 2 ≤ 115600 ∧ 990 ≤ x 3 ∧ x 3 ≤ 1110 ∧
    63.1 ≤ x 4 ∧ x 4 ≤ 116 ∧ 700 ≤ x 5 ∧ x 5 ≤ 820 ∧ 1120 ≤ x 6 ∧ x 6 ≤ 1680 ∧ 9855 ≤ x 7 ∧ x 7 ≤ 12045

/-- **C143** In the usual domain the flow is positive; it increases with both transmissivities,
the upper head, the conductivity and the radius of the hole, and decreases with the lower head,
the length and the radius of influence. -/
theorem borehole_monotone {x y : Fin 8 → ℝ} (hx : Hole x) (hy : Hole y) (h0 : x 0 ≤ y 0) (h1 : y 1 ≤ x 1)
    (h2 : x 2 ≤ y 2) (h3 : x 3 ≤ y 3) (h4 : x 4 ≤ y 4) (h5 : y 5 ≤ x 5) (h6 : y 6 ≤ x 6) (h7 : x 7 ≤ y 7) :
    0 < borehole x ∧ borehole x ≤ borehole y := by
  obtain ⟨x0, x0', x1, _, x2, _, x3, _, x4, _, _, x5, x6, _, x7, _⟩ := hx
  obtain ⟨y0, y0', y1, _, y2, _, y3, _, y4, _, _, y5, y6, _, y7, _⟩ := hy
  have px0 : 0 < x 0 := by norm_num at x0; linarith
  have py0 : 0 < y 0 := by norm_num at y0; linarith
  norm_num at x0' y0' x4 y4
  have px2 : 0 < x 2 := by linarith
  have py2 : 0 < y 2 := by linarith
  have px4 : 0 < x 4 := by linarith
  have py4 : 0 < y 4 := by linarith
  have px6 : 0 < x 6 := by linarith
  have py6 : 0 < y 6 := by linarith
  have px7 : 0 < x 7 := by linarith
  have py7 : 0 < y 7 := by linarith
  have px1 : 0 < x 1 := by linarith
  have py1 : 0 < y 1 := by linarith
  rw [borehole_series px0 (by linarith) px2 px4 px6 px7, borehole_series py0 (by linarith) py2 py4 py6 py7]
  have hp := pi_pos
  have hlx : 0 < log (x 1 / x 0) := log_pos ((one_lt_div px0).mpr (by linarith))
  have hly : 0 < log (y 1 / y 0) := log_pos ((one_lt_div py0).mpr (by linarith))
  have hll : log (y 1 / y 0) ≤ log (x 1 / x 0) :=
    log_le_log (by positivity) (div_le_div₀ px1.le h1 px0 h0)
  have hdx : 0 < x 3 - x 5 := by linarith
  have hD : 0 < log (y 1 / y 0) / y 2 + 2 * y 6 / (y 0 ^ 2 * y 7) + log (y 1 / y 0) / y 4 := by positivity
  refine ⟨by positivity, ?_⟩
  refine div_le_div₀ (by nlinarith) (by nlinarith) hD ?_
  refine add_le_add (add_le_add ?_ ?_) ?_
  · exact div_le_div₀ hlx.le hll px2 h2
  · exact div_le_div₀ (by positivity) (by linarith) (by positivity)
      (mul_le_mul (pow_le_pow_left₀ px0.le h0 2) h7 px7.le (by positivity))
  · exact div_le_div₀ hlx.le hll px4 h4

example : Hole ![0.1, 1000, 100000, 1000, 100, 800, 1500, 10000] := by
  simp only [Hole, Matrix.cons_val]
  norm_num

/-! ## Ishigami -/

/-- **C144** On its domain `ishigami` has minimum `-(1 + π⁴/10)` and maximum `6 + π⁴/10`, both
attained. -/
theorem ishigami_range {x : Fin 3 → ℝ} (h : |x 2| ≤ π) :
    -(1 + π ^ 4 / 10) ≤ ishigami x ∧ ishigami x ≤ 6 + π ^ 4 / 10 := by
  have hs := sin_le_one (x 0)
  have hs' := neg_one_le_sin (x 0)
  have h1 : sin (x 1) ^ 2 ≤ 1 := sin_sq_le_one _
  have h1' : 0 ≤ sin (x 1) ^ 2 := sq_nonneg _
  have h4 : x 2 ^ 4 ≤ π ^ 4 := by
    rw [show x 2 ^ 4 = |x 2| ^ 4 by rw [← abs_pow, abs_of_nonneg (by positivity)]]
    exact pow_le_pow_left₀ (abs_nonneg _) h 4
  have h4' : 0 ≤ x 2 ^ 4 := by positivity
  have e : ishigami x = sin (x 0) * (1 + x 2 ^ 4 / 10) + 5 * sin (x 1) ^ 2 := by
    unfold ishigami
    norm_num
    ring
  rw [e]
  have b1 : sin (x 0) * (1 + x 2 ^ 4 / 10) ≤ 1 * (1 + x 2 ^ 4 / 10) := mul_le_mul_of_nonneg_right hs (by linarith)
  have b2 : -1 * (1 + x 2 ^ 4 / 10) ≤ sin (x 0) * (1 + x 2 ^ 4 / 10) := mul_le_mul_of_nonneg_right hs' (by linarith)
  constructor <;> linarith

/-- **C144** The two extreme values. -/
theorem ishigami_attained : ishigami ![-(π / 2), 0, π] = -(1 + π ^ 4 / 10) ∧
    ishigami ![π / 2, π / 2, π] = 6 + π ^ 4 / 10 := by
  constructor
  · simp [ishigami]
    ring
  · simp [ishigami]
    ring

/-- **C144** Exchanging the sign of the second or third variable, or moving them by full periods,
changes nothing. -/
theorem ishigami_symm (a b c : ℝ) : ishigami ![a, -b, c] = ishigami ![a, b, c] ∧
    ishigami ![a, b, -c] = ishigami ![a, b, c] ∧ ishigami ![a, b + π, c] = ishigami ![a, b, c] := by
  refine ⟨by simp [ishigami], ?_, by simp [ishigami]⟩
  simp only [ishigami, Matrix.cons_val]
  ring

end Verif.TestFunctions
