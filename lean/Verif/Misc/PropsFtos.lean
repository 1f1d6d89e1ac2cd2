import Verif.Misc.DataFrame
import Mathlib.Tactic.Linarith
import Mathlib.Tactic.NormNum
import Mathlib.Tactic.Positivity
import Mathlib.Tactic.FieldSimp
import Mathlib.Analysis.SpecialFunctions.Pow.Real

/-!
# Displayed numbers

How close the numbers shown by `ftos` are to the data.
-/

set_option autoImplicit false

namespace Verif.DataFrame

open Verif

/-- The number that is read from the display. -/
noncomputable def Shown.value : Shown → Option ℝ
  | .text _ => none
  | .fixed k m => some (m / 10 ^ k)
  | .sci k m e => some (m / 10 ^ k * 10 ^ e)

/-- Rounding moves a number by at most one half. -/
theorem nearest_close (x : ℝ) : |nearest x - x| ≤ 1 / 2 := by
  classical
  unfold nearest
  have h1 := Int.floor_le x
  have h2 := Int.lt_floor_add_one x
  by_cases h : x - ⌊x⌋ = 1 / 2
  · rw [if_pos h]
    by_cases he : Even ⌊x⌋
    · rw [if_pos he, abs_le]; constructor <;> linarith
    · rw [if_neg he, abs_le]; push_cast; constructor <;> linarith
  · rw [if_neg h]
    have h3 := Int.floor_le (x + 1 / 2)
    have h4 := Int.lt_floor_add_one (x + 1 / 2)
    rw [abs_le]; constructor <;> linarith

/-- `k` decimals: the error is at most half a unit of the last one. -/
theorem fmt_close (k : ℕ) (x : ℝ) : |fmt k x / 10 ^ k - x| ≤ 1 / 2 / 10 ^ k := by
  have hk : (0 : ℝ) < 10 ^ k := by positivity
  have h := nearest_close (x * 10 ^ k)
  have e : (fmt k x : ℝ) / 10 ^ k - x = (fmt k x - x * 10 ^ k) / 10 ^ k := by
    field_simp
  rw [e, abs_div, abs_of_pos hk]
  exact div_le_div_of_nonneg_right h hk.le

/-- The power of ten of a nonzero number. -/
theorem floor_log {y : ℝ} (hy : 0 < y) :
    (10 : ℝ) ^ ⌊Real.logb 10 y⌋ ≤ y ∧ y < 10 ^ (⌊Real.logb 10 y⌋ + 1) := by
  have h1 := Int.floor_le (Real.logb 10 y)
  have h2 := Int.lt_floor_add_one (Real.logb 10 y)
  constructor
  · rw [← Real.rpow_intCast, ← Real.le_logb_iff_rpow_le (by norm_num) hy]; exact h1
  · rw [← Real.rpow_intCast, ← Real.logb_lt_iff_lt_rpow (by norm_num) hy]; push_cast; exact h2

/-- **C126** A finite number other than zero is shown with a relative error of at most
`5 / 10 ^ fp` (one half percent with the default `fp = 3`); zero is shown as `0.0`. -/
theorem ftos_accuracy (fp : ℕ) (x : ℝ) :
    (x = 0 → ftos fp (.fin x) = .ok (.text "0.0")) ∧
    (x ≠ 0 → ∃ s v, ftos fp (.fin x) = .ok s ∧ s.value = some v ∧ |v - x| ≤ 5 / 10 ^ fp * |x|) := by
  classical
  have hf : ftos fp (.fin x) = .ok (ftosReal fp x) := by
    simp [ftos, Flt.fin]
  rw [hf]
  constructor
  · intro h; simp [ftosReal, h]
  intro hx
  have hp : (0 : ℝ) < 10 ^ fp := by positivity
  have hax : 0 < |x| := abs_pos.mpr hx
  unfold ftosReal
  rw [if_neg hx]
  by_cases h1 : 1 / 10 ≤ |x| ∧ |x| < 1000
  · rw [if_pos h1]
    refine ⟨_, _, rfl, rfl, (fmt_close fp x).trans ?_⟩
    rw [div_mul_eq_mul_div]
    apply div_le_div_of_nonneg_right _ hp.le
    linarith [h1.1]
  rw [if_neg h1]
  by_cases h2 : 1 / 100 ≤ |x| ∧ |x| < 1 / 10
  · rw [if_pos h2]
    refine ⟨_, _, rfl, rfl, (fmt_close (fp + 1) x).trans ?_⟩
    rw [pow_succ, div_mul_eq_mul_div, div_le_div_iff₀ (by positivity) hp]
    nlinarith [h2.1]
  rw [if_neg h2]
  obtain ⟨h3, h4⟩ := floor_log hax
  set e := ⌊Real.logb 10 |x|⌋ with he
  have hz : (0 : ℝ) < 10 ^ e := by positivity
  refine ⟨_, _, rfl, rfl, ?_⟩
  have hc := fmt_close fp (x / 10 ^ e)
  have e1 : (fmt fp (x / 10 ^ e) : ℝ) / 10 ^ fp * 10 ^ e - x =
      (fmt fp (x / 10 ^ e) / 10 ^ fp - x / 10 ^ e) * 10 ^ e := by
    rw [sub_mul, div_mul_cancel₀ _ hz.ne']
  rw [e1, abs_mul, abs_of_pos hz]
  calc _ ≤ 1 / 2 / 10 ^ fp * 10 ^ e := mul_le_mul_of_nonneg_right hc hz.le
    _ ≤ 1 / 2 / 10 ^ fp * |x| := mul_le_mul_of_nonneg_left h3 (by positivity)
    _ ≤ 5 / 10 ^ fp * |x| := by
      apply mul_le_mul_of_nonneg_right _ hax.le
      apply div_le_div_of_nonneg_right _ hp.le
      norm_num

/-- The unit of the last decimal of the display. -/
noncomputable def Shown.unit : Shown → ℝ
  | .text _ => 0
  | .fixed k _ => 1 / 10 ^ k
  | .sci k _ e => 1 / 10 ^ k * 10 ^ e

/-- **C126** A finite number other than zero is shown within half a unit of the last shown
decimal. -/
theorem ftos_half_unit (fp : ℕ) {x : ℝ} (hx : x ≠ 0) :
    ∃ s v, ftos fp (.fin x) = .ok s ∧ s.value = some v ∧ 0 < s.unit ∧ |v - x| ≤ s.unit / 2 := by
  classical
  have hf : ftos fp (.fin x) = .ok (ftosReal fp x) := by
    simp [ftos, Flt.fin]
  rw [hf]
  unfold ftosReal
  rw [if_neg hx]
  by_cases h1 : 1 / 10 ≤ |x| ∧ |x| < 1000
  · rw [if_pos h1]
    refine ⟨_, _, rfl, rfl, by unfold Shown.unit; positivity, (fmt_close fp x).trans (le_of_eq ?_)⟩
    unfold Shown.unit; ring
  rw [if_neg h1]
  by_cases h2 : 1 / 100 ≤ |x| ∧ |x| < 1 / 10
  · rw [if_pos h2]
    refine ⟨_, _, rfl, rfl, by unfold Shown.unit; positivity,
      (fmt_close (fp + 1) x).trans (le_of_eq ?_)⟩
    unfold Shown.unit; ring
  rw [if_neg h2]
  set e := ⌊Real.logb 10 |x|⌋ with he
  have hz : (0 : ℝ) < 10 ^ e := by positivity
  refine ⟨_, _, rfl, rfl, by unfold Shown.unit; positivity, ?_⟩
  have hc := fmt_close fp (x / 10 ^ e)
  have e1 : (fmt fp (x / 10 ^ e) : ℝ) / 10 ^ fp * 10 ^ e - x =
      (fmt fp (x / 10 ^ e) / 10 ^ fp - x / 10 ^ e) * 10 ^ e := by
    rw [sub_mul, div_mul_cancel₀ _ hz.ne']
  rw [e1, abs_mul, abs_of_pos hz]
  refine (mul_le_mul_of_nonneg_right hc hz.le).trans (le_of_eq ?_)
  unfold Shown.unit; ring

/-- 0.02 is shown with four decimals as 0.0200. -/
example : ftos 3 (.fin 0.02) = .ok (.fixed 4 200) := by
  have hf : ftos 3 (.fin 0.02) = .ok (ftosReal 3 0.02) := by simp [ftos, Flt.fin]
  have hn : fmt 4 0.02 = 200 := by
    have h : (0.02 : ℝ) * 10 ^ 4 = 200 := by norm_num
    unfold fmt nearest
    rw [h]
    norm_num
  rw [hf, ftosReal, if_neg (by norm_num), if_neg (by norm_num [abs_of_pos]),
    if_pos (by norm_num [abs_of_pos]), hn]

/-- **C126** The mantissa before rounding is at least 1 and less than 10. -/
theorem ftos_mantissa (fp : ℕ) (x : ℝ) {k : ℕ} {m e : ℤ} (h : ftosReal fp x = .sci k m e) :
    k = fp ∧ 1 ≤ |x / 10 ^ e| ∧ |x / 10 ^ e| < 10 ∧ m = fmt fp (x / 10 ^ e) := by
  classical
  unfold ftosReal at h
  by_cases h0 : x = 0
  · rw [if_pos h0] at h; cases h
  rw [if_neg h0] at h
  by_cases h1 : 1 / 10 ≤ |x| ∧ |x| < 1000
  · rw [if_pos h1] at h; cases h
  rw [if_neg h1] at h
  by_cases h2 : 1 / 100 ≤ |x| ∧ |x| < 1 / 10
  · rw [if_pos h2] at h; cases h
  rw [if_neg h2] at h
  obtain ⟨h3, h4⟩ := floor_log (abs_pos.mpr h0)
  cases h
  have hz : (0 : ℝ) < 10 ^ ⌊Real.logb 10 |x|⌋ := by positivity
  refine ⟨rfl, ?_, ?_, rfl⟩
  · rw [abs_div, abs_of_pos hz, le_div_iff₀ hz, one_mul]; exact h3
  · rw [abs_div, abs_of_pos hz, div_lt_iff₀ hz]
    rw [zpow_add₀ (by norm_num), zpow_one] at h4
    linarith

/-- **C126** After rounding the mantissa may be 10: 0.0099999 is shown as `10.000e-3`. -/
theorem ftos_mantissa_false : ftos 3 (.fin 0.0099999) = .ok (.sci 3 10000 (-3)) := by
  have hf : ftos 3 (.fin 0.0099999) = .ok (ftosReal 3 0.0099999) := by simp [ftos, Flt.fin]
  have he : ⌊Real.logb 10 |(0.0099999 : ℝ)|⌋ = -3 := by
    rw [Int.floor_eq_iff, abs_of_pos (by norm_num)]
    constructor
    · rw [Real.le_logb_iff_rpow_le (by norm_num) (by norm_num), Real.rpow_intCast]; norm_num
    · rw [Real.logb_lt_iff_lt_rpow (by norm_num) (by norm_num)]
      have : ((-3 : ℤ) : ℝ) + 1 = ((-2 : ℤ) : ℝ) := by norm_num
      rw [this, Real.rpow_intCast]; norm_num
  have hn : fmt 3 (0.0099999 / 10 ^ (-3 : ℤ)) = 10000 := by
    have h : (0.0099999 : ℝ) / 10 ^ (-3 : ℤ) * 10 ^ 3 = 9999.9 := by norm_num
    unfold fmt nearest
    rw [h]
    have h1 : ⌊(9999.9 : ℝ)⌋ = 9999 := by rw [Int.floor_eq_iff]; norm_num
    have h2 : ⌊(9999.9 : ℝ) + 1 / 2⌋ = 10000 := by rw [Int.floor_eq_iff]; norm_num
    rw [h1, h2, if_neg (by norm_num)]
  rw [hf, ftosReal, if_neg (by norm_num), if_neg (by norm_num [abs_of_pos]),
    if_neg (by norm_num [abs_of_pos])]
  dsimp only
  rw [he, hn]

/-- **C126** Infinities are shown; NaN raises. -/
theorem ftos_nonfinite (fp : ℕ) : ftos fp (.num ⊤) = .ok (.text "+Inf") ∧
    ftos fp (.num ⊥) = .ok (.text "-Inf") ∧ ftos fp .nan = .error .valueError := by
  refine ⟨?_, ?_, rfl⟩ <;> simp [ftos]

end Verif.DataFrame
