import Verif.Num
import Mathlib.Data.EReal.Inv
import Mathlib.Analysis.SpecialFunctions.Log.Basic
import Mathlib.Data.List.FinRange
import Mathlib.Algebra.BigOperators.Fin

/-!
# Further IEEE operations without rounding

Numpy conventions; zeros are positive (no signed zero).
-/

set_option autoImplicit false

namespace Verif.Flt

open Classical in
/-- `a * b`; zero times infinity is NaN. -/
noncomputable def mul : Flt → Flt → Flt
  | .num a, .num b =>
    if (a = 0 ∧ (b = ⊤ ∨ b = ⊥)) ∨ (b = 0 ∧ (a = ⊤ ∨ a = ⊥)) then .nan else .num (a * b)
  | _, _ => .nan

open Classical in
/-- `a / b`: `0/0` and `inf/inf` are NaN, division by zero is infinite. -/
noncomputable def div : Flt → Flt → Flt
  | .num a, .num b =>
    if b = 0 then (if a = 0 then .nan else if 0 < a then .num ⊤ else .num ⊥)
    else if (a = ⊤ ∨ a = ⊥) ∧ (b = ⊤ ∨ b = ⊥) then .nan
    else .num (a / b)
  | _, _ => .nan

open Classical in
/-- `exp(a)`. -/
noncomputable def exp : Flt → Flt
  | .num a =>
    if a = ⊤ then .num ⊤ else if a = ⊥ then .num 0 else fin (Real.exp a.toReal)
  | .nan => .nan

open Classical in
/-- `log(u)` of a nonnegative number: `log(0)` is `-inf`. -/
noncomputable def logU (u : ℝ) : Flt := if u = 0 then .num ⊥ else fin (Real.log u)

/-- Sum of a vector. -/
noncomputable def sum {n : ℕ} (f : Fin n → Flt) : Flt :=
  ((List.finRange n).map f).foldl add (fin 0)

/-- Product of a list. -/
noncomputable def prod (l : List Flt) : Flt := l.foldl mul (fin 1)

/-- Finite number. -/
def IsFin (a : Flt) : Prop := ∃ r, a = fin r

/-- `abs(a) < t`. -/
def absLt (a : Flt) (t : ℝ) : Prop := lt (fin (-t)) a ∧ lt a (fin t)

@[simp] theorem mul_fin (a b : ℝ) : mul (fin a) (fin b) = fin (a * b) := by
  simp [mul, fin, EReal.coe_mul]

@[simp] theorem exp_fin (a : ℝ) : exp (fin a) = fin (Real.exp a) := by
  simp [exp, fin]

@[simp] theorem exp_bot : exp (.num ⊥) = fin 0 := by
  simp [exp, fin]

@[simp] theorem exp_nan : exp .nan = .nan := rfl

theorem div_fin {a b : ℝ} (h : b ≠ 0) : div (fin a) (fin b) = fin (a / b) := by
  simp [div, fin, h, EReal.coe_div]

@[simp] theorem nan_mul (a : Flt) : mul .nan a = .nan := by cases a <;> rfl
@[simp] theorem mul_nan (a : Flt) : mul a .nan = .nan := by cases a <;> rfl

theorem foldl_add_fin (l : List ℝ) (c : ℝ) :
    (l.map fin).foldl add (fin c) = fin (c + l.sum) := by
  induction l generalizing c with
  | nil => simp
  | cons a l ih => simp [ih, add_assoc]

theorem sum_fin {n : ℕ} (f : Fin n → ℝ) : sum (fun i => fin (f i)) = fin (∑ i, f i) := by
  unfold sum
  have : (List.finRange n).map (fun i => fin (f i)) = ((List.finRange n).map f).map fin := by
    simp
  rw [this, foldl_add_fin, zero_add, ← Fin.sum_univ_def]

theorem foldl_add_nan (l : List Flt) : l.foldl add .nan = .nan := by
  induction l with
  | nil => rfl
  | cons a l ih => simp [ih]

/-- One NaN makes the sum NaN. -/
theorem sum_nan {n : ℕ} (f : Fin n → Flt) (i : Fin n) (h : f i = .nan) : sum f = .nan := by
  unfold sum
  have hm : Flt.nan ∈ (List.finRange n).map f :=
    List.mem_map.mpr ⟨i, List.mem_finRange i, h⟩
  generalize (List.finRange n).map f = l at hm
  generalize fin 0 = c
  induction l generalizing c with
  | nil => cases hm
  | cons a l ih =>
    rcases List.mem_cons.mp hm with rfl | h'
    · simp [foldl_add_nan]
    · exact ih h' _

theorem foldl_mul_fin (l : List ℝ) (c : ℝ) :
    (l.map fin).foldl mul (fin c) = fin (c * l.prod) := by
  induction l generalizing c with
  | nil => simp
  | cons a l ih => simp [ih, mul_assoc]

theorem prod_fin (l : List ℝ) : prod (l.map fin) = fin l.prod := by
  unfold prod; rw [foldl_mul_fin, one_mul]

theorem absLt_fin (a t : ℝ) : absLt (fin a) t ↔ |a| < t := by
  simp [absLt, abs_lt]

theorem fin_isFin (a : ℝ) : IsFin (fin a) := ⟨a, rfl⟩

@[simp] theorem logU_zero : logU 0 = .num ⊥ := by simp [logU]

theorem logU_pos {u : ℝ} (h : u ≠ 0) : logU u = fin (Real.log u) := by simp [logU, h]

end Verif.Flt
