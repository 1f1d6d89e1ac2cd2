import Mathlib.Data.EReal.Basic
import Mathlib.Data.EReal.Operations

/-!
# Floating point numbers where infinities and NaN matter

An IEEE number without rounding: NaN or an extended real.  Only the operations
used by the models are defined; comparisons with NaN are false.
-/

set_option autoImplicit false

namespace Verif

/-- NaN or an extended real number. -/
inductive Flt where
  | nan
  | num (x : EReal)

namespace Flt

/-- A finite number. -/
def fin (x : ℝ) : Flt := .num (x : EReal)

/-- `a < b`. -/
def lt : Flt → Flt → Prop
  | .num a, .num b => a < b
  | _, _ => False

/-- `a <= b`. -/
def le : Flt → Flt → Prop
  | .num a, .num b => a ≤ b
  | _, _ => False

@[simp] theorem lt_num (a b : EReal) : lt (.num a) (.num b) ↔ a < b := Iff.rfl
@[simp] theorem le_num (a b : EReal) : le (.num a) (.num b) ↔ a ≤ b := Iff.rfl
@[simp] theorem nan_lt (a : Flt) : lt .nan a ↔ False := by cases a <;> rfl
@[simp] theorem lt_nan (a : Flt) : lt a .nan ↔ False := by cases a <;> rfl
@[simp] theorem nan_le (a : Flt) : le .nan a ↔ False := by cases a <;> rfl
@[simp] theorem le_nan (a : Flt) : le a .nan ↔ False := by cases a <;> rfl
@[simp] theorem fin_lt (a b : ℝ) : lt (fin a) (fin b) ↔ a < b := EReal.coe_lt_coe_iff
@[simp] theorem fin_le (a b : ℝ) : le (fin a) (fin b) ↔ a ≤ b := EReal.coe_le_coe_iff

theorem fin_inj {a b : ℝ} : fin a = fin b ↔ a = b := by
  constructor
  · intro h
    injection h with h
    exact EReal.coe_injective h
  · rintro rfl; rfl

/-- `-a`. -/
noncomputable def neg : Flt → Flt
  | .num a => .num (-a)
  | .nan => .nan

/-- `a + b`; opposite infinities give NaN. -/
noncomputable def add : Flt → Flt → Flt
  | .num a, .num b =>
    open Classical in
    if (a = ⊤ ∧ b = ⊥) ∨ (a = ⊥ ∧ b = ⊤) then .nan else .num (a + b)
  | _, _ => .nan

/-- `a - b`. -/
noncomputable def sub (a b : Flt) : Flt := a.add b.neg

@[simp] theorem neg_fin (a : ℝ) : neg (fin a) = fin (-a) := rfl
@[simp] theorem add_fin (a b : ℝ) : add (fin a) (fin b) = fin (a + b) := by
  simp [add, fin, EReal.coe_add]
@[simp] theorem sub_fin (a b : ℝ) : sub (fin a) (fin b) = fin (a - b) := by
  simp [sub, sub_eq_add_neg]
@[simp] theorem nan_add (a : Flt) : add .nan a = .nan := by cases a <;> rfl
@[simp] theorem add_nan (a : Flt) : add a .nan = .nan := by cases a <;> rfl
@[simp] theorem nan_sub (a : Flt) : sub .nan a = .nan := by simp [sub]
@[simp] theorem sub_nan (a : Flt) : sub a .nan = .nan := by simp [sub, neg]

/-- `-inf` absorbs or gives NaN. -/
theorem bot_add (a : Flt) : add (.num ⊥) a = .num ⊥ ∨ add (.num ⊥) a = .nan := by
  cases a with
  | nan => simp
  | num a =>
    by_cases h : a = ⊤
    · right; simp [add, h]
    · left; simp [add, h]

theorem bot_sub (a : Flt) : sub (.num ⊥) a = .num ⊥ ∨ sub (.num ⊥) a = .nan := bot_add _

end Flt
end Verif
