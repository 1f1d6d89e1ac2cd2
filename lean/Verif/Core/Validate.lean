import Mathlib.Data.Nat.Notation
import Mathlib.Data.Int.Notation
import Verif.Py

/-!
# C82, C83: input validation (`core/utils.py`) and the `Model` constructor

Arrays are represented by their shapes (lists of sizes) only.
-/

set_option autoImplicit false

namespace Verif.Core.Validate

open Verif

/-! ## Model -/

/-- What is passed as `mean`. -/
inductive MeanArg where
  | none
  | callable
  /-- any other object (a number, an array, …) -/
  | other
  deriving DecidableEq

/-- `validate_model_mean`, core/utils.py 84-118. -/
def validateModelMean (meantype : String) (mean : MeanArg) (_meanparam : Option (List ℤ)) :
    Py Unit :=
  if ¬ (meantype = "zero" ∨ meantype = "parameterized" ∨ meantype = "linear_predictor") then
    .error .valueError
  else if meantype = "zero" ∧ mean ≠ .none then .error .valueError
  else if (meantype = "parameterized" ∨ meantype = "linear_predictor") ∧ mean ≠ .callable then
    .error .typeError
  else .ok ()

/-- The fields of `Model` set by the constructor that matter here, model.py 136-166. -/
structure Model where
  meantype : String
  mean : MeanArg
  meanparam : Option (List ℤ)

/-- `Model.__init__`, model.py 136-166. -/
def mkModel (mean : MeanArg) (meanparam : Option (List ℤ)) (meantype : String) : Py Model := do
  validateModelMean meantype mean meanparam
  return ⟨meantype, mean, meanparam⟩

/-- The refusals of `select_predictor`, kriging.py 138-162. -/
def selectRefuses (m : Model) : Py Unit :=
  if m.meantype = "zero" then .ok ()
  else if m.meantype = "linear_predictor" then .ok ()
  else if m.meantype = "parameterized" then
    (if m.meanparam = none then .error .valueError else .ok ())
  else .error .valueError

/-- `assert`. -/
def assert (b : Bool) : Py Unit := if b then .ok () else .error .assertionError

/-- Treatment of `zi`, core/utils.py 58-63. -/
def zShape : Option (List ℕ) → Py (Option (List ℕ))
  | none => .ok none
  | some [n, c] => do assert (c == 1); return some [n * c]
  | some s => do assert (s.length == 1); return some s

/-- Rows check, core/utils.py 68-69. -/
def rowsCheck : Option (List ℕ) → Option (List ℕ) → Py Unit
  | some xi, some zi => assert (xi.head? == zi.head?)
  | _, _ => .ok ()

/-- Columns check, core/utils.py 70-71. -/
def colsCheck : Option (List ℕ) → Option (List ℕ) → Py Unit
  | some xi, some xt => assert (xi[1]? == xt[1]?)
  | _, _ => .ok ()

/-- 2-D check, core/utils.py 55-56, 65-66. -/
def twoD : Option (List ℕ) → Py Unit
  | some s => assert (s.length == 2)
  | none => .ok ()

/-- `ensure_shapes_and_type`, core/utils.py 19-81, on shapes (conversion does not
change a shape). -/
def ensureShapes (xi zi xt : Option (List ℕ)) :
    Py (Option (List ℕ) × Option (List ℕ) × Option (List ℕ)) := do
  twoD xi
  let zi ← zShape zi
  twoD xt
  rowsCheck xi zi
  colsCheck xi xt
  return (xi, zi, xt)

/-! ## C82 -/

/-- **C82** Which constructor arguments are accepted, and with which error the
others are refused. -/
theorem mkModel_spec (mean : MeanArg) (mp : Option (List ℤ)) (mt : String) :
    mkModel mean mp mt =
      if mt = "zero" then (if mean = .none then .ok ⟨mt, mean, mp⟩ else .error .valueError)
      else if mt = "parameterized" ∨ mt = "linear_predictor" then
        (if mean = .callable then .ok ⟨mt, mean, mp⟩ else .error .typeError)
      else .error .valueError := by
  by_cases h0 : mt = "zero"
  · subst h0
    cases mean <;> simp [mkModel, validateModelMean, bind, Except.bind, pure, Except.pure]
  · by_cases h1 : mt = "parameterized" ∨ mt = "linear_predictor"
    · cases mean <;>
        simp [mkModel, validateModelMean, h0, h1, bind, Except.bind, pure, Except.pure]
    · simp [mkModel, validateModelMean, h0, h1, bind, Except.bind]

/-- **C82** is false in its documented strength ("parameters required for
'parameterized'", `ValueError` if inconsistent): a parameterised mean without
parameters is accepted by the constructor and refused only at prediction. -/
theorem meanparam_required_false :
    ∃ m, mkModel .callable none "parameterized" = .ok m ∧ selectRefuses m = .error .valueError :=
  ⟨_, rfl, rfl⟩

/-- **C82** What does hold: for a constructed model, prediction refuses exactly the
parameterised mean without parameters. -/
theorem meanparam_required_partial (mean : MeanArg) (mp : Option (List ℤ)) (mt : String) (m : Model)
    (h : mkModel mean mp mt = .ok m) :
    selectRefuses m = if mt = "parameterized" ∧ mp = none then .error .valueError else .ok () := by
  rw [mkModel_spec] at h
  by_cases h0 : mt = "zero"
  · subst h0
    by_cases hm : mean = .none
    · simp [hm] at h; subst h; simp [selectRefuses]
    · simp [hm] at h
  · by_cases h1 : mt = "parameterized" ∨ mt = "linear_predictor"
    · by_cases hm : mean = .callable
      · simp [h0, h1, hm] at h
        subst h
        rcases h1 with rfl | rfl
        · simp [selectRefuses]
        · simp [selectRefuses]
      · simp [h0, h1, hm] at h
    · simp [h0, h1] at h

/-! ## C83 -/

/-- The documented shape requirements. -/
def ShapesOK (xi zi xt : Option (List ℕ)) : Prop :=
  (∀ s, xi = some s → ∃ n d, s = [n, d]) ∧
  (∀ s, zi = some s → ∃ n, s = [n] ∨ s = [n, 1]) ∧
  (∀ s, xt = some s → ∃ m d, s = [m, d]) ∧
  (∀ s t, xi = some s → zi = some t → s.head? = t.head?) ∧
  (∀ s t, xi = some s → xt = some t → s[1]? = t[1]?)

/-- `(n, 1)` becomes `(n,)`. -/
def flatten : Option (List ℕ) → Option (List ℕ)
  | some [n, 1] => some [n]
  | z => z

theorem twoD_ok (s : Option (List ℕ)) :
    (twoD s = .ok () ∧ ∀ t, s = some t → ∃ n d, t = [n, d]) ∨
    (twoD s = .error .assertionError ∧ ∃ t, s = some t ∧ ¬ ∃ n d, t = [n, d]) := by
  match s with
  | none => exact Or.inl ⟨rfl, by simp⟩
  | some [] => exact Or.inr ⟨rfl, [], rfl, by simp⟩
  | some [a] => exact Or.inr ⟨rfl, [a], rfl, by simp⟩
  | some [a, b] => exact Or.inl ⟨rfl, fun t h => ⟨a, b, by simpa using h.symm⟩⟩
  | some (a :: b :: c :: l) => exact Or.inr ⟨rfl, _, rfl, by simp⟩

theorem zShape_ok (s : Option (List ℕ)) :
    (zShape s = .ok (flatten s) ∧ ∀ t, s = some t → ∃ n, t = [n] ∨ t = [n, 1]) ∨
    (zShape s = .error .assertionError ∧ ∃ t, s = some t ∧ ¬ ∃ n, t = [n] ∨ t = [n, 1]) := by
  match s with
  | none => exact Or.inl ⟨rfl, by simp⟩
  | some [] => exact Or.inr ⟨rfl, [], rfl, by simp⟩
  | some [a] => exact Or.inl ⟨rfl, fun t h => ⟨a, Or.inl (by simpa using h.symm)⟩⟩
  | some [a, b] =>
    by_cases hb : b = 1
    · subst hb
      refine Or.inl ⟨?_, fun t h => ⟨a, Or.inr (by simpa using h.symm)⟩⟩
      simp [zShape, assert, flatten, bind, Except.bind, pure, Except.pure]
    · refine Or.inr ⟨?_, _, rfl, by simp [hb]⟩
      simp [zShape, assert, hb, bind, Except.bind]
  | some (a :: b :: c :: l) => exact Or.inr ⟨rfl, _, rfl, by simp⟩

theorem flatten_head (z : Option (List ℕ)) : (flatten z).bind List.head? = z.bind List.head? := by
  unfold flatten
  split <;> rfl

/-- **C83** Inputs are accepted exactly when they have the documented shapes; then
only a column `zi` is reshaped; otherwise `AssertionError`. -/
theorem ensureShapes_spec (xi zi xt : Option (List ℕ)) :
    (ShapesOK xi zi xt → ensureShapes xi zi xt = .ok (xi, flatten zi, xt)) ∧
    (¬ ShapesOK xi zi xt → ensureShapes xi zi xt = .error .assertionError) := by
  have rows : ∀ s, zShape zi = .ok (flatten zi) → xi = some s →
      rowsCheck xi (flatten zi) = if (∀ t, zi = some t → s.head? = t.head?) then .ok ()
        else .error .assertionError := by
    intro s hz hs
    subst hs
    cases zi with
    | none => simp [flatten, rowsCheck]
    | some t =>
      have hf := flatten_head (some t)
      cases hft : flatten (some t) with
      | none => unfold flatten at hft; split at hft <;> simp at hft
      | some u =>
        rw [hft] at hf
        simp only [Option.bind_some] at hf
        simp [rowsCheck, assert, hf]
  have cols : ∀ s, xi = some s → colsCheck xi xt =
      if (∀ t, xt = some t → s[1]? = t[1]?) then .ok () else .error .assertionError := by
    intro s hs
    subst hs
    cases xt with
    | none => simp [colsCheck]
    | some t => simp [colsCheck, assert]
  rcases twoD_ok xi with ⟨h1, h1'⟩ | ⟨h1, t, ht, h1'⟩
  rotate_left
  · refine ⟨fun h => absurd (h.1 t ht) h1', fun _ => ?_⟩
    simp [ensureShapes, h1, bind, Except.bind]
  rcases zShape_ok zi with ⟨h2, h2'⟩ | ⟨h2, t, ht, h2'⟩
  rotate_left
  · refine ⟨fun h => absurd (h.2.1 t ht) h2', fun _ => ?_⟩
    simp [ensureShapes, h1, h2, bind, Except.bind]
  rcases twoD_ok xt with ⟨h3, h3'⟩ | ⟨h3, t, ht, h3'⟩
  rotate_left
  · refine ⟨fun h => absurd (h.2.2.1 t ht) h3', fun _ => ?_⟩
    simp [ensureShapes, h1, h2, h3, bind, Except.bind]
  cases hxi : xi with
  | none =>
    subst hxi
    refine ⟨fun _ => ?_, fun h => ?_⟩
    · simp [ensureShapes, h1, h2, h3, bind, Except.bind, pure, Except.pure, rowsCheck, colsCheck]
    · exact absurd ⟨by simp, h2', h3', by simp, by simp⟩ h
  | some s =>
    rw [← hxi]
    have r := rows s h2 hxi
    have c := cols s hxi
    by_cases hr : ∀ t, zi = some t → s.head? = t.head?
    · rw [if_pos hr] at r
      by_cases hc : ∀ t, xt = some t → s[1]? = t[1]?
      · rw [if_pos hc] at c
        refine ⟨fun _ => ?_, fun h => ?_⟩
        · simp [ensureShapes, h1, h2, h3, r, c, bind, Except.bind, pure, Except.pure]
        · refine absurd ⟨h1', h2', h3', ?_, ?_⟩ h
          · intro s' t hs ht
            rw [hxi] at hs
            cases hs
            exact hr t ht
          · intro s' t hs ht
            rw [hxi] at hs
            cases hs
            exact hc t ht
      · rw [if_neg hc] at c
        refine ⟨fun h => absurd (fun t ht => h.2.2.2.2 s t hxi ht) hc, fun _ => ?_⟩
        simp [ensureShapes, h1, h2, h3, r, c, bind, Except.bind]
    · rw [if_neg hr] at r
      refine ⟨fun h => absurd (fun t ht => h.2.2.2.1 s t hxi ht) hr, fun _ => ?_⟩
      simp [ensureShapes, h1, h2, h3, r, bind, Except.bind]

/-- Concrete cases. -/
example : ensureShapes (some [5, 2]) (some [5, 1]) (some [3, 2]) =
    .ok (some [5, 2], some [5], some [3, 2]) := rfl
example : ensureShapes (some [5, 2]) (some [4]) none = .error .assertionError := rfl
example : ShapesOK (some [5, 2]) (some [5, 1]) (some [3, 2]) := by
  refine ⟨?_, ?_, ?_, ?_, ?_⟩ <;> simp

end Verif.Core.Validate
