/-!
# Python run-time conventions used by every model

Nothing here models a particular gpmp function; these are the Python/numpy
conventions that the gpmp code relies on (exceptions as values, index and slice
semantics of built-in sequences).
-/

namespace Verif

/-- The exception classes the modelled code can raise. -/
inductive PyErr where
  | indexError
  | valueError
  | typeError
  | runtimeError
  | assertionError
  | attributeError
  | nameError
  | keyError
  | zeroDivisionError
  | linAlgError
  | notImplementedError
  | unboundLocalError
  | other (tag : Nat)
  deriving DecidableEq, Repr

/-- A Python computation that may raise. -/
abbrev Py (α : Type _) := Except PyErr α

/-- `seq[i]` for a Python list / numpy axis: negative indices count from the
end, everything else out of range raises `IndexError`. -/
def pyGet {α : Type _} (l : List α) (i : Int) : Py α :=
  if 0 ≤ i then
    match l[i.toNat]? with
    | some a => .ok a
    | none => .error .indexError
  else if -(l.length : Int) ≤ i then
    match l[((l.length : Int) + i).toNat]? with
    | some a => .ok a
    | none => .error .indexError
  else .error .indexError

/-- Clamp a slice endpoint as Python does: negative endpoints count from the
end, then everything is clipped to `[0, len]`. -/
def pyClamp (len : Nat) (i : Int) : Nat :=
  if 0 ≤ i then min i.toNat len else ((len : Int) + i).toNat

/-- `seq[a:b]` for a step-one slice with integer endpoints. -/
def pySlice {α : Type _} (l : List α) (a b : Int) : List α :=
  (l.take (pyClamp l.length b)).drop (pyClamp l.length a)

/-- `seq[a:]`. -/
def pyDrop {α : Type _} (l : List α) (a : Int) : List α :=
  l.drop (pyClamp l.length a)

/-- `seq[:b]`. -/
def pyTake {α : Type _} (l : List α) (b : Int) : List α :=
  l.take (pyClamp l.length b)

theorem pyGet_nat {α : Type _} (l : List α) (i : Nat) (h : i < l.length) :
    pyGet l (i : Int) = .ok l[i] := by
  unfold pyGet
  simp [h]

theorem pyGet_nat_error {α : Type _} (l : List α) (i : Nat) (h : l.length ≤ i) :
    pyGet l (i : Int) = .error .indexError := by
  unfold pyGet
  simp [h]

end Verif
