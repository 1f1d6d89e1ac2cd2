import Verif.Py
import Verif.Num
import Verif.Core.Model
import Mathlib.Analysis.SpecialFunctions.Gaussian.GaussianIntegral

/-!
# Array helpers of the two numerical backends

`/repo/gpmp/num/numpy_backend.py`, `/repo/gpmp/num/torch_backend.py`.  Only the gpmp code is
modelled; what numpy, scipy and torch do underneath is stated in the comments.  Randomness
is an arbitrary argument.
-/

set_option autoImplicit false

namespace Verif.Backend

open Verif

/-! ## `asarray` -/

/-- Element types that the code tells apart. -/
inductive DT where
  | bool | int | float32 | float64
  deriving DecidableEq

/-- Is it a floating-point type? -/
def DT.floating : DT → Bool
  | .float32 | .float64 => true
  | _ => false

/-- What the caller passes: a Python number, an array of the library itself (a numpy array,
and for the torch backend also a tensor), or a nested list. -/
inductive Src where
  | number (dt : DT)
  | array (dt : DT) (shape : List ℕ)
  | list (dt : DT) (shape : List ℕ)

/-- The result: element type, shape, and whether it shares memory with the argument. -/
structure ArrRes where
  dt : DT
  shape : List ℕ
  shares : Bool
  deriving DecidableEq

/-- `asarray(x)` of numpy, numpy_backend.py 174-188 (`dtype=None`): Python numbers become
one-element vectors. -/
def asarrayNumpy : Src → ArrRes
  | .array dt s =>
    if dt.floating then ⟨.float64, s, dt = .float64⟩ else ⟨dt, s, true⟩
  | .number dt => ⟨if dt = .float32 then .float64 else dt, [1], false⟩
  | .list dt s => ⟨if dt.floating then .float64 else dt, s, false⟩

/-- `asarray(x)` of torch, torch_backend.py 217-244 (`dtype=None`): Python numbers become
0-d tensors; `from_numpy` shares memory. -/
def asarrayTorch : Src → ArrRes
  | .array dt s =>
    if dt.floating && dt ≠ .float64 then ⟨.float64, s, false⟩ else ⟨dt, s, true⟩
  | .number dt => ⟨if dt = .float32 then .float64 else dt, [], false⟩
  | .list dt s => ⟨if dt.floating then .float64 else dt, s, false⟩

/-! ## Reductions -/

/-- `numpy.min` / `max` over the whole array (`axis=None`, the default; re-exported,
numpy_backend.py 60-130), for `pick = min` or `max`; an empty array raises `ValueError`. -/
noncomputable def reduceAll (pick : ℝ → ℝ → ℝ) (rows : List (List ℝ)) : Py ℝ :=
  match rows.flatten with
  | [] => .error .valueError
  | a :: l => .ok (l.foldl pick a)

/-- `min` / `max` of torch, torch_backend.py 463-470, with the default `axis=0` on a 2-D
tensor: one number per column.  Rows are functions of the column. -/
noncomputable def reduceAxis0 {d : ℕ} (pick : ℝ → ℝ → ℝ) (rows : List (Fin d → ℝ)) :
    Py (Fin d → ℝ) :=
  match rows with
  | [] => .error .indexError
  | a :: l => .ok fun j => l.foldl (fun m r => pick m (r j)) (a j)

/-! ## `choice` and `permutation` -/

/-- `choice(a, size, replace=True)` of torch without weights, torch_backend.py 918-946:
`draws` are the indices from `randint`. -/
def choiceTorchReplace {α : Type} (a : List α) (size : Option ℕ) (draws : ℕ → ℕ) : Py (List α) :=
  if a.length = 0 ∧ size.getD 1 ≠ 0 then .error .runtimeError
  else .ok ((List.range (size.getD 1)).filterMap fun i => a[draws i % a.length]?)

/-- `choice(a, size, replace=False)` of torch without weights, torch_backend.py 918-946:
the first `size` entries of `randperm`. -/
def choiceTorch {α : Type} (a : List α) (size : Option ℕ) (perm : List ℕ) : List α :=
  (perm.take (size.getD 1)).filterMap fun i => a[i]?

/-- `choice(a, size, replace=False)` of numpy (`Generator.choice`), numpy_backend.py 490-496:
raises when more entries are wanted than there are. -/
def choiceNumpy {α : Type} (a : List α) (size : ℕ) (perm : List ℕ) : Py (List α) :=
  if a.length < size then .error .valueError
  else .ok ((perm.take size).filterMap fun i => a[i]?)

/-- The weights used by torch's `choice`, torch_backend.py 932-934. -/
noncomputable def choiceWeights {n : ℕ} (p : Fin n → ℝ) : Fin n → ℝ := fun i => p i / ∑ j, p j

/-! ## `normal` of the torch backend -/

/-- `normal.pdf`, torch_backend.py 972-975. -/
noncomputable def pdfTorch (x loc scale : ℝ) : ℝ :=
  1 / Real.sqrt (2 * Real.pi) * Real.exp (-0.5 * ((x - loc) / scale) ^ 2)

/-- `normal.logpdf`, torch_backend.py 978-980: `torch.distributions.Normal.log_prob`. -/
noncomputable def logpdfTorch (x loc scale : ℝ) : ℝ :=
  -((x - loc) ^ 2) / (2 * scale ^ 2) - Real.log scale - Real.log (Real.sqrt (2 * Real.pi))

/-! ## `grad` of the numpy backend -/

/-- Storing a number in an array: integer arrays drop the fractional part. -/
noncomputable def storeAs (isInt : Bool) (v : ℝ) : ℝ :=
  if isInt then (if 0 ≤ v then (⌊v⌋ : ℝ) else (⌈v⌉ : ℝ)) else v

/-- `grad(f)(x)`, numpy_backend.py 274-289, for a vector `x`: `copy` and `zeros_like` keep
the element type of `x`. -/
noncomputable def gradNumpy {d : ℕ} (isInt : Bool) (f : (Fin d → ℝ) → ℝ) (x : Fin d → ℝ) (h : ℝ) :
    Fin d → ℝ := fun i =>
  storeAs isInt (Core.finiteDiff (fun v => f (Function.update x i (storeAs isInt v))) (x i) h)

/-! ## `value_and_grad` of the torch backend -/

/-- What `f(x)` returned: not a tensor, a tensor with several entries, or a scalar with the
gradient autograd finds. -/
inductive FOut (d : ℕ) where
  | notTensor
  | many
  | scalar (v : Flt) (g : Option (Fin d → Flt))

/-- `value_and_grad`, torch_backend.py 516-535. -/
noncomputable def valueAndGradTorch {d : ℕ} (f : (Fin d → ℝ) → Py (FOut d)) (x : Fin d → ℝ) :
    Py (Flt × (Fin d → Flt)) :=
  open Classical in
  match f x with
  | .error e => .error e
  | .ok .notTensor => .error .valueError
  | .ok .many => .error .valueError
  | .ok (.scalar v g) =>
    if ∃ r : ℝ, v = Flt.fin r then .ok (v, g.getD fun _ => Flt.fin 0)
    else .ok (v, fun _ => Flt.fin 0)

/-! ## `inftobigf`, `clip` -/

/-- `inftobigf` on one number, numpy_backend.py 250-252 / torch_backend.py 500-502:
`isinf` does not look at the sign. -/
noncomputable def infToBig (big : ℝ) (a : Flt) : Flt :=
  open Classical in
  if a = .num ⊤ ∨ a = .num ⊥ then Flt.fin big else a

/-- `clip` with Python-number bounds, torch_backend.py 485-492: the bounds are converted to
the element type of `x`, and `torch.clamp` takes the lower bound first, then the upper. -/
noncomputable def clipTorch (isInt : Bool) (x : ℝ) (lo hi : Option ℝ) : ℝ :=
  let y := match lo with | none => x | some l => max x (storeAs isInt l)
  match hi with | none => y | some u => min y (storeAs isInt u)

/-- `numpy.clip` (re-exported): the result takes the common type. -/
noncomputable def clipNumpy (x : ℝ) (lo hi : Option ℝ) : ℝ :=
  let y := match lo with | none => x | some l => max x l
  match hi with | none => y | some u => min y u

/-! ## `multivariate_normal`: arguments and shapes -/

/-- The mean argument: a number, or an array with so many entries. -/
inductive MeanArg where
  | number
  | array (size : ℕ)
  deriving DecidableEq

/-- `_mean_array`, numpy_backend.py 503-510: does it produce a vector of length `d`? -/
def meanNumpy (m : MeanArg) (d : ℕ) : Py Unit :=
  match m with
  | .number => .ok ()
  | .array k => if k ≠ d then .error .valueError else .ok ()

/-- `_mean_vector`, torch_backend.py 992-1004: arrays with one entry are broadcast, an
empty one fails in `reshape(())`. -/
def meanTorch (m : MeanArg) (d : ℕ) : Py Unit :=
  match m with
  | .number => .ok ()
  | .array k =>
    if 1 < k then (if k ≠ d then .error .valueError else .ok ())
    else if k = 0 then .error .runtimeError else .ok ()

/-- The covariance argument: a number, or an array of some shape. -/
inductive CovArg where
  | number
  | array (shape : List ℕ)
  deriving DecidableEq

/-- `cov.size`. -/
def CovArg.size : CovArg → ℕ
  | .number => 1
  | .array s => s.prod

/-- The side of a square matrix shape. -/
def squareDim : CovArg → Py ℕ
  | .array [a, b] => if a = b then .ok a else .error .valueError
  | _ => .error .valueError

/-- Shape returned by `multivariate_normal.rvs` of numpy, numpy_backend.py 513-528, for a
number as mean in the one-dimensional case; scipy drops the axis of length one when a
single draw is asked for. -/
def rvsNumpy (m : MeanArg) (c : CovArg) (n : ℕ) : Py (List ℕ) :=
  if c.size = 1 then .ok [n]
  else do
    let d ← squareDim c
    meanNumpy m d
    return if n = 1 then [d] else [n, d]

/-- Shape returned by `multivariate_normal.rvs` of torch, torch_backend.py 1007-1025. -/
def rvsTorch (m : MeanArg) (c : CovArg) (n : ℕ) : Py (List ℕ) :=
  if c.size = 1 then
    match m with
    | .number => .ok [n]
    | .array k => if k = 1 then .ok [n] else .error .runtimeError
  else do
    let d ← squareDim c
    meanTorch m d
    return [n, d]

end Verif.Backend
