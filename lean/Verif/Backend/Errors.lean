import Verif.Backend.Convert
import Verif.Backend.Criterion
import Verif.Backend.Linear
import Verif.Kernel.Select
import Verif.Misc.GaussCdf

/-!
# Exceptions with messages, the normal distribution, norms and factorisations of the backends

`/repo/gpmp/num/numpy_backend.py`, `/repo/gpmp/num/torch_backend.py`,
`/repo/gpmp/kernel/parameter_selection.py`.
-/

set_option autoImplicit false

namespace Verif.Backend.Err

open Verif Verif.Backend

/-! ## `_is_linalg_exception` -/

/-- An exception: its class and its message. -/
structure Exc where
  cls : PyErr
  msg : List Char

/-- `_LINALG_ERROR_KEYWORDS`, numpy_backend.py 28-44, torch_backend.py 28-44. -/
def keywords : List String :=
  ["singular", "not positive definite", "not positive-definite", "cholesky", "decomposition",
   "factorization", "matrix is not invertible", "matrix inversion", "inverse", "svd did not converge",
   "ill-conditioned", "linalg", "lapack", "cusolver", "array must not contain infs or nans"]

/-- `_is_linalg_exception(exc)`, numpy_backend.py 158-162, torch_backend.py 157-161: the class, or a
word in the lower-case message. -/
def isLinalg (e : Exc) : Bool :=
  e.cls = .linAlgError || keywords.any fun w => Conv.hasSub w.toList (e.msg.map Char.toLower)

/-- A criterion that raises exceptions with messages. -/
abbrev CritM (P : Type) := P → Except Exc Flt

/-- `evaluate_pre_grad` of numpy (the value), numpy_backend.py 344-350; the value of the torch
version, torch_backend.py 574-583, and its `evaluate_no_grad`, torch_backend.py 563-572. -/
noncomputable def guarded {P : Type} (c : CritM P) (p : P) : Except Exc Flt :=
  match c p with
  | .ok v => .ok v
  | .error e => if isLinalg e then .ok (.num ⊤) else .error e

/-- `criterion_with_history`, parameter_selection.py 222-231. -/
noncomputable def withHistoryM {P : Type} (crit : CritM P) (p : P) (h : Kernel.Hist P) :
    Except Exc Flt × Kernel.Hist P :=
  match crit p with
  | .ok J => (.ok J, h.record p J)
  | .error e =>
    if isLinalg e then (.ok (.num ⊤), h.record p (.num ⊤)) else (.error e, h)

/-- The call of `minimize`, parameter_selection.py 253-260. -/
noncomputable def runSolverM {P : Type} (crit : CritM P) :
    Kernel.Solver P → Kernel.Hist P → Except Exc (P × Flt) × Kernel.Hist P
  | .stop x f, h => (.ok (x, f), h)
  | .ask p k, h =>
    match withHistoryM crit p h with
    | (.error e, h') => (.error e, h')
    | (.ok J, h') => runSolverM crit (k J) h'

/-! ## `normal` -/

/-- `scipy.stats.norm.cdf(x, loc, scale)` (re-exported, numpy_backend.py 142): NaN unless the scale
is positive. -/
noncomputable def cdfNp (x loc scale : ℝ) : Flt :=
  open Classical in if 0 < scale then Flt.fin (Score.Phi ((x - loc) / scale)) else .nan

/-- `normal.cdf` of torch on several numbers, torch_backend.py 959-963: `Normal` checks its
arguments and refuses all of them if one scale is not positive. -/
noncomputable def cdfTorch (l : List (ℝ × ℝ × ℝ)) : Py (List Flt) :=
  open Classical in
  if ∀ t ∈ l, 0 < t.2.2 then .ok (l.map fun t => Flt.fin (Score.Phi ((t.1 - t.2.1) / t.2.2)))
  else .error .valueError

/-- Rounding near -1: the double next to -1 is `-1 + 2⁻⁵³`. -/
structure Near where
  rnd : ℝ → ℝ
  near : ∀ v : ℝ, |v + 1| ≤ 1 / 2 ^ 54 → rnd v = -1
  zero : rnd 0 = 0

/-- `d.cdf(x)` of `torch.distributions.Normal` in floating point: `0.5 * (1 + erf(t / sqrt 2))`, with
the value of `erf` rounded; `erf(t / sqrt 2) = 2 Φ(t) - 1`.  (External; torch_backend.py 968.) -/
noncomputable def cdfRounded (R : Near) (t : ℝ) : ℝ := R.rnd (0.5 * R.rnd (1 + R.rnd (2 * Score.Phi t - 1)))

/-- `log` of a floating-point number. -/
noncomputable def logF (v : ℝ) : Flt :=
  open Classical in if 0 < v then Flt.fin (Real.log v) else if v = 0 then .num ⊥ else .nan

/-- `normal.logcdf(t)` of torch, torch_backend.py 965-969: the logarithm of the rounded value. -/
noncomputable def logcdfTorch (R : Near) (t : ℝ) : Flt := logF (cdfRounded R t)

/-! ## `norm`, `std`, `var`, `sort` -/

/-- `norm(x, axis=None, ord=2)` of torch on a matrix, torch_backend.py 459-460: `torch.norm` with
`p=2` and no dimension flattens. -/
noncomputable def normTorch {n m : ℕ} (A : Matrix (Fin n) (Fin m) ℝ) : ℝ := Real.sqrt (∑ i, ∑ j, A i j ^ 2)

/-- `numpy.linalg.norm(A)` (re-exported, numpy_backend.py 136): without `ord`, the square root of the
sum of squares; with `ord=2`, the largest factor by which the matrix stretches a vector. -/
noncomputable def normNp {n m : ℕ} (ord2 : Bool) (A : Matrix (Fin n) (Fin m) ℝ) : ℝ :=
  if ord2 then sSup {r | ∃ v : Fin m → ℝ, (∑ j, v j ^ 2) = 1 ∧ r = Real.sqrt (∑ i, A.mulVec v i ^ 2)}
  else Real.sqrt (∑ i, ∑ j, A i j ^ 2)

/-- `norm(v, ord=2)` of a vector, both backends. -/
noncomputable def normVec (v : List ℝ) : ℝ := Real.sqrt ((v.map fun x => x ^ 2).sum)

/-- `norm(X, axis=1)`, both backends: one norm per row. -/
noncomputable def normRows (X : List (List ℝ)) : List ℝ := X.map normVec

/-- The mean of a list. -/
noncomputable def avg (x : List ℝ) : ℝ := x.sum / x.length

/-- A sum of squares over a number of degrees of freedom: NaN for `0 / 0`, infinite for a positive
number over zero (both libraries replace a negative number of degrees by zero). -/
noncomputable def overDof (s : ℝ) (dof : ℝ) : Flt :=
  open Classical in if 0 < dof then Flt.fin (s / dof) else if s = 0 then .nan else .num ⊤

/-- `var(x, ddof)` of numpy (re-exported, numpy_backend.py 60-133) on a vector. -/
noncomputable def varNp (x : List ℝ) (ddof : ℝ) : Flt :=
  overDof ((x.map fun v => (v - avg x) ^ 2).sum) (x.length - ddof)

/-- `var(x, ddof)` of torch on a vector, torch_backend.py 402-406: `int(ddof)`. -/
noncomputable def varTorchF (x : List ℝ) (ddof : ℝ) : Flt :=
  overDof ((x.map fun v => (v - avg x) ^ 2).sum) (x.length - (Conv.trunc ddof : ℝ))

/-- `std(x, ddof)` of torch, torch_backend.py 395-399, and of numpy: the square root. -/
noncomputable def sqrtF : Flt → Flt
  | .nan => .nan
  | .num x => if x = ⊤ then .num ⊤ else if x = ⊥ then .nan else Flt.fin (Real.sqrt x.toReal)

/-! ## `cho_factor`, `cho_solve` -/

/-- `cho_factor(A, lower)` of torch, torch_backend.py 868-870: the factor, with zeros outside its
triangle; `C` is the lower factor that the routine finds. -/
noncomputable def choFactorTorch {n : ℕ} (chol : Matrix (Fin n) (Fin n) ℝ → Py (Matrix (Fin n) (Fin n) ℝ))
    (A : Matrix (Fin n) (Fin n) ℝ) (lower : Bool) : Py (Matrix (Fin n) (Fin n) ℝ × Bool) := do
  let C ← chol A
  return (if lower then C else C.transpose, lower)

/-- `scipy.linalg.cho_factor` (re-exported, numpy_backend.py 140): the other triangle of the result
is left as it was in `A`. -/
noncomputable def choFactorNp {n : ℕ} (chol : Matrix (Fin n) (Fin n) ℝ → Py (Matrix (Fin n) (Fin n) ℝ))
    (A : Matrix (Fin n) (Fin n) ℝ) (lower : Bool) : Py (Matrix (Fin n) (Fin n) ℝ × Bool) := do
  let C ← chol A
  return ((fun i j => if (if lower then i < j else j < i) then A i j
    else (if lower then C i j else C j i)), lower)

/-- `cho_solve((C, lower), b)` on the columns of `b`, torch_backend.py 873-876 and scipy: only the
triangle is read, `T Tᵀ x = b` with `T` lower, or `Uᵀ U x = b` with `U` upper. -/
noncomputable def choSolve {n : ℕ} (c : Matrix (Fin n) (Fin n) ℝ × Bool) (b : Fin n → ℝ) : Fin n → ℝ :=
  let T := triPart (!c.2) c.1
  if c.2 then (T * T.transpose)⁻¹.mulVec b else (T.transpose * T)⁻¹.mulVec b

/-- The right-hand side: a vector, or a matrix given by its columns. -/
inductive Rhs (n : ℕ) where
  | vec (b : Fin n → ℝ)
  | cols (l : List (Fin n → ℝ))

/-- `cho_solve` of torch with its shapes, torch_backend.py 873-876: `torch.cholesky_solve` refuses a
vector. -/
noncomputable def choSolveTorch {n : ℕ} (c : Matrix (Fin n) (Fin n) ℝ × Bool) : Rhs n → Py (Rhs n)
  | .vec _ => .error .runtimeError
  | .cols l => .ok (.cols (l.map (choSolve c)))

/-- `scipy.linalg.cho_solve` with its shapes (re-exported, numpy_backend.py 140). -/
noncomputable def choSolveNp {n : ℕ} (c : Matrix (Fin n) (Fin n) ℝ × Bool) : Rhs n → Py (Rhs n)
  | .vec b => .ok (.vec (choSolve c b))
  | .cols l => .ok (.cols (l.map (choSolve c)))

end Verif.Backend.Err
