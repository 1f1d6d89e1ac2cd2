import Verif.Core.Model

/-!
# Observations as arrays with a shape

`core/likelihood.py`, `core/linalg.py`, `core/loo.py` and `core/sample_paths.py` on observations of
any shape with at most two axes: subtraction with broadcasting, `einsum` with ellipses, `matmul`,
`cholesky_solve`, `reshape`.  The numbers come from the linear algebra of `Verif.Core.Model`.

Simplifications: a right-hand side with more than two axes is refused by `cholesky_solve` and
`matmul` (newer libraries solve a stack of systems); exact arithmetic.
-/

set_option autoImplicit false

namespace Verif.Core.Sh

open Verif Verif.Data Matrix

/-- An array. -/
structure Nd where
  shape : List ℕ
  val : List ℕ → ℝ

/-- The exception for shapes that do not fit: ValueError of numpy, RuntimeError of torch. -/
def errShape : Backend → PyErr
  | .numpy => .valueError
  | .torch => .runtimeError

/-- Broadcasting of one axis. -/
def bdim (be : Backend) (a b : ℕ) : Py ℕ :=
  if a = b then .ok a else if a = 1 then .ok b else if b = 1 then .ok a else .error (errShape be)

/-- Broadcasting of shapes, last axis first. -/
def bcRev (be : Backend) : List ℕ → List ℕ → Py (List ℕ)
  | [], t => .ok t
  | s, [] => .ok s
  | a :: s, b :: t => do
    let c ← bdim be a b
    let r ← bcRev be s t
    return c :: r

/-- Broadcasting of shapes. -/
def bcast (be : Backend) (s t : List ℕ) : Py (List ℕ) := do
  let r ← bcRev be s.reverse t.reverse
  return r.reverse

/-- The index in an array of shape `s` for an index of the broadcast array. -/
def bidx (s idx : List ℕ) : List ℕ :=
  List.zipWith (fun n i => if n = 1 then 0 else i) s (idx.drop (idx.length - s.length))

/-- An operation entry by entry with broadcasting. -/
def zip (be : Backend) (op : ℝ → ℝ → ℝ) (a b : Nd) : Py Nd := do
  let s ← bcast be a.shape b.shape
  return ⟨s, fun idx => op (a.val (bidx a.shape idx)) (b.val (bidx b.shape idx))⟩

/-- The index of position `k` in row-major order. -/
def unravel : List ℕ → ℕ → List ℕ
  | [], _ => []
  | _ :: s, k => (k / s.prod) :: unravel s (k % s.prod)

/-- `a.reshape(-1)`. -/
def ravel (a : Nd) : Nd := ⟨[a.shape.prod], fun idx => a.val (unravel a.shape (idx.headD 0))⟩

/-- `a.reshape(-1, 1)`. -/
def ravelCol (a : Nd) : Nd := ⟨[a.shape.prod, 1], fun idx => a.val (unravel a.shape (idx.headD 0))⟩

/-- `a.reshape(())`. -/
def scalar (be : Backend) (a : Nd) : Py ℝ :=
  if a.shape.prod = 1 then .ok (a.val (a.shape.map fun _ => 0)) else .error (errShape be)

/-- `einsum("i..., i...", a, b)`. -/
def einsumI (be : Backend) (a b : Nd) : Py Nd :=
  match a.shape, b.shape with
  | n :: s, m :: t => do
    let k ← bdim be n m
    let o ← bcast be s t
    return ⟨o, fun idx => ∑ i ∈ Finset.range k,
      a.val ((if n = 1 then 0 else i) :: bidx s idx) * b.val ((if m = 1 then 0 else i) :: bidx t idx)⟩
  | _, _ => .error (errShape be)

/-- The entry of a matrix. -/
def entry {n c : ℕ} (X : Mat n c) (i j : ℕ) : ℝ := if h : i < n ∧ j < c then X ⟨i, h.1⟩ ⟨j, h.2⟩ else 0

/-- A matrix as an array. -/
def ofMat {n c : ℕ} (X : Mat n c) : Nd := ⟨[n, c], fun idx => entry X (idx.getD 0 0) (idx.getD 1 0)⟩

/-- A vector as an array. -/
def ofVec {n : ℕ} (v : Fin n → ℝ) : Nd := ⟨[n], fun idx => entry (colVec v) (idx.getD 0 0) 0⟩

/-- `einsum("...i, i...", A, z)` for a matrix `A`: `i` is the second axis of `A` and the first of `z`. -/
def einsumMat {n : ℕ} (be : Backend) (A : Mat n n) (z : Nd) : Py Nd :=
  match z.shape with
  | m :: t => do
    let k ← bdim be n m
    let o ← bcast be [n] t
    return ⟨o, fun idx => ∑ i ∈ Finset.range k,
      entry A ((bidx [n] idx).headD 0) (if n = 1 then 0 else i) * z.val ((if m = 1 then 0 else i) :: bidx t idx)⟩
  | [] => .error (errShape be)

/-- `matmul(A, z)` for a matrix `A` and a vector or matrix `z`. -/
def matmul {r n : ℕ} (be : Backend) (A : Mat r n) (z : Nd) : Py Nd :=
  match z.shape with
  | [k] => if k = n then .ok (ofVec (A *ᵥ fun i => z.val [(i : ℕ)])) else .error (errShape be)
  | [k, c] => if k = n then .ok (ofMat (A * (Matrix.of fun (i : Fin n) (j : Fin c) => z.val [(i : ℕ), (j : ℕ)])))
    else .error (errShape be)
  | _ => .error (errShape be)

/-- `cholesky_solve(K, z)`, numpy_backend.py 465-469, torch_backend.py 879-885: with torch a vector
becomes a column and stays one. -/
noncomputable def cholSolve {n : ℕ} (be : Backend) (la : LA) (K : Mat n n) (z : Nd) : Py (Nd × Mat n n) := do
  let _ ← la.chol K
  match z.shape with
  | [k] =>
    if k = n then do
      let (x, C) ← choleskySolve la K (colVec fun i => z.val [(i : ℕ)])
      return (match be with | .numpy => ofVec (fun i => x i 0) | .torch => ofMat x, C)
    else .error (errShape be)
  | [k, c] =>
    if k = n then do
      let (x, C) ← choleskySolve la K (Matrix.of fun (i : Fin n) (j : Fin c) => z.val [(i : ℕ), (j : ℕ)])
      return (ofMat x, C)
    else .error (errShape be)
  | _ => .error (errShape be)

variable {n q r : ℕ}

/-- The end of the likelihoods, likelihood.py 49-52, 125-129. -/
noncomputable def finish (be : Backend) (m : ℕ) (C : Mat m m) (norm2 : Nd) : Py Crit := do
  let v ← scalar be ⟨norm2.shape, fun idx => 0.5 * (m * Real.log (2 * Real.pi) + 2 * ∑ i, Real.log (C i i)
    + norm2.val idx)⟩
  return .finite v

/-- `negative_log_likelihood_zero_mean`, likelihood.py 18-52: only `cholesky_solve` is inside `try`. -/
noncomputable def nllZero (be : Backend) (la : LA) (K : Mat n n) (z : Nd) : Py Crit :=
  match cholSolve be la K z with
  | .error e => onChol be e
  | .ok (x, C) => do
    let norm2 ← einsumI be z x
    finish be n C norm2

/-- `negative_log_likelihood`, likelihood.py 55-89; `mi` is `mean(xi, meanparam).reshape(-1)`. -/
noncomputable def nllMean (be : Backend) (la : LA) (K : Mat n n) (mi : Fin n → ℝ) (z : Nd) : Py Crit := do
  let c ← zip be (· - ·) z (ofVec mi)
  nllZero be la K c

/-- `negative_log_restricted_likelihood`, likelihood.py 92-129. -/
noncomputable def nlrl (be : Backend) (la : LA) (K : Mat (q + r) (q + r)) (P : Mat (q + r) q) (z : Nd) :
    Py Crit := do
  let W := contrastMatrix la P
  let Wz ← matmul be Wᵀ z
  match cholSolve be la (contrastCov W K) Wz with
  | .error e => onChol be e
  | .ok (x, C) => do
    let norm2 ← einsumI be Wz x
    finish be r C norm2

/-- `norm_k_sqrd_with_zero_mean`, linalg.py 113-118. -/
noncomputable def normZero (be : Backend) (la : LA) (K : Mat n n) (z : Nd) : Py Nd := do
  let (x, _) ← cholSolve be la K z
  einsumI be z x

/-- `norm_k_sqrd`, linalg.py 132-141. -/
noncomputable def norm (be : Backend) (la : LA) (K : Mat (q + r) (q + r)) (P : Mat (q + r) q) (z : Nd) : Py Nd := do
  let W := contrastMatrix la P
  let Wz ← matmul be Wᵀ z
  let (x, _) ← cholSolve be la (contrastCov W K) Wz
  einsumI be Wz x

/-- `k_inverses`, linalg.py 121-129: `(zᵀK⁻¹z, K⁻¹1, K⁻¹z)`. -/
noncomputable def kInverses (be : Backend) (la : LA) (K : Mat n n) (z : Nd) : Py (Nd × Nd × Nd) := do
  let Kinv ← la.inv K
  let Kz ← einsumMat be Kinv z
  let K1 ← einsumMat be Kinv ⟨z.shape, fun _ => 1⟩
  let s ← einsumI be z Kz
  return (s, K1, Kz)

/-- `_loo_with_zero_mean`, loo.py 65-83: `(zloo, sigma2loo, eloo)`. -/
noncomputable def looZero (be : Backend) (la : LA) (K : Mat n n) (z : Nd) : Py (Nd × Nd × Nd) := do
  let (x, C) ← cholSolve be la K z
  let kd := ofVec (diagKinvFromChol C true)
  let e ← zip be (· / ·) (ravel x) kd
  let zl ← zip be (· - ·) z e
  return (zl, ⟨kd.shape, fun idx => 1 / kd.val idx⟩, e)

/-- `_loo_with_parameterized_mean`, loo.py 89-97. -/
noncomputable def looMean (be : Backend) (la : LA) (K : Mat n n) (mi : Fin n → ℝ) (z : Nd) : Py (Nd × Nd × Nd) := do
  let c ← zip be (· - ·) z (ofVec mi)
  let (zl, s, e) ← looZero be la K c
  let zl' ← zip be (· + ·) zl (ofVec mi)
  return (zl', s, e)

/-- `_loo_with_linear_predictor_mean_cpd`, loo.py 103-130. -/
noncomputable def looLin (be : Backend) (la : LA) (K : Mat (q + r) (q + r)) (P : Mat (q + r) q) (z : Nd) :
    Py (Nd × Nd × Nd) := do
  let W := contrastMatrix la P
  let (S, _) ← choleskySolve la (contrastCov W K) Wᵀ
  let u ← matmul be S z
  let Qz ← matmul be W u
  let qd := ofVec fun i => ∑ k, W i k * S k i
  let e ← zip be (· / ·) Qz qd
  let zl ← zip be (· - ·) z e
  return (zl, ⟨qd.shape, fun idx => 1 / qd.val idx⟩, e)

/-- `einsum("ij,ik->jk", lam, delta)` for a matrix of weights and a matrix. -/
def einsumLam {ni nt : ℕ} (be : Backend) (lam : Mat ni nt) (delta : Nd) : Py Nd :=
  match delta.shape with
  | [m, p] => do
    let k ← bdim be ni m
    return ⟨[nt, p], fun idx => ∑ i ∈ Finset.range k, entry lam (if ni = 1 then 0 else i) (idx.getD 0 0) *
      delta.val [if m = 1 then 0 else i, idx.getD 1 0]⟩
  | _ => .error (errShape be)

/-- `conditional_sample_paths`, sample_paths.py 66-119. -/
def condPaths {N ni nt np : ℕ} (be : Backend) (ztsim : Mat N np) (xiInd : Fin ni → Fin N) (z : Nd)
    (xtInd : Fin nt → Fin N) (lam : Mat ni nt) : Py Nd := do
  let delta ← zip be (· - ·) (ravelCol z) (ofMat (ztsim.submatrix xiInd id))
  let s ← einsumLam be lam delta
  zip be (· + ·) (ofMat (ztsim.submatrix xtInd id)) s

/-- `conditional_sample_paths_parameterized_mean`, sample_paths.py 122-182: `mi`, `mt` are the mean
values at the observations and targets. -/
def condPathsMean {N ni nt np : ℕ} (be : Backend) (ztsim : Mat N np) (mi : Fin ni → ℝ) (xiInd : Fin ni → Fin N)
    (z : Nd) (mt : Fin nt → ℝ) (xtInd : Fin nt → Fin N) (lam : Mat ni nt) : Py Nd := do
  let c ← zip be (· - ·) z (ofVec mi)
  let delta ← zip be (· - ·) (ravelCol c) (ofMat (ztsim.submatrix xiInd id))
  let s ← einsumLam be lam delta
  let a ← zip be (· + ·) (ofMat (ztsim.submatrix xtInd id)) s
  zip be (· + ·) a (ofMat (colVec mt))

end Verif.Core.Sh
