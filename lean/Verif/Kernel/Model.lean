import Verif.Py
import Mathlib.Data.Matrix.Basic
import Mathlib.Analysis.SpecialFunctions.Exp
import Mathlib.Analysis.SpecialFunctions.Sqrt

/-!
# Model of the log-gamma table, the Matérn/exponential kernels and covariances

Exact real arithmetic.  `gammaln` (scipy / torch) is a parameter `g : ℕ → ℝ`;
`np.exp`, `math.sqrt` are `Real.exp`, `Real.sqrt`.
-/

set_option autoImplicit false

namespace Verif.Kernel

open Verif

/-! ## `compute_gammaln` and its cache -/

/-- `config.caches["gammaln"]["table"]`: absent or an array. -/
abbrev Cache := Option (List ℝ)

/-- `gnp.gammaln(gnp.arange(a, b))`. -/
def gammalnRange (g : ℕ → ℝ) (a b : ℕ) : List ℝ := (List.range (b - a)).map fun i => g (a + i)

/-- The table after a request for `n` entries, shared.py 31-39. -/
def growTable (g : ℕ → ℝ) (n : ℕ) : Cache → List ℝ
  | none => gammalnRange g 0 n
  | some t => if t.length < n then t ++ gammalnRange g t.length n else t

/-- `compute_gammaln(up_to_p)`, shared.py 21-41: returned array and new cache. -/
def computeGammaln (g : ℕ → ℝ) (p : ℕ) (c : Cache) : List ℝ × Cache :=
  let n := 2 * p + 2
  let t := growTable g n c
  (t.take n, some t)

/-- `_GPMPConfig.clear_caches`, config.py 160-164 (dropping the table). -/
def clearCache (_ : Cache) : Cache := none

/-- What can happen to the cache. -/
inductive CacheOp where
  | request (p : ℕ)
  | clear

def cacheStep (g : ℕ → ℝ) (c : Cache) : CacheOp → Cache
  | .request p => (computeGammaln g p c).2
  | .clear => clearCache c

/-! ## Kernels -/

/-- `exponential_kernel`, exponential.py 9-25. -/
noncomputable def exponentialKernel (h : ℝ) : ℝ := Real.exp (-h)

/-- `matern32_kernel`, matern.py 10-29. -/
noncomputable def matern32 (h : ℝ) : ℝ :=
  let c := 2 * Real.sqrt (3 / 2)
  let t := c * h
  (1 + t) * Real.exp (-t)

/-- `inftobigf`, numpy_backend.py 250-252 / torch_backend.py 500-502; `⊤` is
IEEE infinity. -/
def inftobigf (bigf : ℝ) : WithTop ℝ → ℝ
  | none => bigf
  | some h => h

/-- The loop body of `maternp_kernel`, matern.py 58-62: the table reads may
raise `IndexError`. -/
noncomputable def maternTerm (gln : List ℝ) (p : ℕ) (twoch : ℝ) (i : ℕ) : Py ℝ := do
  let a ← pyGet gln (p + 1 : ℕ)
  let b ← pyGet gln (2 * p + 1 : ℕ)
  let c ← pyGet gln (p + i + 1 : ℕ)
  let d ← pyGet gln (i + 1 : ℕ)
  let e ← pyGet gln ((p : ℤ) - i + 1)
  return Real.exp (a - b + c - d - e) * twoch ^ (p - i)

/-- The `for i in range(p)` loop, matern.py 57-62 (from `polynomial = ones`). -/
noncomputable def maternPoly (gln : List ℝ) (p : ℕ) (twoch : ℝ) : List ℕ → ℝ → Py ℝ
  | [], acc => .ok acc
  | i :: is, acc =>
    match maternTerm gln p twoch i with
    | .error e => .error e
    | .ok t => maternPoly gln p twoch is (acc + t)

/-- `maternp_kernel` on one (finite) distance, matern.py 32-63, given the table
returned by `compute_gammaln(p)`. -/
noncomputable def maternpOf (gln : List ℝ) (p : ℕ) (h : ℝ) : Py ℝ :=
  let c := 2 * Real.sqrt (p + 0.5)
  let twoch := 2 * c * h
  match maternPoly gln p twoch (List.range p) 1 with
  | .error e => .error e
  | .ok poly => .ok (Real.exp (-c * h) * poly)

/-- `maternp_kernel(p, h)` with the cache threaded through. -/
noncomputable def maternp (g : ℕ → ℝ) (bigf : ℝ) (p : ℕ) (h : WithTop ℝ) (c : Cache) :
    Py ℝ × Cache :=
  let r := computeGammaln g p c
  (maternpOf r.1 p (inftobigf bigf h), r.2)

/-! ## Distances -/

variable {d : ℕ}

/-- `invrho * x`. -/
noncomputable def scaleRow (loginvrho x : Fin d → ℝ) : Fin d → ℝ :=
  fun k => Real.exp (loginvrho k) * x k

/-- `scipy.spatial.distance.cdist` (numpy backend): Euclidean distance. -/
noncomputable def cdistNumpy (x y : Fin d → ℝ) : ℝ := Real.sqrt (∑ k, (x k - y k) ^ 2)

/-- `custom_sqrt`, torch_backend.py 783-788. -/
noncomputable def customSqrt (x : ℝ) : ℝ :=
  if x = 0 then 0 else Real.sqrt x

/-- Entry of torch `cdist`, torch_backend.py 791-807; `diag` says that the two
arguments are the same object and the entry is on the diagonal. -/
noncomputable def cdistTorch (diag : Bool) (x y : Fin d → ℝ) : ℝ :=
  let dist := (∑ k, x k ^ 2) + (∑ k, y k ^ 2) - 2 * ∑ k, x k * y k
  let r := customSqrt (max dist 0)
  if diag then 0 else r

/-- `scaled_distance`, numpy_backend.py 432-436. -/
noncomputable def scaledDistance (loginvrho x y : Fin d → ℝ) : ℝ :=
  cdistNumpy (scaleRow loginvrho x) (scaleRow loginvrho y)

/-- `scaled_distance`, torch_backend.py 810-820. -/
noncomputable def scaledDistanceTorch (diag : Bool) (loginvrho x y : Fin d → ℝ) : ℝ :=
  cdistTorch diag (scaleRow loginvrho x) (scaleRow loginvrho y)

/-- `scaled_distance_elementwise`, numpy_backend.py 438-446; the case `x is y`
returns 0. -/
noncomputable def scaledDistanceElt (same : Bool) (loginvrho x y : Fin d → ℝ) : ℝ :=
  if same then 0 else Real.sqrt (∑ k, (Real.exp (loginvrho k) * (x k - y k)) ^ 2)

/-! ## Covariances

`k : ℝ → ℝ` stands for `maternp_kernel(p, ·)`; `eps` is `finfo(float64).eps`. -/

/-- The second point argument: `None`, the same object as the first, or another
object. -/
inductive YArg (m d : ℕ) where
  | none
  | same
  | other (y : Matrix (Fin m) (Fin d) ℝ)

/-- `maternp_covariance_ii_or_tt`, matern.py 67-94, full matrix. -/
noncomputable def covII {n : ℕ} (k : ℝ → ℝ) (eps : ℝ) (param : Fin (d + 1) → ℝ)
    (x : Matrix (Fin n) (Fin d) ℝ) : Matrix (Fin n) (Fin n) ℝ :=
  let sigma2 := Real.exp (param 0)
  let loginvrho : Fin d → ℝ := fun j => param j.succ
  let nugget := 10 * sigma2 * eps
  Matrix.of fun i j =>
    sigma2 * k (scaledDistance loginvrho (x i) (x j)) + nugget * (if i = j then 1 else 0)

/-- `maternp_covariance_ii_or_tt(..., pairwise=True)`, matern.py 90-91. -/
noncomputable def covIIPairwise {n : ℕ} (param : Fin (d + 1) → ℝ)
    (_x : Matrix (Fin n) (Fin d) ℝ) : Fin n → ℝ :=
  fun _ => Real.exp (param 0) * 1

/-- `maternp_covariance_it`, matern.py 97-121, full matrix. -/
noncomputable def covIT {n m : ℕ} (k : ℝ → ℝ) (param : Fin (d + 1) → ℝ)
    (x : Matrix (Fin n) (Fin d) ℝ) (y : Matrix (Fin m) (Fin d) ℝ) : Matrix (Fin n) (Fin m) ℝ :=
  let sigma2 := Real.exp (param 0)
  let loginvrho : Fin d → ℝ := fun j => param j.succ
  Matrix.of fun i j => sigma2 * k (scaledDistance loginvrho (x i) (y j))

/-- `maternp_covariance_it(..., pairwise=True)`, matern.py 117-121 (same number
of rows; numpy broadcasting is not modelled). -/
noncomputable def covITPairwise {n : ℕ} (k : ℝ → ℝ) (param : Fin (d + 1) → ℝ)
    (x y : Matrix (Fin n) (Fin d) ℝ) : Fin n → ℝ :=
  let sigma2 := Real.exp (param 0)
  let loginvrho : Fin d → ℝ := fun j => param j.succ
  fun i => sigma2 * k (scaledDistanceElt false loginvrho (x i) (y i))

/-- `maternp_covariance(x, y, p, param)`, matern.py 124-141, square form (as
many rows in `y` as in `x`): dispatch on object identity. -/
noncomputable def cov {n : ℕ} (k : ℝ → ℝ) (eps : ℝ) (param : Fin (d + 1) → ℝ)
    (x : Matrix (Fin n) (Fin d) ℝ) : YArg n d → Matrix (Fin n) (Fin n) ℝ
  | .none => covII k eps param x
  | .same => covII k eps param x
  | .other y => covIT k param x y

/-- `maternp_covariance(x, y, p, param, pairwise=True)`, matern.py 124-141. -/
noncomputable def covPairwise {n : ℕ} (k : ℝ → ℝ) (param : Fin (d + 1) → ℝ)
    (x : Matrix (Fin n) (Fin d) ℝ) : YArg n d → Fin n → ℝ
  | .none => covIIPairwise param x
  | .same => covIIPairwise param x
  | .other y => covITPairwise k param x y

end Verif.Kernel
