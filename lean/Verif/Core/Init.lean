import Verif.Core.Model
import Verif.Kernel.Model
import Verif.Kernel.Priors

/-!
# Model of the variance part of `kernel/init.py` and of two MAP criteria of
`kernel/priors.py`

Array data; the loader branches average the same quantities over batches.  The length
scales of the guess are in `Verif.Kernel.Priors` (`rhoFactor`, `logrhoGuess`).  `K` is
the covariance of the data at unit variance and the guessed length scales.
-/

set_option autoImplicit false

namespace Verif.Core

open Verif Verif.Data Matrix

variable {n q r : ℕ}

/-- `sigma2_GLS` of `anisotropic_parameters_initial_guess_zero_mean`, init.py 31-32. -/
noncomputable def initSigma2Zero (la : LA) (K : Mat n n) (zi : Fin n → ℝ) : Py ℝ := do
  let v ← normKSqrdZeroMean la K zi
  return 1 / n * v

/-- `mean_GLS, sigma2_GLS` of `anisotropic_parameters_initial_guess_constant_mean`,
init.py 42-45. -/
noncomputable def initConstantMean (la : LA) (K : Mat n n) (zi : Fin n → ℝ) : Py (ℝ × ℝ) := do
  let (zKz, k1, kz) ← kInverses la K zi
  return ((∑ i, kz i) / ∑ i, k1 i, 1 / n * zKz)

/-- `sigma2_GLS` of `anisotropic_parameters_initial_guess`, init.py 61-62. -/
noncomputable def initSigma2 (la : LA) (K : Mat (q + r) (q + r)) (P : Mat (q + r) q)
    (zi : Fin (q + r) → ℝ) : Py ℝ := do
  let v ← normKSqrd la K P zi
  return 1 / ((q + r : ℕ) : ℝ) * v

/-- Subtraction of a finite log prior from a criterion value. -/
def Crit.minus : Crit → ℝ → Crit
  | .finite x, p => .finite (x - p)
  | .inf, _ => .inf

/-- `neg_log_restricted_posterior_power_laws_prior`, priors.py 345-369. -/
noncomputable def mapPowerLaw (be : Backend) (la : LA) {d : ℕ} (cov : Fin (d + 1) → ℝ)
    (K : Mat (q + r) (q + r)) (P : Mat (q + r) q) (zi : Fin (q + r) → ℝ) : Py Crit := do
  let nlrl ← reml be la K P zi
  return nlrl.minus (Kernel.logPriorPowerLaw .default cov)

/-- `neg_log_restricted_posterior_with_jeffreys_prior`, priors.py 315-342. -/
noncomputable def mapJeffreys (be : Backend) (la : LA) {d : ℕ} (cov : Fin (d + 1) → ℝ)
    (lambdaVar : ℝ) (K : Mat (q + r) (q + r)) (P : Mat (q + r) q) (zi : Fin (q + r) → ℝ) :
    Py Crit := do
  let nlrl ← reml be la K P zi
  return nlrl.minus (Kernel.logPriorJeffreys cov lambdaVar)

/-! ## The whole guess with a Matérn covariance

`k` stands for `maternp_kernel(p, ·)`. -/

section Guess

open Verif.Kernel (cov colRange rhoFactor)

variable {d : ℕ}

/-- The guessed `-log(rho)` of a coordinate which is not constant, init.py 29, 40, 59. -/
noncomputable def guessLoginvrho (x : Matrix (Fin n) (Fin d) ℝ) (j : Fin d) : ℝ :=
  -Real.log (rhoFactor d * colRange (List.ofFn fun i => x i j))

/-- `anisotropic_parameters_initial_guess_zero_mean` on arrays with a Matérn covariance, init.py 24-33, where no
coordinate is constant and the variance is positive. -/
noncomputable def guessZeroMean (la : LA) (k : ℝ → ℝ) (eps : ℝ) (x : Matrix (Fin n) (Fin d) ℝ) (zi : Fin n → ℝ) :
    Py (Fin (d + 1) → ℝ) := do
  let s2 ← initSigma2Zero la (cov k eps (Fin.cons (Real.log 1) (guessLoginvrho x)) x .same) zi
  return Fin.cons (Real.log s2) (guessLoginvrho x)

/-- `anisotropic_parameters_initial_guess_constant_mean`, init.py 35-52, likewise. -/
noncomputable def guessConstantMean (la : LA) (k : ℝ → ℝ) (eps : ℝ) (x : Matrix (Fin n) (Fin d) ℝ) (zi : Fin n → ℝ) :
    Py (ℝ × (Fin (d + 1) → ℝ)) := do
  let (mean, s2) ← initConstantMean la
    (cov k eps (Fin.cons (Real.log 1) (guessLoginvrho x)) x .same) zi
  return (mean, Fin.cons (Real.log s2) (guessLoginvrho x))

/-- `anisotropic_parameters_initial_guess`, init.py 54-66, likewise. -/
noncomputable def guessLinear (la : LA) (k : ℝ → ℝ) (eps : ℝ) (x : Matrix (Fin (q + r)) (Fin d) ℝ) (P : Mat (q + r) q)
    (zi : Fin (q + r) → ℝ) : Py (Fin (d + 1) → ℝ) := do
  let s2 ← initSigma2 la (cov k eps (Fin.cons (Real.log 1) (guessLoginvrho x)) x .same) P zi
  return Fin.cons (Real.log s2) (guessLoginvrho x)

end Guess

end Verif.Core
