import Verif.Core.Backward
import Verif.Kernel.Priors

/-!
# Reverse-mode differentiation of the posterior criteria (torch backend)

`kernel/priors.py` evaluated with tensors: the recorded computations of the priors, whose leaves are the entries of
`covparam`, and the gradient of the restricted likelihood minus the priors.

Simplifications: those of `Core/Backward.lean`; the hyperparameters are finite numbers, accepted by the checks at the
beginning of the functions.
-/

set_option autoImplicit false

namespace Verif.Core.Rev

open Verif Verif.Data Verif.Torch Matrix

variable {n d q r : ℕ}

/-- `log_prior_jeffreys_variance`, priors.py 43-69. -/
def jeffreysE (lambdaVar : ℝ) : Ex (Fin (d + 1)) := .mul (.const (-lambdaVar)) (.var 0)

/-- `log_prior_power_law`, priors.py 117-128. -/
def powerLawE (a : Kernel.PowerLaw) : Ex (Fin (d + 1)) :=
  let p : Fin d → Ex (Fin (d + 1)) := fun j => .var j.succ
  let logPriorSigma2 := Ex.mul (.const (-a.lambdaVar)) (.var 0)
  let extraSigma2 := Ex.mul (.const a.penalty) (.maxi (.sub (.var 0) (.const a.cutVar)) (.const 0))
  let extraLow := fun j => Ex.mul (.const a.penalty) (.maxi (.sub (.const a.cutLow) (p j)) (.const 0))
  let extraHigh := fun j => Ex.mul (.const a.penalty) (.maxi (.sub (p j) (.const a.cutHigh)) (.const 0))
  let logPriorLengths := Ex.sub (.sub (.mul (.const (-a.lambdaLen)) (sumE p)) (sumE extraLow)) (sumE extraHigh)
  .add (.add logPriorSigma2 extraSigma2) logPriorLengths

/-- `log_prior_gaussian_logsigma2`, priors.py 233-236, with the standard deviation already computed. -/
noncomputable def gaussE (logSigma20 std : ℝ) : Ex (Fin (d + 1)) :=
  let z := Ex.div (.sub (.var 0) (.const logSigma20)) (.const std)
  .mul (.mul (.const (-0.5)) z) z

/-- One entry of `neglog_f_logrho`, priors.py 272-278. -/
def neglogE {K : Type} (alpha logrhoMin logrho0 : ℝ) (logrho : Ex K) : Ex K :=
  let beta := alpha
  let alphaEff := beta * (logrho0 - logrhoMin)
  let shifted := Ex.sub logrho (.const logrhoMin)
  let mask : Flt → Prop := fun a => Flt.lt (Flt.fin 0) a
  let shiftedSafe := Ex.whr mask shifted shifted (.const 1)
  let valid := Ex.add (.mul (.const (-alphaEff)) (.log shiftedSafe)) (.mul (.const beta) shiftedSafe)
  .whr mask shifted valid .inf

/-- `log_prior_logrho_barrier_linear`, priors.py 308-311. -/
def barrierE (alpha : ℝ) (logrhoMin logrho0 : Fin d → ℝ) : Ex (Fin (d + 1)) :=
  .mul (.const (-1)) (sumE fun j => neglogE alpha (logrhoMin j) (logrho0 j) (.mul (.const (-1)) (.var j.succ)))

/-- Gradient of `nlrl - p1 - … - pk`, priors.py 341-342, 368-369, 412-418, 458-464, 543-558: each log-prior receives the
gradient minus one. -/
noncomputable def postGrad {κ : Type} (la : LA) (E : Fin (q + r) → Fin (q + r) → Ex κ) (P : Mat (q + r) q)
    (zi : Fin (q + r) → ℝ) (priors : List (Ex κ)) (v : κ → ℝ) : Py (κ → Flt) := do
  let g ← remlGrad la E P zi v
  return fun k => priors.foldl (fun s e => s.add (back v e (Flt.fin (-1)) k)) (g k)

end Verif.Core.Rev
