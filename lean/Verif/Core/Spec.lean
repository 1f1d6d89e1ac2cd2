import Verif.Core.Model

/-!
# Specification vocabulary for prediction (independent of the code)
-/

set_option autoImplicit false

namespace Verif.Core

open Matrix

variable {ι κ : Type} [Fintype ι]

/-- Mean-square error of the linear predictor `Σ w_i Z_i` of a variable with prior
variance `v` and covariance vector `k` with the observations, whose covariance is
`K` (all centred): `E (Z₀ - Σ w_i Z_i)² = v - 2 w·k + w·K w`. -/
def mse (K : Matrix ι ι ℝ) (k : ι → ℝ) (v : ℝ) (w : ι → ℝ) : ℝ :=
  v - 2 * (w ⬝ᵥ k) + w ⬝ᵥ (K *ᵥ w)

/-- The weights reproduce every mean function of the linear space: applied to the
values `P` of the basis functions at the observations they give their values `p`
at the target. -/
def Unbiased (P : Matrix ι κ ℝ) (p : κ → ℝ) (w : ι → ℝ) : Prop := Pᵀ *ᵥ w = p

/-- Joint covariance matrix of the observations and one target. -/
def joint (K : Matrix ι ι ℝ) (k : ι → ℝ) (v : ℝ) : Matrix (ι ⊕ Unit) (ι ⊕ Unit) ℝ :=
  Matrix.fromBlocks K (Matrix.of fun i _ => k i) (Matrix.of fun _ i => k i)
    (Matrix.of fun _ _ => v)

end Verif.Core
