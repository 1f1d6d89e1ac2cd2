import Verif.Core.Object

/-!
# The kernels of the regression examples

`examples/gpmp_example05_1d_custom_kernel.py` (a fixed nugget), `examples/gpmp_example06_1d_regression.py` (a flag column says which inputs are noisy),
`examples/gpmp_example07_nd_regression.py` (one noise variance for all observations) and
`examples/gpmp_example11_sample_paths_noisy_obs.py` (the last column is the noise variance).
`k` stands for `maternp_kernel(p, ·)`.
-/

set_option autoImplicit false

namespace Verif.Core.Noisy

open Verif Verif.Data Verif.Core.Obj Verif.Kernel Matrix

variable {d n m : ℕ}

/-- `x[:, :-1]`, example06 58-60, example11 77, 92-95. -/
def coords (x : Fin (d + 1) → ℝ) : Fin d → ℝ := fun j => x j.castSucc

/-- `x[:, -1]`, example06 60, example11 69. -/
def side (x : Fin (d + 1) → ℝ) : ℝ := x (Fin.last d)

/-- `sigma2 * maternp_kernel(p, scaled_distance(loginvrho, x, y))`. -/
noncomputable def latent (k : ℝ → ℝ) (sigma2 : ℝ) (loginvrho x y : Fin d → ℝ) : ℝ :=
  sigma2 * k (scaledDistance loginvrho x y)

/-- `kernel(x, y, param)`, example06 103-105, example07 126-130, example11 101-105: `y is x` or not. -/
def dispatch {e : ℕ} (x : Pts n e) (y : Pts m e) (ii : Mat n n) (it : Mat n m) : Mat n m :=
  if h : n = m ∧ x.id = y.id then ii.submatrix id (Fin.cast h.1.symm) else it

/-- `constant_mean`. -/
def ones {e : ℕ} (_ : Pts n e) (_ : Option Unit) : Mat n 1 := Matrix.of fun _ _ => 1

/-- example06 68-84, full matrix: noise where the flag says so. -/
noncomputable def flagII (k : ℝ → ℝ) (x : Pts n (d + 1)) (θ : Fin (d + 2) → ℝ) : Mat n n :=
  Matrix.of (fun i j => latent k (Real.exp (θ 0)) (fun l => θ l.succ.succ) (coords (x.val i)) (coords (x.val j))) +
    Matrix.diagonal fun i => Real.exp (θ 1) * side (x.val i)

/-- example06 87-100. -/
noncomputable def flagIT (k : ℝ → ℝ) (x : Pts n (d + 1)) (y : Pts m (d + 1)) (θ : Fin (d + 2) → ℝ) : Mat n m :=
  Matrix.of fun i j => latent k (Real.exp (θ 0)) (fun l => θ l.succ.succ) (coords (x.val i)) (coords (y.val j))

/-- The model of example06. -/
noncomputable def flagged (k : ℝ → ℝ) (θ : Fin (d + 2) → ℝ) : GP (d + 1) 1 (Fin (d + 2) → ℝ) Unit where
  meantype := "linear_predictor"
  mean := ones
  meanparam := none
  covparam := some θ
  covMat := fun x y θ => dispatch x y (flagII k x θ) (flagIT k x y θ)
  covDiag := fun x θ i => Real.exp (θ 0) * 1 + Real.exp (θ 1) * side (x.val i)
  covFull := fun x θ => flagII k x θ

/-- example07 95-109, full matrix: noise on every point. -/
noncomputable def plainII (k : ℝ → ℝ) (x : Pts n d) (θ : Fin (d + 2) → ℝ) : Mat n n :=
  Matrix.of (fun i j => latent k (Real.exp (θ 0)) (fun l => θ l.succ.succ) (x.val i) (x.val j)) +
    Real.exp (θ 1) • (1 : Mat n n)

/-- The model of example07; with `pairwise=True` (lines 101-102) there is no noise. -/
noncomputable def plain (k : ℝ → ℝ) (θ : Fin (d + 2) → ℝ) : GP d 1 (Fin (d + 2) → ℝ) Unit where
  meantype := "linear_predictor"
  mean := ones
  meanparam := none
  covparam := some θ
  covMat := fun x y θ => dispatch x y (plainII k x θ) (Matrix.of fun i j =>
    latent k (Real.exp (θ 0)) (fun l => θ l.succ.succ) (x.val i) (y.val j))
  covDiag := fun _ θ _ => Real.exp (θ 0) * 1
  covFull := fun x θ => plainII k x θ

/-- example11 55-80, full matrix: the noise variance of each observation is in its last column; one
range parameter for all coordinates. -/
noncomputable def heteroII (k : ℝ → ℝ) (x : Pts n (d + 1)) (θ : Fin 2 → ℝ) : Mat n n :=
  Matrix.of (fun i j => latent k (Real.exp (θ 0)) (fun _ => θ 1) (coords (x.val i)) (coords (x.val j))) +
    Matrix.diagonal fun i => side (x.val i)

/-- The model of example11. -/
noncomputable def hetero (k : ℝ → ℝ) (θ : Fin 2 → ℝ) : GP (d + 1) 1 (Fin 2 → ℝ) Unit where
  meantype := "linear_predictor"
  mean := ones
  meanparam := none
  covparam := some θ
  covMat := fun x y θ => dispatch x y (heteroII k x θ) (Matrix.of fun i j =>
    latent k (Real.exp (θ 0)) (fun _ => θ 1) (coords (x.val i)) (coords (y.val j)))
  covDiag := fun x θ i => Real.exp (θ 0) * 1 + side (x.val i)
  covFull := fun x θ => heteroII k x θ

/-- The model of example05, lines 68-112: `nugget` stands for `100 * gnp.eps`; `pairwise=True` leaves it out. -/
noncomputable def custom (k : ℝ → ℝ) (nugget : ℝ) (θ : Fin 2 → ℝ) : GP d 1 (Fin 2 → ℝ) Unit where
  meantype := "linear_predictor"
  mean := ones
  meanparam := none
  covparam := some θ
  covMat := fun x y θ => dispatch x y
    (Matrix.of (fun i j => latent k (Real.exp (θ 0)) (fun _ => θ 1) (x.val i) (x.val j)) + nugget • (1 : Mat _ _))
    (Matrix.of fun i j => latent k (Real.exp (θ 0)) (fun _ => θ 1) (x.val i) (y.val j))
  covDiag := fun _ θ _ => Real.exp (θ 0) * 1
  covFull := fun x θ =>
    Matrix.of (fun i j => latent k (Real.exp (θ 0)) (fun _ => θ 1) (x.val i) (x.val j)) + nugget • (1 : Mat _ _)

end Verif.Core.Noisy
