import Mathlib.Analysis.Calculus.Deriv.Polynomial
import Verif.Mcmc.PropsSVGDStein
import Mathlib.Analysis.SpecialFunctions.Trigonometric.DerivHyp
import Mathlib.Analysis.SpecialFunctions.Log.Deriv
import Mathlib.LinearAlgebra.Matrix.Charpoly.Coeff
import Mathlib.Algebra.QuadraticDiscriminant

/-!
# C285: a Stein step goes uphill, in the steepest direction
-/

set_option autoImplicit false

namespace Verif.SVGD

open Verif Filter
open Verif.Nuts (finite? finite?_fin finite?_some)
open scoped Topology

variable {n d : ℕ}

/-! ## Specification -/

/-- A field of directions made of the kernel at the particles and its derivatives there. -/
noncomputable def field (h : ℝ) (x : Pts n d) (al be : Fin n → Pt d) (y : Pt d) : Pt d := fun c =>
  (∑ j, (al j c * gauss h (x j) y + be j c * gradK h (x j) y c)) / n

/-- Jacobian matrix of a field. -/
noncomputable def jac (phi : Pt d → Pt d) (y : Pt d) : Matrix (Fin d) (Fin d) ℝ := Matrix.of fun a c =>
  deriv (fun t => phi (Function.update y c t) a) (y c)

/-- What moving all points by `e` times the field adds to the mean over the particles of the log-density of the target
plus the logarithm of the factor by which volumes are stretched.  (Up to a constant, minus the Kullback-Leibler
divergence from the target of the law of the moved particles.) -/
noncomputable def gain (F : Pt d → ℝ) (T : ℝ) (x : Pts n d) (phi : Pt d → Pt d) (e : ℝ) : ℝ :=
  (∑ i, (F (x i + e • phi (x i)) / T + Real.log |(1 + e • jac phi (x i)).det|)) / n

/-- The scalar product of `al`, `be` and `al'`, `be'` in coordinate `c`: the kernel with
`al i + be i d/dx_i` and `al' j + be' j d/dx_j` applied. -/
noncomputable def blin (h : ℝ) (x : Pts n d) (c : Fin d) (al be al' be' : Fin n → ℝ) : ℝ :=
  ∑ i, ∑ j, gauss h (x i) (x j) * (al i * al' j + 2 / h * (x i c - x j c) * (al i * be' j - be i * al' j) +
    be i * be' j * (2 / h - (2 / h * (x i c - x j c)) ^ 2))

/-! ## The form is positive -/

theorem slope_lim {f : ℝ → ℝ} {f' : ℝ} (hf : HasDerivAt f f' 0) :
    Tendsto (fun t => (f t - f 0) / t) (𝓝[≠] 0) (𝓝 f') := by
  have := hasDerivAt_iff_tendsto_slope_zero.mp hf
  refine this.congr fun t => ?_
  rw [zero_add, smul_eq_mul, div_eq_inv_mul]

/-- Ratio of the kernel when one coordinate moves by `a`. -/
noncomputable def ratio (h u a : ℝ) : ℝ := Real.exp (-(2 * u * a + a ^ 2) / h)

theorem ratio_lim (h u : ℝ) : Tendsto (fun t => (ratio h u t - 1) / t) (𝓝[≠] 0) (𝓝 (-(2 / h * u))) ∧
    Tendsto (fun t => (ratio h u (-t) - 1) / t) (𝓝[≠] 0) (𝓝 (2 / h * u)) := by
  have h1 : HasDerivAt (fun a : ℝ => -(2 * u * a + a ^ 2) / h) (-(2 * u) / h) 0 := by
    have := (((hasDerivAt_id (0 : ℝ)).const_mul (2 * u)).add ((hasDerivAt_id (0 : ℝ)).pow 2)).neg.div_const h
    refine this.congr_deriv ?_
    simp
  have h2 : HasDerivAt (fun a : ℝ => -(2 * u * (-a) + (-a) ^ 2) / h) (2 * u / h) 0 := by
    have := (((hasDerivAt_id (0 : ℝ)).neg.const_mul (2 * u)).add ((hasDerivAt_id (0 : ℝ)).neg.pow 2)).neg.div_const h
    refine this.congr_deriv ?_
    simp
  have e1 := slope_lim h1.exp
  have e2 := slope_lim h2.exp
  simp only [mul_zero, ne_eq, OfNat.ofNat_ne_zero, not_false_eq_true, zero_pow, add_zero, neg_zero, zero_div, Real.exp_zero, one_mul]
    at e1 e2
  refine ⟨?_, ?_⟩
  · rw [show -(2 / h * u) = -(2 * u) / h by ring]
    exact e1
  · rw [show 2 / h * u = 2 * u / h by ring]
    exact e2

theorem ratio_lim2 (h u : ℝ) :
    Tendsto (fun t => (2 - ratio h u t - ratio h u (-t)) / t ^ 2) (𝓝[≠] 0) (𝓝 (2 / h - (2 / h * u) ^ 2)) := by
  have hs : HasDerivAt (fun a : ℝ => Real.sinh (u * a / h)) (u / h) 0 := by
    have := (((hasDerivAt_id (0 : ℝ)).const_mul u).div_const h).sinh
    refine this.congr_deriv ?_
    simp
  have he : HasDerivAt (fun a : ℝ => Real.exp (-a / h)) (-1 / h) 0 := by
    have := ((hasDerivAt_id (0 : ℝ)).neg.div_const h).exp
    refine this.congr_deriv ?_
    simp
  have l1 := slope_lim hs
  have l2 := slope_lim he
  simp only [mul_zero, zero_div, Real.sinh_zero, sub_zero, neg_zero, Real.exp_zero] at l1 l2
  have hsq : Tendsto (fun t : ℝ => t ^ 2) (𝓝[≠] 0) (𝓝[≠] 0) := by
    refine tendsto_nhdsWithin_iff.mpr ⟨?_, ?_⟩
    · have : Tendsto (fun t : ℝ => t ^ 2) (𝓝 0) (𝓝 (0 ^ 2)) := (continuous_pow 2).tendsto 0
      rw [zero_pow two_ne_zero] at this
      exact this.mono_left nhdsWithin_le_nhds
    · filter_upwards [self_mem_nhdsWithin] with t ht
      exact pow_ne_zero 2 ht
  have l3 := l2.comp hsq
  have l4 : Tendsto (fun t : ℝ => Real.exp (-t ^ 2 / h)) (𝓝[≠] 0) (𝓝 1) := by
    have : Continuous fun t : ℝ => Real.exp (-t ^ 2 / h) := by fun_prop
    have := this.tendsto 0
    simp only [ne_eq, OfNat.ofNat_ne_zero, not_false_eq_true, zero_pow, neg_zero, zero_div, Real.exp_zero] at this
    exact this.mono_left nhdsWithin_le_nhds
  have l5 := ((l3.const_mul (-2)).sub ((l4.mul (l1.pow 2)).const_mul 4))
  have e : -2 * (-1 / h) - 4 * (1 * (u / h) ^ 2) = 2 / h - (2 / h * u) ^ 2 := by ring
  rw [e] at l5
  refine l5.congr' ?_
  filter_upwards [self_mem_nhdsWithin] with t ht
  have ht' : t ≠ 0 := ht
  have hr : ratio h u t + ratio h u (-t) = Real.exp (-t ^ 2 / h) * (2 + 4 * Real.sinh (u * t / h) ^ 2) := by
    have h1 : ratio h u t = Real.exp (-t ^ 2 / h) * Real.exp (-(2 * (u * t / h))) := by
      rw [ratio, ← Real.exp_add]
      congr 1
      ring
    have h2 : ratio h u (-t) = Real.exp (-t ^ 2 / h) * Real.exp (2 * (u * t / h)) := by
      rw [ratio, ← Real.exp_add]
      congr 1
      ring
    have h3 : 2 + 4 * Real.sinh (u * t / h) ^ 2 = 2 * Real.cosh (2 * (u * t / h)) := by
      rw [Real.cosh_two_mul, Real.cosh_sq]
      ring
    rw [h1, h2, h3, Real.cosh_eq]
    ring
  simp only [Function.comp]
  rw [sub_sub, hr]
  field_simp
  ring

theorem gauss_shift (h : ℝ) (x y : Pt d) (c : Fin d) (a b : ℝ) :
    gauss h (x + Pi.single c a) (y + Pi.single c b) = gauss h x y * ratio h (x c - y c) (a - b) := by
  unfold gauss ratio
  rw [← Real.exp_add]
  congr 1
  have : ∑ e, ((x + Pi.single c a : Pt d) e - (y + Pi.single c b : Pt d) e) ^ 2 =
      ∑ e, (x e - y e) ^ 2 + (2 * (x c - y c) * (a - b) + (a - b) ^ 2) := by
    have e1 : ∀ e, ((x + Pi.single c a : Pt d) e - (y + Pi.single c b : Pt d) e) ^ 2 =
        (x e - y e) ^ 2 + if e = c then 2 * (x c - y c) * (a - b) + (a - b) ^ 2 else 0 := fun e => by
      by_cases he : e = c
      · subst he
        simp
        ring
      · simp [he]
    simp only [e1, Finset.sum_add_distrib, Finset.sum_ite_eq', Finset.mem_univ, if_true]
  rw [this]
  ring

theorem blin_nonneg {h : ℝ} (hh : 0 < h) (x : Pts n d) (c : Fin d) (al be : Fin n → ℝ) : 0 ≤ blin h x c al be al be := by
  have hlim : Tendsto (fun t => ∑ i, ∑ j, gauss h (x i) (x j) * (al i * al j +
      (al i * be j * ((ratio h (x i c - x j c) (-t) - 1) / t) + be i * al j * ((ratio h (x i c - x j c) t - 1) / t)) +
      be i * be j * ((2 - ratio h (x i c - x j c) t - ratio h (x i c - x j c) (-t)) / t ^ 2))) (𝓝[≠] 0)
      (𝓝 (blin h x c al be al be)) := by
    refine tendsto_finsetSum _ fun i _ => tendsto_finsetSum _ fun j _ => ?_
    obtain ⟨r1, r2⟩ := ratio_lim h (x i c - x j c)
    have r3 := ratio_lim2 h (x i c - x j c)
    have := (((tendsto_const_nhds (x := al i * al j)).add ((r2.const_mul (al i * be j)).add (r1.const_mul (be i * al j)))).add
      (r3.const_mul (be i * be j))).const_mul (gauss h (x i) (x j))
    convert this using 2
    ring
  refine ge_of_tendsto hlim ?_
  filter_upwards [self_mem_nhdsWithin] with t ht
  have ht' : t ≠ 0 := ht
  have hq := PD.gauss_quad_nonneg (ι := Fin n × Bool) (fun p => if p.2 then x p.1 + Pi.single c t else x p.1) hh
    (fun p => if p.2 then be p.1 / t else al p.1 - be p.1 / t)
  refine hq.trans_eq ?_
  rw [Fintype.sum_prod_type]
  refine Finset.sum_congr rfl fun i _ => ?_
  simp only [Fintype.sum_prod_type, Fintype.sum_bool, if_true, Bool.false_eq_true, if_false]
  rw [← Finset.sum_add_distrib]
  refine Finset.sum_congr rfl fun j _ => ?_
  have g1 : Real.exp (-PD.sq (x i + Pi.single c t) (x j + Pi.single c t) / h) = gauss h (x i) (x j) := by
    have := gauss_shift h (x i) (x j) c t t
    rw [sub_self] at this
    refine Eq.trans this ?_
    simp [ratio]
  have g2 : Real.exp (-PD.sq (x i + Pi.single c t) (x j) / h) = gauss h (x i) (x j) * ratio h (x i c - x j c) t := by
    have := gauss_shift h (x i) (x j) c t 0
    rw [Pi.single_zero, add_zero, sub_zero] at this
    exact this
  have g3 : Real.exp (-PD.sq (x i) (x j + Pi.single c t) / h) = gauss h (x i) (x j) * ratio h (x i c - x j c) (-t) := by
    have := gauss_shift h (x i) (x j) c 0 t
    rw [Pi.single_zero, add_zero, zero_sub] at this
    exact this
  have g4 : Real.exp (-PD.sq (x i) (x j) / h) = gauss h (x i) (x j) := rfl
  rw [g1, g2, g3, g4]
  field_simp
  ring

theorem blin_add (h : ℝ) (x : Pts n d) (c : Fin d) (al be al' be' : Fin n → ℝ) (t : ℝ) :
    blin h x c (al + t • al') (be + t • be') (al + t • al') (be + t • be') =
      blin h x c al be al be + 2 * t * blin h x c al be al' be' + t ^ 2 * blin h x c al' be' al' be' := by
  have hsym : blin h x c al' be' al be = blin h x c al be al' be' := by
    unfold blin
    rw [Finset.sum_comm]
    refine Finset.sum_congr rfl fun i _ => Finset.sum_congr rfl fun j _ => ?_
    rw [gauss_comm]
    ring
  have : 2 * t * blin h x c al be al' be' = t * blin h x c al be al' be' + t * blin h x c al' be' al be := by
    rw [hsym]
    ring
  rw [this]
  unfold blin
  simp only [Finset.mul_sum, ← Finset.sum_add_distrib]
  refine Finset.sum_congr rfl fun i _ => Finset.sum_congr rfl fun j _ => ?_
  simp only [Pi.add_apply, Pi.smul_apply, smul_eq_mul]
  ring

theorem blin_smul (h : ℝ) (x : Pts n d) (c : Fin d) (al be al' be' : Fin n → ℝ) (t : ℝ) :
    blin h x c al be (t • al') (t • be') = t * blin h x c al be al' be' := by
  unfold blin
  simp only [Finset.mul_sum]
  refine Finset.sum_congr rfl fun i _ => Finset.sum_congr rfl fun j _ => ?_
  simp only [Pi.smul_apply, smul_eq_mul]
  ring

theorem blin_smul_left (h : ℝ) (x : Pts n d) (c : Fin d) (al be al' be' : Fin n → ℝ) (t : ℝ) :
    blin h x c (t • al) (t • be) al' be' = t * blin h x c al be al' be' := by
  unfold blin
  simp only [Finset.mul_sum]
  refine Finset.sum_congr rfl fun i _ => Finset.sum_congr rfl fun j _ => ?_
  simp only [Pi.smul_apply, smul_eq_mul]
  ring

/-- A quadratic polynomial that is never negative. -/
theorem cauchy_of_quad {a b c : ℝ} (h : ∀ t : ℝ, 0 ≤ a + 2 * t * b + t ^ 2 * c) : b ^ 2 ≤ a * c := by
  have := discrim_le_zero (a := c) (b := 2 * b) (c := a) fun t => (h t).trans_eq (by ring)
  unfold discrim at this
  nlinarith

/-! ## The gain of a field -/

theorem field_eq (h : ℝ) (x : Pts n d) (al be : Fin n → Pt d) (y : Pt d) (c : Fin d) :
    field h x al be y c = (∑ j, gauss h (x j) y * (al j c + be j c * (2 / h * (y c - x j c)))) / n := by
  unfold field
  congr 1
  refine Finset.sum_congr rfl fun j _ => ?_
  rw [gradK_eq]
  ring

theorem gauss_deriv (h : ℝ) (a y : Pt d) (c : Fin d) :
    HasDerivAt (fun t => gauss h a (Function.update y c t)) (2 / h * (gauss h a y * (a c - y c))) (y c) := by
  have hd : Differentiable ℝ fun t => gauss h (Function.update y c t) a := by
    unfold gauss
    have : ∀ e, Differentiable ℝ fun t => Function.update y c t e := fun e => by
      by_cases he : e = c
      · subst he; simp
      · simp [Function.update_of_ne he]
    fun_prop
  have h1 : HasDerivAt (fun t => gauss h (Function.update y c t) a) (gradK h y a c) (y c) := (hd (y c)).hasDerivAt
  rw [gradK_eq, gauss_comm] at h1
  simpa only [gauss_comm] using h1

theorem jac_diag (h : ℝ) (x : Pts n d) (al be : Fin n → Pt d) (y : Pt d) (c : Fin d) :
    jac (field h x al be) y c c = (∑ j, gauss h (x j) y * (-(2 / h * (y c - x j c)) * (al j c + be j c * (2 / h * (y c - x j c))) +
      be j c * (2 / h))) / n := by
  have hd : HasDerivAt (fun t => field h x al be (Function.update y c t) c)
      ((∑ j, (2 / h * (gauss h (x j) y * (x j c - y c)) * (al j c + be j c * (2 / h * (y c - x j c))) +
        gauss h (x j) y * (be j c * (2 / h)))) / n) (y c) := by
    simp only [field_eq, Function.update_self]
    refine HasDerivAt.div_const (HasDerivAt.fun_sum fun j _ => ?_) _
    have h2 : HasDerivAt (fun t : ℝ => al j c + be j c * (2 / h * (t - x j c))) (be j c * (2 / h)) (y c) := by
      have := ((((hasDerivAt_id (y c)).sub_const (x j c)).const_mul (2 / h)).const_mul (be j c)).const_add (al j c)
      refine this.congr_deriv ?_
      ring
    have := (gauss_deriv h (x j) y c).mul h2
    refine this.congr_deriv ?_
    rw [Function.update_eq_self]
  rw [jac, Matrix.of_apply, hd.deriv]
  congr 1
  refine Finset.sum_congr rfl fun j _ => ?_
  ring

theorem det_deriv (J : Matrix (Fin d) (Fin d) ℝ) : HasDerivAt (fun e : ℝ => (1 + e • J).det) J.trace 0 := by
  have he : (fun e : ℝ => (1 + e • J).det) = fun e => 1 + J.trace * e +
      ((1 + (Polynomial.X : Polynomial ℝ) • J.map Polynomial.C).det.divX.divX).eval e * e ^ 2 := by
    funext e
    exact Matrix.det_one_add_smul e J
  rw [he]
  have h1 := ((hasDerivAt_id (0 : ℝ)).const_mul J.trace).const_add 1
  have h2 := (((1 + (Polynomial.X : Polynomial ℝ) • J.map Polynomial.C).det.divX.divX).hasDerivAt (0 : ℝ)).mul
    ((hasDerivAt_id (0 : ℝ)).pow 2)
  refine (h1.add h2).congr_deriv ?_
  simp

/-- The derivative of the gain at zero along a field of the space. -/
theorem gain_deriv {F : Pt d → ℝ} (hF : Differentiable ℝ F) (T h : ℝ) (x : Pts n d) (al be : Fin n → Pt d) :
    HasDerivAt (gain F T x (field h x al be))
      ((∑ c, blin h x c (fun i => scoreOf F T (x i) c) (fun _ => 1) (fun j => al j c) (fun j => be j c)) / n ^ 2) 0 := by
  have hi : ∀ i, HasDerivAt (fun e : ℝ => F (x i + e • field h x al be (x i)) / T +
      Real.log |(1 + e • jac (field h x al be) (x i)).det|)
      (∑ c, (scoreOf F T (x i) c * field h x al be (x i) c + jac (field h x al be) (x i) c c)) 0 := fun i => by
    set v := field h x al be (x i) with hv
    have h1 : HasDerivAt (fun e : ℝ => x i + e • v) v 0 := by
      simpa using ((hasDerivAt_id (0 : ℝ)).smul_const v).const_add (x i)
    have h2 : HasFDerivAt F (fderiv ℝ F (x i)) (x i + (0 : ℝ) • v) := by
      rw [zero_smul, add_zero]
      exact (hF (x i)).hasFDerivAt
    have h3 : HasDerivAt (fun e : ℝ => F (x i + e • v)) (fderiv ℝ F (x i) v) 0 := h2.comp_hasDerivAt (0 : ℝ) h1
    have h4 := (det_deriv (jac (field h x al be) (x i))).log (by simp)
    have h5 := (h3.div_const T).add h4
    simp only [Real.log_abs]
    refine h5.congr_deriv ?_
    rw [zero_smul, add_zero, Matrix.det_one, div_one, Finset.sum_add_distrib, Matrix.trace]
    congr 1
    have hsum : v = ∑ c, v c • (Pi.single c (1 : ℝ) : Pt d) := by
      funext e
      simp [Finset.sum_apply, Pi.single_apply]
    conv_lhs => rw [hsum]
    rw [map_sum, Finset.sum_div]
    refine Finset.sum_congr rfl fun c _ => ?_
    rw [map_smul, smul_eq_mul, scoreOf]
    ring
  have := (HasDerivAt.fun_sum (u := Finset.univ) fun i _ => hi i).div_const (n : ℝ)
  refine this.congr_deriv ?_
  rw [Finset.sum_comm, Finset.sum_div, Finset.sum_div]
  refine Finset.sum_congr rfl fun c _ => ?_
  unfold blin
  rw [Finset.sum_div, Finset.sum_div]
  refine Finset.sum_congr rfl fun i _ => ?_
  rw [field_eq, jac_diag, mul_div_assoc', ← add_div, div_div, ← sq, Finset.mul_sum, ← Finset.sum_add_distrib]
  congr 1
  refine Finset.sum_congr rfl fun j _ => ?_
  rw [gauss_comm h (x j) (x i)]
  ring

/-- Square of the norm of a field, in the space of the kernel divided by the preconditioner. -/
noncomputable def norm2 (h : ℝ) (pre : Pt d) (x : Pts n d) (al be : Fin n → Pt d) : ℝ :=
  (∑ c, blin h x c (fun j => al j c) (fun j => be j c) (fun j => al j c) (fun j => be j c) / pre c) / n ^ 2

/-- **C285** The direction of the step, as a field: the gain along it has a derivative which is never negative; it is the
square of the norm of the field, no field of the same norm has a larger derivative, and if it is zero no particle moves. -/
theorem steepest {F : Pt d → ℝ} (hF : Differentiable ℝ F) (T : ℝ) {h : ℝ} (hh : 0 < h) {pre : Pt d} (hp : ∀ c, 0 < pre c)
    (x : Pts n d) :
    let S : Fin n → Pt d := fun j c => pre c * scoreOf F T (x j) c
    let P : Fin n → Pt d := fun _ c => pre c
    (∀ i, field h x S P (x i) = dirs F T h pre x i) ∧
    HasDerivAt (gain F T x (field h x S P)) (norm2 h pre x S P) 0 ∧ 0 ≤ norm2 h pre x S P ∧
    (∀ al be g, HasDerivAt (gain F T x (field h x al be)) g 0 → g ^ 2 ≤ norm2 h pre x al be * norm2 h pre x S P) ∧
    (norm2 h pre x S P = 0 → dirs F T h pre x = 0) := by
  intro S P
  set s : Fin d → Fin n → ℝ := fun c i => scoreOf F T (x i) c with hs
  have hS : ∀ c, (fun j => S j c) = pre c • s c := fun c => rfl
  have hP : ∀ c, (fun j => P j c) = pre c • (fun _ => (1 : ℝ)) := fun c => by
    funext j
    simp [P]
  set Q : Fin d → ℝ := fun c => blin h x c (s c) (fun _ => 1) (s c) (fun _ => 1) with hQ
  have hQ0 : ∀ c, 0 ≤ Q c := fun c => blin_nonneg hh x c _ _
  have hN : norm2 h pre x S P = (∑ c, pre c * Q c) / n ^ 2 := by
    unfold norm2
    congr 1
    refine Finset.sum_congr rfl fun c _ => ?_
    rw [hS, hP, blin_smul, blin_smul_left]
    have := (hp c).ne'
    field_simp
    rfl
  have hdir : ∀ i, field h x S P (x i) = dirs F T h pre x i := fun i => by
    funext c
    unfold field dirs stein
    rw [mul_div_assoc', Finset.mul_sum]
    congr 1
    refine Finset.sum_congr rfl fun j _ => ?_
    simp only [S, P]
    ring
  refine ⟨hdir, ?_, ?_, fun al be g hg => ?_, fun h0 => ?_⟩
  · refine (gain_deriv hF T h x S P).congr_deriv ?_
    rw [hN]
    congr 1
    refine Finset.sum_congr rfl fun c _ => ?_
    rw [hS, hP, blin_smul]
  · rw [hN]
    exact div_nonneg (Finset.sum_nonneg fun c _ => mul_nonneg (hp c).le (hQ0 c)) (by positivity)
  · have e := hg.unique (gain_deriv hF T h x al be)
    rw [e, hN]
    unfold norm2
    rw [div_pow, div_mul_div_comm]
    have hq : (∑ c, blin h x c (fun i => scoreOf F T (x i) c) (fun _ => 1) (fun j => al j c) (fun j => be j c)) ^ 2 ≤
        (∑ c, blin h x c (fun j => al j c) (fun j => be j c) (fun j => al j c) (fun j => be j c) / pre c) * ∑ c, pre c * Q c := by
      rw [mul_comm]
      refine cauchy_of_quad fun t => ?_
      rw [Finset.mul_sum, Finset.mul_sum, ← Finset.sum_add_distrib, ← Finset.sum_add_distrib]
      refine Finset.sum_nonneg fun c _ => ?_
      have hn := blin_nonneg hh x c (s c + (t / pre c) • fun j => al j c) ((fun _ => 1) + (t / pre c) • fun j => be j c)
      rw [blin_add] at hn
      have := mul_nonneg (hp c).le hn
      have hpc := (hp c).ne'
      refine this.trans_eq ?_
      simp only [hQ, hs]
      field_simp
    calc _ ≤ _ := div_le_div_of_nonneg_right hq (by positivity)
      _ = _ := by ring
  · rcases Nat.eq_zero_or_pos n with hn | hn
    · subst hn
      funext i
      exact i.elim0
    · rw [hN, div_eq_zero_iff, or_iff_left (by positivity),
        Finset.sum_eq_zero_iff_of_nonneg fun c _ => mul_nonneg (hp c).le (hQ0 c)] at h0
      funext i c
      have hc : Q c = 0 := by
        rcases mul_eq_zero.mp (h0 c (Finset.mem_univ c)) with h1 | h1
        · exact absurd h1 (hp c).ne'
        · exact h1
      have hcs : (blin h x c (s c) (fun _ => 1) (Pi.single i 1) 0) ^ 2 ≤ Q c * blin h x c (Pi.single i 1) 0 (Pi.single i 1) 0 :=
        cauchy_of_quad fun t => by
          have := blin_nonneg hh x c (s c + t • Pi.single i 1) ((fun _ => 1) + t • 0)
          rw [blin_add] at this
          exact this
      rw [hc, zero_mul] at hcs
      have hz : blin h x c (s c) (fun _ => 1) (Pi.single i 1) 0 = 0 := by nlinarith [sq_nonneg (blin h x c (s c) (fun _ => 1) (Pi.single i 1) 0)]
      have hb : blin h x c (s c) (fun _ => 1) (Pi.single i 1) 0 = ∑ j, stein h (scoreOf F T) (x i) c (x j) := by
        unfold blin
        refine Finset.sum_congr rfl fun j _ => ?_
        rw [Finset.sum_eq_single i]
        · simp only [Pi.single_eq_same, Pi.zero_apply, stein, gradK_eq, hs]
          ring
        · intro b _ hb
          simp [Pi.single_eq_of_ne hb]
        · simp
      rw [hb] at hz
      simp [dirs, hz]

/-- **C285** One call of `svgd_step`, with any bandwidth rule, no box, and exact gradients: the particles move by
`step_size` times the field `phi`, along which the gain increases to first order, by the square of the norm of the
field and faster than along any other field of the space of the same norm, unless no particle moves. -/
theorem svgd_uphill {vg : ValGrad d} {f : LogProb d} {o : StepOpts} {F : Pt d → ℝ} (hF : Differentiable ℝ F)
    (hbox : o.box = none) (hj : 0 ≤ o.jitter) (hval : ∀ y, f y = .ok (.fin (F y)))
    (hgrad : ∀ y, vg (fun z => .ok (.fin (F z / o.temperature))) y =
      .ok (.fin (F y / o.temperature), fun c => .fin (scoreOf F o.temperature y c)))
    {x y : Pts n d} {info : StepInfo n d} (hs : step vg f o x = .ok (y, info)) :
    ∃ phi : Pt d → Pt d, (∀ i, info.velocity i = phi (x i)) ∧ (∀ i, y i = x i + o.stepSize • phi (x i)) ∧
      ∃ N, HasDerivAt (gain F o.temperature x phi) N 0 ∧ 0 ≤ N ∧ (y ≠ x → 0 < N) ∧
        ∃ al be, phi = field info.h x al be ∧ norm2 info.h info.precond x al be = N ∧
          ∀ al' be' g, HasDerivAt (gain F o.temperature x (field info.h x al' be')) g 0 →
            g ^ 2 ≤ norm2 info.h info.precond x al' be' * N := by
  obtain ⟨hst, hT, hn, b, pre, k0, h', hb, hp, hk, hr⟩ := (step_ok vg f o x _).mp hs
  have hb0 : normBox o.box d = .ok none := by rw [hbox]; rfl
  have hproj : proj o x = x := by unfold proj; rw [hb0]; rfl
  have hl : logDens f o = fun z => .ok (.fin (F z / o.temperature)) := by
    unfold logDens
    rw [hb0]
    funext z
    simp only [tempered, hval, Bind.bind, Except.bind, Pure.pure, Except.pure]
    congr 1
    exact Flt.div_fin hT.ne'
  have hv : ∀ y, vgAt vg f o y = (.fin (F y / o.temperature), scoreOf F o.temperature y) := fun y => by
    unfold vgAt safeValGrad
    rw [hl, hgrad]
    simp [finite?_fin]
  have hal : ∀ y, Alive vg f o y := fun y => ⟨_, by rw [hv]⟩
  have hinfo := congrArg Prod.snd hr
  dsimp only at hinfo
  have hh : 0 < info.h := by
    rw [hinfo]
    exact (bandwidth_pos hj hk).1
  have hvel : info.velocity = dirs F o.temperature info.h info.precond x := by
    funext i c
    have h1 := step_stein hs i c
    have hcard : info.aliveCount = n := by
      rw [h1.2.1, hproj]
      simp [hal]
    rw [h1.1, if_pos (hal _), hproj, hcard]
    simp [hal, hv, dirs, stein]
  have hpre : ∀ c, 0 < info.precond c := fun c => by
    have h1 := (step_stein hs ⟨0, hn⟩ c).2.2
    cases ho : o.precondDiag with
    | none =>
      rw [ho, precond_none] at h1
      injection h1 with h1
      rw [← h1]
      exact one_pos
    | some l =>
      rw [ho] at h1
      exact (precond_spec h1 c).1
  obtain ⟨q1, q2, q3, q4, q5⟩ := steepest hF o.temperature hh hpre x
  have hmove : ∀ i, y i = x i + o.stepSize • info.velocity i := fun i => by
    obtain ⟨b', hb', hy⟩ := step_moves hs i
    rw [hb0] at hb'
    injection hb' with hb'
    rw [hy, ← hb', hproj]
    rfl
  refine ⟨_, fun i => by rw [hvel]; exact (q1 i).symm, fun i => ?_, _, q2, q3, fun hne => lt_of_le_of_ne q3 fun h0 => hne ?_,
    _, _, rfl, rfl, q4⟩
  · rw [q1 i, ← hvel]
    exact hmove i
  · have := q5 h0.symm
    funext i
    rw [hmove i, hvel, this]
    simp

/-! ## A concrete case -/

theorem normalLog_diff : Differentiable ℝ normalLog := by
  unfold normalLog
  fun_prop

/-- The standard normal target, with one particle at `3`: the particle moves to `2.7`, and the gain along the field
increases at rate `11`. -/
example : ∃ y info, step (fun g y => do
      let v ← g y
      return (v, fun _ => .fin (-(y 0)))) (fun y => .ok (.fin (normalLog y))) freeOpts (fun (_ : Fin 1) (_ : Fin 1) => 3) = .ok (y, info) ∧
    y 0 0 = 2.7 ∧ ∃ al be, HasDerivAt (gain normalLog 1 (fun (_ : Fin 1) (_ : Fin 1) => 3) (field 1 (fun (_ : Fin 1) (_ : Fin 1) => 3) al be)) 11 0 := by
  have hsc : scoreOf normalLog 1 (fun _ => 3) 0 = -3 := by
    rw [scoreOf, normalLog_fderiv]
    norm_num
  obtain ⟨-, y, info, hs, -, hy⟩ := exact_step (n := 0) normal_exact (by norm_num [freeOpts]) fun _ _ => 3
  refine ⟨y, info, hs, ?_, fun _ _ => -3, fun _ _ => 1, ?_⟩
  · rw [hy]
    simp only [dirs, stein, Finset.univ_unique, Finset.sum_singleton, gradK_eq]
    simp only [freeOpts, hsc]
    norm_num [gauss]
  · refine (gain_deriv normalLog_diff 1 1 _ _ _).congr_deriv ?_
    simp only [blin, Finset.univ_unique, Finset.sum_singleton, Fin.default_eq_zero, hsc]
    norm_num [gauss]

end Verif.SVGD
