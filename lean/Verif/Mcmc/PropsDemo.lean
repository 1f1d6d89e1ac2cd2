import Verif.Mcmc.Demo
import Verif.Core.PropsLikelihood
import Mathlib.MeasureTheory.Measure.Prod
import Mathlib.MeasureTheory.Integral.Prod
import Mathlib.MeasureTheory.Group.Measure
import Mathlib.MeasureTheory.Constructions.Pi
import Mathlib.Analysis.SpecialFunctions.Gaussian.GaussianIntegral

/-!
# C234: the demonstration densities
-/

set_option autoImplicit false

namespace Verif.Demo

open Verif Verif.Core Matrix MeasureTheory

/-- **C234.** With the inverse and the log-determinant of a covariance matrix the Gaussian
density is the normal density with that covariance. -/
theorem gaussian2d_eq {K : Mat 2 2} (hK : K.PosDef) (mu q : Fin 2 → ℝ) :
    Real.exp (gaussian2d q mu K⁻¹ (Real.log K.det)) = gaussDensity K mu q := by
  have hd := hK.det_pos
  have hpi := Real.pi_pos
  have h2 : (0 : ℝ) < (2 * Real.pi) ^ 2 * K.det := by positivity
  unfold gaussian2d gaussDensity
  have e : (Real.sqrt ((2 * Real.pi) ^ 2 * K.det))⁻¹ =
      Real.exp (-(1 / 2) * (2 * Real.log (2 * Real.pi) + Real.log K.det)) := by
    rw [Real.sqrt_eq_rpow, ← Real.rpow_neg h2.le, Real.rpow_def_of_pos h2,
      Real.log_mul (by positivity) hd.ne', Real.log_pow]
    congr 1
    push_cast
    ring
  rw [e, ← Real.exp_add]
  congr 1
  ring

/-- It has total mass one. -/
theorem gaussian2d_mass {K : Mat 2 2} (hK : K.PosDef) (mu : Fin 2 → ℝ) :
    ∫ q, Real.exp (gaussian2d q mu K⁻¹ (Real.log K.det)) = 1 := by
  simp only [gaussian2d_eq hK]
  exact gaussDensity_integral hK mu

/-! ## The mixture -/

theorem le_maxTerm (m : ℝ) (ts : List ℝ) : m ≤ maxTerm m ts := by
  induction ts generalizing m with
  | nil => exact le_rfl
  | cons t ts ih => exact (le_max_left m t).trans (ih _)

theorem maxTerm_spec (m : ℝ) (ts : List ℝ) :
    (∀ t ∈ m :: ts, t ≤ maxTerm m ts) ∧ maxTerm m ts ∈ m :: ts := by
  induction ts generalizing m with
  | nil => simp [maxTerm]
  | cons t ts ih =>
    obtain ⟨h1, h2⟩ := ih (max m t)
    have h0 := h1 (max m t) (by simp)
    refine ⟨fun u hu => ?_, ?_⟩
    · simp only [List.mem_cons] at hu
      rcases hu with rfl | rfl | hu
      · exact (le_max_left _ _).trans h0
      · exact (le_max_right _ _).trans h0
      · exact h1 u (by simp [hu])
    · simp only [maxTerm]
      rcases List.mem_cons.mp h2 with h | h
      · rw [h]
        rcases max_choice m t with e | e <;> simp [e]
      · simp [h]

theorem mixture2d_ok (q : Fin 2 → ℝ) (cs : List Comp) (h : cs ≠ []) (hw : ∀ c ∈ cs, 0 < c.weight) :
    ∃ v, mixture2d q cs = .ok v ∧
      Real.exp v =
        (cs.map fun c => c.weight * Real.exp (gaussian2d q c.mu c.invCov c.logDet)).sum := by
  cases cs with
  | nil => exact absurd rfl h
  | cons c cs =>
    refine ⟨_, rfl, ?_⟩
    have hpos : 0 < (((logTerm q c :: cs.map (logTerm q))).map fun u =>
        Real.exp (u - maxTerm (logTerm q c) (cs.map (logTerm q)))).sum := by
      rw [List.map_cons, List.sum_cons]
      refine add_pos_of_pos_of_nonneg (Real.exp_pos _) (List.sum_nonneg fun y hy => ?_)
      obtain ⟨u, -, rfl⟩ := List.mem_map.mp hy
      exact (Real.exp_pos _).le
    rw [Real.exp_add, Real.exp_log hpos, ← List.map_cons, List.map_map, ← List.sum_map_mul_left]
    congr 1
    refine List.map_congr_left fun c' hc' => ?_
    simp only [Function.comp_apply]
    rw [← Real.exp_add, add_sub_cancel, logTerm, Real.exp_add, Real.exp_log (hw c' hc')]

/-- **C234.** The mixture density is the weighted sum of normal densities, and its mass is the
sum of the weights; no component, a `ValueError`. -/
theorem mixture2d_density (cs : List (ℝ × (Fin 2 → ℝ) × Mat 2 2)) (h : cs ≠ [])
    (hw : ∀ c ∈ cs, 0 < c.1 ∧ c.2.2.PosDef) :
    ∃ f : (Fin 2 → ℝ) → ℝ,
      (∀ q, mixture2d q (cs.map fun c => ⟨c.1, c.2.1, c.2.2⁻¹, Real.log c.2.2.det⟩) = .ok (f q)) ∧
      (∀ q, Real.exp (f q) = (cs.map fun c => c.1 * gaussDensity c.2.2 c.2.1 q).sum) ∧
      ∫ q, Real.exp (f q) = (cs.map fun c => c.1).sum := by
  have key := fun q => mixture2d_ok q
    (cs.map fun c => ⟨c.1, c.2.1, c.2.2⁻¹, Real.log c.2.2.det⟩) (by simpa using h) (by
      intro c hc
      obtain ⟨x, hx, rfl⟩ := List.mem_map.mp hc
      exact (hw x hx).1)
  choose f hf using key
  have hd : ∀ q, Real.exp (f q) = (cs.map fun c => c.1 * gaussDensity c.2.2 c.2.1 q).sum := by
    intro q
    rw [(hf q).2, List.map_map]
    congr 1
    refine List.map_congr_left fun c hc => ?_
    simp only [Function.comp_apply]
    rw [gaussian2d_eq (hw c hc).2]
  refine ⟨f, fun q => (hf q).1, hd, ?_⟩
  simp only [hd]
  clear hf hd h f
  induction cs with
  | nil => simp
  | cons c cs ih =>
    have hI : ∀ c' : ℝ × (Fin 2 → ℝ) × Mat 2 2, c'.2.2.PosDef →
        Integrable fun q => gaussDensity c'.2.2 c'.2.1 q := by
      intro c' hc'
      by_contra hn
      have h1 := gaussDensity_integral hc' c'.2.1
      rw [integral_undef hn] at h1
      exact one_ne_zero h1.symm
    have hS : ∀ l : List (ℝ × (Fin 2 → ℝ) × Mat 2 2), (∀ c ∈ l, 0 < c.1 ∧ c.2.2.PosDef) →
        Integrable fun q => (l.map fun c => c.1 * gaussDensity c.2.2 c.2.1 q).sum := by
      intro l
      induction l with
      | nil => intro _; simp
      | cons a l ihl =>
        intro hl
        simp only [List.map_cons, List.sum_cons]
        exact ((hI a (hl a (by simp)).2).const_mul _).add (ihl fun c hc => hl c (by simp [hc]))
    simp only [List.map_cons, List.sum_cons]
    rw [integral_add ((hI c (hw c (by simp)).2).const_mul _) (hS cs fun c hc => hw c (by simp [hc])),
      integral_const_mul, gaussDensity_integral (hw c (by simp)).2, mul_one,
      ih fun c hc => hw c (by simp [hc])]

theorem mixture2d_empty (q : Fin 2 → ℝ) : mixture2d q [] = .error .valueError := rfl

/-- The exponentials that are summed are at most 1, and one of them is 1: no overflow, and the
sum does not underflow. -/
theorem mixture2d_stable (m : ℝ) (ts : List ℝ) :
    (∀ u ∈ m :: ts, Real.exp (u - maxTerm m ts) ≤ 1) ∧
      ∃ u ∈ m :: ts, Real.exp (u - maxTerm m ts) = 1 := by
  obtain ⟨h1, h2⟩ := maxTerm_spec m ts
  refine ⟨fun u hu => ?_, _, h2, by simp⟩
  rw [Real.exp_le_one_iff]
  linarith [h1 u hu]

/-! ## Rosenbrock -/

/-- **C234.** The Rosenbrock potential is positive except at `(a, a²)`, where it is 0. -/
theorem rosenbrock_min (a : ℝ) {b : ℝ} (hb : 0 < b) (xy : Fin 2 → ℝ) :
    0 ≤ rosenbrockU a b xy ∧ (rosenbrockU a b xy = 0 ↔ xy = ![a, a ^ 2]) := by
  have h1 : 0 ≤ (a - xy 0) ^ 2 := sq_nonneg _
  have h2 : 0 ≤ b * (xy 1 - xy 0 ^ 2) ^ 2 := by positivity
  refine ⟨add_nonneg h1 h2, fun h => ?_, fun h => ?_⟩
  · unfold rosenbrockU at h
    have e1 : (a - xy 0) ^ 2 = 0 := by linarith
    have e2 : b * (xy 1 - xy 0 ^ 2) ^ 2 = 0 := by linarith
    have e3 : xy 0 = a := by
      have := pow_eq_zero_iff (two_ne_zero) |>.mp e1
      linarith
    have e4 : xy 1 = a ^ 2 := by
      have := pow_eq_zero_iff (two_ne_zero) |>.mp ((mul_eq_zero.mp e2).resolve_left hb.ne')
      rw [e3] at this
      linarith
    ext i
    fin_cases i
    · exact e3
    · exact e4
  · rw [h]
    simp [rosenbrockU]

/-- **C234.** The density `exp(-U)` has the finite mass `π / √b`, so the sampler has a target. -/
theorem rosenbrock_mass (a : ℝ) {b : ℝ} (_hb : 0 < b) :
    ∫ xy, Real.exp (-rosenbrockU a b xy) = Real.pi / Real.sqrt b := by
  have e := (volume_preserving_finTwoArrow ℝ)
  have h1 : ∫ xy : Fin 2 → ℝ, Real.exp (-rosenbrockU a b xy) =
      ∫ p : ℝ × ℝ, Real.exp (-((a - p.1) ^ 2 + b * (p.2 - p.1 ^ 2) ^ 2)) := by
    rw [← e.integral_comp (MeasurableEquiv.finTwoArrow).measurableEmbedding]
    rfl
  have hT : MeasurePreserving (fun p : ℝ × ℝ => (p.1, p.2 - p.1 ^ 2)) (volume.prod volume)
      (volume.prod volume) := by
    refine MeasurePreserving.skew_product (f := id) (g := fun x y => y - x ^ 2)
      (MeasurePreserving.id _) ?_ (Filter.Eventually.of_forall fun x => ?_)
    · exact measurable_snd.sub (measurable_fst.pow_const 2)
    · exact (measurePreserving_sub_right volume (x ^ 2)).map_eq
  have hE : MeasurableEmbedding (fun p : ℝ × ℝ => (p.1, p.2 - p.1 ^ 2)) := by
    refine MeasurableEmbedding.of_measurable_inverse (g := fun p : ℝ × ℝ => (p.1, p.2 + p.1 ^ 2))
      ?_ ?_ ?_ ?_
    · exact measurable_fst.prodMk (measurable_snd.sub (measurable_fst.pow_const 2))
    · have : Set.range (fun p : ℝ × ℝ => (p.1, p.2 - p.1 ^ 2)) = Set.univ := by
        ext p
        simp only [Set.mem_range, Set.mem_univ, iff_true]
        exact ⟨(p.1, p.2 + p.1 ^ 2), by simp⟩
      rw [this]
      exact MeasurableSet.univ
    · exact measurable_fst.prodMk (measurable_snd.add (measurable_fst.pow_const 2))
    · intro p
      simp
  have h2 : ∫ p : ℝ × ℝ, Real.exp (-((a - p.1) ^ 2 + b * (p.2 - p.1 ^ 2) ^ 2)) =
      ∫ p : ℝ × ℝ, Real.exp (-(1 : ℝ) * (p.1 - a) ^ 2) * Real.exp (-b * p.2 ^ 2) := by
    have h := hT.integral_comp hE fun p : ℝ × ℝ =>
      Real.exp (-(1 : ℝ) * (p.1 - a) ^ 2) * Real.exp (-b * p.2 ^ 2)
    rw [Measure.volume_eq_prod, ← h]
    congr 1
    ext p
    rw [← Real.exp_add]
    congr 1
    ring
  rw [h1, h2, Measure.volume_eq_prod,
    integral_prod_mul (fun x => Real.exp (-(1 : ℝ) * (x - a) ^ 2)) fun y => Real.exp (-b * y ^ 2),
    integral_sub_right_eq_self (fun x => Real.exp (-(1 : ℝ) * x ^ 2)) a, integral_gaussian,
    integral_gaussian, div_one, ← Real.sqrt_mul Real.pi_pos.le, ← mul_div_assoc,
    Real.sqrt_div (by positivity), Real.sqrt_mul_self Real.pi_pos.le]

/-- A case: the density of the demonstration, with its parameters. -/
example : ∫ xy, Real.exp (-rosenbrockU 1 100 xy) = Real.pi / 10 := by
  rw [rosenbrock_mass 1 (by norm_num), show (100 : ℝ) = 10 ^ 2 by norm_num,
    Real.sqrt_sq (by norm_num)]

end Verif.Demo
