import Verif.Core.PropsPathAverages
import Verif.Core.PropsBatchProper
import Verif.Core.PropsIdent
import Verif.Core.PropsSmooth

/-!
# C290: parameters selected from repeated data converge to the generating ones
-/

set_option autoImplicit false

namespace Verif.Core

open Verif Verif.Data Verif.Kernel Matrix MeasureTheory ProbabilityTheory Filter Topology

variable {Ω : Type} [MeasurableSpace Ω] {μ : Measure Ω} [IsProbabilityMeasure μ]
variable {N q r d : ℕ} {be : Backend} {la : LA} {T : Type} [TopologicalSpace T]

/-- A criterion that is a quadratic polynomial of the data. -/
def quad (c : ℝ) (M : Mat N N) (v : Fin N → ℝ) (A : Mat N N) (b : Fin N → ℝ) : ℝ :=
  c + ∑ i, ∑ j, M i j * A i j + ∑ i, v i * b i

theorem quad_continuous {c : T → ℝ} {M : T → Mat N N} {v : T → Fin N → ℝ} (hc : Continuous c) (hM : Continuous M)
    (hv : Continuous v) : Continuous fun p : (Mat N N × (Fin N → ℝ)) × T => quad (c p.2) (M p.2) (v p.2) p.1.1 p.1.2 := by
  have h1 : ∀ i j, Continuous fun t => M t i j := fun i j => by fun_prop
  have h2 : ∀ i, Continuous fun t => v t i := fun i => by fun_prop
  unfold quad
  fun_prop

theorem quad_average (c : ℝ) (M : Mat N N) (v : Fin N → ℝ) (y : ℕ → Fin N → ℝ) {n : ℕ} (hn : 0 < n) :
    (∑ k ∈ Finset.range n, quad c M v (fun i j => y k i * y k j) (y k)) / n =
      quad c M v (fun i j => (∑ k ∈ Finset.range n, y k i * y k j) / n) fun i => (∑ k ∈ Finset.range n, y k i) / n := by
  have hn' : (n : ℝ) ≠ 0 := by exact_mod_cast hn.ne'
  unfold quad
  simp only [Finset.sum_add_distrib, add_div, Finset.sum_const, Finset.card_range, nsmul_eq_mul]
  congr 1
  · congr 1
    · field_simp
    · rw [Finset.sum_comm, Finset.sum_div]
      refine Finset.sum_congr rfl fun i _ => ?_
      rw [Finset.sum_comm, Finset.sum_div]
      refine Finset.sum_congr rfl fun j _ => ?_
      rw [← Finset.mul_sum, mul_div_assoc]
  · rw [Finset.sum_comm, Finset.sum_div]
    refine Finset.sum_congr rfl fun i _ => ?_
    rw [← Finset.mul_sum, mul_div_assoc]

theorem quad_expect (c : ℝ) (M : Mat N N) (v : Fin N → ℝ) {L : Measure (Fin N → ℝ)} [IsProbabilityMeasure L]
    (h1 : ∀ i, Integrable (fun y : Fin N → ℝ => y i) L) (h2 : ∀ i j, Integrable (fun y : Fin N → ℝ => y i * y j) L) :
    ∫ y, quad c M v (fun i j => y i * y j) y ∂L = quad c M v (fun i j => ∫ y, y i * y j ∂L) fun i => ∫ y, y i ∂L := by
  change ∫ y, c + ∑ i, ∑ j, M i j * (y i * y j) + ∑ i, v i * y i ∂L = c + ∑ i, ∑ j, M i j * (∫ y, y i * y j ∂L) + ∑ i, v i * ∫ y, y i ∂L
  have a1 : Integrable (fun y : Fin N → ℝ => ∑ i, ∑ j, M i j * (y i * y j)) L :=
    integrable_finsetSum _ fun i _ => integrable_finsetSum _ fun j _ => (h2 i j).const_mul _
  have a2 : Integrable (fun y : Fin N → ℝ => ∑ i, v i * y i) L := integrable_finsetSum _ fun i _ => (h1 i).const_mul _
  have a3 : Integrable (fun y : Fin N → ℝ => c + ∑ i, ∑ j, M i j * (y i * y j)) L := (integrable_const c).add a1
  rw [integral_add a3 a2, integral_add (integrable_const c) a1]
  congr 1
  · congr 1
    · simp
    · refine (integral_finsetSum _ fun i _ => integrable_finsetSum _ fun j _ => (h2 i j).const_mul _).trans ?_
      refine Finset.sum_congr rfl fun i _ => ?_
      refine (integral_finsetSum _ fun j _ => (h2 i j).const_mul _).trans ?_
      exact Finset.sum_congr rfl fun j _ => integral_const_mul _ _
  · rw [integral_finsetSum _ fun i _ => (h1 i).const_mul _]
    exact Finset.sum_congr rfl fun i _ => integral_const_mul _ _

/-- Sums of a quadratic criterion over independent data separate the parameters with the smallest mean from the others. -/
theorem quad_consistent {Y : ℕ → Ω → Fin N → ℝ} (hY : ∀ n, Measurable (Y n)) (hi : iIndepFun Y μ)
    {L : Measure (Fin N → ℝ)} [IsProbabilityMeasure L] (hl : ∀ n, μ.map (Y n) = L)
    (h1 : ∀ i, Integrable (fun y : Fin N → ℝ => y i) L) (h2 : ∀ i j, Integrable (fun y : Fin N → ℝ => y i * y j) L)
    {c : T → ℝ} {M : T → Mat N N} {v : T → Fin N → ℝ} (hc : Continuous c) (hM : Continuous M) (hv : Continuous v)
    {S : Set T} (hS : IsCompact S) (t0 : T) :
    let phi : T → (Fin N → ℝ) → ℝ := fun t y => quad (c t) (M t) (v t) (fun i j => y i * y j) y
    ∀ᵐ ω ∂μ, ∀ U : Set T, IsOpen U → (∀ t ∈ S, ∫ y, phi t y ∂L ≤ ∫ y, phi t0 y ∂L → t ∈ U) →
      ∀ᶠ n : ℕ in atTop, ∀ t ∈ S, t ∉ U → ∑ k ∈ Finset.range n, phi t0 (Y k ω) < ∑ k ∈ Finset.range n, phi t (Y k ω) := by
  intro phi
  have e1 := ae_all_iff.mpr fun i => draws_average hY hi hl (f := fun y => y i) (by fun_prop) (h1 i)
  have e2 := ae_all_iff.mpr fun i => ae_all_iff.mpr fun j =>
    draws_average hY hi hl (f := fun y => y i * y j) (by fun_prop) (h2 i j)
  filter_upwards [e1, e2] with ω g1 g2 U hU hmin
  set A : Mat N N := fun i j => ∫ y, y i * y j ∂L
  set b : Fin N → ℝ := fun i => ∫ y, y i ∂L
  have hG := quad_continuous hc hM hv
  have hlim : Tendsto (fun n : ℕ => (((fun i j => (∑ k ∈ Finset.range n, Y k ω i * Y k ω j) / n : Mat N N),
      fun i : Fin N => (∑ k ∈ Finset.range n, Y k ω i) / (n : ℝ)) : Mat N N × (Fin N → ℝ))) atTop (𝓝 (A, b)) := by
    refine Tendsto.prodMk_nhds ?_ ?_
    · exact tendsto_pi_nhds.mpr fun i => tendsto_pi_nhds.mpr fun j => g2 i j
    · exact tendsto_pi_nhds.mpr fun i => g1 i
  have hcomp := (hS.diff hU).eventually_forall_of_forall_eventually (x₀ := (A, b))
    (P := fun a t => quad (c t0) (M t0) (v t0) a.1 a.2 < quad (c t) (M t) (v t) a.1 a.2) fun t ht => by
      have hlt : quad (c t0) (M t0) (v t0) A b < quad (c t) (M t) (v t) A b := by
        have h := fun h => ht.2 (hmin t ht.1 h)
        simp only [phi, quad_expect _ _ _ h1 h2] at h
        exact lt_of_not_ge h
      have hG0 : Continuous fun p : (Mat N N × (Fin N → ℝ)) × T => quad (c t0) (M t0) (v t0) p.1.1 p.1.2 :=
        hG.comp (continuous_fst.prodMk continuous_const)
      exact (isOpen_lt hG0 hG).mem_nhds hlt
  filter_upwards [hlim.eventually hcomp, eventually_gt_atTop 0] with n hn hn0 t ht htU
  have := hn t ⟨ht, htU⟩
  rw [← quad_average _ _ _ (fun k => Y k ω) hn0, ← quad_average _ _ _ (fun k => Y k ω) hn0] at this
  exact (div_lt_div_iff_of_pos_right (by exact_mod_cast hn0)).mp this

theorem gauss_quad {K : Mat N N} (hK : K.PosDef) (m z : Fin N → ℝ) :
    -Real.log (gaussDensity K m z) =
      quad (1 / 2 * (N * Real.log (2 * Real.pi) + Real.log K.det + m ⬝ᵥ (K⁻¹ *ᵥ m))) ((1 / 2 : ℝ) • K⁻¹) (-(K⁻¹ *ᵥ m))
        (fun i j => z i * z j) z := by
  have hd := hK.det_pos
  have hp : (0 : ℝ) < (2 * Real.pi) ^ N := by have := Real.pi_pos; positivity
  have hs : (K⁻¹)ᵀ = K⁻¹ := PosSemidef.symm hK.inv.posSemidef
  unfold gaussDensity
  rw [Real.log_mul (by positivity) (Real.exp_pos _).ne', Real.log_exp, Real.log_inv,
    Real.log_sqrt (by positivity), Real.log_mul hp.ne' hd.ne', Real.log_pow]
  have e1 : ∑ i, ∑ j, ((1 / 2 : ℝ) • K⁻¹) i j * (z i * z j) = 1 / 2 * (z ⬝ᵥ (K⁻¹ *ᵥ z)) := by
    simp only [dotProduct, mulVec, Finset.mul_sum, Matrix.smul_apply, smul_eq_mul]
    exact Finset.sum_congr rfl fun i _ => Finset.sum_congr rfl fun j _ => by ring
  have e2 : ∑ i, (-(K⁻¹ *ᵥ m)) i * z i = -((K⁻¹ *ᵥ m) ⬝ᵥ z) := by
    simp only [dotProduct, Pi.neg_apply, neg_mul, Finset.sum_neg_distrib]
  have e3 : (z - m) ⬝ᵥ (K⁻¹ *ᵥ (z - m)) = z ⬝ᵥ (K⁻¹ *ᵥ z) - 2 * ((K⁻¹ *ᵥ m) ⬝ᵥ z) + m ⬝ᵥ (K⁻¹ *ᵥ m) := by
    have : m ⬝ᵥ (K⁻¹ *ᵥ z) = (K⁻¹ *ᵥ m) ⬝ᵥ z := by
      rw [dotProduct_mulVec, ← mulVec_transpose, hs]
    rw [mulVec_sub, sub_dotProduct, dotProduct_sub, dotProduct_sub, this, dotProduct_comm z (K⁻¹ *ᵥ m)]
    ring
  unfold quad
  rw [e1, e2, e3]
  ring

theorem normal_integrable {K : Mat N N} (hK : K.PosSemidef) (mu : Fin N → ℝ) :
    (∀ i, Integrable (fun y : Fin N → ℝ => y i) (normalLaw mu K)) ∧
    ∀ i j, Integrable (fun y : Fin N → ℝ => y i * y j) (normalLaw mu K) := by
  have hL : ∀ i, MemLp (fun y : Fin N → ℝ => y i) 2 (normalLaw mu K) := fun i => by
    have h := normalLaw_dot hK mu (Pi.single i 1) 0
    have h2 : MemLp (id : ℝ → ℝ) 2 ((normalLaw mu K).map fun x => Pi.single i 1 ⬝ᵥ x + 0) := by
      rw [h]; exact memLp_id_gaussianReal 2
    have h3 := (memLp_map_measure_iff (by fun_prop) (by apply Measurable.aemeasurable; apply Continuous.measurable; fun_prop)).1 h2
    refine h3.congr_norm (by apply Continuous.aestronglyMeasurable; fun_prop) (ae_of_all _ fun z => ?_)
    simp [single_dotProduct]
  exact ⟨fun i => (hL i).integrable one_le_two, fun i j => (hL i).integrable_mul (hL j)⟩

theorem inv_continuous {K : T → Mat N N} (hK : Continuous K) (hp : ∀ t, (K t).PosDef) : Continuous fun t => (K t)⁻¹ := by
  have : (fun t => (K t)⁻¹) = fun t => ((K t).det)⁻¹ • (K t).adjugate := by
    funext t
    rw [Matrix.inv_def, Ring.inverse_eq_inv']
  rw [this]
  have hd : Continuous fun t => (K t).det := hK.matrix_det
  exact (hd.inv₀ fun t => (hp t).det_pos.ne').smul hK.matrix_adjugate

/-- Likelihoods of independent data separate the generating law from the others. -/
theorem gauss_consistent {K : T → Mat N N} (hK : Continuous K) (hp : ∀ t, (K t).PosDef) {m : T → Fin N → ℝ} (hm : Continuous m)
    {S : Set T} (hS : IsCompact S) (t0 : T) {Y : ℕ → Ω → Fin N → ℝ} (hY : ∀ n, Measurable (Y n)) (hi : iIndepFun Y μ)
    (hl : ∀ n, μ.map (Y n) = normalLaw (m t0) (K t0)) :
    ∀ᵐ ω ∂μ, ∀ U : Set T, IsOpen U → (∀ t ∈ S, K t0 = K t → m t0 = m t → t ∈ U) →
      ∀ᶠ n : ℕ in atTop, ∀ t ∈ S, t ∉ U → ∑ k ∈ Finset.range n, -Real.log (gaussDensity (K t0) (m t0) (Y k ω)) <
        ∑ k ∈ Finset.range n, -Real.log (gaussDensity (K t) (m t) (Y k ω)) := by
  have hI := inv_continuous hK hp
  have hd : Continuous fun t => Real.log (K t).det := hK.matrix_det.log fun t => (hp t).det_pos.ne'
  have hIm : Continuous fun t => (K t)⁻¹ *ᵥ m t := hI.matrix_mulVec hm
  have hmm : Continuous fun t => m t ⬝ᵥ ((K t)⁻¹ *ᵥ m t) := hm.dotProduct hIm
  obtain ⟨h1, h2⟩ := normal_integrable (hp t0).posSemidef (m t0)
  have h := quad_consistent hY hi hl h1 h2 (c := fun t => 1 / 2 * (N * Real.log (2 * Real.pi) + Real.log (K t).det + m t ⬝ᵥ ((K t)⁻¹ *ᵥ m t)))
    (M := fun t => (1 / 2 : ℝ) • (K t)⁻¹) (v := fun t => -((K t)⁻¹ *ᵥ m t)) (by fun_prop) (by fun_prop) (by fun_prop) hS t0
  simp only [← gauss_quad (hp _)] at h
  refine h.mono fun ω hω U hU hs => hω U hU fun t ht hle => ?_
  obtain ⟨-, g1, g2⟩ := gauss_proper (hp t0) (hp t) (m t0) (m t)
  obtain ⟨e1, e2⟩ := g2.mp (le_antisymm g1 hle)
  exact hs t ht e1 e2

theorem range_sum (f : ℕ → ℝ) (n : ℕ) : ((List.range n).map f).sum = ∑ k ∈ Finset.range n, f k := by
  induction n with
  | zero => simp
  | succ n ih => rw [List.range_succ, List.map_append, List.sum_append, ih, Finset.sum_range_succ]; simp

/-- Data sets of the same size enter the criterion with the same weight. -/
theorem equal_sets {phi phi' : (Fin N → ℝ) → ℝ} (red : Reduction) (hN : 0 < N) {n : ℕ} (hn : 0 < n) (y : ℕ → Fin N → ℝ) :
    evalSpec (fun _ => N) phi red ((List.range n).map y) < evalSpec (fun _ => N) phi' red ((List.range n).map y) ↔
      ∑ k ∈ Finset.range n, phi (y k) < ∑ k ∈ Finset.range n, phi' (y k) := by
  have hN' : (0 : ℝ) < N := by exact_mod_cast hN
  have e : ∀ f : (Fin N → ℝ) → ℝ, (((List.range n).map y).map fun b => f b * ((N : ℕ) : ℝ)).sum =
      (∑ k ∈ Finset.range n, f (y k)) * N := fun f => by
    rw [List.map_map, Finset.sum_mul, ← range_sum]
    rfl
  have hs : (0 : ℝ) < ((((List.range n).map y).map fun _ => N).sum : ℕ) := by
    have : (((List.range n).map y).map fun _ => N).sum = n * N := by simp [Function.comp_def]
    rw [this]
    exact_mod_cast Nat.mul_pos hn hN
  cases red with
  | sum =>
    simp only [evalSpec, e]
    exact mul_lt_mul_iff_left₀ hN'
  | mean =>
    simp only [evalSpec, e]
    rw [div_lt_div_iff_of_pos_right hs]
    exact mul_lt_mul_iff_left₀ hN'

/-- The criterion of one batch as a number: `criterion(param, x, z)` in `BatchDifferentiableSelectionCriterion`
(num/numpy_backend.py 406-422, num/torch_backend.py 667-678), for finite values; with a positive definite covariance there are no others. -/
def finiteValue : Py Crit → Py ℝ
  | .ok (.finite v) => .ok v
  | .ok .inf => .error .linAlgError
  | .error e => .error e

/-- The value of the criterion over the batches `y 0 … y (n - 1)`, one full pass (`n_batches = 0`), with numpy or torch
(num/numpy_backend.py 395-422, num/torch_backend.py 655-678). -/
noncomputable def overSets (be : Backend) (crit : (Fin N → ℝ) → Py Crit) (red : Reduction) (y : ℕ → Fin N → ℝ) (n : ℕ)
    (st : IterState (Fin N → ℝ)) : Py (WithTop ℝ) :=
  match be with
  | .numpy => (evaluateNumpy (fun _ => (List.range n).map y) (fun _ => N) (fun z => finiteValue (crit z)) red 0 st).1
  | .torch => (evaluateTorch (fun _ => (List.range n).map y) (fun _ => N) (fun z => finiteValue (crit z)) red 0 st).1

theorem overSets_eq {crit : (Fin N → ℝ) → Py Crit} {phi : (Fin N → ℝ) → ℝ} (h : ∀ z, crit z = .ok (.finite (phi z)))
    (hN : 0 < N) (red : Reduction) (y : ℕ → Fin N → ℝ) {n : ℕ} (hn : 0 < n) (st : IterState (Fin N → ℝ)) :
    overSets be crit red y n st = .ok ((evalSpec (fun _ => N) phi red ((List.range n).map y) : ℝ) : WithTop ℝ) := by
  have hs : (((List.range n).map y).map fun _ => N).sum ≠ 0 := by
    have : (((List.range n).map y).map fun _ => N).sum = n * N := by simp [Function.comp_def]
    rw [this]
    exact (Nat.mul_pos hn hN).ne'
  have := evaluate_pass (fun _ => N) (fun z => finiteValue (crit z)) phi red ((List.range n).map y) st
    (fun b _ => by simp only [h, finiteValue]) hs
  cases be with
  | numpy => exact this.1
  | torch => exact this.2

/-- **C290** Independent data sets observed at the same points, generated by the law with parameter `t0` of a continuous family,
and the likelihood criterion over the data sets: with probability one, for every open set that contains the parameters of `S` that
give the generating law, from some number of data sets on every minimiser over `S` (compact, containing `t0`) is in the open set. -/
theorem selection_consistent (hla : la.Sound be) {K : T → Mat N N} (hK : Continuous K) (hp : ∀ t, (K t).PosDef)
    {m : T → Fin N → ℝ} (hm : Continuous m) (hN : 0 < N) {S : Set T} (hS : IsCompact S) {t0 : T} (ht0 : t0 ∈ S)
    {Y : ℕ → Ω → Fin N → ℝ} (hY : ∀ n, Measurable (Y n)) (hi : iIndepFun Y μ)
    (hl : ∀ n, μ.map (Y n) = normalLaw (m t0) (K t0)) (red : Reduction) (st : IterState (Fin N → ℝ)) :
    ∃ crit : T → ℕ → Ω → ℝ,
      (∀ t n ω, 0 < n → overSets be (nll be la (K t) (m t)) red (fun k => Y k ω) n st = .ok ((crit t n ω : ℝ) : WithTop ℝ)) ∧
      (∀ n ω, 0 < n → ∃ t ∈ S, ∀ t' ∈ S, crit t n ω ≤ crit t' n ω) ∧
      ∀ᵐ ω ∂μ, ∀ U : Set T, IsOpen U → (∀ t ∈ S, K t = K t0 → m t = m t0 → t ∈ U) →
        ∀ᶠ n : ℕ in atTop, ∀ t ∈ S, (∀ t' ∈ S, crit t n ω ≤ crit t' n ω) → t ∈ U := by
  refine ⟨fun t n ω => evalSpec (fun _ => N) (fun z => -Real.log (gaussDensity (K t) (m t) z)) red ((List.range n).map fun k => Y k ω),
    fun t n ω hn => overSets_eq (fun z => (nll_eq hla (hp t) (m t) z).1) hN red _ hn st, fun n ω hn => ?_, ?_⟩
  · have hI := inv_continuous hK hp
    have hd : Continuous fun t => Real.log (K t).det := hK.matrix_det.log fun t => (hp t).det_pos.ne'
    have hIm : Continuous fun t => (K t)⁻¹ *ᵥ m t := hI.matrix_mulVec hm
    have hmm : Continuous fun t => m t ⬝ᵥ ((K t)⁻¹ *ᵥ m t) := hm.dotProduct hIm
    have hz : ∀ z, Continuous fun t => -Real.log (gaussDensity (K t) (m t) z) := fun z => by
      have := (quad_continuous (T := T) (c := fun t => 1 / 2 * (N * Real.log (2 * Real.pi) + Real.log (K t).det + m t ⬝ᵥ ((K t)⁻¹ *ᵥ m t)))
        (M := fun t => (1 / 2 : ℝ) • (K t)⁻¹) (v := fun t => -((K t)⁻¹ *ᵥ m t)) (by fun_prop) (by fun_prop) (by fun_prop)).comp
        (f := fun t => (((fun i j => z i * z j : Mat N N), z), t)) (by fun_prop)
      refine this.congr fun t => ?_
      rw [gauss_quad (hp t)]
      rfl
    have hsum : Continuous fun t => ∑ k ∈ Finset.range n, -Real.log (gaussDensity (K t) (m t) (Y k ω)) :=
      continuous_finsetSum _ fun k _ => hz _
    obtain ⟨t, ht, hmin⟩ := hS.exists_isMinOn ⟨t0, ht0⟩ hsum.continuousOn
    refine ⟨t, ht, fun t' ht' => not_lt.mp fun hlt => ?_⟩
    rw [equal_sets red hN hn fun k => Y k ω] at hlt
    exact absurd (hmin ht') (not_le.mpr hlt)
  · refine (gauss_consistent hK hp hm hS t0 hY hi hl).mono fun ω hω U hU hs => ?_
    filter_upwards [hω U hU fun t ht h1 h2 => hs t ht h1.symm h2.symm, eventually_gt_atTop 0] with n hn hn0 t ht hmin
    by_contra htU
    exact absurd (hmin t0 ht0) (not_le.mpr ((equal_sets red hN hn0 fun k => Y k ω).mpr (hn t ht htU)))

/-- **C290** For the Matérn covariances and points that determine the parameters, the covariance parameters selected over a bounded
closed set from more and more data sets converge to the generating ones. -/
theorem matern_selection_consistent (hla : la.Sound be) (p : ℕ) {eps : ℝ} {x : Matrix (Fin (N + 1)) (Fin d) ℝ}
    (hx : Admissible eps x) (hsp : Spread x) (m : Fin (N + 1) → ℝ) {S : Set (Fin (d + 1) → ℝ)} (hS : IsCompact S)
    {a : Fin (d + 1) → ℝ} (ha : a ∈ S) {Y : ℕ → Ω → Fin (N + 1) → ℝ} (hY : ∀ n, Measurable (Y n)) (hi : iIndepFun Y μ)
    (hl : ∀ n, μ.map (Y n) = normalLaw m (cov (maternFormula p) eps a x .same)) (red : Reduction) (st : IterState (Fin (N + 1) → ℝ)) :
    ∃ crit : (Fin (d + 1) → ℝ) → ℕ → Ω → ℝ,
      (∀ b n ω, 0 < n → overSets be (nll be la (cov (maternFormula p) eps b x .same) m) red (fun k => Y k ω) n st =
        .ok ((crit b n ω : ℝ) : WithTop ℝ)) ∧
      (∀ n ω, 0 < n → ∃ b ∈ S, ∀ b' ∈ S, crit b n ω ≤ crit b' n ω) ∧
      ∀ᵐ ω ∂μ, ∀ sel : ℕ → Fin (d + 1) → ℝ, (∀ n, 0 < n → sel n ∈ S ∧ ∀ b ∈ S, crit (sel n) n ω ≤ crit b n ω) →
        Tendsto sel atTop (𝓝 a) := by
  have hK : Continuous fun b => cov (maternFormula p) eps b x .same :=
    continuous_matrix fun i j => ((cov_smooth (N := 0) (m := N + 1) p eps x x).1 i j).continuous
  obtain ⟨crit, h1, h2, h3⟩ := selection_consistent hla hK (fun b => matern_Kii p b hx) (m := fun _ => m) continuous_const
    (Nat.succ_pos N) hS ha hY hi hl red st
  refine ⟨crit, h1, h2, h3.mono fun ω hω sel hsel => ?_⟩
  rw [tendsto_nhds]
  intro U hU haU
  have hid : ∀ b ∈ S, cov (maternFormula p) eps b x .same = cov (maternFormula p) eps a x .same → m = m → b ∈ U := fun b _ hb _ => by
    rw [← (cov_identified_iff p hx.nonneg a x).mpr hsp b hb.symm]
    exact haU
  filter_upwards [hω U hU hid, eventually_gt_atTop 0] with n hn hn0
  exact hn _ (hsel n hn0).1 (hsel n hn0).2

/-- Four points of the plane, with a nugget: the draws exist. -/
example (hla : la.Sound be) (p : ℕ) (red : Reduction) (st : IterState (Fin 4 → ℝ)) : ∃ (P : Measure (ℕ → Fin 4 → ℝ))
    (crit : (Fin 3 → ℝ) → ℕ → (ℕ → Fin 4 → ℝ) → ℝ), IsProbabilityMeasure P ∧
    (∀ b n ω, 0 < n → overSets be (nll be la (cov (maternFormula p) 1 b !![0, 0; 1, 0; 0, 1; 1, 1] .same) 0) red ω n st =
      .ok ((crit b n ω : ℝ) : WithTop ℝ)) ∧
    ∀ᵐ ω ∂P, ∀ sel : ℕ → Fin 3 → ℝ, (∀ n, 0 < n → sel n ∈ Set.Icc (-5) 5 ∧ ∀ b ∈ Set.Icc (-5) 5, crit (sel n) n ω ≤ crit b n ω) →
      Tendsto sel atTop (𝓝 ![1, 2, 3]) := by
  have hx : Admissible 1 (!![0, 0; 1, 0; 0, 1; 1, 1] : Matrix (Fin 4) (Fin 2) ℝ) := Or.inl one_pos
  obtain ⟨crit, h1, -, h3⟩ := matern_selection_consistent (N := 3) (d := 2)
    (μ := Measure.infinitePi fun _ => normalLaw 0 (cov (maternFormula p) 1 ![1, 2, 3] (!![0, 0; 1, 0; 0, 1; 1, 1] : Matrix (Fin 4) (Fin 2) ℝ) .same))
    hla p hx (spread_star 0 ![1, 2] (by intro k; fin_cases k <;> simp) (by
      intro k l h
      fin_cases k <;> fin_cases l <;> simp_all)) 0 (S := Set.Icc (-5) 5) isCompact_Icc (a := ![1, 2, 3])
    ⟨fun k => by fin_cases k <;> norm_num, fun k => by fin_cases k <;> norm_num⟩
    (Y := fun k ω => ω k) (fun k => measurable_pi_apply k)
    (iIndepFun_infinitePi (P := fun _ => normalLaw 0 (cov (maternFormula p) 1 ![1, 2, 3] (!![0, 0; 1, 0; 0, 1; 1, 1] : Matrix (Fin 4) (Fin 2) ℝ) .same))
      (X := fun _ x => x) fun _ => measurable_id)
    (fun k => (Measure.infinitePi_map_eval (fun _ => normalLaw 0 (cov (maternFormula p) 1 ![1, 2, 3] (!![0, 0; 1, 0; 0, 1; 1, 1] : Matrix (Fin 4) (Fin 2) ℝ) .same)) k)) red st
  exact ⟨_, crit, inferInstance, h1, h3⟩

/-- **C290** The same with the restricted likelihood, for data with any mean in the linear space of mean functions: the selected
parameters are eventually in every open set that contains those giving the generating variances to all contrasts. -/
theorem reml_selection_consistent (hla : la.Sound be) {K : T → Mat (q + r) (q + r)} (hK : Continuous K) (hp : ∀ t, (K t).PosDef)
    {P : Mat (q + r) q} (hP : FullRank P) (beta : Fin q → ℝ) (hN : 0 < q + r) {S : Set T} (hS : IsCompact S) {t0 : T} (ht0 : t0 ∈ S)
    {Y : ℕ → Ω → Fin (q + r) → ℝ} (hY : ∀ n, Measurable (Y n)) (hi : iIndepFun Y μ)
    (hl : ∀ n, μ.map (Y n) = normalLaw (P *ᵥ beta) (K t0)) (red : Reduction) (st : IterState (Fin (q + r) → ℝ)) :
    ∃ crit : T → ℕ → Ω → ℝ,
      (∀ t n ω, 0 < n → overSets be (reml be la (K t) P) red (fun k => Y k ω) n st = .ok ((crit t n ω : ℝ) : WithTop ℝ)) ∧
      ∀ᵐ ω ∂μ, ∀ U : Set T, IsOpen U →
        (∀ t ∈ S, (∀ w, Pᵀ *ᵥ w = 0 → w ⬝ᵥ (K t *ᵥ w) = w ⬝ᵥ (K t0 *ᵥ w)) → t ∈ U) →
        ∀ᶠ n : ℕ in atTop, ∀ t ∈ S, (∀ t' ∈ S, crit t n ω ≤ crit t' n ω) → t ∈ U := by
  set W := contrastMatrix la P
  have hW : IsContrast P W := (hla.qr_ok P (Nat.le_add_right q r)).contrast hP
  have hC : ∀ t, CPD (K t) P := fun t => CPD.of_posDef (hp t) P
  have hG : ∀ t, (Wᵀ * (K t * W)).PosDef := fun t => contrast_posDef hW.orth hW.null (hC t)
  have hm : Measurable fun z : Fin (q + r) → ℝ => Wᵀ *ᵥ z := by
    apply Continuous.measurable; fun_prop
  have hL : (normalLaw (P *ᵥ beta) (K t0)).map (fun z => Wᵀ *ᵥ z) = normalLaw 0 (Wᵀ * (K t0 * W)) := by
    have h := normalLaw_map (hp t0).posSemidef (P *ᵥ beta) Wᵀ 0
    simp only [add_zero, transpose_transpose, mulVec_mulVec] at h
    rw [h, Matrix.mul_assoc]
    congr 1
    have := congrArg Matrix.transpose hW.null
    rw [transpose_mul, transpose_transpose, transpose_zero] at this
    rw [this, zero_mulVec]
  have hG' : Continuous fun t => Wᵀ * (K t * W) := by fun_prop
  have hcons := gauss_consistent hG' hG (m := fun _ => 0) continuous_const hS t0 (Y := fun n ω => Wᵀ *ᵥ Y n ω)
    (fun n => hm.comp (hY n)) (hi.comp (fun _ z => Wᵀ *ᵥ z) fun _ => hm) fun n => by
      rw [← hL, ← hl n, Measure.map_map hm (hY n)]
      rfl
  refine ⟨fun t n ω => evalSpec (fun _ => q + r) (fun z => -Real.log (gaussDensity (Wᵀ * (K t * W)) 0 (Wᵀ *ᵥ z))) red
      ((List.range n).map fun k => Y k ω),
    fun t n ω hn => overSets_eq (fun z => reml_eq hla (hC t) hP z hW) hN red _ hn st, ?_⟩
  refine hcons.mono fun ω hω U hU hs => ?_
  have hid : ∀ t ∈ S, Wᵀ * (K t0 * W) = Wᵀ * (K t * W) → (0 : Fin r → ℝ) = 0 → t ∈ U := fun t ht h1 _ => hs t ht fun w hw => by
    obtain ⟨c, rfl⟩ := hW.span w hw
    have hq : ∀ K : Mat (q + r) (q + r), c ⬝ᵥ ((Wᵀ * (K * W)) *ᵥ c) = (W *ᵥ c) ⬝ᵥ (K *ᵥ (W *ᵥ c)) := fun K => by
      rw [← mulVec_mulVec, ← mulVec_mulVec, dotProduct_mulVec, vecMul_transpose]
    rw [← hq, ← hq, h1]
  filter_upwards [hω U hU hid, eventually_gt_atTop 0] with n hn hn0 t ht hmin
  by_contra htU
  exact absurd (hmin t0 ht0) (not_le.mpr ((equal_sets red hN hn0 fun k => Y k ω).mpr (hn t ht htU)))

/-- **C290** With known correlations and any mean in the linear space, the log-variance selected by the restricted likelihood
converges to the generating one. -/
theorem reml_variance_consistent (hla : la.Sound be) {R : Mat (q + r) (q + r)} (hR : R.PosDef) {P : Mat (q + r) q} (hP : FullRank P)
    (hr : 0 < r) (beta : Fin q → ℝ) {S : Set ℝ} (hS : IsCompact S) {s0 : ℝ} (hs0 : s0 ∈ S) {Y : ℕ → Ω → Fin (q + r) → ℝ}
    (hY : ∀ n, Measurable (Y n)) (hi : iIndepFun Y μ) (hl : ∀ n, μ.map (Y n) = normalLaw (P *ᵥ beta) (Real.exp s0 • R))
    (red : Reduction) (st : IterState (Fin (q + r) → ℝ)) :
    ∃ crit : ℝ → ℕ → Ω → ℝ,
      (∀ s n ω, 0 < n → overSets be (reml be la (Real.exp s • R) P) red (fun k => Y k ω) n st = .ok ((crit s n ω : ℝ) : WithTop ℝ)) ∧
      ∀ᵐ ω ∂μ, ∀ sel : ℕ → ℝ, (∀ n, 0 < n → sel n ∈ S ∧ ∀ s ∈ S, crit (sel n) n ω ≤ crit s n ω) → Tendsto sel atTop (𝓝 s0) := by
  obtain ⟨crit, h1, h2⟩ := reml_selection_consistent hla (K := fun s : ℝ => Real.exp s • R) (by fun_prop)
    (fun s => hR.smul (Real.exp_pos s)) hP beta (by omega) hS hs0 hY hi hl red st
  refine ⟨crit, h1, h2.mono fun ω hω sel hsel => ?_⟩
  have hW : IsContrast P (contrastMatrix la P) := (hla.qr_ok P (Nat.le_add_right q r)).contrast hP
  set w := contrastMatrix la P *ᵥ Pi.single ⟨0, hr⟩ 1 with hw
  have hw0 : w ≠ 0 := fun h => by
    have := congrArg (fun u => (contrastMatrix la P)ᵀ *ᵥ u) h
    simp only [hw, mulVec_mulVec, hW.orth, one_mulVec, mulVec_zero] at this
    have := congrFun this ⟨0, hr⟩
    simp at this
  have hPw : Pᵀ *ᵥ w = 0 := by rw [hw, mulVec_mulVec, hW.null, zero_mulVec]
  rw [tendsto_nhds]
  intro U hU h0
  have hid : ∀ s ∈ S, (∀ w, Pᵀ *ᵥ w = 0 → w ⬝ᵥ ((Real.exp s • R) *ᵥ w) = w ⬝ᵥ ((Real.exp s0 • R) *ᵥ w)) → s ∈ U := fun s _ h => by
    have := h w hPw
    rw [smul_mulVec, smul_mulVec, dotProduct_smul, dotProduct_smul, smul_eq_mul, smul_eq_mul] at this
    have := Real.exp_injective (mul_right_cancel₀ (PosDef.quad_pos hR (x := w) hw0).ne' this)
    rwa [this]
  filter_upwards [hω U hU hid, eventually_gt_atTop 0] with n hn hn0
  exact hn _ (hsel n hn0).1 (hsel n hn0).2

/-- Four correlated points and a constant mean: the draws exist. -/
example (hla : la.Sound be) (red : Reduction) (st : IterState (Fin (1 + 3) → ℝ)) : ∃ (Q : Measure (ℕ → Fin (1 + 3) → ℝ))
    (crit : ℝ → ℕ → (ℕ → Fin (1 + 3) → ℝ) → ℝ), IsProbabilityMeasure Q ∧
    (∀ s n ω, 0 < n → overSets be (reml be la (Real.exp s • firstCov exK 4) (Matrix.of fun (_ : Fin (1 + 3)) (_ : Fin 1) => (1 : ℝ))) red ω n st =
      .ok ((crit s n ω : ℝ) : WithTop ℝ)) ∧
    ∀ᵐ ω ∂Q, ∀ sel : ℕ → ℝ, (∀ n, 0 < n → sel n ∈ Set.Icc (-5) 5 ∧ ∀ s ∈ Set.Icc (-5) 5, crit (sel n) n ω ≤ crit s n ω) →
      Tendsto sel atTop (𝓝 2) := by
  have hP : FullRank (Matrix.of fun (_ : Fin (1 + 3)) (_ : Fin 1) => (1 : ℝ)) := fun b hb => by
    have := congrFun hb 0
    funext k
    rw [Subsingleton.elim k 0]
    simpa [mulVec, dotProduct] using this
  obtain ⟨crit, h1, h2⟩ := reml_variance_consistent (q := 1) (r := 3)
    (μ := Measure.infinitePi fun _ => normalLaw ((Matrix.of fun (_ : Fin (1 + 3)) (_ : Fin 1) => (1 : ℝ)) *ᵥ fun _ => 7) (Real.exp 2 • firstCov exK 4))
    hla (exK_posDef 4) hP (by norm_num) (fun _ => 7) (S := Set.Icc (-5) 5) isCompact_Icc (s0 := 2) ⟨by norm_num, by norm_num⟩
    (Y := fun k ω => ω k) (fun k => measurable_pi_apply k)
    (iIndepFun_infinitePi (X := fun _ x => x) fun _ => measurable_id) (fun k => Measure.infinitePi_map_eval _ k) red st
  exact ⟨_, crit, inferInstance, h1, h2⟩

end Verif.Core
