import Verif.Core.PropsProper
import Verif.Core.PropsGuessMean
import Verif.Data.PropsBatch

/-!
# C257: criteria averaged over batches are smallest, on average, at models that agree with the generating one on every batch

Pairs of points that are never in the same batch are not seen.
-/

set_option autoImplicit false

namespace Verif.Core

open Verif Verif.Data Matrix MeasureTheory ProbabilityTheory

variable {N q r : ℕ} {be : Backend} {la : LA}

/-- Positions of the rows of a batch. -/
abbrev Rows (N : ℕ) := Σ k, Fin k → Fin N

/-- The negative log-likelihood of a batch as the criterion given to `BatchDifferentiableSelectionCriterion`
(parameter_selection.py 118-123, likelihood.py 64-115), for finite values; with a positive definite covariance there are no others. -/
noncomputable def batchNll (be : Backend) (la : LA) (K : Mat N N) (m z : Fin N → ℝ) (b : Rows N) : Py ℝ :=
  match nll be la (K.submatrix b.2 b.2) (m ∘ b.2) (z ∘ b.2) with
  | .ok (.finite v) => .ok v
  | .ok .inf => .error .linAlgError
  | .error e => .error e

theorem list_integral {B : Type} {L : Measure (Fin N → ℝ)} {f : B → (Fin N → ℝ) → ℝ} {w : B → ℝ} {l : List B}
    (hf : ∀ b ∈ l, Integrable (f b) L) :
    Integrable (fun z => (l.map fun b => f b z * w b).sum) L ∧
    ∫ z, (l.map fun b => f b z * w b).sum ∂L = (l.map fun b => (∫ z, f b z ∂L) * w b).sum := by
  induction l with
  | nil => simp
  | cons b l ih =>
    obtain ⟨c1, c2⟩ := ih fun c hc => hf c (by simp [hc])
    have a1 := (hf b (by simp)).mul_const (w b)
    simp only [List.map_cons, List.sum_cons]
    refine ⟨a1.add c1, (integral_add a1 c1).trans ?_⟩
    rw [c2, integral_mul_const]

theorem list_le {B : Type} {f g w : B → ℝ} {l : List B} (hw : ∀ b ∈ l, 0 < w b) (h : ∀ b ∈ l, f b ≤ g b) :
    (l.map fun b => f b * w b).sum ≤ (l.map fun b => g b * w b).sum ∧
    ((l.map fun b => f b * w b).sum = (l.map fun b => g b * w b).sum ↔ ∀ b ∈ l, f b = g b) := by
  induction l with
  | nil => simp
  | cons b l ih =>
    obtain ⟨c1, c2⟩ := ih (fun c hc => hw c (by simp [hc])) fun c hc => h c (by simp [hc])
    have hb := h b (by simp)
    have hwb := hw b (by simp)
    have hm : f b * w b ≤ g b * w b := mul_le_mul_of_nonneg_right hb hwb.le
    simp only [List.map_cons, List.sum_cons, List.mem_cons, forall_eq_or_imp]
    refine ⟨add_le_add hm c1, ?_⟩
    rw [← c2]
    constructor
    · intro e
      have e1 : f b * w b = g b * w b := by linarith
      exact ⟨mul_right_cancel₀ hwb.ne' e1, by linarith⟩
    · rintro ⟨e1, e2⟩
      rw [e1, e2]

/-- The value of one full pass with a criterion that does not raise. -/
theorem evaluate_pass {B : Type} (size : B → ℕ) (crit : B → Py ℝ) (phi : B → ℝ) (red : Reduction) (l : List B) (st : IterState B)
    (hc : ∀ b ∈ l, crit b = .ok (phi b)) (hs : (l.map size).sum ≠ 0) :
    (evaluateNumpy (fun _ => l) size crit red 0 st).1 = .ok ((evalSpec size phi red l : ℝ) : WithTop ℝ) ∧
    (evaluateTorch (fun _ => l) size crit red 0 st).1 = .ok ((evalSpec size phi red l : ℝ) : WithTop ℝ) := by
  have hf : ∀ (l' : List B) (acc : ℝ × ℕ), (∀ b ∈ l', crit b = .ok (phi b)) →
      foldBatches size crit acc l' = foldBatches size (fun b => .ok (phi b)) acc l' := by
    intro l'
    induction l' with
    | nil => intro acc _; rfl
    | cons b l' ih =>
      intro acc h
      simp only [foldBatches, h b (by simp)]
      exact ih _ fun c hc => h c (by simp [hc])
  have h1 : (sumBatches (fun _ => l) size crit 0 st).1 = .ok (0 + (l.map fun b => phi b * size b).sum, 0 + (l.map size).sum) := by
    simp only [sumBatches, if_true]
    rw [hf l _ hc, foldBatches_ok]
  constructor
  · simp only [evaluateNumpy, h1, finishEval_ok size phi red l hs]
  · simp only [evaluateTorch, h1, finishEval_ok size phi red l hs]

/-- **C257** The criterion averaged (or summed) over batches is on average smallest at the model that generated the data, and is as
small at another model exactly when the two agree on every batch. -/
theorem batched_proper (hla : la.Sound be) {K0 K1 : Mat N N} (h0 : K0.PosDef) (h1 : K1.PosDef) (m0 m1 : Fin N → ℝ)
    {bs : List (Rows N)} (hb : ∀ b ∈ bs, Function.Injective b.2) (hn : ∀ b ∈ bs, 0 < b.1) (hne : bs ≠ []) (red : Reduction)
    (st : IterState (Rows N)) :
    ∃ f0 f1 : (Fin N → ℝ) → ℝ,
      (∀ z, (evaluateNumpy (fun _ => bs) Sigma.fst (batchNll be la K0 m0 z) red 0 st).1 = .ok ((f0 z : ℝ) : WithTop ℝ) ∧
        (evaluateTorch (fun _ => bs) Sigma.fst (batchNll be la K0 m0 z) red 0 st).1 = .ok ((f0 z : ℝ) : WithTop ℝ)) ∧
      (∀ z, (evaluateNumpy (fun _ => bs) Sigma.fst (batchNll be la K1 m1 z) red 0 st).1 = .ok ((f1 z : ℝ) : WithTop ℝ) ∧
        (evaluateTorch (fun _ => bs) Sigma.fst (batchNll be la K1 m1 z) red 0 st).1 = .ok ((f1 z : ℝ) : WithTop ℝ)) ∧
      Integrable f0 (normalLaw m0 K0) ∧ Integrable f1 (normalLaw m0 K0) ∧
      ∫ z, f0 z ∂(normalLaw m0 K0) ≤ ∫ z, f1 z ∂(normalLaw m0 K0) ∧
      (∫ z, f0 z ∂(normalLaw m0 K0) = ∫ z, f1 z ∂(normalLaw m0 K0) ↔
        ∀ b ∈ bs, K0.submatrix b.2 b.2 = K1.submatrix b.2 b.2 ∧ m0 ∘ b.2 = m1 ∘ b.2) := by
  have hN : (bs.map Sigma.fst).sum ≠ 0 := by
    obtain ⟨b, hb'⟩ := List.exists_mem_of_ne_nil bs hne
    have := List.single_le_sum (l := bs.map Sigma.fst) (by simp) _ (List.mem_map.mpr ⟨b, hb', rfl⟩)
    have := hn b hb'
    omega
  have hN' : (0 : ℝ) < ((bs.map Sigma.fst).sum : ℕ) := by exact_mod_cast Nat.pos_of_ne_zero hN
  set phi : Mat N N → (Fin N → ℝ) → Rows N → (Fin N → ℝ) → ℝ := fun K m b z =>
    -Real.log (gaussDensity (K.submatrix b.2 b.2) (m ∘ b.2) (z ∘ b.2)) with hphi
  have hval : ∀ {K : Mat N N}, K.PosDef → ∀ m z, ∀ b ∈ bs, batchNll be la K m z b = .ok (phi K m b z) := by
    intro K hK m z b hb'
    simp only [batchNll, (nll_eq hla (hK.submatrix (hb b hb')) (m ∘ b.2) (z ∘ b.2)).1, hphi]
  have hmm : ∀ b : Rows N, Measurable fun z : Fin N → ℝ => z ∘ b.2 := fun b => by fun_prop
  have hcont : ∀ {k : ℕ} {A : Mat k k}, A.PosDef → ∀ mu, Continuous fun y : Fin k → ℝ => -Real.log (gaussDensity A mu y) :=
    fun hA mu => ((gaussDensity_continuous _ mu).log fun y => (gaussDensity_pos hA mu y).ne').neg
  have hint : ∀ {K : Mat N N}, K.PosDef → ∀ m, ∀ b ∈ bs, Integrable (phi K m b) (normalLaw m0 K0) ∧
      ∫ z, phi K m b z ∂(normalLaw m0 K0) = ∫ y, -Real.log (gaussDensity (K.submatrix b.2 b.2) (m ∘ b.2) y)
        ∂(normalLaw (m0 ∘ b.2) (K0.submatrix b.2 b.2)) := by
    intro K hK m b hb'
    have hA := hK.submatrix (hb b hb')
    have h2 := log_gauss_integrable (h0.submatrix (hb b hb')).posSemidef (m0 ∘ b.2) hA (m ∘ b.2)
    rw [← normalLaw_at h0.posSemidef m0 b.2] at h2 ⊢
    refine ⟨(integrable_map_measure (hcont hA _).aestronglyMeasurable (hmm b).aemeasurable).mp h2, ?_⟩
    rw [integral_map (hmm b).aemeasurable (hcont hA _).aestronglyMeasurable]
  obtain ⟨a1, a2⟩ := list_integral (w := fun b : Rows N => (b.1 : ℝ)) fun b hb' => (hint h0 m0 b hb').1
  obtain ⟨c1, c2⟩ := list_integral (w := fun b : Rows N => (b.1 : ℝ)) fun b hb' => (hint h1 m1 b hb').1
  have hle := list_le (l := bs) (w := fun b : Rows N => (b.1 : ℝ)) (f := fun b => ∫ z, phi K0 m0 b z ∂(normalLaw m0 K0))
    (g := fun b => ∫ z, phi K1 m1 b z ∂(normalLaw m0 K0)) (fun b hb' => by exact_mod_cast hn b hb') fun b hb' => by
      rw [(hint h0 m0 b hb').2, (hint h1 m1 b hb').2]
      exact (gauss_proper (h0.submatrix (hb b hb')) (h1.submatrix (hb b hb')) _ _).2.1
  have heq : (∀ b ∈ bs, ∫ z, phi K0 m0 b z ∂(normalLaw m0 K0) = ∫ z, phi K1 m1 b z ∂(normalLaw m0 K0)) ↔
      ∀ b ∈ bs, K0.submatrix b.2 b.2 = K1.submatrix b.2 b.2 ∧ m0 ∘ b.2 = m1 ∘ b.2 := by
    refine forall₂_congr fun b hb' => ?_
    rw [(hint h0 m0 b hb').2, (hint h1 m1 b hb').2]
    exact (gauss_proper (h0.submatrix (hb b hb')) (h1.submatrix (hb b hb')) _ _).2.2
  refine ⟨fun z => evalSpec Sigma.fst (fun b => phi K0 m0 b z) red bs, fun z => evalSpec Sigma.fst (fun b => phi K1 m1 b z) red bs,
    fun z => evaluate_pass _ _ _ red bs st (hval h0 m0 z) hN, fun z => evaluate_pass _ _ _ red bs st (hval h1 m1 z) hN, ?_⟩
  rw [← heq, ← hle.2, ← a2, ← c2]
  have hle1 := hle.1
  rw [← a2, ← c2] at hle1
  cases red with
  | sum =>
    simp only [evalSpec]
    exact ⟨a1, c1, hle1, trivial⟩
  | mean =>
    simp only [evalSpec]
    refine ⟨a1.div_const _, c1.div_const _, ?_, ?_⟩
    · rw [integral_div, integral_div]
      exact div_le_div_of_nonneg_right hle1 hN'.le
    · rw [integral_div, integral_div, div_left_inj' hN'.ne']

/-- **C257** With batches of one point, all models with the same variances give the same value for all data. -/
theorem batched_single {K0 K1 : Mat N N} (hd : ∀ i, K0 i i = K1 i i) (m z : Fin N → ℝ) {bs : List (Rows N)} (hb : ∀ b ∈ bs, b.1 = 1) (red : Reduction)
    (st : IterState (Rows N)) :
    (evaluateNumpy (fun _ => bs) Sigma.fst (batchNll be la K0 m z) red 0 st).1 =
      (evaluateNumpy (fun _ => bs) Sigma.fst (batchNll be la K1 m z) red 0 st).1 := by
  have hc : ∀ b ∈ bs, batchNll be la K0 m z b = batchNll be la K1 m z b := by
    intro b hb'
    obtain ⟨k, ix⟩ := b
    obtain rfl : k = 1 := hb _ hb'
    have : K0.submatrix ix ix = K1.submatrix ix ix := by
      ext i j
      rw [Subsingleton.elim j i]
      exact hd _
    simp only [batchNll, this]
  have hf : ∀ (l : List (Rows N)) (acc : ℝ × ℕ), (∀ b ∈ l, batchNll be la K0 m z b = batchNll be la K1 m z b) →
      foldBatches Sigma.fst (batchNll be la K0 m z) acc l = foldBatches Sigma.fst (batchNll be la K1 m z) acc l := by
    intro l
    induction l with
    | nil => intro acc _; rfl
    | cons b l ih =>
      intro acc h
      simp only [foldBatches, h b (by simp)]
      split
      · exact ih _ fun c hc => h c (by simp [hc])
      · rfl
  simp only [evaluateNumpy, sumBatches, if_true, hf bs _ hc]

/-- **C257** (negative) So independent data and data with correlation one half are not told apart. -/
theorem batched_pairs_false : ∃ K0 K1 : Mat 2 2, K0.PosDef ∧ K1.PosDef ∧ K0 ≠ K1 ∧ ∀ (m z : Fin 2 → ℝ) (red : Reduction)
    (st : IterState (Rows 2)),
    (evaluateNumpy (fun _ => [⟨1, ![0]⟩, ⟨1, ![1]⟩]) Sigma.fst (batchNll be la K0 m z) red 0 st).1 =
      (evaluateNumpy (fun _ => [⟨1, ![0]⟩, ⟨1, ![1]⟩]) Sigma.fst (batchNll be la K1 m z) red 0 st).1 := by
  refine ⟨1, !![1, 1 / 2; 1 / 2, 1], PosDef.one, ?_, ?_, fun m z red st => batched_single ?_ m z ?_ red st⟩
  · refine posDef_of_quad ?_ fun v hv => ?_
    · ext i j
      fin_cases i <;> fin_cases j <;> rfl
    · have e : v ⬝ᵥ (!![1, 1 / 2; 1 / 2, 1] *ᵥ v) = (v 0 + v 1 / 2) ^ 2 + 3 / 4 * v 1 ^ 2 := by
        simp [dotProduct, mulVec, Fin.sum_univ_two]
        ring
      rw [e]
      by_cases h1 : v 1 = 0
      · have h0 : v 0 ≠ 0 := fun h0 => hv (by funext i; fin_cases i <;> assumption)
        have : 0 < v 0 ^ 2 := by positivity
        rw [h1]
        nlinarith
      · positivity
  · intro h
    have := congrFun (congrFun h 0) 1
    norm_num at this
  · intro i
    fin_cases i <;> rfl
  · intro b hb
    simp only [List.mem_cons, List.not_mem_nil, or_false] at hb
    rcases hb with rfl | rfl <;> rfl

/-- Four points in two batches; the covariance between the batches is not seen, the others are. -/
example : ∃ f0 f1 : (Fin 4 → ℝ) → ℝ, ∫ z, f0 z ∂(normalLaw 0 (firstCov exK 4)) < ∫ z, f1 z ∂(normalLaw 0 (firstCov exK 4)) ∧
    (∀ z, (evaluateNumpy (fun _ => [⟨2, ![0, 1]⟩, ⟨2, ![2, 3]⟩]) Sigma.fst
      (batchNll .numpy (exactLA .numpy) (firstCov exK 4) 0 z) .mean 0 ⟨[], 0⟩).1 = .ok ((f0 z : ℝ) : WithTop ℝ)) ∧
    (∀ z, (evaluateNumpy (fun _ => [⟨2, ![0, 1]⟩, ⟨2, ![2, 3]⟩]) Sigma.fst
      (batchNll .numpy (exactLA .numpy) ((2 : ℝ) • firstCov exK 4) 0 z) .mean 0 ⟨[], 0⟩).1 = .ok ((f1 z : ℝ) : WithTop ℝ)) := by
  have hbs : ∀ b ∈ ([⟨2, ![0, 1]⟩, ⟨2, ![2, 3]⟩] : List (Rows 4)), Function.Injective b.2 := by
    intro b hb
    simp only [List.mem_cons, List.not_mem_nil, or_false] at hb
    rcases hb with rfl | rfl <;> decide
  have hn : ∀ b ∈ ([⟨2, ![0, 1]⟩, ⟨2, ![2, 3]⟩] : List (Rows 4)), 0 < b.1 := by
    intro b hb
    simp only [List.mem_cons, List.not_mem_nil, or_false] at hb
    rcases hb with rfl | rfl <;> decide
  have hK := exK_posDef 4
  obtain ⟨f0, f1, g0, g1, -, -, hle, hiff⟩ := batched_proper (exactLA_contract .numpy).toSound hK (hK.smul (two_pos : (0 : ℝ) < 2)) 0 0 hbs hn
    (by simp) .mean ⟨[], 0⟩
  refine ⟨f0, f1, lt_of_le_of_ne hle fun h => ?_, fun z => (g0 z).1, fun z => (g1 z).1⟩
  have h1 := congrFun (congrFun ((hiff.mp h) _ (List.mem_cons_self)).1 0) 0
  have h2 := hK.diag_pos (i := 0)
  simp only [submatrix_apply, Matrix.smul_apply, smul_eq_mul, Matrix.cons_val_zero] at h1
  linarith

end Verif.Core
