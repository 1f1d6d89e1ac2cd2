import Mathlib.Analysis.PSeries
import Verif.Mcmc.PropsMHConverge
import Verif.Mcmc.PropsMHTune
import Verif.Mcmc.PropsMHTotal
import Verif.Core.PropsLaw
import Mathlib.MeasureTheory.OuterMeasure.BorelCantelli
import Mathlib.Probability.Independence.Basic

/-!
# C268: runs of the scheduler with frozen adaptation

The proposals are tuned during burn-in and stay as they are afterwards (`freeze_adaptation`, the default of
`MHOptions`).  Whatever happened during burn-in, with probability one the averages over the states returned converge to
the means under the target.
-/

set_option autoImplicit false

namespace Verif.MH

open Verif MeasureTheory ProbabilityTheory Matrix
open scoped ENNReal

variable {d m : ℕ}

/-! ## One step as a function of its draws -/

open Classical in
/-- The next state: the proposal if it is accepted. -/
noncomputable def jump {X : Type} (p : X → ℝ) (x y : X) (u : ℝ) : X :=
  if 0 < p y ∧ Real.log (max u uFloor) < Real.log (p y) - Real.log (p x) then y else x

/-- A cached value that `mhstep` can use or replaces. -/
def Cached {X : Type} (lt : X → Py Flt) (x : X) (c : Option Flt) : Prop :=
  c = none ∨ c = some .nan ∨ c = some (evalTarget lt x)

theorem mhStep_accept {X : Type} {lt : X → Py Flt} {p : X → ℝ} (hp : TargetOf lt p) (lq : X → X → Py Flt) {x : X}
    (hx : 0 < p x) (y : X) (u : ℝ) {c : Option Flt} (hc : Cached lt x c) :
    ∃ r, mhStep lt true lq x c (.ok y) u = .ok r ∧ r.1 = jump p x y u ∧ r.2.2.1 = evalTarget lt r.1 ∧
      (r.2.1 = true ↔ 0 < p y ∧ Real.log (max u uFloor) < Real.log (p y) - Real.log (p x)) := by
  classical
  have hxe : evalTarget lt x = .fin (Real.log (p x)) := by
    rcases hp x with ⟨-, h⟩ | ⟨h, -⟩
    · simp [evalTarget, h]
    · exact absurd hx (by rw [h]; exact lt_irrefl _)
  have hcur : currentTarget lt x c = .fin (Real.log (p x)) := by
    rcases hc with rfl | rfl | rfl
    · exact hxe
    · exact hxe
    · rw [hxe]; rfl
  have hlt : (Flt.fin (Real.log (max u uFloor))).lt ((evalTarget lt y).sub (.fin (Real.log (p x)))) ↔
      0 < p y ∧ Real.log (max u uFloor) < Real.log (p y) - Real.log (p x) := by
    rcases hp y with ⟨h0, h⟩ | ⟨h0, h⟩
    · have hye : evalTarget lt y = .fin (Real.log (p y)) := by simp [evalTarget, h]
      rw [hye, Flt.sub_fin, Flt.fin_lt]
      exact ⟨fun h => ⟨h0, h⟩, fun h => h.2⟩
    · have hye : evalTarget lt y = .num ⊥ := by
        rcases h with h | ⟨e, h⟩ <;> simp [evalTarget, h]
      rw [hye]
      exact ⟨fun h' => absurd h' (not_lt_bad (Flt.bot_sub _)), fun h' => absurd h'.1 (by rw [h0]; exact lt_irrefl _)⟩
  have hcs := mhStep_cases lt true lq x y c u ((evalTarget lt y).sub (.fin (Real.log (p x)))) (by
    rw [hcur]; rfl)
  unfold jump
  by_cases ha : 0 < p y ∧ Real.log (max u uFloor) < Real.log (p y) - Real.log (p x)
  · rw [if_pos ha]
    exact ⟨_, hcs.1 (hlt.mpr ha), rfl, rfl, by simp [ha]⟩
  · rw [if_neg ha]
    exact ⟨_, hcs.2 (fun h => ha (hlt.mp h)), rfl, hcur.trans hxe.symm, by simp [ha]⟩

theorem mhStep_jump {X : Type} {lt : X → Py Flt} {p : X → ℝ} (hp : TargetOf lt p) (lq : X → X → Py Flt) {x : X}
    (hx : 0 < p x) (y : X) (u : ℝ) {c : Option Flt} (hc : Cached lt x c) :
    ∃ r, mhStep lt true lq x c (.ok y) u = .ok r ∧ r.1 = jump p x y u ∧ r.2.2.1 = evalTarget lt r.1 := by
  obtain ⟨r, h1, h2, h3, -⟩ := mhStep_accept hp lq hx y u hc
  exact ⟨r, h1, h2, h3⟩

theorem jump_pos {X : Type} {p : X → ℝ} {x : X} (hx : 0 < p x) (y : X) (u : ℝ) : 0 < p (jump p x y u) := by
  unfold jump
  split_ifs with h
  · exact h.1
  · exact hx

/-- The draws of one step: a standard normal vector and a uniform number. -/
noncomputable def drawLaw (d : ℕ) : Measure (Pt d × ℝ) :=
  (Core.stdLaw (Fin d)).prod (volume.restrict (Set.Ico (0 : ℝ) 1))

instance : IsProbabilityMeasure (volume.restrict (Set.Ico (0 : ℝ) 1)) := ⟨by simp⟩

instance : IsProbabilityMeasure (drawLaw d) := by
  unfold drawLaw
  infer_instance

/-- A step with a normal proposal of covariance `L Lᵀ`. -/
noncomputable def hop (p : Pt d → ℝ) (L : Matrix (Fin d) (Fin d) ℝ) (x : Pt d) (w : Pt d × ℝ) : Pt d :=
  jump p x (L *ᵥ w.1 + x) w.2

theorem hop_measurable {p : Pt d → ℝ} (hp : Measurable p) (L : Matrix (Fin d) (Fin d) ℝ) :
    Measurable fun z : Pt d × (Pt d × ℝ) => hop p L z.1 z.2 := by
  classical
  unfold hop jump
  have hy : Measurable fun z : Pt d × (Pt d × ℝ) => L *ᵥ z.2.1 + z.1 := by
    apply Continuous.measurable
    fun_prop
  refine Measurable.ite ?_ hy measurable_fst
  have h1 := measurableSet_lt (measurable_const (a := (0 : ℝ))) (hp.comp hy)
  have h2 := measurableSet_lt
    (Real.measurable_log.comp ((measurable_snd.comp (measurable_snd (α := Pt d) (β := Pt d × ℝ))).max (measurable_const (a := uFloor))))
    ((Real.measurable_log.comp (hp.comp hy)).sub (Real.measurable_log.comp (hp.comp measurable_fst)))
  exact h1.inter h2

/-- Sum of `f` over the first `n` states from `x` on. -/
noncomputable def total (p : Pt d → ℝ) (L : Matrix (Fin d) (Fin d) ℝ) (f : Pt d → ℝ) : (n : ℕ) → (Fin n → Pt d × ℝ) → Pt d → ℝ
  | 0, _, _ => 0
  | n + 1, w, x => f x + total p L f n (fun i => w i.succ) (hop p L x (w 0))

theorem total_measurable {p : Pt d → ℝ} (hp : Measurable p) (L : Matrix (Fin d) (Fin d) ℝ) {f : Pt d → ℝ}
    (hf : Measurable f) : ∀ n : ℕ, Measurable fun z : (Fin n → Pt d × ℝ) × Pt d => total p L f n z.1 z.2
  | 0 => measurable_const
  | n + 1 => by
    refine (hf.comp measurable_snd).add ((total_measurable hp L hf n).comp (Measurable.prodMk ?_ ?_))
    · exact measurable_pi_lambda _ fun i => (measurable_pi_apply _).comp measurable_fst
    · exact (hop_measurable hp L).comp (measurable_snd.prodMk ((measurable_pi_apply _).comp measurable_fst))

/-- The mean over one step is the mean over its draws. -/
theorem stepMean_draws {lt : Pt d → Py Flt} {p : Pt d → ℝ} (hp : TargetOf lt p) (lq : Pt d → Pt d → Py Flt)
    {C L : Matrix (Fin d) (Fin d) ℝ} (hC : C.PosDef) (hL : L * Lᵀ = C) {x : Pt d} (hx : 0 < p x) {F : Pt d → ℝ≥0∞}
    (hpm : Measurable p) (hF : Measurable F) :
    stepMean volume lt true lq (fun x y => Core.gaussDensity C x y) F x = ∫⁻ w, F (hop p L x w) ∂drawLaw d := by
  have hm : Measurable fun w : Pt d × ℝ => F (hop p L x w) :=
    hF.comp ((hop_measurable hpm L).comp (measurable_const.prodMk measurable_id))
  have hg : Measurable fun z : Pt d × ℝ => F (jump p x z.1 z.2) := by
    classical
    unfold jump
    refine hF.comp (Measurable.ite ?_ measurable_fst measurable_const)
    have hfst : Measurable fun z : Pt d × ℝ => z.1 := measurable_fst
    have hsnd : Measurable fun z : Pt d × ℝ => z.2 := measurable_snd
    have h1 := measurableSet_lt (measurable_const (a := (0 : ℝ))) (hpm.comp hfst)
    have h2 := measurableSet_lt (Real.measurable_log.comp (hsnd.max (measurable_const (a := uFloor))))
      ((Real.measurable_log.comp (hpm.comp hfst)).sub (measurable_const (a := Real.log (p x))))
    exact h1.inter h2
  have hin : Measurable fun y => ∫⁻ u in Set.Ico (0 : ℝ) 1, F (jump p x y u) := hg.lintegral_prod_right'
  unfold stepMean drawLaw
  rw [lintegral_prod _ hm.aemeasurable]
  have hmap : Measurable fun y : Pt d => L *ᵥ y + x := by
    apply Continuous.measurable
    fun_prop
  refine Eq.trans (b := ∫⁻ y, ENNReal.ofReal (Core.gaussDensity C x y) * ∫⁻ u in Set.Ico (0 : ℝ) 1, F (jump p x y u)) ?_ ?_
  · refine lintegral_congr fun y => ?_
    congr 1
    refine lintegral_congr fun u => ?_
    obtain ⟨r, hr, h1, -⟩ := mhStep_jump hp lq hx y u (c := none) (Or.inl rfl)
    simp only [hr, h1]
  calc ∫⁻ y, ENNReal.ofReal (Core.gaussDensity C x y) * ∫⁻ u in Set.Ico (0 : ℝ) 1, F (jump p x y u)
      = ∫⁻ y, (∫⁻ u in Set.Ico (0 : ℝ) 1, F (jump p x y u)) ∂Core.normalLaw x C := by
        rw [Core.density_whiten hC, lintegral_withDensity_eq_lintegral_mul _ (by
          have := Core.gaussDensity_continuous C x
          fun_prop) hin]
        rfl
    _ = ∫⁻ y, (∫⁻ u in Set.Ico (0 : ℝ) 1, F (hop p L x (y, u))) ∂Core.stdLaw (Fin d) := by
        rw [← Core.normalLaw_factor hL, lintegral_map hin hmap]
        rfl

/-- The mean over `n` steps is the mean over their draws. -/
theorem sumMean_draws {lt : Pt d → Py Flt} {p : Pt d → ℝ} (hp : TargetOf lt p) (lq : Pt d → Pt d → Py Flt)
    {C L : Matrix (Fin d) (Fin d) ℝ} (hC : C.PosDef) (hL : L * Lᵀ = C) (hpm : Measurable p) {f : Pt d → ℝ}
    (hf : Measurable f) {F : ℝ → ℝ≥0∞} (hF : Measurable F) :
    ∀ (n : ℕ) (x : Pt d) (s : ℝ), 0 < p x →
      sumMean volume lt true lq (fun x y => Core.gaussDensity C x y) f F n x s =
        ∫⁻ w, F (s + total p L f n w x) ∂Measure.pi fun _ : Fin n => drawLaw d
  | 0, x, s, _ => by
    simp only [sumMean, total, add_zero, lintegral_const, measure_univ, mul_one]
  | n + 1, x, s, hx => by
    have hT := total_measurable hpm L hf n
    have hq : ProposalOf true lq (fun x y : Pt d => Core.gaussDensity C x y) := by
      refine ⟨fun x y => Core.gaussDensity_pos hC x y, fun _ x y => ?_, fun h => by cases h⟩
      have : x - y = -(y - x) := by abel
      show Core.gaussDensity C x y = Core.gaussDensity C y x
      unfold Core.gaussDensity
      rw [this, mulVec_neg, neg_dotProduct_neg]
    have hG : Measurable fun y => ∫⁻ w, F (s + f x + total p L f n w y) ∂Measure.pi fun _ : Fin n => drawLaw d := by
      refine Measurable.lintegral_prod_right' (f := fun z : Pt d × (Fin n → Pt d × ℝ) => F (s + f x + total p L f n z.2 z.1)) ?_
      exact hF.comp (measurable_const.add (hT.comp measurable_swap))
    rw [sumMean, stepMean_congr hp hq hx (fun y hy => sumMean_draws hp lq hC hL hpm hf hF n y (s + f x) hy),
      stepMean_draws hp lq hC hL hx hpm hG]
    have hmp := (measurePreserving_piFinSuccAbove (fun _ : Fin (n + 1) => drawLaw d) 0).symm
    have hm : Measurable fun w : Fin (n + 1) → Pt d × ℝ => F (s + total p L f (n + 1) w x) :=
      hF.comp (measurable_const.add ((total_measurable hpm L hf (n + 1)).comp (measurable_id.prodMk measurable_const)))
    rw [← hmp.lintegral_comp hm]
    refine Eq.trans ?_ (lintegral_prod _ (hm.comp hmp.measurable).aemeasurable).symm
    refine lintegral_congr fun a => lintegral_congr fun w => ?_
    congr 1
    simp only [total]
    rw [add_assoc]
    congr 3

/-! ## Averages over long runs -/

/-- The states of a chain from `x` on, for a sequence of draws. -/
noncomputable def walk (p : Pt d → ℝ) (L : Matrix (Fin d) (Fin d) ℝ) (x : Pt d) (w : ℕ → Pt d × ℝ) : ℕ → Pt d
  | 0 => x
  | k + 1 => hop p L (walk p L x w k) (w k)

theorem walk_shift (p : Pt d → ℝ) (L : Matrix (Fin d) (Fin d) ℝ) (x : Pt d) (w : ℕ → Pt d × ℝ) (k : ℕ) :
    walk p L x w (k + 1) = walk p L (hop p L x (w 0)) (fun i => w (i + 1)) k := by
  induction k with
  | zero => rfl
  | succ k ih => rw [walk, ih, walk]

theorem walk_pos {p : Pt d → ℝ} {L : Matrix (Fin d) (Fin d) ℝ} {x : Pt d} (hx : 0 < p x) (w : ℕ → Pt d × ℝ) (k : ℕ) :
    0 < p (walk p L x w k) := by
  induction k with
  | zero => exact hx
  | succ k ih => exact jump_pos ih _ _

theorem total_walk (p : Pt d → ℝ) (L : Matrix (Fin d) (Fin d) ℝ) (f : Pt d → ℝ) (n : ℕ) :
    ∀ (x : Pt d) (w : ℕ → Pt d × ℝ), total p L f n (fun i => w i) x = ∑ k ∈ Finset.range n, f (walk p L x w k) := by
  induction n with
  | zero => intro x w; rfl
  | succ n ih =>
    intro x w
    rw [total, Finset.sum_range_succ', add_comm]
    congr 1
    rw [show (fun i : Fin n => w (i.succ : Fin (n + 1))) = fun i : Fin n => (fun k => w (k + 1)) i from by
      funext i; simp]
    rw [ih (hop p L x (w ((0 : Fin (n + 1)) : ℕ))) fun k => w (k + 1)]
    refine Finset.sum_congr rfl fun k _ => ?_
    rw [walk_shift]
    rfl

/-- Independent draws, one for each step. -/
structure Draws {Ω : Type} [MeasurableSpace Ω] (P : Measure Ω) (w : ℕ → Ω → Pt d × ℝ) : Prop where
  meas : ∀ k, Measurable (w k)
  indep : iIndepFun w P
  law : ∀ k, P.map (w k) = drawLaw d

theorem Draws.vec {Ω : Type} [MeasurableSpace Ω] {P : Measure Ω} [IsProbabilityMeasure P] {w : ℕ → Ω → Pt d × ℝ}
    (h : Draws P w) (n : ℕ) : P.map (fun ω (i : Fin n) => w i ω) = Measure.pi fun _ : Fin n => drawLaw d := by
  have h1 := (iIndepFun_iff_map_fun_eq_pi_map (μ := P) (f := fun i : Fin n => w i) fun i => (h.meas i).aemeasurable).mp
    (h.indep.precomp Fin.val_injective)
  rw [h1]
  congr 1
  funext i
  exact h.law i

/-- Averages at the squares decide the limit, for numbers in `[-1, 1]`. -/
theorem avg_of_squares {a : ℕ → ℝ} (ha : ∀ k, |a k| ≤ 1)
    (h : Filter.Tendsto (fun k : ℕ => (∑ i ∈ Finset.range (k ^ 2), a i) / (k : ℝ) ^ 2) Filter.atTop (nhds 0)) :
    Filter.Tendsto (fun n : ℕ => (∑ i ∈ Finset.range n, a i) / (n : ℝ)) Filter.atTop (nhds 0) := by
  have hs : Filter.Tendsto Nat.sqrt Filter.atTop Filter.atTop :=
    Filter.tendsto_atTop.mpr fun b => Filter.eventually_atTop.mpr ⟨b * b, fun n hn => Nat.le_sqrt.mpr hn⟩
  have h1 : Filter.Tendsto (fun n : ℕ => |(∑ i ∈ Finset.range (n.sqrt ^ 2), a i) / (n.sqrt : ℝ) ^ 2| + 2 / (n.sqrt : ℝ))
      Filter.atTop (nhds 0) := by
    have h2 := (h.comp hs).abs
    have h3 := (tendsto_const_div_atTop_nhds_zero_nat (2 : ℝ)).comp hs
    simpa using h2.add h3
  refine squeeze_zero_norm' ?_ h1
  filter_upwards [Filter.eventually_ge_atTop 1] with n hn
  have hk : 0 < n.sqrt := Nat.sqrt_pos.mpr hn
  have hk' : (0 : ℝ) < n.sqrt := by exact_mod_cast hk
  have hn' : (0 : ℝ) < n := by exact_mod_cast hn
  have h2 : n.sqrt ^ 2 ≤ n := Nat.sqrt_le' n
  have h3 : n ≤ n.sqrt ^ 2 + 2 * n.sqrt := by
    have := Nat.sqrt_le_add n
    nlinarith
  have h2' : (n.sqrt : ℝ) ^ 2 ≤ n := by exact_mod_cast h2
  have h3' : (n : ℝ) ≤ (n.sqrt : ℝ) ^ 2 + 2 * n.sqrt := by exact_mod_cast h3
  have hsplit : ∑ i ∈ Finset.range n, a i = ∑ i ∈ Finset.range (n.sqrt ^ 2), a i + ∑ i ∈ Finset.Ico (n.sqrt ^ 2) n, a i :=
    (Finset.sum_range_add_sum_Ico _ h2).symm
  have hrest : |∑ i ∈ Finset.Ico (n.sqrt ^ 2) n, a i| ≤ 2 * n.sqrt := by
    refine (Finset.abs_sum_le_sum_abs _ _).trans ((Finset.sum_le_sum fun i _ => ha i).trans ?_)
    rw [Finset.sum_const, Nat.card_Ico, nsmul_eq_mul, mul_one, Nat.cast_sub h2]
    push_cast
    linarith
  rw [Real.norm_eq_abs, hsplit, add_div]
  refine (abs_add_le _ _).trans (add_le_add ?_ ?_)
  · rw [abs_div, abs_div, abs_of_pos hn', abs_of_pos (pow_pos hk' 2)]
    exact div_le_div_of_nonneg_left (abs_nonneg _) (pow_pos hk' 2) h2'
  · rw [abs_div, abs_of_pos hn', div_le_div_iff₀ hn' hk']
    nlinarith [abs_nonneg (∑ i ∈ Finset.Ico (n.sqrt ^ 2) n, a i)]

/-- The density sampled: `exp(-J)` on the domain. -/
noncomputable def boxDens (C : Set (Pt d)) (J : Pt d → ℝ) : Pt d → ℝ := C.indicator fun x => Real.exp (-J x)

theorem boxDens_pos {C : Set (Pt d)} {J : Pt d → ℝ} {x : Pt d} : 0 < boxDens C J x ↔ x ∈ C := by
  classical
  unfold boxDens
  by_cases hx : x ∈ C
  · simp [hx, Real.exp_pos]
  · simp [hx]

theorem boxDens_measurable {C : Set (Pt d)} (hC : MeasurableSet C) {J : Pt d → ℝ} (hJ : ContinuousOn J C) :
    Measurable (boxDens C J) := by
  classical
  have hcont : ContinuousOn (fun x => Real.exp (-J x)) C := Real.continuous_exp.comp_continuousOn hJ.neg
  have := hcont.measurable_piecewise (continuousOn_const (c := (0 : ℝ))) hC
  convert this using 1
  funext x
  by_cases hx : x ∈ C <;> simp [boxDens, hx]

/-- The log-target is that of the density `exp(-J)` on the domain. -/
structure BoxTarget (C : Set (Pt d)) (J : Pt d → ℝ) (lt : Pt d → Py Flt) : Prop where
  inside : ∀ x ∈ C, lt x = .ok (.fin (-J x))
  outside : ∀ x ∉ C, lt x = .ok (.num ⊥) ∨ ∃ er, lt x = .error er

theorem BoxTarget.target {C : Set (Pt d)} {J : Pt d → ℝ} {lt : Pt d → Py Flt} (h : BoxTarget C J lt) :
    TargetOf lt (boxDens C J) := fun x => by
  by_cases hx : x ∈ C
  · refine Or.inl ⟨boxDens_pos.mpr hx, ?_⟩
    rw [h.inside x hx, boxDens, Set.indicator_of_mem hx, Real.log_exp]
  · exact Or.inr ⟨Set.indicator_of_notMem hx _, h.outside x hx⟩

open Classical in
theorem boxTarget_exists (C : Set (Pt d)) (J : Pt d → ℝ) :
    BoxTarget C J fun x => if x ∈ C then .ok (.fin (-J x)) else .ok (.num ⊥) :=
  ⟨fun _ hx => if_pos hx, fun _ hx => Or.inl (if_neg hx)⟩

/-- A compact domain of positive volume where the criterion is continuous and varies by at most 690. -/
structure BoxCrit (C : Set (Pt d)) (J : Pt d → ℝ) : Prop where
  compact : IsCompact C
  vol : volume C ≠ 0
  cont : ContinuousOn J C
  osc : ∀ x ∈ C, ∀ y ∈ C, J y - J x ≤ 690

variable {C : Set (Pt d)} {J : Pt d → ℝ} {S L : Matrix (Fin d) (Fin d) ℝ} {Ω : Type} [MeasurableSpace Ω] {P : Measure Ω}
  [IsProbabilityMeasure P] {w : ℕ → Ω → Pt d × ℝ}

theorem gauss_swap (S : Matrix (Fin d) (Fin d) ℝ) (x y : Pt d) : Core.gaussDensity S x y = Core.gaussDensity S y x := by
  have : x - y = -(y - x) := by abel
  unfold Core.gaussDensity
  rw [this, mulVec_neg, neg_dotProduct_neg]

theorem gauss_one (hS : S.PosDef) (x : Pt d) : ∫⁻ y, ENNReal.ofReal (Core.gaussDensity S x y) = 1 := by
  obtain ⟨K, hK⟩ := Core.exists_chol _ hS
  have h := Core.density_whiten hS x
  have : IsProbabilityMeasure (Core.normalLaw x S) := by
    rw [← Core.normalLaw_factor hK.mul x]
    exact Measure.isProbabilityMeasure_map (by
      apply Continuous.aemeasurable
      fun_prop)
  have h1 : (Core.normalLaw x S) Set.univ = 1 := measure_univ
  rwa [h, withDensity_apply _ MeasurableSet.univ, Measure.restrict_univ] at h1

/-- Averages of a function with values in `[0, 1]`: the probability of an error at least `δ` is of order one over the
number of states. -/
theorem walk_averages (hb : BoxCrit C J) (hS : S.PosDef) (hL : L * Lᵀ = S) (hw : Draws P w) :
    IsProbabilityMeasure (targetLaw volume (boxDens C J)) ∧ ∃ e : ℝ, 0 < e ∧ e ≤ 1 ∧
      ∀ x ∈ C, ∀ (f : Pt d → ℝ) (n : ℕ) (δ : ℝ), Measurable f → (∀ x, f x ∈ Set.Icc (0 : ℝ) 1) → 0 < n → 0 < δ →
        P {ω | δ ≤ |(∑ k ∈ Finset.range n, f (walk (boxDens C J) L x (fun k => w k ω) k)) / n -
          ∫ y, f y ∂targetLaw volume (boxDens C J)|} ≤ ENNReal.ofReal ((1 + 2 / e) / (n * δ ^ 2)) := by
  have ht := boxTarget_exists C J
  have hpm := boxDens_measurable hb.compact.measurableSet hb.cont
  obtain ⟨hpr, e, he0, he1, h⟩ := mh_box_converges (mu := volume) hb.compact hb.vol hb.cont hb.osc ht.inside ht.outside
    (fun _ _ => .error .valueError) (q := fun x y => Core.gaussDensity S x y) (by
      show Continuous fun z : Pt d × Pt d => Core.gaussDensity S z.1 z.2
      unfold Core.gaussDensity
      fun_prop) (fun x y => Core.gaussDensity_pos hS x y) (gauss_swap S) (gauss_one hS)
  refine ⟨hpr, e, he0, he1, fun x hx f n δ hf hf1 hn hδ => ?_⟩
  have h1 := (h x hx).2 n f δ hn hf hf1 hδ
  change sumMean volume _ true _ _ f (Set.indicator {s : ℝ | δ ≤ |s / n - ∫ y, f y ∂targetLaw volume (boxDens C J)|} 1)
    n x 0 ≤ _ at h1
  have hset : MeasurableSet {s : ℝ | δ ≤ |s / n - ∫ y, f y ∂targetLaw volume (boxDens C J)|} :=
    measurableSet_le measurable_const (by fun_prop)
  rw [sumMean_draws ht.target _ hS hL hpm hf (measurable_one.indicator hset) n x 0 (boxDens_pos.mpr hx)] at h1
  refine le_trans (le_of_eq ?_) h1
  have hT : Measurable fun v : Fin n → Pt d × ℝ => total (boxDens C J) L f n v x :=
    (total_measurable hpm L hf n).comp (measurable_id.prodMk measurable_const)
  have hv : Measurable fun ω (i : Fin n) => w i ω := measurable_pi_lambda _ fun i => hw.meas i
  have hF : Measurable fun v : Fin n → Pt d × ℝ =>
      Set.indicator {s : ℝ | δ ≤ |s / n - ∫ y, f y ∂targetLaw volume (boxDens C J)|} (1 : ℝ → ℝ≥0∞)
        (0 + total (boxDens C J) L f n v x) := (measurable_one.indicator hset).comp (measurable_const.add hT)
  rw [← hw.vec n, lintegral_map hF hv]
  have e1 : ∀ ω, Set.indicator {s : ℝ | δ ≤ |s / n - ∫ y, f y ∂targetLaw volume (boxDens C J)|} (1 : ℝ → ℝ≥0∞)
      (0 + total (boxDens C J) L f n (fun i => w i ω) x) =
      Set.indicator {ω | δ ≤ |(∑ k ∈ Finset.range n, f (walk (boxDens C J) L x (fun k => w k ω) k)) / n -
          ∫ y, f y ∂targetLaw volume (boxDens C J)|} 1 ω := fun ω => by
    rw [zero_add, total_walk (boxDens C J) L f n x fun k => w k ω]
    rfl
  simp only [e1]
  rw [lintegral_indicator_one]
  have hT' := hT.comp hv
  have e2 : (fun ω => ∑ k ∈ Finset.range n, f (walk (boxDens C J) L x (fun k => w k ω) k)) =
      (fun v : Fin n → Pt d × ℝ => total (boxDens C J) L f n v x) ∘ fun ω (i : Fin n) => w i ω := by
    funext ω
    exact (total_walk (boxDens C J) L f n x fun k => w k ω).symm
  have hmeas : Measurable fun ω => ∑ k ∈ Finset.range n, f (walk (boxDens C J) L x (fun k => w k ω) k) := by
    rw [e2]; exact hT'
  exact hmeas hset

/-- With probability one the averages converge, for functions with values in `[0, 1]`. -/
theorem walk_ergodic01 (hb : BoxCrit C J) (hS : S.PosDef) (hL : L * Lᵀ = S) (hw : Draws P w) {x : Pt d} (hx : x ∈ C)
    {f : Pt d → ℝ} (hf : Measurable f) (hf1 : ∀ x, f x ∈ Set.Icc (0 : ℝ) 1) :
    ∀ᵐ ω ∂P, Filter.Tendsto (fun n : ℕ => (∑ k ∈ Finset.range n, f (walk (boxDens C J) L x (fun k => w k ω) k)) / (n : ℝ))
      Filter.atTop (nhds (∫ y, f y ∂targetLaw volume (boxDens C J))) := by
  obtain ⟨hpr, e, he0, he1, h⟩ := walk_averages hb hS hL hw
  set mu := ∫ y, f y ∂targetLaw volume (boxDens C J) with hmu
  have hb1 : ∀ x, |f x| ≤ 1 := fun x => abs_le.mpr ⟨by linarith [(hf1 x).1], (hf1 x).2⟩
  have hm0 : 0 ≤ mu := integral_nonneg fun x => (hf1 x).1
  have hm1 : mu ≤ 1 := by
    have := integral_mono (bounded_integrable (targetLaw volume (boxDens C J)) hf hb1) (integrable_const 1) fun x => (hf1 x).2
    simpa using this
  have key : ∀ j : ℕ, ∀ᵐ ω ∂P, ∀ᶠ k : ℕ in Filter.atTop,
      ¬ 1 / ((j : ℝ) + 1) ≤ |(∑ i ∈ Finset.range ((k + 1) ^ 2), f (walk (boxDens C J) L x (fun k => w k ω) i)) /
        (((k + 1) ^ 2 : ℕ) : ℝ) - mu| := by
    intro j
    refine ae_eventually_notMem ?_
    set A := (1 + 2 / e) / (1 / ((j : ℝ) + 1)) ^ 2 with hA
    have hA0 : 0 ≤ A := by positivity
    have hle : ∀ k : ℕ, P {ω | 1 / ((j : ℝ) + 1) ≤ |(∑ i ∈ Finset.range ((k + 1) ^ 2), f (walk (boxDens C J) L x (fun k => w k ω) i)) /
        (((k + 1) ^ 2 : ℕ) : ℝ) - mu|} ≤ ENNReal.ofReal (A * (1 / (((k : ℕ) + 1 : ℕ) : ℝ) ^ 2)) := fun k => by
      refine (h x hx f ((k + 1) ^ 2) (1 / ((j : ℝ) + 1)) hf hf1 (by positivity) (by positivity)).trans (le_of_eq ?_)
      congr 1
      rw [hA]
      push_cast
      field_simp
    have hsum : Summable fun k : ℕ => A * (1 / (((k : ℕ) + 1 : ℕ) : ℝ) ^ 2) :=
      ((Real.summable_one_div_nat_pow.mpr (by norm_num : 1 < 2)).comp_injective (add_left_injective 1)).mul_left A
    refine ne_top_of_le_ne_top ?_ (ENNReal.tsum_le_tsum hle)
    rw [← ENNReal.ofReal_tsum_of_nonneg (fun k => by positivity) hsum]
    exact ENNReal.ofReal_ne_top
  filter_upwards [ae_all_iff.mpr key] with ω hω
  set a : ℕ → ℝ := fun k => f (walk (boxDens C J) L x (fun k => w k ω) k) - mu with ha
  have ha1 : ∀ k, |a k| ≤ 1 := fun k =>
    abs_le.mpr ⟨by simp only [ha]; linarith [(hf1 (walk (boxDens C J) L x (fun k => w k ω) k)).1],
      by simp only [ha]; linarith [(hf1 (walk (boxDens C J) L x (fun k => w k ω) k)).2]⟩
  have hsum : ∀ n : ℕ, 0 < n → (∑ i ∈ Finset.range n, a i) / (n : ℝ) =
      (∑ i ∈ Finset.range n, f (walk (boxDens C J) L x (fun k => w k ω) i)) / (n : ℝ) - mu := fun n hn => by
    have hn' : (n : ℝ) ≠ 0 := by exact_mod_cast hn.ne'
    simp only [ha, Finset.sum_sub_distrib, Finset.sum_const, Finset.card_range, nsmul_eq_mul]
    field_simp
  have hsq : Filter.Tendsto (fun k : ℕ => (∑ i ∈ Finset.range (k ^ 2), a i) / (k : ℝ) ^ 2) Filter.atTop (nhds 0) := by
    rw [← Filter.tendsto_add_atTop_iff_nat 1, Metric.tendsto_atTop]
    intro ε hε
    obtain ⟨j, hj⟩ := exists_nat_one_div_lt hε
    obtain ⟨K, hK⟩ := Filter.eventually_atTop.mp (hω j)
    refine ⟨K, fun k hk => ?_⟩
    have h1 := not_le.mp (hK k hk)
    rw [Real.dist_eq, sub_zero]
    have h2 := hsum ((k + 1) ^ 2) (by positivity)
    push_cast at h1 h2 ⊢
    rw [h2]
    exact h1.trans hj
  have h2 := avg_of_squares ha1 hsq
  have h3 := h2.add_const mu
  rw [zero_add] at h3
  refine h3.congr' ?_
  filter_upwards [Filter.eventually_gt_atTop 0] with n hn
  rw [hsum n hn]
  ring

theorem target_off {C : Set (Pt d)} (hC : MeasurableSet C) (J : Pt d → ℝ) : targetLaw volume (boxDens C J) Cᶜ = 0 := by
  unfold targetLaw
  rw [Measure.smul_apply, withDensity_apply _ hC.compl, smul_eq_mul]
  rw [setLIntegral_congr_fun (g := fun _ => 0) hC.compl fun x hx => by
    show ENNReal.ofReal (boxDens C J x) = 0
    rw [boxDens, Set.indicator_of_notMem hx, ENNReal.ofReal_zero]]
  simp

/-- With probability one the averages of every bounded function converge. -/
theorem walk_ergodic (hb : BoxCrit C J) (hS : S.PosDef) (hL : L * Lᵀ = S) (hw : Draws P w) {x : Pt d} (hx : x ∈ C)
    {f : Pt d → ℝ} (hf : Measurable f) {B : ℝ} (hfB : ∀ x ∈ C, |f x| ≤ B) :
    ∀ᵐ ω ∂P, Filter.Tendsto (fun n : ℕ => (∑ k ∈ Finset.range n, f (walk (boxDens C J) L x (fun k => w k ω) k)) / (n : ℝ))
      Filter.atTop (nhds (∫ y, f y ∂targetLaw volume (boxDens C J))) := by
  classical
  obtain ⟨hpr, -⟩ := walk_averages hb hS hL hw
  have hCm := hb.compact.measurableSet
  set D := max B 1 with hD
  have hD0 : 0 < D := lt_max_of_lt_right one_pos
  have hfD : ∀ x ∈ C, |f x| ≤ D := fun x hx => (hfB x hx).trans (le_max_left _ _)
  set g : Pt d → ℝ := C.indicator fun x => (f x + D) / (2 * D) with hg
  have hgm : Measurable g := ((hf.add_const D).div_const _).indicator hCm
  have hg1 : ∀ x, g x ∈ Set.Icc (0 : ℝ) 1 := fun x => by
    by_cases hx : x ∈ C
    · rw [hg, Set.indicator_of_mem hx]
      obtain ⟨h1, h2⟩ := abs_le.mp (hfD x hx)
      constructor
      · exact div_nonneg (by linarith) (by linarith)
      · rw [div_le_one (by linarith)]
        linarith
    · rw [hg, Set.indicator_of_notMem hx]
      exact ⟨le_rfl, zero_le_one⟩
  have hfg : ∀ x ∈ C, f x = 2 * D * g x - D := fun x hx => by
    rw [hg, Set.indicator_of_mem hx]
    field_simp
    ring
  have hint : ∫ y, f y ∂targetLaw volume (boxDens C J) = 2 * D * (∫ y, g y ∂targetLaw volume (boxDens C J)) - D := by
    rw [← integral_const_mul, show D = ∫ _, D ∂targetLaw volume (boxDens C J) by simp]
    rw [← integral_sub ((bounded_integrable _ hgm (c := 1) fun x =>
      abs_le.mpr ⟨by linarith [(hg1 x).1], (hg1 x).2⟩).const_mul _) (integrable_const _)]
    refine integral_congr_ae ?_
    have : ∀ᵐ y ∂targetLaw volume (boxDens C J), y ∈ C := by
      rw [ae_iff]
      exact target_off hCm J
    filter_upwards [this] with y hy
    rw [hfg y hy]
    simp
  filter_upwards [walk_ergodic01 hb hS hL hw hx hgm hg1] with ω hω
  rw [hint]
  refine ((hω.const_mul (2 * D)).sub_const D).congr' ?_
  filter_upwards [Filter.eventually_gt_atTop 0] with n hn
  have hn' : (n : ℝ) ≠ 0 := by exact_mod_cast hn.ne'
  rw [Finset.sum_congr rfl fun k _ => hfg _ (boxDens_pos.mp (walk_pos (boxDens_pos.mpr hx) (fun k => w k ω) k)),
    Finset.sum_sub_distrib, ← Finset.mul_sum, Finset.sum_const, Finset.card_range, nsmul_eq_mul]
  field_simp

end Verif.MH
