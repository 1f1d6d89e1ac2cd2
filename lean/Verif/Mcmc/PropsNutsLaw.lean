import Verif.Mcmc.PropsNutsRev
import Verif.Core.PropsLaw
import Mathlib.MeasureTheory.Measure.Prod
import Mathlib.MeasureTheory.Measure.Lebesgue.Basic
import Mathlib.MeasureTheory.Function.JacobianOneDim
import Mathlib.MeasureTheory.Measure.Haar.OfBasis

/-!
# C243: one NUTS transition keeps the target law, up to the probability of a divergence
-/

set_option autoImplicit false

namespace Verif.Nuts

open Verif MeasureTheory
open Verif.SMC (Pt)

variable {d : ℕ}

/-- Position and momentum with the gradient that belongs to them. -/
noncomputable def lift (tg : Target d) (x : Pt d × Pt d) : Z d := ⟨x.1, x.2, tg.g x.1⟩

/-- `m` leapfrog steps on positions and momenta. -/
noncomputable def flow (tg : Target d) (im : Pt d) (eps : ℝ) (m : ℤ) (x : Pt d × Pt d) : Pt d × Pt d :=
  ((orbit tg im eps (lift tg x) m).q, (orbit tg im eps (lift tg x) m).p)

theorem lift_flow (tg : Target d) (im : Pt d) (eps : ℝ) (m : ℤ) (x : Pt d × Pt d) :
    orbit tg im eps (lift tg x) m = lift tg (flow tg im eps m x) := by
  have : (orbit tg im eps (lift tg x) m).g = tg.g (orbit tg im eps (lift tg x) m).q := by
    match m with
    | .ofNat n => exact iterate_consistent tg im eps _ rfl n
    | .negSucc n => exact iterate_consistent tg im (-eps) _ rfl (n + 1)
  ext i
  · rfl
  · rfl
  · exact congrFun this i

/-- Two orbits that meet agree from there on. -/
theorem IsOrbit.eq_of_meet {c : Ctx d} {O O' : ℤ → Z d} (h : IsOrbit c O) (h' : IsOrbit c O') {a b : ℤ}
    (e : O a = O' b) (k : ℤ) : O (a + k) = O' (b + k) := by
  induction k using Int.induction_on with
  | zero => simpa using e
  | succ n ih => rw [← add_assoc, ← add_assoc, ← h.fwd, ← h'.fwd, ih]
  | pred n ih => rw [show a + (-(n : ℤ) - 1) = a + -(n : ℤ) - 1 by ring, show b + (-(n : ℤ) - 1) = b + -(n : ℤ) - 1 by ring,
      ← h.bwd, ← h'.bwd, ih]

theorem orbit_flow (tg : Target d) (im : Pt d) (eps : ℝ) (m k : ℤ) (x : Pt d × Pt d) :
    orbit tg im eps (lift tg (flow tg im eps m x)) k = orbit tg im eps (lift tg x) (m + k) := by
  let c : Ctx d := ⟨tg, im, eps, .nan, 0, 0⟩
  have h := IsOrbit.eq_of_meet (orbit_isOrbit c (lift tg x) rfl) (orbit_isOrbit c (lift tg (flow tg im eps m x)) rfl)
    (a := m) (b := 0) (lift_flow tg im eps m x) k
  rw [zero_add] at h
  exact h.symm

theorem flow_flow (tg : Target d) (im : Pt d) (eps : ℝ) (m k : ℤ) (x : Pt d × Pt d) :
    flow tg im eps k (flow tg im eps m x) = flow tg im eps (m + k) x := by
  unfold flow
  have := orbit_flow tg im eps m k x
  unfold flow at this
  rw [this]

theorem flow_zero (tg : Target d) (im : Pt d) (eps : ℝ) (x : Pt d × Pt d) : flow tg im eps 0 x = x := rfl

/-! ## Leapfrog steps preserve volume -/

theorem flow_preserving (tg : Target d) (hg : Measurable tg.g) (im : Pt d) (eps : ℝ) (m : ℤ) :
    MeasurePreserving (flow tg im eps m) volume volume := by
  let c : Ctx d := ⟨tg, im, eps, .nan, 0, 0⟩
  induction m using Int.induction_on with
  | zero => exact MeasurePreserving.id volume
  | succ n ih =>
    have hc := (leapfrog_volume tg hg eps im).comp ih
    refine (congrArg (fun f => MeasurePreserving f volume volume) (funext fun x => ?_)).mpr hc
    have h := (orbit_isOrbit c (lift tg x) rfl).fwd n
    rw [show orbit c.tg c.im c.eps (lift tg x) n = _ from lift_flow tg im eps n x] at h
    exact Prod.ext (congrArg Z.q h.symm) (congrArg Z.p h.symm)
  | pred n ih =>
    have hc := (leapfrog_volume tg hg (-eps) im).comp ih
    refine (congrArg (fun f => MeasurePreserving f volume volume) (funext fun x => ?_)).mpr hc
    have h := (orbit_isOrbit c (lift tg x) rfl).bwd (-n)
    rw [show orbit c.tg c.im c.eps (lift tg x) (-n) = _ from lift_flow tg im eps (-n) x] at h
    exact Prod.ext (congrArg Z.q h.symm) (congrArg Z.p h.symm)

/-! ## Moving along an orbit shifts the transition probabilities -/

theorem good_shift (c : Ctx d) (O : ℤ → Z d) (m : ℤ) (l : ℕ) (b : ℤ) :
    Good c (fun k => O (m + k)) l b = Good c O l (m + b) := by
  induction l generalizing b with
  | zero => rfl
  | succ l ih =>
    simp only [Good, ih]
    rw [add_assoc, show m + b + 2 ^ (l + 1) - 1 = m + (b + 2 ^ (l + 1) - 1) by ring]

theorem seg_shift (c : Ctx d) (O : ℤ → Z d) (m : ℤ) (l : ℕ) (b : ℤ) :
    (∀ k, k ∈ seg c (fun k => O (m + k)) l b ↔ m + k ∈ seg c O l (m + b)) ∧
      (seg c (fun k => O (m + k)) l b).card = (seg c O l (m + b)).card := by
  classical
  have h : ∀ k, k ∈ seg c (fun k => O (m + k)) l b ↔ m + k ∈ seg c O l (m + b) := by
    intro k
    simp only [seg, Finset.mem_filter, Finset.mem_Ico]
    constructor
    · rintro ⟨h1, h2⟩; exact ⟨by omega, h2⟩
    · rintro ⟨h1, h2⟩; exact ⟨by omega, h2⟩
  refine ⟨h, Finset.card_bij (fun k _ => m + k) (fun k hk => (h k).mp hk) (fun _ _ _ _ e => by omega) ?_⟩
  intro k hk
  exact ⟨k - m, (h _).mpr (by rwa [show m + (k - m) = k by ring]), by ring⟩

theorem weight_shift (c : Ctx d) (O : ℤ → Z d) (D : ℕ) (m i k : ℤ) :
    weight c (fun k => O (m + k)) D i k = weight c O D (m + i) (m + k) := by
  classical
  unfold weight
  refine Finset.sum_congr rfl fun l _ => ?_
  refine Finset.sum_bij (fun b _ => m + b) ?_ ?_ ?_ ?_
  · intro b hb; rw [Finset.mem_Ioc] at hb ⊢; omega
  · intro _ _ _ _ e; omega
  · intro b hb
    rw [Finset.mem_Ioc] at hb
    exact ⟨b - m, by rw [Finset.mem_Ioc]; omega, by ring⟩
  · intro b _
    obtain ⟨h1, h2⟩ := seg_shift c O m l b
    have hr : reach c (fun k => O (m + k)) l b = reach c O l (m + b) := by
      cases l with
      | zero => rfl
      | succ l => simp only [reach, good_shift, add_assoc]
    have hs : stop c (fun k => O (m + k)) (D - l) l b = stop c O (D - l) l (m + b) := by
      cases D - l with
      | zero => rfl
      | succ r => simp only [stop, good_shift, add_assoc, add_sub_assoc]
    rw [hr, hs, h2]
    exact if_congr (h1 k) rfl rfl

/-! ## Measurability -/

/-- Hamiltonian of a real potential `u`. -/
noncomputable def ham (u : Pt d → ℝ) (im : Pt d) (x : Pt d × Pt d) : ℝ := u x.1 + kinetic x.2 im

/-- Probability of moving `m` steps from `x` at slice level `l`, when divergence is judged
against the energy `h`. -/
noncomputable def wt (tg : Target d) (im : Pt d) (eps dmax : ℝ) (D : ℕ) (x : Pt d × Pt d) (l h : ℝ) (m : ℤ) : ℝ :=
  weight (ctxAt tg im eps dmax (.fin l) h) (orbit tg im eps (lift tg x)) D 0 m

section
variable {tg : Target d} {u : Pt d → ℝ} (hU : ∀ q, tg.U q = .fin (u q)) (hu : Measurable u) (hg : Measurable tg.g)
  (im : Pt d) (eps dmax : ℝ) (D : ℕ)

include hU in
theorem energy_ham (x : Pt d × Pt d) (m : ℤ) :
    energy tg im (orbit tg im eps (lift tg x) m) = .fin (ham u im (flow tg im eps m x)) := by
  unfold energy
  rw [hU, Flt.add_fin]
  rfl

include hU in
theorem slice_iff (x : Pt d × Pt d) (l h : ℝ) (m : ℤ) :
    Slice (ctxAt tg im eps dmax (.fin l) h) (orbit tg im eps (lift tg x) m) ↔ l ≤ -ham u im (flow tg im eps m x) := by
  unfold Slice
  have e : energy (ctxAt tg im eps dmax (.fin l) h).tg (ctxAt tg im eps dmax (.fin l) h).im
      (orbit tg im eps (lift tg x) m) = .fin (ham u im (flow tg im eps m x)) := energy_ham hU im eps x m
  rw [e]
  constructor
  · rintro ⟨h', h1, h2⟩
    rw [Flt.fin_inj] at h1
    rw [h1]
    exact (Flt.fin_le _ _).mp h2
  · intro h1
    exact ⟨_, rfl, (Flt.fin_le _ _).mpr h1⟩

include hU in
theorem leafGood_iff (x : Pt d × Pt d) (l h : ℝ) (m : ℤ) :
    LeafGood (ctxAt tg im eps dmax (.fin l) h) (orbit tg im eps (lift tg x) m) ↔
      l < dmax - ham u im (flow tg im eps m x) ∧ ham u im (flow tg im eps m x) - h ≤ dmax := by
  unfold LeafGood
  have e : energy (ctxAt tg im eps dmax (.fin l) h).tg (ctxAt tg im eps dmax (.fin l) h).im
      (orbit tg im eps (lift tg x) m) = .fin (ham u im (flow tg im eps m x)) := energy_ham hU im eps x m
  rw [e]
  constructor
  · rintro ⟨h', h1, h2, h3⟩
    rw [Flt.fin_inj] at h1
    rw [h1]
    exact ⟨(Flt.fin_lt _ _).mp h2, h3⟩
  · intro h1
    exact ⟨_, rfl, (Flt.fin_lt _ _).mpr h1.1, h1.2⟩

include hu in
theorem ham_measurable : Measurable (ham u im) := by
  refine (hu.comp measurable_fst).add (Measurable.const_mul ?_ _)
  refine Finset.measurable_sum _ fun i _ => ?_
  have h : Measurable fun x : Pt d × Pt d => x.2 i := (measurable_pi_apply i).comp measurable_snd
  exact (h.mul h).mul_const _

include hU hu hg in
theorem slice_measurable (k : ℤ) : MeasurableSet {y : (Pt d × Pt d) × ℝ × ℝ |
    Slice (ctxAt tg im eps dmax (.fin y.2.1) y.2.2) (orbit tg im eps (lift tg y.1) k)} := by
  simp only [slice_iff hU]
  exact measurableSet_le (measurable_fst.comp measurable_snd)
    ((ham_measurable hu im).comp ((flow_preserving tg hg im eps k).measurable.comp measurable_fst)).neg

include hU hu hg in
theorem good_measurable (l : ℕ) (b : ℤ) : MeasurableSet {y : (Pt d × Pt d) × ℝ × ℝ |
    Good (ctxAt tg im eps dmax (.fin y.2.1) y.2.2) (orbit tg im eps (lift tg y.1)) l b} := by
  have hf : ∀ k, Measurable fun y : (Pt d × Pt d) × ℝ × ℝ => flow tg im eps k y.1 := fun k =>
    (flow_preserving tg hg im eps k).measurable.comp measurable_fst
  have hh : ∀ k, Measurable fun y : (Pt d × Pt d) × ℝ × ℝ => ham u im (flow tg im eps k y.1) := fun k =>
    (ham_measurable hu im).comp (hf k)
  have h1 : Measurable fun y : (Pt d × Pt d) × ℝ × ℝ => y.2.1 := measurable_fst.comp measurable_snd
  have h2 : Measurable fun y : (Pt d × Pt d) × ℝ × ℝ => y.2.2 := measurable_snd.comp measurable_snd
  induction l generalizing b with
  | zero =>
    simp only [Good, leafGood_iff hU]
    exact (measurableSet_lt h1 ((hh b).const_sub _)).inter (measurableSet_le ((hh b).sub h2) measurable_const)
  | succ l ih =>
    simp only [Good]
    refine (ih b).inter ((ih (b + 2 ^ l)).inter ?_)
    have hq : ∀ k i, Measurable fun y : (Pt d × Pt d) × ℝ × ℝ => (flow tg im eps k y.1).1 i := fun k i =>
      (measurable_pi_apply i).comp (measurable_fst.comp (hf k))
    have hp : ∀ k i, Measurable fun y : (Pt d × Pt d) × ℝ × ℝ => (flow tg im eps k y.1).2 i := fun k i =>
      (measurable_pi_apply i).comp (measurable_snd.comp (hf k))
    have hs : ∀ (a b k : ℤ), Measurable fun y : (Pt d × Pt d) × ℝ × ℝ =>
        ∑ i, ((flow tg im eps a y.1).1 i - (flow tg im eps b y.1).1 i) * (im i * (flow tg im eps k y.1).2 i) :=
      fun a b k => Finset.measurable_sum _ fun i _ => ((hq a i).sub (hq b i)).mul ((hp k i).const_mul _)
    have := (measurableSet_lt (hs (b + 2 ^ (l + 1) - 1) b b) (measurable_const (a := (0 : ℝ)))).compl.inter
      (measurableSet_lt (hs (b + 2 ^ (l + 1) - 1) b (b + 2 ^ (l + 1) - 1)) (measurable_const (a := (0 : ℝ)))).compl
    refine (congrArg MeasurableSet (Set.ext fun y => ?_)).mpr this
    change uturn im (orbit tg im eps (lift tg y.1) b) (orbit tg im eps (lift tg y.1) (b + 2 ^ (l + 1) - 1)) = false ↔
      ¬ _ ∧ ¬ _
    simp only [uturn, Bool.or_eq_false_iff, decide_eq_false_iff_not]
    rfl

include hU hu hg in
theorem wt_measurable (m : ℤ) : Measurable fun y : (Pt d × Pt d) × ℝ × ℝ => wt tg im eps dmax D y.1 y.2.1 y.2.2 m := by
  classical
  have hG := good_measurable hU hu hg im eps dmax
  have hS := slice_measurable hU hu hg im eps dmax
  unfold wt weight
  refine Finset.measurable_sum _ fun l _ => Finset.measurable_sum _ fun b _ => ?_
  have hr : Measurable fun y : (Pt d × Pt d) × ℝ × ℝ =>
      reach (ctxAt tg im eps dmax (.fin y.2.1) y.2.2) (orbit tg im eps (lift tg y.1)) l b := by
    cases l with
    | zero => exact measurable_const
    | succ l => exact Measurable.ite ((hG l b).inter (hG l (b + 2 ^ l))) measurable_const measurable_const
  have hs : Measurable fun y : (Pt d × Pt d) × ℝ × ℝ =>
      stop (ctxAt tg im eps dmax (.fin y.2.1) y.2.2) (orbit tg im eps (lift tg y.1)) (D - l) l b := by
    cases D - l with
    | zero => exact measurable_const
    | succ r =>
      exact Measurable.ite (hG l b) ((Measurable.ite (hG l _) measurable_const measurable_const).add
        (Measurable.ite (hG l _) measurable_const measurable_const)) measurable_const
  have hc : Measurable fun y : (Pt d × Pt d) × ℝ × ℝ =>
      ((seg (ctxAt tg im eps dmax (.fin y.2.1) y.2.2) (orbit tg im eps (lift tg y.1)) l b).card : ℝ) := by
    have e : ∀ y : (Pt d × Pt d) × ℝ × ℝ,
        ((seg (ctxAt tg im eps dmax (.fin y.2.1) y.2.2) (orbit tg im eps (lift tg y.1)) l b).card : ℝ)
          = ∑ k ∈ Finset.Ico b (b + 2 ^ l),
            if Slice (ctxAt tg im eps dmax (.fin y.2.1) y.2.2) (orbit tg im eps (lift tg y.1) k) then (1 : ℝ) else 0 := by
      intro y
      unfold seg
      rw [Finset.card_filter]
      push_cast
      rfl
    simp only [e]
    exact Finset.measurable_sum _ fun k _ => Measurable.ite (hS k) measurable_const measurable_const
  refine Measurable.ite ?_ (((measurable_const.mul hr).mul hs).div hc) measurable_const
  by_cases hm : m ∈ Finset.Ico b (b + 2 ^ l)
  · convert hS m using 1
    ext y
    simp only [seg, Finset.mem_filter, hm, true_and, Set.mem_ofPred_eq]
  · convert MeasurableSet.empty using 1
    ext y
    simp [seg, Finset.mem_filter, hm]

/-! ## At a fixed slice level the flow of probability is symmetric -/

include hU in
theorem wt_zero (x : Pt d × Pt d) (l h : ℝ) (m : ℤ) (hm : ¬ l ≤ -ham u im (flow tg im eps m x)) :
    wt tg im eps dmax D x l h m = 0 := by
  classical
  unfold wt weight
  refine Finset.sum_eq_zero fun l' _ => Finset.sum_eq_zero fun b _ => ?_
  rw [if_neg]
  intro h'
  unfold seg at h'
  rw [Finset.mem_filter] at h'
  exact hm ((slice_iff hU im eps dmax x l h m).mp h'.2)

theorem wt_nonneg (x : Pt d × Pt d) (l h : ℝ) (m : ℤ) : 0 ≤ wt tg im eps dmax D x l h m := by
  classical
  unfold wt weight
  refine Finset.sum_nonneg fun l' _ => Finset.sum_nonneg fun b _ => ?_
  split
  · have := reach_nonneg (ctxAt tg im eps dmax (.fin l) h) (orbit tg im eps (lift tg x)) l' b
    have := stop_nonneg (ctxAt tg im eps dmax (.fin l) h) (orbit tg im eps (lift tg x)) (D - l') l' b
    positivity
  · exact le_refl _

include hU in
theorem wt_sum (hd : 0 < dmax) (x : Pt d × Pt d) (l h : ℝ) (hl : l ≤ -ham u im x) (hh : ham u im x - h ≤ dmax) :
    ∑ m ∈ Finset.Ioo (-2 ^ D : ℤ) (2 ^ D), wt tg im eps dmax D x l h m = 1 := by
  have hS := (slice_iff hU im eps dmax x l h 0).mpr (by rw [flow_zero]; exact hl)
  have hG := (leafGood_iff hU im eps dmax x l h 0).mpr (by rw [flow_zero]; exact ⟨by linarith, hh⟩)
  have := (weight_prob (orbit_isOrbit (ctxAt tg im eps dmax (.fin l) h) (lift tg x) rfl) D 0 hS hG).2.2
  rw [zero_sub, zero_add] at this
  exact this

include hU in
theorem wt_symm (x : Pt d × Pt d) (l h : ℝ) (m : ℤ) (hl : l ≤ -ham u im x)
    (hm : l ≤ -ham u im (flow tg im eps m x)) :
    wt tg im eps dmax D (flow tg im eps m x) l h (-m) = wt tg im eps dmax D x l h m := by
  unfold wt
  have e : orbit tg im eps (lift tg (flow tg im eps m x)) = fun k => orbit tg im eps (lift tg x) (m + k) := by
    funext k
    exact orbit_flow tg im eps m k x
  rw [e, weight_shift, add_zero, add_neg_cancel]
  exact weight_symm _ _ D m 0 ((slice_iff hU im eps dmax x l h m).mpr hm)
    ((slice_iff hU im eps dmax x l h 0).mpr (by rw [flow_zero]; exact hl))

include hU hu hg in
/-- At a fixed slice level the moves keep the volume under the slice. -/
theorem level_invariant (hd : 0 < dmax) (l : ℝ) (F : Pt d × Pt d → ENNReal) (hF : Measurable F) :
    ∫⁻ x in {x | l ≤ -ham u im x}, ∑ m ∈ Finset.Ioo (-2 ^ D : ℤ) (2 ^ D),
        ENNReal.ofReal (wt tg im eps dmax D x l (-l) m) * F (flow tg im eps m x)
      = ∫⁻ x in {x | l ≤ -ham u im x}, F x := by
  classical
  have hw : ∀ m, Measurable fun x => ENNReal.ofReal (wt tg im eps dmax D x l (-l) m) := fun m =>
    ((wt_measurable hU hu hg im eps dmax D m).comp (measurable_id.prodMk measurable_const : Measurable fun x => (x, (l, -l)))).ennreal_ofReal
  have hfl : ∀ m, Measurable (flow tg im eps m) := fun m => (flow_preserving tg hg im eps m).measurable
  have hSm : MeasurableSet {x : Pt d × Pt d | l ≤ -ham u im x} :=
    measurableSet_le measurable_const (ham_measurable hu im).neg
  rw [lintegral_finsetSum (Finset.Ioo (-2 ^ D : ℤ) (2 ^ D)) (f := fun m x => ENNReal.ofReal (wt tg im eps dmax D x l (-l) m) * F (flow tg im eps m x))
    fun m _ => (hw m).mul (hF.comp (hfl m))]
  have key : ∀ m : ℤ, ∫⁻ x in {x | l ≤ -ham u im x}, ENNReal.ofReal (wt tg im eps dmax D x l (-l) m) * F (flow tg im eps m x)
      = ∫⁻ x in {x | l ≤ -ham u im x}, ENNReal.ofReal (wt tg im eps dmax D x l (-l) (-m)) * F x := by
    intro m
    have hm : Measurable fun x => ENNReal.ofReal (wt tg im eps dmax D x l (-l) (-m)) * F x := (hw (-m)).mul hF
    rw [← lintegral_indicator hSm, ← lintegral_indicator hSm, ← (flow_preserving tg hg im eps m).lintegral_comp
      (hm.indicator hSm)]
    refine lintegral_congr fun x => ?_
    by_cases h0 : l ≤ -ham u im x <;> by_cases h1 : l ≤ -ham u im (flow tg im eps m x)
    · rw [Set.indicator_of_mem (show x ∈ {x | l ≤ -ham u im x} from h0),
        Set.indicator_of_mem (show flow tg im eps m x ∈ {x | l ≤ -ham u im x} from h1),
        wt_symm hU im eps dmax D x l (-l) m h0 h1]
    · rw [Set.indicator_of_mem (show x ∈ {x | l ≤ -ham u im x} from h0),
        Set.indicator_of_notMem (show flow tg im eps m x ∉ {x | l ≤ -ham u im x} from h1),
        wt_zero hU im eps dmax D x l (-l) m h1, ENNReal.ofReal_zero, zero_mul]
    · rw [Set.indicator_of_notMem (show x ∉ {x | l ≤ -ham u im x} from h0),
        Set.indicator_of_mem (show flow tg im eps m x ∈ {x | l ≤ -ham u im x} from h1),
        wt_zero hU im eps dmax D _ l (-l) (-m) (by rwa [flow_flow, add_neg_cancel, flow_zero]), ENNReal.ofReal_zero, zero_mul]
    · rw [Set.indicator_of_notMem (show x ∉ {x | l ≤ -ham u im x} from h0),
        Set.indicator_of_notMem (show flow tg im eps m x ∉ {x | l ≤ -ham u im x} from h1)]
  rw [Finset.sum_congr rfl fun m _ => key m]
  have hneg : ∑ m ∈ Finset.Ioo (-2 ^ D : ℤ) (2 ^ D), ∫⁻ x in {x | l ≤ -ham u im x},
        ENNReal.ofReal (wt tg im eps dmax D x l (-l) (-m)) * F x
      = ∑ m ∈ Finset.Ioo (-2 ^ D : ℤ) (2 ^ D), ∫⁻ x in {x | l ≤ -ham u im x},
        ENNReal.ofReal (wt tg im eps dmax D x l (-l) m) * F x := by
    refine Finset.sum_bij (fun m _ => -m) ?_ ?_ ?_ ?_
    · intro m hm; rw [Finset.mem_Ioo] at hm ⊢; omega
    · intro _ _ _ _ e; omega
    · intro m hm
      rw [Finset.mem_Ioo] at hm
      exact ⟨-m, by rw [Finset.mem_Ioo]; omega, by ring⟩
    · intro m _; rfl
  rw [hneg, ← lintegral_finsetSum (Finset.Ioo (-2 ^ D : ℤ) (2 ^ D)) (f := fun m x => ENNReal.ofReal (wt tg im eps dmax D x l (-l) m) * F x)
    fun m _ => (hw m).mul hF]
  refine setLIntegral_congr_fun hSm fun x hx => ?_
  have hx' : l ≤ -ham u im x := hx
  rw [← Finset.sum_mul, ← ENNReal.ofReal_sum_of_nonneg fun m _ => wt_nonneg im eps dmax D x l (-l) m,
    wt_sum hU im eps dmax D hd x l (-l) hx' (by linarith), ENNReal.ofReal_one, one_mul]

/-! ## From slice levels to uniform draws -/

/-- Drawing `r` uniformly and taking the level `log r - h` is drawing the level with density
`exp (l + h)` below `-h`. -/
theorem level_law (h : ℝ) (G : ℝ → ENNReal) :
    ENNReal.ofReal (Real.exp (-h)) * ∫⁻ r in Set.Ioc (0 : ℝ) 1, G (Real.log r - h)
      = ∫⁻ l in Set.Iic (-h), ENNReal.ofReal (Real.exp l) * G l := by
  have him : (fun l => Real.exp (l + h)) '' Set.Iic (-h) = Set.Ioc 0 1 := by
    ext r
    simp only [Set.mem_image, Set.mem_Iic, Set.mem_Ioc]
    constructor
    · rintro ⟨l, hl, rfl⟩
      exact ⟨Real.exp_pos _, Real.exp_le_one_iff.mpr (by linarith)⟩
    · rintro ⟨h0, h1⟩
      refine ⟨Real.log r - h, ?_, ?_⟩
      · have := Real.log_nonpos h0.le h1
        linarith
      · rw [sub_add_cancel, Real.exp_log h0]
  have hcov := lintegral_image_eq_lintegral_abs_deriv_mul (s := Set.Iic (-h)) (f := fun l => Real.exp (l + h))
    (f' := fun l => Real.exp (l + h)) measurableSet_Iic
    (fun l _ => by
      have := ((hasDerivAt_id l).add_const h).exp
      simpa using this.hasDerivWithinAt)
    (fun a _ b _ e => by
      have := Real.exp_injective e
      linarith) (fun r => G (Real.log r - h))
  rw [him] at hcov
  rw [hcov, ← lintegral_const_mul' _ _ ENNReal.ofReal_ne_top]
  refine lintegral_congr fun l => ?_
  rw [Real.log_exp, add_sub_cancel_right, abs_of_pos (Real.exp_pos _), ← mul_assoc,
    ← ENNReal.ofReal_mul (Real.exp_pos _).le, ← Real.exp_add]
  congr 3
  ring

include hu in
theorem level_swap (G : (Pt d × Pt d) × ℝ → ENNReal) (hG : Measurable G) :
    ∫⁻ x, ENNReal.ofReal (Real.exp (-ham u im x)) * ∫⁻ r in Set.Ioc (0 : ℝ) 1, G (x, Real.log r - ham u im x)
      = ∫⁻ l, ENNReal.ofReal (Real.exp l) * ∫⁻ x in {x | l ≤ -ham u im x}, G (x, l) := by
  have hS : MeasurableSet {y : (Pt d × Pt d) × ℝ | y.2 ≤ -ham u im y.1} :=
    measurableSet_le measurable_snd ((ham_measurable hu im).comp measurable_fst).neg
  have hE : Measurable fun y : (Pt d × Pt d) × ℝ => ENNReal.ofReal (Real.exp y.2) * G y :=
    (Real.measurable_exp.comp measurable_snd).ennreal_ofReal.mul hG
  have hI := hE.indicator hS
  have e1 : ∀ x, ENNReal.ofReal (Real.exp (-ham u im x)) * ∫⁻ r in Set.Ioc (0 : ℝ) 1, G (x, Real.log r - ham u im x)
      = ∫⁻ l, {y : (Pt d × Pt d) × ℝ | y.2 ≤ -ham u im y.1}.indicator
          (fun y => ENNReal.ofReal (Real.exp y.2) * G y) (x, l) := by
    intro x
    rw [level_law (ham u im x) fun l => G (x, l), ← lintegral_indicator measurableSet_Iic]
    rfl
  have e2 : ∀ l, ENNReal.ofReal (Real.exp l) * ∫⁻ x in {x | l ≤ -ham u im x}, G (x, l)
      = ∫⁻ x, {y : (Pt d × Pt d) × ℝ | y.2 ≤ -ham u im y.1}.indicator
          (fun y => ENNReal.ofReal (Real.exp y.2) * G y) (x, l) := by
    intro l
    have hl : MeasurableSet {x : Pt d × Pt d | l ≤ -ham u im x} :=
      measurableSet_le measurable_const (ham_measurable hu im).neg
    rw [← lintegral_const_mul' _ _ ENNReal.ofReal_ne_top, ← lintegral_indicator hl]
    rfl
  simp only [e1, e2]
  exact lintegral_lintegral_swap (f := fun x l => {y : (Pt d × Pt d) × ℝ | y.2 ≤ -ham u im y.1}.indicator
          (fun y => ENNReal.ofReal (Real.exp y.2) * G y) (x, l)) hI.aemeasurable

include hU hu hg in
/-- If divergence is judged by the slice level alone, a transition keeps the law with density
`exp (-H)` on positions and momenta. -/
theorem phase_invariant (hd : 0 < dmax) (F : Pt d × Pt d → ENNReal) (hF : Measurable F) :
    ∫⁻ x, ENNReal.ofReal (Real.exp (-ham u im x)) * ∫⁻ r in Set.Ioc (0 : ℝ) 1,
        ∑ m ∈ Finset.Ioo (-2 ^ D : ℤ) (2 ^ D),
          ENNReal.ofReal (wt tg im eps dmax D x (Real.log r - ham u im x) (-(Real.log r - ham u im x)) m)
            * F (flow tg im eps m x)
      = ∫⁻ x, ENNReal.ofReal (Real.exp (-ham u im x)) * F x := by
  have hm : Measurable fun y : (Pt d × Pt d) × ℝ => ∑ m ∈ Finset.Ioo (-2 ^ D : ℤ) (2 ^ D),
      ENNReal.ofReal (wt tg im eps dmax D y.1 y.2 (-y.2) m) * F (flow tg im eps m y.1) := by
    refine Finset.measurable_sum _ fun m _ => Measurable.mul ?_ ?_
    · exact ((wt_measurable hU hu hg im eps dmax D m).comp
        (measurable_fst.prodMk (measurable_snd.prodMk measurable_snd.neg))).ennreal_ofReal
    · exact hF.comp ((flow_preserving tg hg im eps m).measurable.comp measurable_fst)
  rw [level_swap hu im (fun y => ∑ m ∈ Finset.Ioo (-2 ^ D : ℤ) (2 ^ D),
      ENNReal.ofReal (wt tg im eps dmax D y.1 y.2 (-y.2) m) * F (flow tg im eps m y.1)) hm]
  simp only [level_invariant hU hu hg im eps dmax D hd _ F hF]
  rw [← level_swap hu im (fun y => F y.1) (hF.comp measurable_fst)]
  refine lintegral_congr fun x => ?_
  simp

/-! ## Positions from the target, momenta from `randn` -/

/-- The target law: density `exp (-u)`. -/
noncomputable def targetLaw (u : Pt d → ℝ) : Measure (Pt d) :=
  volume.withDensity fun q => ENNReal.ofReal (Real.exp (-u q))

theorem momentum_measurable : Measurable (momentum im) :=
  measurable_pi_iff.mpr fun i => (measurable_pi_apply i).mul_const _

theorem kinetic_randn (him : ∀ i, 0 < im i) (y : Pt d) : kinetic (momentum im y) im = 0.5 * ∑ i, y i ^ 2 := by
  unfold kinetic momentum
  congr 1
  refine Finset.sum_congr rfl fun i _ => ?_
  have h := Real.mul_self_sqrt (one_div_nonneg.mpr (him i).le)
  have h2 : 1 / im i * im i = 1 := by rw [one_div, inv_mul_cancel₀ (him i).ne']
  calc y i * √(1 / im i) * (y i * √(1 / im i)) * im i = y i ^ 2 * (√(1 / im i) * √(1 / im i) * im i) := by ring
    _ = y i ^ 2 := by rw [h, h2, mul_one]

include hu in
theorem phase_law (him : ∀ i, 0 < im i) : ∃ C : ENNReal, C ≠ ⊤ ∧ ∀ F : Pt d × Pt d → ENNReal, Measurable F →
    ∫⁻ y, F (y.1, momentum im y.2) ∂((targetLaw u).prod (Core.stdLaw (Fin d)))
      = C * ∫⁻ x, ENNReal.ofReal (Real.exp (-ham u im x)) * F x := by
  let M : Matrix (Fin d) (Fin d) ℝ := Matrix.diagonal fun i => √(1 / im i)
  have hM : M.det ≠ 0 := by
    rw [Matrix.det_diagonal]
    exact (Finset.prod_pos fun i _ => Real.sqrt_pos.mpr (one_div_pos.mpr (him i))).ne'
  have hmap := Real.map_matrix_volume_pi_eq_smul_volume_pi hM
  have hmo : (Matrix.toLin' M : Pt d → Pt d) = momentum im := by
    funext y i
    rw [Matrix.toLin'_apply, Matrix.mulVec_diagonal, mul_comm]
    rfl
  rw [hmo] at hmap
  have hden : Measurable fun q => ENNReal.ofReal (Real.exp (-u q)) := (Real.measurable_exp.comp hu.neg).ennreal_ofReal
  have hbell : Measurable fun y : Pt d => ENNReal.ofReal ((Core.mom 0 ^ d)⁻¹ * Core.bells y) := by
    refine (Measurable.const_mul ?_ _).ennreal_ofReal
    unfold Core.bells Core.bell
    exact Finset.measurable_prod _ fun i _ => Real.measurable_exp.comp (((measurable_pi_apply i).pow_const 2).const_mul _)
  have hc : 0 ≤ (Core.mom 0 ^ d)⁻¹ := by
    rw [Core.mom_zero]; positivity
  refine ⟨ENNReal.ofReal (Core.mom 0 ^ d)⁻¹ * ENNReal.ofReal |M.det⁻¹|,
    ENNReal.mul_ne_top ENNReal.ofReal_ne_top ENNReal.ofReal_ne_top, fun F hF => ?_⟩
  have hFm : Measurable fun y : Pt d × Pt d => F (y.1, momentum im y.2) :=
    hF.comp (measurable_fst.prodMk ((momentum_measurable im).comp measurable_snd))
  have hdd : Measurable fun z : Pt d × Pt d => ENNReal.ofReal (Real.exp (-u z.1))
      * ENNReal.ofReal ((Core.mom 0 ^ d)⁻¹ * Core.bells z.2) :=
    (hden.comp measurable_fst).mul (hbell.comp measurable_snd)
  rw [targetLaw, Core.stdLaw_density, prod_withDensity hden hbell,
    lintegral_withDensity_eq_lintegral_mul _ hdd hFm]
  have hham : Measurable fun x : Pt d × Pt d => ENNReal.ofReal (Real.exp (-ham u im x)) * F x :=
    (Real.measurable_exp.comp (ham_measurable hu im).neg).ennreal_ofReal.mul hF
  have e : ∀ y : Pt d × Pt d, ENNReal.ofReal (Real.exp (-u y.1)) * ENNReal.ofReal ((Core.mom 0 ^ d)⁻¹ * Core.bells y.2)
        * F (y.1, momentum im y.2)
      = ENNReal.ofReal (Core.mom 0 ^ d)⁻¹ * (ENNReal.ofReal (Real.exp (-ham u im (y.1, momentum im y.2))) * F (y.1, momentum im y.2)) := by
    intro y
    have hk : Real.exp (-ham u im (y.1, momentum im y.2)) = Real.exp (-u y.1) * Core.bells y.2 := by
      unfold ham Core.bells Core.bell
      rw [kinetic_randn im him, ← Real.exp_sum, ← Real.exp_add]
      congr 1
      rw [← Finset.mul_sum]
      norm_num
      ring
    rw [hk, ENNReal.ofReal_mul hc, ENNReal.ofReal_mul (Real.exp_pos _).le]
    ring
  refine (lintegral_congr e).trans ?_
  rw [lintegral_const_mul' _ _ ENNReal.ofReal_ne_top, mul_assoc]
  congr 1
  have hhx : Measurable fun a : Pt d × Pt d => ENNReal.ofReal (Real.exp (-ham u im (a.1, momentum im a.2)))
      * F (a.1, momentum im a.2) :=
    hham.comp (measurable_fst.prodMk ((momentum_measurable im).comp measurable_snd))
  rw [lintegral_prod _ hhx.aemeasurable, Measure.volume_eq_prod, lintegral_prod _ hham.aemeasurable, ← lintegral_const_mul' _ _ ENNReal.ofReal_ne_top]
  refine lintegral_congr fun q => ?_
  rw [← lintegral_map (f := fun p => ENNReal.ofReal (Real.exp (-ham u im (q, p))) * F (q, p))
    (hham.comp measurable_prodMk_left) (momentum_measurable im), hmap, lintegral_smul_measure]
  rfl

/-! ## The transition of the code -/

/-- Expected value of `f` after the transition of the code, over the draws of the tree. -/
noncomputable def next (tg : Target d) (im : Pt d) (eps : ℝ) (D : ℕ) (dmax : ℝ) (f : Pt d → ℝ) (q xi : Pt d) (r : ℝ) : ℝ :=
  TDraws.E D 0 fun w => f (transition tg im eps D dmax xi r w q).q

include hU in
theorem next_eq (hd : 0 < dmax) (f : Pt d → ℝ) (q xi : Pt d) {r : ℝ} (hr : r ∈ Set.Ioc (0 : ℝ) 1) :
    let x := (q, momentum im xi)
    next tg im eps D dmax f q xi r = ∑ m ∈ Finset.Ioo (-2 ^ D : ℤ) (2 ^ D),
      wt tg im eps dmax D x (Real.log r - ham u im x) (ham u im x) m * f (flow tg im eps m x).1 := by
  intro x
  have he : energy tg im ⟨q, momentum im xi, tg.g q⟩ = .fin (ham u im x) := energy_ham hU im eps x 0
  have hl : (Flt.fin (-ham u im x)).add (Flt.logU r) = .fin (Real.log r - ham u im x) := by
    rw [Flt.logU, if_neg hr.1.ne', Flt.add_fin]
    congr 1
    ring
  have ht : ∀ w, (transition tg im eps D dmax xi r w q).q
      = (doubles (ctxAt tg im eps dmax (.fin (Real.log r - ham u im x)) (ham u im x)) D 0 w
          (TState.start (lift tg x))).prop := by
    intro w
    unfold transition
    dsimp only
    rw [finite?_some.mpr he]
    dsimp only
    rw [hl]
    rfl
  have hlog := Real.log_nonpos hr.1.le hr.2
  unfold next
  simp only [ht]
  have := transition_weight (orbit_isOrbit (ctxAt tg im eps dmax (.fin (Real.log r - ham u im x)) (ham u im x)) (lift tg x) rfl) D 0
    ((slice_iff hU im eps dmax x _ _ 0).mpr (by rw [flow_zero]; linarith))
    ((leafGood_iff hU im eps dmax x _ _ 0).mpr (by rw [flow_zero]; constructor <;> linarith)) f
  rw [zero_sub, zero_add] at this
  exact this

/-- Segments are judged alike if their points are. -/
theorem good_congr {c c' : Ctx d} (him : c.im = c'.im) (O : ℤ → Z d) (l : ℕ) (b : ℤ)
    (h : ∀ k, b ≤ k → k < b + 2 ^ l → (LeafGood c (O k) ↔ LeafGood c' (O k))) : Good c O l b ↔ Good c' O l b := by
  induction l generalizing b with
  | zero => exact h b le_rfl (by norm_num)
  | succ l ih =>
    have e : (2 : ℤ) ^ (l + 1) = 2 ^ l + 2 ^ l := by ring
    have hp : (0 : ℤ) < 2 ^ l := by positivity
    simp only [Good, him]
    rw [ih b fun k h1 h2 => h k h1 (by omega), ih (b + 2 ^ l) fun k h1 h2 => h k (by omega) (by omega)]

include hU in
/-- As long as no point in reach is more than `dmax` above the start, the energy of the start
does not matter. -/
theorem wt_eq (x : Pt d × Pt d) (l : ℝ)
    (hb : ∀ m ∈ Finset.Ioo (-2 ^ D : ℤ) (2 ^ D), ham u im (flow tg im eps m x) - ham u im x ≤ dmax) (m : ℤ) :
    wt tg im eps dmax D x l (ham u im x) m = wt tg im eps dmax D x l (-l) m := by
  classical
  have hleaf : ∀ k : ℤ, -2 ^ D < k → k < 2 ^ D →
      (LeafGood (ctxAt tg im eps dmax (.fin l) (ham u im x)) (orbit tg im eps (lift tg x) k) ↔
        LeafGood (ctxAt tg im eps dmax (.fin l) (-l)) (orbit tg im eps (lift tg x) k)) := by
    intro k h1 h2
    have := hb k (Finset.mem_Ioo.mpr ⟨h1, h2⟩)
    rw [leafGood_iff hU, leafGood_iff hU]
    constructor
    · rintro ⟨h3, _⟩; exact ⟨h3, by linarith⟩
    · rintro ⟨h3, _⟩; exact ⟨h3, this⟩
  have hgood : ∀ (j : ℕ) (b : ℤ), -2 ^ D < b → b + 2 ^ j ≤ 2 ^ D →
      (Good (ctxAt tg im eps dmax (.fin l) (ham u im x)) (orbit tg im eps (lift tg x)) j b ↔
        Good (ctxAt tg im eps dmax (.fin l) (-l)) (orbit tg im eps (lift tg x)) j b) := by
    intro j b h1 h2
    exact good_congr (c := ctxAt tg im eps dmax (.fin l) (ham u im x)) (c' := ctxAt tg im eps dmax (.fin l) (-l)) rfl _ j b fun k h3 h4 => hleaf k (by omega) (by omega)
  unfold wt weight
  refine Finset.sum_congr rfl fun j hj => Finset.sum_congr rfl fun b hbm => ?_
  rw [Finset.mem_range] at hj
  rw [Finset.mem_Ioc] at hbm
  have hpow : (2 : ℤ) ^ j ≤ 2 ^ D := pow_le_pow_right₀ (by norm_num) (by omega)
  have hp : (0 : ℤ) < 2 ^ j := by positivity
  have hr : reach (ctxAt tg im eps dmax (.fin l) (ham u im x)) (orbit tg im eps (lift tg x)) j b
      = reach (ctxAt tg im eps dmax (.fin l) (-l)) (orbit tg im eps (lift tg x)) j b := by
    cases j with
    | zero => rfl
    | succ j =>
      have e : (2 : ℤ) ^ (j + 1) = 2 ^ j + 2 ^ j := by ring
      have hp' : (0 : ℤ) < 2 ^ j := by positivity
      simp only [reach]
      rw [hgood j b (by omega) (by omega), hgood j (b + 2 ^ j) (by omega) (by omega)]
  have hs : stop (ctxAt tg im eps dmax (.fin l) (ham u im x)) (orbit tg im eps (lift tg x)) (D - j) j b
      = stop (ctxAt tg im eps dmax (.fin l) (-l)) (orbit tg im eps (lift tg x)) (D - j) j b := by
    cases hDj : D - j with
    | zero => rfl
    | succ r =>
      have hpow' : (2 : ℤ) ^ (j + 1) ≤ 2 ^ D := pow_le_pow_right₀ (by norm_num) (by omega)
      have e : (2 : ℤ) ^ (j + 1) = 2 ^ j + 2 ^ j := by ring
      simp only [stop]
      rw [hgood j b (by omega) (by omega), hgood j (b - 2 ^ j) (by omega) (by omega),
        hgood j (b + 2 ^ j) (by omega) (by omega)]
  rw [hr, hs]
  rfl

/-- Start and momentum draw from which some point in reach is more than `dmax` above the start. -/
def divergent (tg : Target d) (u : Pt d → ℝ) (im : Pt d) (eps dmax : ℝ) (D : ℕ) : Set (Pt d × Pt d) :=
  {y | ∃ m ∈ Finset.Ioo (-2 ^ D : ℤ) (2 ^ D),
    dmax < ham u im (flow tg im eps m (y.1, momentum im y.2)) - ham u im (y.1, momentum im y.2)}

include hu hg in
theorem divergent_measurable : MeasurableSet (divergent tg u im eps dmax D) := by
  have hx : Measurable fun y : Pt d × Pt d => (y.1, momentum im y.2) :=
    measurable_fst.prodMk ((momentum_measurable im).comp measurable_snd)
  have : divergent tg u im eps dmax D = ⋃ m ∈ Finset.Ioo (-2 ^ D : ℤ) (2 ^ D),
      {y | dmax < ham u im (flow tg im eps m (y.1, momentum im y.2)) - ham u im (y.1, momentum im y.2)} := by
    ext y
    simp only [divergent, Set.mem_iUnion, exists_prop]
    rfl
  rw [this]
  refine Finset.measurableSet_biUnion _ fun m _ => ?_
  exact measurableSet_lt measurable_const
    (((ham_measurable hu im).comp ((flow_preserving tg hg im eps m).measurable.comp hx)).sub
      ((ham_measurable hu im).comp hx))

/-- Expected value after a move with the given energy `h` for the divergence test. -/
noncomputable def moved (tg : Target d) (im : Pt d) (eps dmax : ℝ) (D : ℕ) (f : Pt d → ℝ) (x : Pt d × Pt d) (l h : ℝ) : ℝ :=
  ∑ m ∈ Finset.Ioo (-2 ^ D : ℤ) (2 ^ D), wt tg im eps dmax D x l h m * f (flow tg im eps m x).1

include hU hu hg in
theorem moved_measurable {f : Pt d → ℝ} (hf : Measurable f) :
    Measurable fun y : (Pt d × Pt d) × ℝ × ℝ => moved tg im eps dmax D f y.1 y.2.1 y.2.2 :=
  Finset.measurable_sum _ fun m _ => (wt_measurable hU hu hg im eps dmax D m).mul
    (hf.comp (measurable_fst.comp ((flow_preserving tg hg im eps m).measurable.comp measurable_fst)))

include hU in
theorem moved_le (hd : 0 < dmax) {f : Pt d → ℝ} {B : ℝ} (hB : ∀ q, |f q| ≤ B) (x : Pt d × Pt d) (l h : ℝ)
    (hl : l ≤ -ham u im x) (hh : ham u im x - h ≤ dmax) : |moved tg im eps dmax D f x l h| ≤ B := by
  refine (Finset.abs_sum_le_sum_abs _ _).trans ?_
  calc ∑ m ∈ Finset.Ioo (-2 ^ D : ℤ) (2 ^ D), |wt tg im eps dmax D x l h m * f (flow tg im eps m x).1|
      ≤ ∑ m ∈ Finset.Ioo (-2 ^ D : ℤ) (2 ^ D), wt tg im eps dmax D x l h m * B := by
        refine Finset.sum_le_sum fun m _ => ?_
        have h0 : 0 ≤ wt tg im eps dmax D x l h m := wt_nonneg im eps dmax D x l h m
        rw [abs_mul, abs_of_nonneg h0]
        exact mul_le_mul_of_nonneg_left (hB _) h0
    _ = B := by rw [← Finset.sum_mul, wt_sum hU im eps dmax D hd x l h hl hh, one_mul]

/-- The move when divergence is judged by the slice level alone, for the slice draw `r`. -/
noncomputable def ideal (tg : Target d) (u : Pt d → ℝ) (im : Pt d) (eps dmax : ℝ) (D : ℕ) (f : Pt d → ℝ)
    (x : Pt d × Pt d) (r : ℝ) : ℝ :=
  moved tg im eps dmax D f x (Real.log r - ham u im x) (-(Real.log r - ham u im x))

include hu in
theorem level_measurable : Measurable fun z : (Pt d × Pt d) × ℝ => Real.log z.2 - ham u im z.1 := by
  have h1 : Measurable fun z : (Pt d × Pt d) × ℝ => Real.log z.2 := Real.measurable_log.comp measurable_snd
  have h2 : Measurable fun z : (Pt d × Pt d) × ℝ => ham u im z.1 := (ham_measurable hu im).comp measurable_fst
  exact h1.sub h2

theorem at_level_measurable {F : (Pt d × Pt d) × ℝ × ℝ → ℝ} (hF : Measurable F)
    (hl : Measurable fun z : (Pt d × Pt d) × ℝ => Real.log z.2 - ham u im z.1) :
    Measurable fun z : (Pt d × Pt d) × ℝ => F (z.1, (Real.log z.2 - ham u im z.1, -(Real.log z.2 - ham u im z.1))) := by
  have hn : Measurable fun z : (Pt d × Pt d) × ℝ => -(Real.log z.2 - ham u im z.1) := hl.neg
  have ht : Measurable fun z : (Pt d × Pt d) × ℝ => (z.1, (Real.log z.2 - ham u im z.1, -(Real.log z.2 - ham u im z.1))) :=
    measurable_fst.prodMk (hl.prodMk hn)
  exact hF.comp ht

include hU hu hg in
theorem ideal_measurable {f : Pt d → ℝ} (hf : Measurable f) :
    Measurable fun z : (Pt d × Pt d) × ℝ => ideal tg u im eps dmax D f z.1 z.2 :=
  at_level_measurable im (moved_measurable hU hu hg im eps dmax D hf) (level_measurable hu im)

theorem start_measurable : Measurable fun y : Pt d × Pt d => (y.1, momentum im y.2) :=
  measurable_fst.prodMk ((momentum_measurable im).comp measurable_snd)

theorem ideal_nonneg {f : Pt d → ℝ} (h0 : ∀ q, 0 ≤ f q) (x : Pt d × Pt d) (r : ℝ) : 0 ≤ ideal tg u im eps dmax D f x r := by
  unfold ideal moved
  exact Finset.sum_nonneg fun m _ => mul_nonneg (wt_nonneg im eps dmax D x _ _ m) (h0 _)

include hU hu hg in
theorem ideal_lintegral (him : ∀ i, 0 < im i) (hd : 0 < dmax) {f : Pt d → ℝ} (hf : Measurable f) (h0 : ∀ q, 0 ≤ f q) :
    ∫⁻ y, (∫⁻ r in Set.Ioc (0 : ℝ) 1, ENNReal.ofReal (ideal tg u im eps dmax D f (y.1, momentum im y.2) r))
        ∂((targetLaw u).prod (Core.stdLaw (Fin d)))
      = ∫⁻ q, ENNReal.ofReal (f q) ∂(targetLaw u) := by
  obtain ⟨C, hC, hphase⟩ := phase_law hu im him
  have hF : Measurable fun x : Pt d × Pt d =>
      ∫⁻ r in Set.Ioc (0 : ℝ) 1, ENNReal.ofReal (ideal tg u im eps dmax D f x r) :=
    (ideal_measurable hU hu hg im eps dmax D hf).ennreal_ofReal.lintegral_prod_right'
  have hfx : Measurable fun x : Pt d × Pt d => ENNReal.ofReal (f x.1) := (hf.comp measurable_fst).ennreal_ofReal
  have h1 := hphase _ hF
  have h2 := hphase _ hfx
  have hinv := phase_invariant hU hu hg im eps dmax D hd (fun x => ENNReal.ofReal (f x.1)) hfx
  have e : ∀ x r, ENNReal.ofReal (ideal tg u im eps dmax D f x r) = ∑ m ∈ Finset.Ioo (-2 ^ D : ℤ) (2 ^ D),
      ENNReal.ofReal (wt tg im eps dmax D x (Real.log r - ham u im x) (-(Real.log r - ham u im x)) m)
        * ENNReal.ofReal (f (flow tg im eps m x).1) := by
    intro x r
    unfold ideal moved
    rw [ENNReal.ofReal_sum_of_nonneg fun m _ => mul_nonneg (wt_nonneg im eps dmax D x _ _ m) (h0 _)]
    exact Finset.sum_congr rfl fun m _ => ENNReal.ofReal_mul (wt_nonneg im eps dmax D x _ _ m)
  refine h1.trans ?_
  simp only [e]
  rw [hinv, ← h2]
  have h3 : Measurable fun y : Pt d × Pt d => ENNReal.ofReal (f y.1) := hfx
  refine (lintegral_prod (fun y : Pt d × Pt d => ENNReal.ofReal (f y.1)) h3.aemeasurable).trans ?_
  simp

include hU in
theorem ideal_le (hd : 0 < dmax) {f : Pt d → ℝ} {B : ℝ} (hB : ∀ q, |f q| ≤ B) (x : Pt d × Pt d) {r : ℝ}
    (hr : r ∈ Set.Ioc (0 : ℝ) 1) : |ideal tg u im eps dmax D f x r| ≤ B := by
  have := Real.log_nonpos hr.1.le hr.2
  exact moved_le hU im eps dmax D hd hB x _ _ (by linarith) (by linarith)

/-- Law of the start, the momentum draw and the slice draw. -/
noncomputable def startLaw (u : Pt d → ℝ) : Measure ((Pt d × Pt d) × ℝ) :=
  ((targetLaw u).prod (Core.stdLaw (Fin d))).prod (volume.restrict (Set.Ioc 0 1))

instance [IsFiniteMeasure (targetLaw u)] : IsFiniteMeasure (startLaw u) := by
  unfold startLaw
  infer_instance

theorem startLaw_draw : ∀ᵐ z ∂(startLaw u), z.2 ∈ Set.Ioc (0 : ℝ) 1 :=
  (Measure.quasiMeasurePreserving_snd (μ := (targetLaw u).prod (Core.stdLaw (Fin d)))
    (ν := volume.restrict (Set.Ioc (0 : ℝ) 1))).ae (ae_restrict_mem measurableSet_Ioc)

theorem start_comp {F : (Pt d × Pt d) × ℝ → ℝ} (hF : Measurable F) :
    Measurable fun z : (Pt d × Pt d) × ℝ => F ((z.1.1, momentum im z.1.2), z.2) := by
  have h : Measurable fun z : (Pt d × Pt d) × ℝ => ((z.1.1, momentum im z.1.2), z.2) :=
    ((start_measurable im).comp measurable_fst).prodMk measurable_snd
  exact hF.comp h

include hU hu hg in
theorem ideal_start_measurable {f : Pt d → ℝ} (hf : Measurable f) :
    Measurable fun z : (Pt d × Pt d) × ℝ => ideal tg u im eps dmax D f (z.1.1, momentum im z.1.2) z.2 :=
  start_comp im (ideal_measurable hU hu hg im eps dmax D hf)

include hU hu hg in
theorem ideal_mean_nonneg (him : ∀ i, 0 < im i) (hd : 0 < dmax) [IsFiniteMeasure (targetLaw u)] {f : Pt d → ℝ}
    (hf : Measurable f) (h0 : ∀ q, 0 ≤ f q) :
    ∫ z, ideal tg u im eps dmax D f (z.1.1, momentum im z.1.2) z.2 ∂(startLaw u) = ∫ q, f q ∂(targetLaw u) := by
  have hm := ideal_start_measurable hU hu hg im eps dmax D hf
  rw [integral_eq_lintegral_of_nonneg_ae (Filter.Eventually.of_forall fun z => ideal_nonneg im eps dmax D h0 _ _)
      hm.aestronglyMeasurable,
    integral_eq_lintegral_of_nonneg_ae (Filter.Eventually.of_forall h0) hf.aestronglyMeasurable]
  congr 1
  exact (lintegral_prod _ hm.ennreal_ofReal.aemeasurable).trans (ideal_lintegral hU hu hg im eps dmax D him hd hf h0)

include hU hu hg in
theorem ideal_mean (him : ∀ i, 0 < im i) (hd : 0 < dmax) [IsFiniteMeasure (targetLaw u)] {f : Pt d → ℝ}
    (hf : Measurable f) {B : ℝ} (hB : ∀ q, |f q| ≤ B) :
    ∫ z, ideal tg u im eps dmax D f (z.1.1, momentum im z.1.2) z.2 ∂(startLaw u) = ∫ q, f q ∂(targetLaw u) := by
  have hone : Measurable fun _ : Pt d => B := measurable_const
  have hfi : Integrable f (targetLaw u) :=
    Integrable.of_bound hf.aestronglyMeasurable B (Filter.Eventually.of_forall hB)
  have hii : ∀ {g : Pt d → ℝ} {G : ℝ}, Measurable g → (∀ q, |g q| ≤ G) →
      Integrable (fun z : (Pt d × Pt d) × ℝ => ideal tg u im eps dmax D g (z.1.1, momentum im z.1.2) z.2) (startLaw u) := by
    intro g G hgm hG
    refine Integrable.of_bound (ideal_start_measurable hU hu hg im eps dmax D hgm).aestronglyMeasurable G ?_
    filter_upwards [startLaw_draw] with z hz
    exact ideal_le hU im eps dmax D hd hG _ hz
  have h1 := ideal_mean_nonneg hU hu hg im eps dmax D him hd (f := fun q => f q + B) (hf.add hone)
    (fun q => by have := abs_le.mp (hB q); linarith)
  have h2 := ideal_mean_nonneg hU hu hg im eps dmax D him hd (f := fun _ => |B|) measurable_const
    (fun q => abs_nonneg B)
  by_cases hne : Nonempty (Pt d)
  swap
  · exact absurd ⟨fun _ => 0⟩ hne
  have hB0 : 0 ≤ B := (abs_nonneg _).trans (hB hne.some)
  rw [abs_of_nonneg hB0] at h2
  have e : ∀ z : (Pt d × Pt d) × ℝ, ideal tg u im eps dmax D (fun q => f q + B) (z.1.1, momentum im z.1.2) z.2
      = ideal tg u im eps dmax D f (z.1.1, momentum im z.1.2) z.2
        + ideal tg u im eps dmax D (fun _ => B) (z.1.1, momentum im z.1.2) z.2 := by
    intro z
    unfold ideal moved
    rw [← Finset.sum_add_distrib]
    exact Finset.sum_congr rfl fun m _ => mul_add _ _ _
  simp only [e] at h1
  rw [integral_add (hii hf hB) (hii measurable_const fun _ => (abs_of_nonneg hB0).le), h2,
    integral_add hfi (integrable_const B)] at h1
  linarith

include hU hu hg in
theorem next_measurable (hd : 0 < dmax) {f : Pt d → ℝ} (hf : Measurable f) :
    ∃ K : (Pt d × Pt d) × ℝ → ℝ, Measurable K ∧
      ∀ q xi r, r ∈ Set.Ioc (0 : ℝ) 1 → next tg im eps D dmax f q xi r = K ((q, xi), r) := by
  have ht : Measurable fun z : (Pt d × Pt d) × ℝ => (((z.1.1, momentum im z.1.2) : Pt d × Pt d),
      (Real.log z.2 - ham u im (z.1.1, momentum im z.1.2), ham u im (z.1.1, momentum im z.1.2))) := by
    have h0 : Measurable fun z : (Pt d × Pt d) × ℝ => ((z.1.1, momentum im z.1.2), z.2) :=
      ((start_measurable im).comp measurable_fst).prodMk measurable_snd
    have h1 : Measurable fun z : (Pt d × Pt d) × ℝ => Real.log z.2 - ham u im (z.1.1, momentum im z.1.2) :=
      (level_measurable hu im).comp h0
    have h2 : Measurable fun z : (Pt d × Pt d) × ℝ => ham u im (z.1.1, momentum im z.1.2) :=
      (ham_measurable hu im).comp ((start_measurable im).comp measurable_fst)
    exact ((start_measurable im).comp measurable_fst).prodMk (h1.prodMk h2)
  refine ⟨_, (moved_measurable hU hu hg im eps dmax D hf).comp ht, fun q xi r hr => ?_⟩
  exact next_eq hU im eps dmax D hd f q xi hr

include hU in
theorem next_le (hd : 0 < dmax) {f : Pt d → ℝ} {B : ℝ} (hB : ∀ q, |f q| ≤ B) (q xi : Pt d) {r : ℝ}
    (hr : r ∈ Set.Ioc (0 : ℝ) 1) : |next tg im eps D dmax f q xi r| ≤ B := by
  rw [next_eq hU im eps dmax D hd f q xi hr]
  have := Real.log_nonpos hr.1.le hr.2
  exact moved_le hU im eps dmax D hd hB _ _ _ (by linarith) (by linarith)

include hU in
theorem next_ideal (hd : 0 < dmax) (f : Pt d → ℝ) (q xi : Pt d) {r : ℝ} (hr : r ∈ Set.Ioc (0 : ℝ) 1)
    (h : (q, xi) ∉ divergent tg u im eps dmax D) :
    next tg im eps D dmax f q xi r = ideal tg u im eps dmax D f (q, momentum im xi) r := by
  rw [next_eq hU im eps dmax D hd f q xi hr]
  unfold ideal moved
  have hb : ∀ m ∈ Finset.Ioo (-2 ^ D : ℤ) (2 ^ D),
      ham u im (flow tg im eps m (q, momentum im xi)) - ham u im (q, momentum im xi) ≤ dmax := by
    intro m hm
    by_contra hc
    exact h ⟨m, hm, not_le.mp hc⟩
  exact Finset.sum_congr rfl fun m _ => by rw [wt_eq hU im eps dmax D _ _ hb m]

/-- One step of the chain, on functions of the position: the expected value of `f` after one
transition from `q`. -/
noncomputable def stepMean (tg : Target d) (im : Pt d) (eps : ℝ) (D : ℕ) (dmax : ℝ) (f : Pt d → ℝ) (q : Pt d) : ℝ :=
  ∫ xi, (∫ r in (0 : ℝ)..1, next tg im eps D dmax f q xi r) ∂(Core.stdLaw (Fin d))

include hU hu hg in
theorem stepMean_prod (hd : 0 < dmax) [IsFiniteMeasure (targetLaw u)] {f : Pt d → ℝ} (hf : Measurable f) {B : ℝ}
    (hB : ∀ q, |f q| ≤ B) :
    Measurable (stepMean tg im eps D dmax f) ∧ (∀ q, |stepMean tg im eps D dmax f q| ≤ B) ∧
      Integrable (fun z : (Pt d × Pt d) × ℝ => next tg im eps D dmax f z.1.1 z.1.2 z.2) (startLaw u) ∧
      ∫ q, stepMean tg im eps D dmax f q ∂(targetLaw u)
        = ∫ z, next tg im eps D dmax f z.1.1 z.1.2 z.2 ∂(startLaw u) := by
  obtain ⟨K, hK, hKe⟩ := next_measurable hU hu hg im eps dmax D hd hf
  have e : ∀ q xi, ∫ r in (0 : ℝ)..1, next tg im eps D dmax f q xi r = ∫ r in Set.Ioc (0 : ℝ) 1, K ((q, xi), r) := by
    intro q xi
    rw [intervalIntegral.integral_of_le zero_le_one]
    exact setIntegral_congr_fun measurableSet_Ioc fun r hr => hKe q xi r hr
  have m1 : StronglyMeasurable fun y : Pt d × Pt d => ∫ r in Set.Ioc (0 : ℝ) 1, K (y, r) :=
    hK.stronglyMeasurable.integral_prod_right'
  have m2 : StronglyMeasurable fun q : Pt d => ∫ xi, (∫ r in Set.Ioc (0 : ℝ) 1, K ((q, xi), r)) ∂(Core.stdLaw (Fin d)) :=
    m1.integral_prod_right'
  have es : stepMean tg im eps D dmax f
      = fun q => ∫ xi, (∫ r in Set.Ioc (0 : ℝ) 1, K ((q, xi), r)) ∂(Core.stdLaw (Fin d)) := by
    funext q
    unfold stepMean
    simp only [e]
  have hae : (fun z : (Pt d × Pt d) × ℝ => next tg im eps D dmax f z.1.1 z.1.2 z.2) =ᵐ[startLaw u] K := by
    filter_upwards [startLaw_draw] with z hz
    exact hKe _ _ _ hz
  have hint : Integrable K (startLaw u) := by
    refine Integrable.of_bound hK.aestronglyMeasurable B ?_
    filter_upwards [startLaw_draw] with z hz
    have := next_le hU im eps dmax D hd hB z.1.1 z.1.2 hz
    rw [hKe _ _ _ hz] at this
    exact this
  have b1 : ∀ y, |∫ r in Set.Ioc (0 : ℝ) 1, K (y, r)| ≤ B := by
    intro y
    have := norm_setIntegral_le_of_norm_le_const (μ := volume) (s := Set.Ioc (0 : ℝ) 1) (f := fun r => K (y, r)) (C := B)
      (by simp) (fun r hr => by
        have := next_le hU im eps dmax D hd hB y.1 y.2 hr
        rw [hKe _ _ _ hr] at this
        exact this)
    simpa using this
  refine ⟨by rw [es]; exact m2.measurable, fun q => ?_, hint.congr hae.symm, ?_⟩
  · rw [es]
    have := norm_integral_le_of_norm_le_const (μ := Core.stdLaw (Fin d))
      (f := fun xi => ∫ r in Set.Ioc (0 : ℝ) 1, K ((q, xi), r)) (C := B) (Filter.Eventually.of_forall fun xi => b1 (q, xi))
    simpa using this
  · rw [integral_congr_ae hae, es]
    have h1 := integral_prod (μ := (targetLaw u).prod (Core.stdLaw (Fin d))) (ν := volume.restrict (Set.Ioc (0 : ℝ) 1)) K hint
    have hi : Integrable (fun y : Pt d × Pt d => ∫ r in Set.Ioc (0 : ℝ) 1, K (y, r)) ((targetLaw u).prod (Core.stdLaw (Fin d))) :=
      Integrable.of_bound m1.aestronglyMeasurable B (Filter.Eventually.of_forall b1)
    rw [startLaw, h1, integral_prod _ hi]

include hU hu hg in
/-- **C243** Starting from the target law, one transition gives the target law up to the
probability that some point in reach is more than `delta_max` above the start: for every
bounded function the mean after the transition differs from the mean under the target by at
most twice the bound times that probability. -/
theorem nuts_keeps_target (him : ∀ i, 0 < im i) (hd : 0 < dmax) [IsFiniteMeasure (targetLaw u)] {f : Pt d → ℝ}
    (hf : Measurable f) {B : ℝ} (hB : ∀ q, |f q| ≤ B) :
    |∫ q, stepMean tg im eps D dmax f q ∂(targetLaw u) - ∫ q, f q ∂(targetLaw u)|
      ≤ 2 * B * ((targetLaw u).prod (Core.stdLaw (Fin d))).real (divergent tg u im eps dmax D) := by
  obtain ⟨_, _, hint, he⟩ := stepMean_prod hU hu hg im eps dmax D hd hf hB
  have hB0 : 0 ≤ B := (abs_nonneg _).trans (hB fun _ => 0)
  have hii : Integrable (fun z : (Pt d × Pt d) × ℝ => ideal tg u im eps dmax D f (z.1.1, momentum im z.1.2) z.2) (startLaw u) := by
    refine Integrable.of_bound (ideal_start_measurable hU hu hg im eps dmax D hf).aestronglyMeasurable B ?_
    filter_upwards [startLaw_draw] with z hz
    exact ideal_le hU im eps dmax D hd hB _ hz
  have hdm := divergent_measurable hu hg im eps dmax D
  have hdm' : MeasurableSet ((Prod.fst : (Pt d × Pt d) × ℝ → _) ⁻¹' divergent tg u im eps dmax D) := measurable_fst hdm
  rw [he, ← ideal_mean hU hu hg im eps dmax D him hd hf hB, ← integral_sub hint hii]
  have hbound : ∀ᵐ z ∂(startLaw u), ‖next tg im eps D dmax f z.1.1 z.1.2 z.2
      - ideal tg u im eps dmax D f (z.1.1, momentum im z.1.2) z.2‖
      ≤ ((Prod.fst : (Pt d × Pt d) × ℝ → _) ⁻¹' divergent tg u im eps dmax D).indicator (fun _ => 2 * B) z := by
    filter_upwards [startLaw_draw] with z hz
    by_cases h : z.1 ∈ divergent tg u im eps dmax D
    · rw [Set.indicator_of_mem (show z ∈ (Prod.fst : (Pt d × Pt d) × ℝ → _) ⁻¹' divergent tg u im eps dmax D from h), Real.norm_eq_abs]
      have h1 := next_le hU im eps dmax D hd hB z.1.1 z.1.2 hz
      have h2 := ideal_le hU im eps dmax D hd hB (z.1.1, momentum im z.1.2) hz
      have := abs_sub (next tg im eps D dmax f z.1.1 z.1.2 z.2) (ideal tg u im eps dmax D f (z.1.1, momentum im z.1.2) z.2)
      linarith
    · rw [Set.indicator_of_notMem (show z ∉ (Prod.fst : (Pt d × Pt d) × ℝ → _) ⁻¹' divergent tg u im eps dmax D from h),
        next_ideal hU im eps dmax D hd f z.1.1 z.1.2 hz h, sub_self, norm_zero]
  have h := norm_integral_le_of_norm_le ((integrable_const (2 * B)).indicator hdm') hbound
  rw [integral_indicator hdm', setIntegral_const, smul_eq_mul, Real.norm_eq_abs] at h
  refine h.trans (le_of_eq ?_)
  have hr : (startLaw u).real ((Prod.fst : (Pt d × Pt d) × ℝ → _) ⁻¹' divergent tg u im eps dmax D)
      = ((targetLaw u).prod (Core.stdLaw (Fin d))).real (divergent tg u im eps dmax D) := by
    have : (Prod.fst : (Pt d × Pt d) × ℝ → _) ⁻¹' divergent tg u im eps dmax D
        = divergent tg u im eps dmax D ×ˢ Set.univ := by ext z; simp
    rw [this, startLaw, measureReal_def, Measure.prod_prod, measureReal_def]
    simp
  rw [hr]
  ring

include hU hu hg in
/-- **C243** After `n` transitions the error is at most `n` times as large. -/
theorem nuts_chain (him : ∀ i, 0 < im i) (hd : 0 < dmax) [IsFiniteMeasure (targetLaw u)] (n : ℕ) {f : Pt d → ℝ}
    (hf : Measurable f) {B : ℝ} (hB : ∀ q, |f q| ≤ B) :
    |∫ q, (stepMean tg im eps D dmax)^[n] f q ∂(targetLaw u) - ∫ q, f q ∂(targetLaw u)|
      ≤ n * (2 * B * ((targetLaw u).prod (Core.stdLaw (Fin d))).real (divergent tg u im eps dmax D)) := by
  induction n generalizing f with
  | zero => simp
  | succ n ih =>
    obtain ⟨h1, h2, _, _⟩ := stepMean_prod hU hu hg im eps dmax D hd hf hB
    have h3 := ih h1 h2
    have h4 := nuts_keeps_target hU hu hg im eps dmax D him hd hf hB
    rw [Function.iterate_succ_apply]
    have := abs_sub_le (∫ q, (stepMean tg im eps D dmax)^[n] (stepMean tg im eps D dmax f) q ∂(targetLaw u))
      (∫ q, stepMean tg im eps D dmax f q ∂(targetLaw u)) (∫ q, f q ∂(targetLaw u))
    push_cast
    linarith

include hu hg in
/-- **C243** The error vanishes as `delta_max` grows. -/
theorem nuts_error_vanishes [IsFiniteMeasure (targetLaw u)] :
    Filter.Tendsto (fun N : ℕ => ((targetLaw u).prod (Core.stdLaw (Fin d))).real (divergent tg u im eps N D))
      Filter.atTop (nhds 0) := by
  have hanti : Antitone fun N : ℕ => divergent tg u im eps N D := by
    intro N M hNM y hy
    obtain ⟨m, hm, h⟩ := hy
    have : (N : ℝ) ≤ M := by exact_mod_cast hNM
    exact ⟨m, hm, lt_of_le_of_lt this h⟩
  have hempty : ⋂ N : ℕ, divergent tg u im eps N D = ∅ := by
    ext y
    simp only [Set.mem_iInter, Set.mem_empty_iff_false, iff_false, not_forall]
    obtain ⟨N, hN⟩ := exists_nat_ge (∑ m ∈ Finset.Ioo (-2 ^ D : ℤ) (2 ^ D),
      |ham u im (flow tg im eps m (y.1, momentum im y.2)) - ham u im (y.1, momentum im y.2)|)
    refine ⟨N, ?_⟩
    rintro ⟨m, hm, h⟩
    have h1 := Finset.single_le_sum (f := fun m => |ham u im (flow tg im eps m (y.1, momentum im y.2)) - ham u im (y.1, momentum im y.2)|)
      (fun m _ => abs_nonneg _) hm
    have h2 := le_abs_self (ham u im (flow tg im eps m (y.1, momentum im y.2)) - ham u im (y.1, momentum im y.2))
    linarith
  have := tendsto_measure_iInter_atTop (μ := (targetLaw u).prod (Core.stdLaw (Fin d)))
    (s := fun N : ℕ => divergent tg u im eps N D) (fun N => (divergent_measurable hu hg im eps (N : ℝ) D).nullMeasurableSet) hanti ⟨0, measure_ne_top _ _⟩
  rw [hempty, measure_empty] at this
  have h := (ENNReal.tendsto_toReal ENNReal.zero_ne_top).comp this
  exact h

include hU hu hg in
/-- **C243** If such points have probability zero, the target law is kept exactly. -/
theorem nuts_exact (him : ∀ i, 0 < im i) (hd : 0 < dmax) [IsFiniteMeasure (targetLaw u)] {f : Pt d → ℝ}
    (hf : Measurable f) {B : ℝ} (hB : ∀ q, |f q| ≤ B)
    (h0 : ((targetLaw u).prod (Core.stdLaw (Fin d))) (divergent tg u im eps dmax D) = 0) :
    ∫ q, stepMean tg im eps D dmax f q ∂(targetLaw u) = ∫ q, f q ∂(targetLaw u) := by
  have h := nuts_keeps_target hU hu hg im eps dmax D him hd hf hB
  rw [measureReal_def, h0, ENNReal.toReal_zero, mul_zero] at h
  exact sub_eq_zero.mp (abs_nonpos_iff.mp h)

end

/-- The potential of the standard Gaussian target. -/
noncomputable def gaussU (q : Pt d) : ℝ := ∑ i, q i ^ 2 / (2 * (1 : ℝ) ^ 2)

theorem gaussU_measurable : Measurable (gaussU : Pt d → ℝ) :=
  Finset.measurable_sum _ fun i _ => ((measurable_pi_apply i).pow_const 2).div_const _

theorem gaussU_finite : IsFiniteMeasure (targetLaw (gaussU : Pt d → ℝ)) := by
  have h := Core.mono_integrable (n := d) (fun _ => 0)
  have e : ∀ q : Pt d, (∏ i, q i ^ ((fun _ => 0 : Fin d → ℕ) i)) * Core.bells q = Real.exp (-gaussU q) := by
    intro q
    unfold Core.bells Core.bell gaussU
    rw [← Real.exp_sum]
    simp only [pow_zero, Finset.prod_const_one, one_mul]
    congr 1
    rw [← Finset.sum_neg_distrib]
    exact Finset.sum_congr rfl fun i _ => by ring
  simp only [e] at h
  exact isFiniteMeasure_withDensity_ofReal h.2

/-- The hypotheses are met by the standard Gaussian target in three dimensions with the default
limits: after a hundred transitions the probability of a set is off by at most two hundred
times the probability of a divergence. -/
example (A : Set (Pt 3)) (hA : MeasurableSet A) :
    |∫ q, (stepMean (gauss fun _ : Fin 3 => 1) (fun _ => 1) 0.3 10 1000)^[100] (A.indicator fun _ => 1) q ∂(targetLaw gaussU)
        - ∫ q, A.indicator (fun _ => (1 : ℝ)) q ∂(targetLaw gaussU)|
      ≤ 100 * (2 * 1 * ((targetLaw gaussU).prod (Core.stdLaw (Fin 3))).real
          (divergent (gauss fun _ : Fin 3 => 1) gaussU (fun _ => 1) 0.3 1000 10)) := by
  have := gaussU_finite (d := 3)
  refine nuts_chain (tg := gauss fun _ : Fin 3 => 1) (u := gaussU) (fun q => rfl) gaussU_measurable ?_ (fun _ => 1) 0.3 1000 10
    (fun _ => one_pos) (by norm_num) 100 (measurable_const.indicator hA) (B := 1) (fun q => ?_)
  · exact measurable_pi_iff.mpr fun i => (measurable_pi_apply i).div_const _
  · by_cases h : q ∈ A <;> simp [h]

end Verif.Nuts
