import Verif.Diag.Un1d
import Verif.Diag.PropsParamStats
import Mathlib.MeasureTheory.Integral.IntervalIntegral.FundThmCalculus
import Mathlib.MeasureTheory.Constructions.BorelSpace.Real
import Mathlib.MeasureTheory.Function.SpecialFunctions.Basic

/-!
# Properties of distributions given by a logarithmic density
-/

set_option autoImplicit false

namespace Verif.Un1d

open Verif MeasureTheory Set

/-! ## Specification -/

/-- The real numbers between two bounds, which may be infinite. -/
def R (a b : EReal) : Set ℝ := {x | a < x ∧ (x : EReal) < b}

/-- The contracts of the routines: `quad` integrates, `brentq` is close to a root when the signs at
the bounds differ, `minimize_scalar` answers within the bounds. -/
structure Scipy.Ok (S : Scipy) : Prop where
  quad : ∀ (f : ℝ → Py Flt) (g : ℝ → ℝ) (a b : EReal), a < b →
    (∀ x : ℝ, a ≤ x → (x : EReal) ≤ b → f x = .ok (Flt.fin (g x))) → IntegrableOn g (R a b) →
    S.quad f (.num a) (.num b) = .ok (Flt.fin (∫ x in R a b, g x))
  brentq : ∀ (f : ℝ → Py Flt) (g : ℝ → ℝ) (a b xtol : ℝ), a < b → (∀ x ∈ Icc a b, f x = .ok (Flt.fin (g x))) →
    ContinuousOn g (Icc a b) → g a * g b < 0 → 0 < xtol →
    ∃ r ∈ Icc a b, S.brentq f a b xtol = .ok (Flt.fin r) ∧ ∃ t ∈ Icc a b, g t = 0 ∧ |r - t| ≤ xtol + 1 / 2 ^ 50 * |t|
  minimize : ∀ (f : ℝ → Py Flt) (a b : ℝ), a < b → (∀ x ∈ Icc a b, ∃ y, f x = .ok y) →
    ∃ r ∈ Icc a b, ∃ s, S.minimize f a b = .ok (r, s)

theorem measurableSet_R (a b : EReal) : MeasurableSet (R a b) :=
  (measurableSet_lt measurable_const measurable_coe_real_ereal).inter
    (measurableSet_lt measurable_coe_real_ereal measurable_const)

/-- The number in a result. -/
noncomputable def val : Py Flt → ℝ
  | .ok (.num x) => x.toReal
  | _ => 0

/-- The contracts can be met. -/
theorem exists_scipy : ∃ S : Scipy, S.Ok := by
  classical
  refine ⟨⟨fun f a b => match a, b with
      | .num a, .num b => .ok (Flt.fin (∫ x in R a b, val (f x)))
      | _, _ => .error .valueError,
    fun f a b xtol => if h : ∃ t ∈ Icc a b, f t = .ok (Flt.fin 0) then .ok (Flt.fin h.choose) else .error .valueError,
    fun f a b => .ok (a, true)⟩, ?_, ?_, ?_⟩
  · intro f g a b hab hf _
    dsimp only
    congr 2
    refine setIntegral_congr_fun (measurableSet_R a b) fun x hx => ?_
    rw [hf x hx.1.le hx.2.le]
    simp [val, Flt.fin]
  · intro f g a b xtol hab hf hc hs hx
    have h0 : ∃ t ∈ Icc a b, g t = 0 := by
      rcases mul_neg_iff.mp hs with ⟨h1, h2⟩ | ⟨h1, h2⟩
      · obtain ⟨t, ht, h⟩ := intermediate_value_Icc' hab.le hc ⟨h2.le, h1.le⟩
        exact ⟨t, ht, h⟩
      · obtain ⟨t, ht, h⟩ := intermediate_value_Icc hab.le hc ⟨h1.le, h2.le⟩
        exact ⟨t, ht, h⟩
    have h : ∃ t ∈ Icc a b, f t = .ok (Flt.fin 0) := by
      obtain ⟨t, ht, h⟩ := h0
      exact ⟨t, ht, by rw [hf t ht, h]⟩
    dsimp only
    rw [dif_pos h]
    refine ⟨h.choose, h.choose_spec.1, rfl, h.choose, h.choose_spec.1, ?_, ?_⟩
    · have := h.choose_spec.2
      rw [hf _ h.choose_spec.1] at this
      injection this with this
      exact Flt.fin_inj.mp this
    · rw [sub_self, abs_zero]; positivity
  · intro f a b hab _
    exact ⟨a, ⟨le_refl _, hab.le⟩, true, rfl⟩

/-- `exp(l)`, where values below -745 give zero. -/
noncomputable def dens (lp : ℝ → EReal) (x : ℝ) : ℝ :=
  open Classical in if lp x < ((-745 : ℝ) : EReal) then 0 else Real.exp (lp x).toReal

/-- Logarithmic densities for which the integral is defined. -/
structure Valid (lp : ℝ → EReal) (a b : EReal) : Prop where
  lt : a < b
  le : ∀ x : ℝ, a ≤ x → (x : EReal) ≤ b → lp x ≤ ((709 : ℝ) : EReal)
  int : IntegrableOn (dens lp) (R a b)

/-- The integral. -/
noncomputable def mass (lp : ℝ → EReal) (a b : EReal) : ℝ := ∫ x in R a b, dens lp x

/-- The distribution object. -/
noncomputable def obj (lp : ℝ → EReal) (a b : EReal) : Dist :=
  ⟨fun x => .ok (.num (lp x)), .num a, .num b, Flt.fin (mass lp a b)⟩

/-! ## Basic facts -/

theorem R_coe (a b : ℝ) : R a b = Ioo a b := by
  ext x; simp [R]

theorem dens_nonneg (lp : ℝ → EReal) (x : ℝ) : 0 ≤ dens lp x := by
  unfold dens; split_ifs
  · exact le_refl _
  · exact (Real.exp_pos _).le

theorem fScalar_eq {lp : ℝ → EReal} {x : ℝ} (h : lp x ≤ ((709 : ℝ) : EReal)) :
    fScalar (fun x => .ok (.num (lp x))) x = .ok (Flt.fin (dens lp x)) := by
  classical
  simp only [fScalar, bind, Except.bind, pure, Except.pure, safeExp, Except.ok.injEq]
  rw [if_neg (by
    rw [Flt.fin, Flt.lt_num]; exact not_lt.mpr h)]
  unfold dens
  by_cases h2 : lp x < ((-745 : ℝ) : EReal)
  · rw [if_pos (by rw [Flt.fin, Flt.lt_num]; exact h2), if_pos h2]
  · rw [if_neg (by rw [Flt.fin, Flt.lt_num]; exact h2), if_neg h2]
    have t : lp x ≠ ⊤ := by rintro e; rw [e] at h; exact absurd (top_le_iff.mp h) (EReal.coe_ne_top _)
    have b : lp x ≠ ⊥ := by rintro e; rw [e] at h2; exact h2 (EReal.bot_lt_coe _)
    rw [Flt.exp, if_neg t, if_neg b]

theorem Z_eq {S : Scipy} (hS : S.Ok) {lp : ℝ → EReal} {a b : EReal} (h : Valid lp a b) :
    S.quad (fScalar fun x => .ok (.num (lp x))) (.num a) (.num b) = .ok (Flt.fin (mass lp a b)) :=
  hS.quad _ (dens lp) a b h.lt (fun x h1 h2 => fScalar_eq (h.le x h1 h2)) h.int

theorem mass_nonneg (lp : ℝ → EReal) (a b : EReal) : 0 ≤ mass lp a b :=
  integral_nonneg fun x => dens_nonneg lp x

/-- **C150** The object is made when the density has a positive integral; a zero integral, and
bounds which are not in order, raise `ValueError`; bounds which are not numbers raise
`TypeError`. -/
theorem init_spec {S : Scipy} (hS : S.Ok) (lp : ℝ → EReal) (a b : EReal) (f : ℝ → Py Flt) :
    (Valid lp a b → 0 < mass lp a b →
      init S (fun x => .ok (.num (lp x))) (.num (.num a)) (.num (.num b)) = .ok (obj lp a b)) ∧
    (Valid lp a b → mass lp a b = 0 →
      init S (fun x => .ok (.num (lp x))) (.num (.num a)) (.num (.num b)) = .error .valueError) ∧
    (b ≤ a → init S f (.num (.num a)) (.num (.num b)) = .error .valueError) ∧
    (∀ x, init S f (.num .nan) (.num x) = .error .valueError ∧ init S f (.num x) (.num .nan) = .error .valueError) ∧
    (∀ x, init S f .other x = .error .typeError ∧ init S f x .other = .error .typeError) := by
  refine ⟨fun h hm => ?_, fun h hm => ?_, fun h => ?_, fun x => ⟨?_, ?_⟩, fun x => ⟨?_, ?_⟩⟩
  · simp only [init, Flt.lt_num, h.lt, not_true, if_false, Z_eq hS h, bind, Except.bind]
    rw [if_neg]
    · rfl
    · rw [not_or, not_not, Flt.fin_le]
      exact ⟨⟨_, rfl⟩, not_le.mpr hm⟩
  · simp only [init, Flt.lt_num, h.lt, not_true, if_false, Z_eq hS h, bind, Except.bind]
    rw [if_pos]
    right
    rw [Flt.fin_le, hm]
  · simp [init, h]
  · simp [init]
  · cases x <;> simp [init]
  · cases x <;> simp [init]
  · cases x <;> simp [init]

/-- **C150** For a measurable logarithmic density which is at most 709, the integral is defined
between finite bounds. -/
theorem valid_of_measurable {lp : ℝ → EReal} (hm : Measurable lp) {a b : ℝ} (hab : a < b)
    (hle : ∀ x ∈ Icc a b, lp x ≤ ((709 : ℝ) : EReal)) : Valid lp a b := by
  refine ⟨by exact_mod_cast hab, fun x h1 h2 => hle x ⟨by exact_mod_cast h1, by exact_mod_cast h2⟩, ?_⟩
  rw [R_coe]
  have hd : Measurable (dens lp) := by
    unfold dens
    exact Measurable.ite (measurableSet_lt hm measurable_const) measurable_const hm.ereal_toReal.exp
  refine Measure.integrableOn_of_bounded (M := Real.exp 709) (by simp) hd.aestronglyMeasurable ?_
  refine (ae_restrict_iff' measurableSet_Ioo).mpr (Filter.Eventually.of_forall fun x hx => ?_)
  rw [Real.norm_of_nonneg (dens_nonneg lp x)]
  unfold dens
  split_ifs with h
  · exact (Real.exp_pos _).le
  · refine Real.exp_le_exp.mpr ?_
    have h1 := hle x ⟨hx.1.le, hx.2.le⟩
    have b : lp x ≠ ⊥ := by rintro e; rw [e] at h; exact h (EReal.bot_lt_coe _)
    have := EReal.toReal_le_toReal h1 b (EReal.coe_ne_top _)
    rwa [EReal.toReal_coe] at this

example : ∃ S : Scipy, ∃ d, init S (fun _ => .ok (.num (0 : ℝ))) (.num (.num (0 : ℝ))) (.num (.num (1 : ℝ))) = .ok d := by
  obtain ⟨S, hS⟩ := exists_scipy
  have hv : Valid (fun _ => ((0 : ℝ) : EReal)) ((0 : ℝ) : EReal) ((1 : ℝ) : EReal) :=
    valid_of_measurable measurable_const one_pos fun x _ => by exact_mod_cast (by norm_num : (0 : ℝ) ≤ 709)
  refine ⟨S, _, (init_spec hS _ _ _ (fun _ => .ok .nan)).1 hv ?_⟩
  have : ∀ x, dens (fun _ => ((0 : ℝ) : EReal)) x = 1 := fun x => by
    unfold dens
    rw [if_neg (by rw [EReal.coe_lt_coe_iff]; norm_num), EReal.toReal_coe, Real.exp_zero]
  unfold mass
  simp only [this, R_coe]
  simp

/-- **C151** A logarithmic density below -745 everywhere is refused: so adding a constant to a
criterion may turn a result into an error. -/
theorem init_underflow {S : Scipy} (hS : S.Ok) {lp : ℝ → EReal} {a b : EReal} (h : a < b)
    (hlp : ∀ x : ℝ, a ≤ x → (x : EReal) ≤ b → lp x < ((-745 : ℝ) : EReal)) :
    init S (fun x => .ok (.num (lp x))) (.num (.num a)) (.num (.num b)) = .error .valueError := by
  have h0 : ∀ x ∈ R a b, dens lp x = 0 := fun x hx => by
    unfold dens
    rw [if_pos (hlp x hx.1.le hx.2.le)]
  have hz : EqOn (dens lp) (fun _ => 0) (R a b) := h0
  have hv : Valid lp a b := ⟨h, fun x h1 h2 => (hlp x h1 h2).le.trans (by
    rw [EReal.coe_le_coe_iff]; norm_num), (integrableOn_congr_fun hz (measurableSet_R a b)).mpr integrableOn_zero⟩
  refine (init_spec hS lp a b (fun _ => .ok .nan)).2.1 hv ?_
  unfold mass
  rw [setIntegral_congr_fun (measurableSet_R a b) hz]
  simp

/-! ## Distribution functions -/

theorem mass_eq_one {lp : ℝ → EReal} {a b : EReal} (hm : 0 < mass lp a b) :
    ∫ x in R a b, dens lp x / mass lp a b = 1 := by
  rw [integral_div]
  exact div_self hm.ne'

/-- **C152** Within the bounds `pdf` is a probability density. -/
theorem pdf_spec {lp : ℝ → EReal} {a b : EReal} (h : Valid lp a b) (hm : 0 < mass lp a b) :
    ∃ p : ℝ → ℝ, (∀ l : List ℝ, (∀ x ∈ l, a ≤ x ∧ (x : EReal) ≤ b) →
        (obj lp a b).pdf l = .ok (l.map fun x => Flt.fin (p x))) ∧
      (∀ x, 0 ≤ p x) ∧ ∫ x in R a b, p x = 1 ∧
      (∀ x, lp x = ⊥ → p x = 0) ∧
      ∀ x y u v : ℝ, lp x = u → lp y = v → -745 ≤ u → -745 ≤ v → p x * Real.exp v = p y * Real.exp u := by
  refine ⟨fun x => dens lp x / mass lp a b, fun l hl => ?_, fun x => div_nonneg (dens_nonneg lp x) hm.le, mass_eq_one hm,
    fun x hx => ?_, fun x y u v hx hy hu hv => ?_⟩
  · unfold Dist.pdf Dist.f obj
    dsimp only
    rw [ParamStats.mapM_ok l (g := fun x => Flt.fin (dens lp x)) fun x hx => fScalar_eq (h.le x (hl x hx).1 (hl x hx).2)]
    simp only [bind, Except.bind, pure, Except.pure, List.map_map, Except.ok.injEq]
    refine List.map_congr_left fun x _ => ?_
    simp only [Function.comp]
    rw [Flt.div_fin hm.ne']
  · dsimp only
    unfold dens
    rw [if_pos (by rw [hx]; exact EReal.bot_lt_coe _), zero_div]
  · have hd : ∀ z w : ℝ, lp z = w → -745 ≤ w → dens lp z = Real.exp w := fun z w hz hw => by
      unfold dens
      rw [hz, if_neg (by rw [EReal.coe_lt_coe_iff]; exact not_lt.mpr hw), EReal.toReal_coe]
    dsimp only
    rw [hd x u hx hu, hd y v hy hv]
    ring

/-- **C152** Outside the bounds `pdf` is not zero. -/
theorem pdf_outside_false : ∃ (lp : ℝ → EReal) (a b : EReal) (x : ℝ), Valid lp a b ∧ 0 < mass lp a b ∧ b < x ∧
    (obj lp a b).pdf [x] = .ok [Flt.fin 1] := by
  have hd : ∀ x, dens (fun _ => ((0 : ℝ) : EReal)) x = 1 := fun x => by
    unfold dens
    rw [if_neg (by rw [EReal.coe_lt_coe_iff]; norm_num), EReal.toReal_coe, Real.exp_zero]
  have hm : mass (fun _ => ((0 : ℝ) : EReal)) ((0 : ℝ) : EReal) ((1 : ℝ) : EReal) = 1 := by
    unfold mass
    simp only [hd, R_coe]
    simp
  refine ⟨fun _ => ((0 : ℝ) : EReal), ((0 : ℝ) : EReal), ((1 : ℝ) : EReal), 2,
    valid_of_measurable measurable_const one_pos fun x _ => by exact_mod_cast (by norm_num : (0 : ℝ) ≤ 709), ?_, ?_, ?_⟩
  · rw [hm]; exact one_pos
  · rw [EReal.coe_lt_coe_iff]; norm_num
  · unfold Dist.pdf Dist.f obj
    dsimp only
    rw [ParamStats.mapM_ok [(2 : ℝ)] (g := fun x => Flt.fin (dens (fun _ => ((0 : ℝ) : EReal)) x)) fun x _ =>
      fScalar_eq (by rw [EReal.coe_le_coe_iff]; norm_num), hm]
    simp only [bind, Except.bind, pure, Except.pure, List.map_cons, List.map_nil, hd, Flt.div_fin one_ne_zero, div_one]

/-- The distribution function of the density. -/
noncomputable def F (lp : ℝ → EReal) (a b : EReal) (x : ℝ) : ℝ := (∫ y in R a b ∩ Iic x, dens lp y) / mass lp a b

/-- **C152** `cdf` is the integral of the density up to the point. -/
theorem cdf_eq {S : Scipy} (hS : S.Ok) {lp : ℝ → EReal} {a b : EReal} (h : Valid lp a b) (hm : 0 < mass lp a b) (x : ℝ) :
    (obj lp a b).cdf S x = .ok (Flt.fin (F lp a b x)) := by
  unfold Dist.cdf obj F
  dsimp only
  by_cases h1 : (x : EReal) ≤ a
  · rw [if_pos (by rw [Flt.fin, Flt.le_num]; exact h1)]
    have : R a b ∩ Iic x = ∅ := by
      ext y
      simp only [R, mem_inter_iff, mem_setOf_eq, mem_Iic, mem_empty_iff_false, iff_false, not_and, not_le]
      rintro ⟨hy, _⟩
      have := lt_of_le_of_lt h1 hy
      exact_mod_cast this
    rw [this]
    simp
  · rw [if_neg (by rw [Flt.fin, Flt.le_num]; exact h1)]
    by_cases h2 : b ≤ (x : EReal)
    · rw [if_pos (by rw [Flt.fin, Flt.le_num]; exact h2)]
      have : R a b ∩ Iic x = R a b := by
        refine inter_eq_left.mpr fun y hy => ?_
        have := lt_of_lt_of_le hy.2 h2
        exact (EReal.coe_lt_coe_iff.mp this).le
      rw [this]
      unfold mass at hm ⊢
      rw [div_self hm.ne']
    · rw [if_neg (by rw [Flt.fin, Flt.le_num]; exact h2)]
      have h1 := not_le.mp h1
      have h2 := not_le.mp h2
      have hsub : R a x ⊆ R a b := fun y hy => ⟨hy.1, hy.2.trans h2⟩
      have hq := hS.quad (fScalar fun x => .ok (.num (lp x))) (dens lp) a x h1
        (fun y hy1 hy2 => fScalar_eq (h.le y hy1 (hy2.trans h2.le))) (h.int.mono_set hsub)
      have e : Flt.fin x = .num (x : EReal) := rfl
      rw [e, hq]
      simp only [bind, Except.bind, pure, Except.pure]
      rw [Flt.div_fin hm.ne']
      have hset : R a b ∩ Iic x = insert x (R a x) := by
        ext y
        simp only [R, mem_inter_iff, mem_setOf_eq, mem_Iic, mem_insert_iff, EReal.coe_lt_coe_iff]
        constructor
        · rintro ⟨⟨ha, _⟩, hy⟩
          rcases hy.lt_or_eq with hy | rfl
          · exact Or.inr ⟨ha, hy⟩
          · exact Or.inl rfl
        · rintro (rfl | ⟨ha, hy⟩)
          · exact ⟨⟨h1, h2⟩, le_refl _⟩
          · exact ⟨⟨ha, lt_trans (by exact_mod_cast hy) h2⟩, hy.le⟩
      have hint : ∫ y in insert x (R a x), dens lp y = ∫ y in R a x, dens lp y := by
        refine setIntegral_congr_set ?_
        exact insert_ae_eq_self x (R a x)
      rw [hset, hint]

/-- **C152** The distribution function is nondecreasing, zero up to the lower bound and one from
the upper bound on. -/
theorem cdf_laws {lp : ℝ → EReal} {a b : EReal} (h : Valid lp a b) (hm : 0 < mass lp a b) :
    Monotone (F lp a b) ∧ (∀ x, 0 ≤ F lp a b x ∧ F lp a b x ≤ 1) ∧ (∀ x : ℝ, (x : EReal) ≤ a → F lp a b x = 0) ∧
      ∀ x : ℝ, b ≤ (x : EReal) → F lp a b x = 1 := by
  have hnn : ∀ s : Set ℝ, 0 ≤ᵐ[volume.restrict s] dens lp := fun s => Filter.Eventually.of_forall fun x => dens_nonneg lp x
  refine ⟨fun x y hxy => ?_, fun x => ⟨?_, ?_⟩, fun x hx => ?_, fun x hx => ?_⟩
  · unfold F
    refine (div_le_div_iff_of_pos_right hm).mpr (setIntegral_mono_set (h.int.mono_set inter_subset_left) (hnn _) ?_)
    exact Filter.Eventually.of_forall (inter_subset_inter_right _ (Iic_subset_Iic.mpr hxy))
  · exact div_nonneg (integral_nonneg fun x => dens_nonneg lp x) hm.le
  · unfold F
    rw [div_le_one hm]
    exact setIntegral_mono_set h.int (hnn _) (Filter.Eventually.of_forall inter_subset_left)
  · have : R a b ∩ Iic x = ∅ := by
      ext y
      simp only [R, mem_inter_iff, mem_setOf_eq, mem_Iic, mem_empty_iff_false, iff_false, not_and, not_le]
      rintro ⟨hy, _⟩
      have := lt_of_le_of_lt hx hy
      exact_mod_cast this
    simp [F, this]
  · have : R a b ∩ Iic x = R a b := by
      refine inter_eq_left.mpr fun y hy => ?_
      have := lt_of_lt_of_le hy.2 hx
      exact (EReal.coe_lt_coe_iff.mp this).le
    unfold F
    rw [this]
    unfold mass at hm ⊢
    exact div_self hm.ne'

/-! ## Moments -/

theorem integral_lin3 {s : Set ℝ} {f0 f1 f2 : ℝ → ℝ} (h0 : IntegrableOn f0 s) (h1 : IntegrableOn f1 s)
    (h2 : IntegrableOn f2 s) (α β γ : ℝ) :
    ∫ t in s, (α * f2 t + β * f1 t + γ * f0 t) = α * (∫ t in s, f2 t) + β * (∫ t in s, f1 t) + γ * ∫ t in s, f0 t := by
  have k0 : IntegrableOn (fun t => γ * f0 t) s := h0.const_mul γ
  have k1 : IntegrableOn (fun t => β * f1 t) s := h1.const_mul β
  have k2 : IntegrableOn (fun t => α * f2 t) s := h2.const_mul α
  have k3 : IntegrableOn (fun t => α * f2 t + β * f1 t) s := k2.add k1
  rw [integral_add k3 k0, integral_add k2 k1, integral_const_mul, integral_const_mul, integral_const_mul]

/-- **C153** `mean` and `var` are the mean and the variance of the density; the variance is
nonnegative. -/
theorem moments {S : Scipy} (hS : S.Ok) {lp : ℝ → EReal} {a b : EReal} (h : Valid lp a b) (hm : 0 < mass lp a b)
    (h1 : IntegrableOn (fun t => t * dens lp t) (R a b)) (h2 : IntegrableOn (fun t => t ^ 2 * dens lp t) (R a b)) :
    ∃ m v : ℝ, (obj lp a b).mean S = .ok (Flt.fin m) ∧ (obj lp a b).var S = .ok (Flt.fin v) ∧
      m = ∫ t in R a b, t * (dens lp t / mass lp a b) ∧
      v = ∫ t in R a b, (t - m) ^ 2 * (dens lp t / mass lp a b) ∧ 0 ≤ v := by
  have hmul : ∀ c : ℝ → ℝ, ∀ t : ℝ, a ≤ t → (t : EReal) ≤ b →
      (do return (Flt.fin (c t)).mul (← fScalar (fun x => .ok (.num (lp x))) t) : Py Flt) =
        .ok (Flt.fin (c t * dens lp t)) := fun c t ha hb => by
    rw [fScalar_eq (h.le t ha hb)]
    simp only [bind, Except.bind, pure, Except.pure, Flt.mul_fin]
  have hmean : (obj lp a b).mean S = .ok (Flt.fin ((∫ t in R a b, t * dens lp t) / mass lp a b)) := by
    unfold Dist.mean obj
    dsimp only
    rw [hS.quad _ (fun t => t * dens lp t) a b h.lt (hmul fun t => t) h1]
    simp only [bind, Except.bind, pure, Except.pure, Flt.div_fin hm.ne']
  set A := ∫ t in R a b, t * dens lp t with hA
  set Z := mass lp a b with hZ
  have hvar : (obj lp a b).var S = .ok (Flt.fin ((∫ t in R a b, t ^ 2 * dens lp t) / Z - A / Z * (A / Z))) := by
    unfold Dist.var
    rw [hmean]
    simp only [obj]
    rw [hS.quad _ (fun t => t ^ 2 * dens lp t) a b h.lt (hmul fun t => t ^ 2) h2]
    simp only [bind, Except.bind, pure, Except.pure, ← hZ, Flt.div_fin hm.ne', Flt.mul_fin, Flt.sub_fin]
  set B := ∫ t in R a b, t ^ 2 * dens lp t with hB
  have hv : B / Z - A / Z * (A / Z) = ∫ t in R a b, (t - A / Z) ^ 2 * (dens lp t / Z) := by
    have e : ∀ t, (t - A / Z) ^ 2 * (dens lp t / Z) =
        (1 * (t ^ 2 * dens lp t) + -2 * (A / Z) * (t * dens lp t) + (A / Z) ^ 2 * dens lp t) / Z := fun t => by ring
    simp only [e]
    rw [integral_div, integral_lin3 h.int h1 h2]
    change B / Z - A / Z * (A / Z) = (1 * B + -2 * (A / Z) * A + (A / Z) ^ 2 * Z) / Z
    have : Z ≠ 0 := hm.ne'
    field_simp
    ring
  refine ⟨_, _, hmean, hvar, ?_, hv, ?_⟩
  · have e : ∀ t, t * (dens lp t / Z) = t * dens lp t / Z := fun t => by ring
    simp only [e]
    rw [integral_div]
  · rw [hv]
    exact integral_nonneg fun t => mul_nonneg (sq_nonneg _) (div_nonneg (dens_nonneg lp t) hm.le)

theorem moment_int {lp : ℝ → EReal} {a b : ℝ} (h : Valid lp a b) (k : ℕ) :
    IntegrableOn (fun t => t ^ k * dens lp t) (R a b) := by
  have hc : IntegrableOn (fun t => dens lp t * t ^ k) (R a b) := by
    refine Integrable.mul_bdd (c := (max |a| |b|) ^ k) h.int (by fun_prop) ?_
    refine (ae_restrict_iff' (measurableSet_R _ _)).mpr (Filter.Eventually.of_forall fun x hx => ?_)
    rw [R_coe] at hx
    rw [norm_pow, Real.norm_eq_abs]
    refine pow_le_pow_left₀ (abs_nonneg x) ?_ k
    exact abs_le_max_abs_abs hx.1.le hx.2.le
  refine hc.congr_fun (fun x _ => ?_) (measurableSet_R _ _)
  exact mul_comm _ _

/-- **C153** Between finite bounds the moments exist, the mean is between the bounds, and the
variance is at most the product of the distances to them. -/
theorem moments_bounds {S : Scipy} (hS : S.Ok) {lp : ℝ → EReal} {a b : ℝ} (h : Valid lp a b) (hm : 0 < mass lp a b) :
    ∃ m v : ℝ, (obj lp a b).mean S = .ok (Flt.fin m) ∧ (obj lp a b).var S = .ok (Flt.fin v) ∧
      a ≤ m ∧ m ≤ b ∧ 0 ≤ v ∧ v ≤ (b - m) * (m - a) := by
  have i1 : IntegrableOn (fun t => t * dens lp t) (R a b) := by simpa using moment_int h 1
  have i2 := moment_int h 2
  obtain ⟨m, v, e1, e2, e3, e4, e5⟩ := moments hS h hm i1 i2
  set Z := mass lp a b with hZ
  have j0 : IntegrableOn (fun t => dens lp t / Z) (R a b) := h.int.div_const Z
  have j1 : IntegrableOn (fun t => t * (dens lp t / Z)) (R a b) := by
    have : IntegrableOn (fun t => t * dens lp t / Z) (R a b) := i1.div_const Z
    refine this.congr_fun (fun t _ => ?_) (measurableSet_R _ _)
    dsimp only; ring
  have j2 : IntegrableOn (fun t => t ^ 2 * (dens lp t / Z)) (R a b) := by
    have : IntegrableOn (fun t => t ^ 2 * dens lp t / Z) (R a b) := i2.div_const Z
    refine this.congr_fun (fun t _ => ?_) (measurableSet_R _ _)
    dsimp only; ring
  have one : ∫ t in R a b, dens lp t / Z = 1 := mass_eq_one hm
  set B := ∫ t in R a b, t ^ 2 * (dens lp t / Z) with hB
  have quad3 : ∀ α β γ : ℝ, (∀ t ∈ R a b, 0 ≤ α * t ^ 2 + β * t + γ) → 0 ≤ α * B + β * m + γ := by
    intro α β γ hn
    have : ∫ t in R a b, (α * t ^ 2 + β * t + γ) * (dens lp t / Z) = α * B + β * m + γ := by
      have e : ∀ t, (α * t ^ 2 + β * t + γ) * (dens lp t / Z) =
          α * (t ^ 2 * (dens lp t / Z)) + β * (t * (dens lp t / Z)) + γ * (dens lp t / Z) := fun t => by ring
      simp only [e]
      rw [integral_lin3 j0 j1 j2, one, ← e3, mul_one]
    rw [← this]
    refine setIntegral_nonneg (measurableSet_R _ _) fun t ht => ?_
    exact mul_nonneg (hn t ht) (div_nonneg (dens_nonneg lp t) hm.le)
  have hab : ∀ t ∈ R a b, a < t ∧ t < b := fun t ht => by rw [R_coe] at ht; exact ht
  have hvB : v = B - m ^ 2 := by
    rw [e4]
    have e : ∀ t, (t - m) ^ 2 * (dens lp t / Z) =
        1 * (t ^ 2 * (dens lp t / Z)) + -2 * m * (t * (dens lp t / Z)) + m ^ 2 * (dens lp t / Z) := fun t => by ring
    simp only [e]
    rw [integral_lin3 j0 j1 j2, one, ← e3]
    ring
  refine ⟨m, v, e1, e2, ?_, ?_, e5, ?_⟩
  · have := quad3 0 1 (-a) fun t ht => by have := (hab t ht).1; linarith
    linarith
  · have := quad3 0 (-1) b fun t ht => by have := (hab t ht).2; linarith
    linarith
  · have := quad3 (-1) (a + b) (-(a * b)) fun t ht => by
      have := hab t ht
      nlinarith [mul_pos (sub_pos.mpr this.1) (sub_pos.mpr this.2)]
    rw [hvB]
    nlinarith

/-! ## Quantiles -/

theorem F_continuousOn {lp : ℝ → EReal} {a b : ℝ} (h : Valid lp a b) : ContinuousOn (F lp a b) (Icc a b) := by
  have hab : a ≤ b := by have := h.lt; exact (EReal.coe_lt_coe_iff.mp this).le
  have hint : IntegrableOn (dens lp) (Icc a b) := by
    rw [integrableOn_Icc_iff_integrableOn_Ioo, ← R_coe]
    exact h.int
  have hc := intervalIntegral.continuousOn_primitive (f := dens lp) hint
  refine (hc.div_const (mass lp a b)).congr fun x hx => ?_
  unfold F
  congr 1
  rw [R_coe]
  refine setIntegral_congr_set ?_
  have : (Ioo a b ∩ Iic x : Set ℝ) =ᵐ[volume] (Ioc a b ∩ Iic x : Set ℝ) :=
    (Ioo_ae_eq_Ioc (μ := volume)).inter (ae_eq_refl _)
  refine this.trans ?_
  rw [Ioc_inter_Iic, min_eq_right hx.2]
  exact Filter.EventuallyEq.rfl

/-- **C154** `quantile` returns a point between the bounds which is within the tolerance of a point
whose distribution function is the level; it raises for a level outside `(0, 1)` and for infinite
bounds. -/
theorem quantile_spec {S : Scipy} (hS : S.Ok) {lp : ℝ → EReal} :
    (∀ {a b : ℝ}, Valid lp a b → 0 < mass lp a b → ∀ p xtol : ℝ, 0 < p → p < 1 → 0 < xtol →
      ∃ r ∈ Icc a b, (obj lp a b).quantile S p xtol = .ok (Flt.fin r) ∧
        ∃ t ∈ Icc a b, F lp a b t = p ∧ |r - t| ≤ xtol + 1 / 2 ^ 50 * |t|) ∧
    (∀ (a b : EReal) (p xtol : ℝ), p ≤ 0 ∨ 1 ≤ p → (obj lp a b).quantile S p xtol = .error .valueError) ∧
    (∀ (a b : EReal) (p xtol : ℝ), a = ⊥ ∨ b = ⊤ → (obj lp a b).quantile S p xtol = .error .valueError) := by
  refine ⟨fun {a b} h hm p xtol p0 p1 hx => ?_, fun a b p xtol hp => ?_, fun a b p xtol hab => ?_⟩
  · have hab : a < b := by have := h.lt; exact EReal.coe_lt_coe_iff.mp this
    obtain ⟨-, -, c0, c1⟩ := cdf_laws h hm
    have hf : ∀ t ∈ Icc a b, (do return (← (obj lp a b).cdf S t).sub (Flt.fin p) : Py Flt) =
        .ok (Flt.fin (F lp a b t - p)) := fun t _ => by
      rw [cdf_eq hS h hm t]
      simp only [bind, Except.bind, pure, Except.pure, Flt.sub_fin]
    obtain ⟨r, hr, e1, t, ht, e2, e3⟩ := hS.brentq _ (fun t => F lp a b t - p) a b xtol hab hf
      ((F_continuousOn h).sub continuousOn_const) (by
        rw [c0 a le_rfl, c1 b le_rfl]
        nlinarith) hx
    refine ⟨r, hr, ?_, t, ht, by linarith, e3⟩
    unfold Dist.quantile
    rw [if_neg (by simp [p0, p1])]
    dsimp only [obj]
    rw [if_neg (by
      rintro ((h | h) | (h | h))
      · exact EReal.coe_ne_top _ h
      · exact EReal.coe_ne_bot _ h
      · exact EReal.coe_ne_top _ h
      · exact EReal.coe_ne_bot _ h), EReal.toReal_coe, EReal.toReal_coe]
    exact e1
  · unfold Dist.quantile
    rw [if_pos]
    rintro ⟨h1, h2⟩
    rcases hp with hp | hp <;> linarith
  · unfold Dist.quantile
    dsimp only [obj]
    split_ifs with h1 h2
    · rfl
    · exfalso; apply h2; tauto
    · rfl

/-! ## The statistics of a criterion -/

/-- **C155** The statistics by integration of a criterion `c` with values at least -709 and not
almost everywhere above 745: mean and variance, five quantiles and a mode, all between the
bounds. -/
theorem stats_ok {S : Scipy} (hS : S.Ok) {g : ℝ → EReal} {lo hi : ℝ} (opt : ℝ) (hopt : opt ∈ Icc lo hi)
    (h : Valid (fun x => - g x) lo hi) (hm : 0 < mass (fun x => - g x) lo hi) :
    ∃ m v a b c d e o : ℝ, stats S (fun x => .ok (.num (g x))) opt lo hi =
        .ok ⟨.fin m, .fin v, .fin a, .fin b, .fin c, .fin d, .fin e, .fin o⟩ ∧
      m = ∫ t in R lo hi, t * (dens (fun x => - g x) t / mass (fun x => - g x) lo hi) ∧
      v = ∫ t in R lo hi, (t - m) ^ 2 * (dens (fun x => - g x) t / mass (fun x => - g x) lo hi) ∧
      lo ≤ m ∧ m ≤ hi ∧ 0 ≤ v ∧ v ≤ (hi - m) * (m - lo) ∧ o ∈ Icc lo hi ∧
      ∀ pr ∈ [((1 / 10 : ℝ), a), (1 / 4, b), (1 / 2, c), (3 / 4, d), (9 / 10, e)], pr.2 ∈ Icc lo hi ∧
        ∃ t ∈ Icc lo hi, F (fun x => - g x) lo hi t = pr.1 ∧ |pr.2 - t| ≤ 1 / 1000000 + 1 / 2 ^ 50 * |t| := by
  have hlt : lo < hi := by have := h.lt; exact EReal.coe_lt_coe_iff.mp this
  obtain ⟨m, v, e1, e2, e3, e4, e5, e6⟩ := moments_bounds hS h hm
  obtain ⟨m', v', e1', e2', e7, e8, -⟩ := moments hS h hm (by simpa using moment_int h 1) (moment_int h 2)
  obtain rfl : m = m' := Flt.fin_inj.mp (Except.ok.inj (e1.symm.trans e1'))
  obtain rfl : v = v' := Flt.fin_inj.mp (Except.ok.inj (e2.symm.trans e2'))
  have Q := fun p p0 p1 => (quantile_spec hS (lp := fun x => - g x)).1 h hm p (1 / 1000000) p0 p1 (by norm_num)
  obtain ⟨a, a1, a2, a3⟩ := Q (1 / 10) (by norm_num) (by norm_num)
  obtain ⟨b, b1, b2, b3⟩ := Q (1 / 4) (by norm_num) (by norm_num)
  obtain ⟨c, c1, c2, c3⟩ := Q (1 / 2) (by norm_num) (by norm_num)
  obtain ⟨d, d1, d2, d3⟩ := Q (3 / 4) (by norm_num) (by norm_num)
  obtain ⟨e, f1, f2, f3⟩ := Q (9 / 10) (by norm_num) (by norm_num)
  obtain ⟨r, hr, s, hs⟩ := hS.minimize (fun x => .ok (.num (g x))) lo hi hlt fun x _ => ⟨_, rfl⟩
  have hi0 := (init_spec hS (fun x => - g x) lo hi (fun _ => .ok .nan)).1 h hm
  have hneg : (fun x => (do return (← (.ok (.num (g x)) : Py Flt)).neg : Py Flt)) = fun x => .ok (.num (- g x)) := rfl
  refine ⟨m, v, a, b, c, d, e, if s then r else opt, ?_, e7, e8, e3, e4, e5, e6, ?_, ?_⟩
  · unfold stats
    have hi0' : init S (fun x => (do return (← (.ok (.num (g x)) : Py Flt)).neg : Py Flt)) (.num (Flt.fin lo))
        (.num (Flt.fin hi)) = .ok (obj (fun x => - g x) lo hi) := hi0
    rw [hi0']
    simp only [bind, Except.bind, e1, e2, a2, b2, c2, d2, f2, hs, pure, Except.pure]
  · split_ifs
    · exact hr
    · exact hopt
  · intro pr hpr
    simp only [List.mem_cons, List.not_mem_nil, or_false] at hpr
    rcases hpr with rfl | rfl | rfl | rfl | rfl
    · exact ⟨a1, a3⟩
    · exact ⟨b1, b3⟩
    · exact ⟨c1, c3⟩
    · exact ⟨d1, d3⟩
    · exact ⟨f1, f3⟩

variable {M X I : Type}

/-- **C151** A criterion above 745 everywhere gives statistics on a grid, but integration
raises. -/
theorem large_criterion_false {S : Scipy} (hS : S.Ok) (fisher : M → X → List ℝ → ℝ → Py I) (m : M) (x : X) (i : I)
    (c : List ℝ → ℝ) (hc : ∀ l, 745 < c l) {l : List ℝ} (hl : l ≠ []) {delta : ℝ} (hd : 0 < delta) {n : ℤ} (hn : 2 ≤ n)
    (hf : fisher m x l (1 / 1000) = .ok i) :
    (∃ r, ParamStats.tableFast fisher none (some m) (some x) (some fun a => .ok (Flt.fin (c a))) (some (.floats l)) none
      none delta n = .ok r) ∧
    table S fisher none (some m) (some x) (some fun a => .ok (Flt.fin (c a))) (some (.floats l)) none none delta =
      .error .valueError := by
  constructor
  · have hrow : ∀ j ∈ (List.range l.length).map (fun (i : ℕ) => (i : ℤ)),
        ∃ row, ParamStats.RowOf (fun a => .ok (Flt.fin (c a))) l delta none n j row := by
      intro j hj
      obtain ⟨p, hp, rfl⟩ := List.mem_map.mp hj
      have hp := List.mem_range.mp hp
      obtain ⟨s, hs⟩ := (ParamStats.fast_accepts (fun x => Flt.fin (c (l.set p x))) (l[p] - delta) (l[p] + delta) n).1.mpr
        ⟨hn, by linarith, fun i _ => ⟨fun h => Flt.noConfusion h, fun h => EReal.coe_ne_bot _ (by injection h)⟩, 0, by omega,
          fun h => EReal.coe_ne_top _ (by injection h)⟩
      exact ⟨("param_" ++ toString (p : ℤ), s), p, hp, Or.inl rfl, rfl, _, _, ⟨rfl, rfl⟩, hs⟩
    have hex : ∀ js : List ℤ, (∀ j ∈ js, ∃ row, ParamStats.RowOf (fun a => .ok (Flt.fin (c a))) l delta none n j row) →
        ∃ t, List.Forall₂ (ParamStats.RowOf (fun a => .ok (Flt.fin (c a))) l delta none n) js t := by
      intro js
      induction js with
      | nil => intro _; exact ⟨[], .nil⟩
      | cons j js ih =>
        intro h
        obtain ⟨t, ht⟩ := ih fun k hk => h k (by simp [hk])
        obtain ⟨r, hr⟩ := h j (by simp)
        exact ⟨r :: t, .cons hr ht⟩
    obtain ⟨t, ht⟩ := hex _ hrow
    exact ⟨(t, i), (ParamStats.tableFast_spec fisher none (some m) (some x) _ _ none none delta n rfl t i).mpr ⟨hf, ht⟩⟩
  · cases l with
    | nil => exact absurd rfl hl
    | cons y l =>
      have hp : 0 < (y :: l).length := by simp
      have hsingle : ParamStats.single (fun a => .ok (Flt.fin (c a))) (.floats (y :: l)) (0 : ℤ) =
          fun z => .ok (Flt.fin (c ((y :: l).set 0 z))) := by
        funext z
        exact (ParamStats.single_floats _ _ hp z).1
      have hstats : stats S (fun z => .ok (Flt.fin (c ((y :: l).set 0 z)))) y (y - delta) (y + delta) =
          .error .valueError := by
        unfold stats
        have := init_underflow hS (lp := fun z => ((- c ((y :: l).set 0 z) : ℝ) : EReal)) (a := ((y - delta : ℝ) : EReal))
          (b := ((y + delta : ℝ) : EReal)) (EReal.coe_lt_coe_iff.mpr (by linarith)) fun z _ _ =>
            EReal.coe_lt_coe_iff.mpr (by have := hc ((y :: l).set 0 z); linarith)
        have h2 : init S (fun z => (do return (← (.ok (Flt.fin (c ((y :: l).set 0 z))) : Py Flt)).neg : Py Flt))
          (.num (Flt.fin (y - delta))) (.num (Flt.fin (y + delta))) = .error .valueError := this
        rw [h2]
        rfl
      unfold table
      simp only [ParamStats.resolve, Option.or, bind, Except.bind, ParamStats.Vec.vals, Option.getD_none, List.length_cons,
        List.range_succ_eq_map, List.map_cons, ParamStats.rows, List.mapM_cons]
      have h0 : pyGet (y :: l) ((0 : ℕ) : ℤ) = .ok y := pyGet_nat _ 0 hp
      rw [h0]
      simp only [ParamStats.range]
      have hs0 : ((0 : ℕ) : ℤ) = 0 := rfl
      rw [hs0, hsingle, hstats]

example : ∃ S : Scipy, table S (fun (_ : Unit) (_ : Unit) (_ : List ℝ) (_ : ℝ) => .ok ()) none (some ()) (some ())
    (some fun _ => .ok (Flt.fin 1000)) (some (.floats [0])) none none 5 = .error .valueError := by
  obtain ⟨S, hS⟩ := exists_scipy
  exact ⟨S, (large_criterion_false hS (fun (_ : Unit) (_ : Unit) (_ : List ℝ) (_ : ℝ) => .ok ()) () () () (fun _ => 1000)
    (fun _ => by norm_num) (l := [0]) (by simp) (by norm_num) (n := 2) le_rfl rfl).2⟩

/-- **C151** When the values stay between -745 and 709, adding a constant changes neither the
density, the distribution function, the mean nor the variance. -/
theorem shift_same {S : Scipy} (hS : S.Ok) {lp : ℝ → ℝ} (hlp : Measurable lp) {c a b : ℝ} (hab : a < b)
    (h1 : ∀ x ∈ Icc a b, -745 ≤ lp x ∧ lp x ≤ 709) (h2 : ∀ x ∈ Icc a b, -745 ≤ lp x + c ∧ lp x + c ≤ 709) :
    ∃ d d', init S (fun x => .ok (Flt.fin (lp x))) (.num (Flt.fin a)) (.num (Flt.fin b)) = .ok d ∧
      init S (fun x => .ok (Flt.fin (lp x + c))) (.num (Flt.fin a)) (.num (Flt.fin b)) = .ok d' ∧
      (∀ x ∈ Icc a b, d.pdf [x] = d'.pdf [x]) ∧ (∀ x, d.cdf S x = d'.cdf S x) ∧ d.mean S = d'.mean S ∧ d.var S = d'.var S := by
  let L : ℝ → EReal := fun x => ((lp x : ℝ) : EReal)
  let L' : ℝ → EReal := fun x => ((lp x + c : ℝ) : EReal)
  have v1 : Valid L a b := valid_of_measurable hlp.coe_real_ereal hab fun x hx => EReal.coe_le_coe_iff.mpr (h1 x hx).2
  have v2 : Valid L' a b := valid_of_measurable (hlp.add_const c).coe_real_ereal hab fun x hx =>
    EReal.coe_le_coe_iff.mpr (h2 x hx).2
  have e1 : ∀ x ∈ Icc a b, dens L x = Real.exp (lp x) := fun x hx => by
    unfold dens
    rw [if_neg (by rw [EReal.coe_lt_coe_iff]; exact not_lt.mpr (h1 x hx).1), EReal.toReal_coe]
  have e2 : ∀ x ∈ Icc a b, dens L' x = Real.exp c * dens L x := fun x hx => by
    rw [e1 x hx, ← Real.exp_add, add_comm]
    unfold dens
    rw [if_neg (by rw [EReal.coe_lt_coe_iff]; exact not_lt.mpr (h2 x hx).1), EReal.toReal_coe]
  have sub : R a b ⊆ Icc a b := by rw [R_coe]; exact Ioo_subset_Icc_self
  have m2 : mass L' a b = Real.exp c * mass L a b := by
    unfold mass
    rw [← integral_const_mul]
    exact setIntegral_congr_fun (measurableSet_R _ _) fun x hx => e2 x (sub hx)
  have m1 : 0 < mass L a b := by
    unfold mass
    rw [R_coe, setIntegral_pos_iff_support_of_nonneg_ae (Filter.Eventually.of_forall fun x => dens_nonneg L x)
      (by have := v1.int; rwa [R_coe] at this)]
    have : Function.support (dens L) ∩ Ioo a b = Ioo a b := by
      refine inter_eq_right.mpr fun x hx => ?_
      rw [Function.mem_support, e1 x (Ioo_subset_Icc_self hx)]
      exact (Real.exp_pos _).ne'
    rw [this]
    simp [hab]
  have m2' : 0 < mass L' a b := by rw [m2]; exact mul_pos (Real.exp_pos _) m1
  have ratio : ∀ x ∈ Icc a b, dens L' x / mass L' a b = dens L x / mass L a b := fun x hx => by
    rw [e2 x hx, m2, mul_div_mul_left _ _ (Real.exp_pos c).ne']
  refine ⟨obj L a b, obj L' a b, (init_spec hS L a b (fun _ => .ok .nan)).1 v1 m1,
    (init_spec hS L' a b (fun _ => .ok .nan)).1 v2 m2', fun x hx => ?_, fun x => ?_, ?_⟩
  · have hp : ∀ {K : ℝ → EReal}, Valid K a b → 0 < mass K a b →
        (obj K a b).pdf [x] = .ok [Flt.fin (dens K x / mass K a b)] := fun {K} v m => by
      unfold Dist.pdf Dist.f obj
      dsimp only
      rw [ParamStats.mapM_ok [x] (g := fun x => Flt.fin (dens K x)) fun y hy => fScalar_eq (v.le y (by
        rw [List.mem_singleton.mp hy]; exact EReal.coe_le_coe_iff.mpr hx.1) (by
        rw [List.mem_singleton.mp hy]; exact EReal.coe_le_coe_iff.mpr hx.2))]
      simp only [bind, Except.bind, pure, Except.pure, List.map_cons, List.map_nil, Flt.div_fin m.ne']
    rw [hp v1 m1, hp v2 m2', ratio x hx]
  · rw [cdf_eq hS v1 m1, cdf_eq hS v2 m2']
    congr 2
    unfold F
    have : ∫ y in R a b ∩ Iic x, dens L' y = Real.exp c * ∫ y in R a b ∩ Iic x, dens L y := by
      rw [← integral_const_mul]
      exact setIntegral_congr_fun ((measurableSet_R _ _).inter measurableSet_Iic) fun y hy => e2 y (sub hy.1)
    rw [this, m2, mul_div_mul_left _ _ (Real.exp_pos c).ne']
  · obtain ⟨m, v, p1, p2, p3, p4, -⟩ := moments hS v1 m1 (by simpa using moment_int v1 1) (moment_int v1 2)
    obtain ⟨m', v', q1, q2, q3, q4, -⟩ := moments hS v2 m2' (by simpa using moment_int v2 1) (moment_int v2 2)
    have hmm : m = m' := by
      rw [p3, q3]
      exact setIntegral_congr_fun (measurableSet_R _ _) fun t ht => by rw [ratio t (sub ht)]
    have hvv : v = v' := by
      rw [p4, q4, hmm]
      exact setIntegral_congr_fun (measurableSet_R _ _) fun t ht => by rw [ratio t (sub ht)]
    exact ⟨by rw [p1, q1, hmm], by rw [p2, q2, hvv]⟩

example : ∃ S : Scipy, S.Ok ∧ ∃ d d', init S (fun x => .ok (Flt.fin (-x))) (.num (Flt.fin 0)) (.num (Flt.fin 1)) = .ok d ∧
    init S (fun x => .ok (Flt.fin (-x + -700))) (.num (Flt.fin 0)) (.num (Flt.fin 1)) = .ok d' ∧ d.mean S = d'.mean S := by
  obtain ⟨S, hS⟩ := exists_scipy
  obtain ⟨d, d', h1, h2, -, -, h3, -⟩ := shift_same hS (lp := fun x => -x) (c := -700) (a := 0) (b := 1) measurable_neg
    one_pos (fun x hx => ⟨by have := hx.2; linarith, by have := hx.1; linarith⟩)
    (fun x hx => ⟨by have := hx.2; linarith, by have := hx.1; linarith⟩)
  exact ⟨S, hS, d, d', h1, h2, h3⟩

/-- The hypotheses of `stats_ok` hold for the criterion zero on the unit interval. -/
example : Valid (fun _ => -((0 : ℝ) : EReal)) ((0 : ℝ) : EReal) ((1 : ℝ) : EReal) ∧
    0 < mass (fun _ => -((0 : ℝ) : EReal)) ((0 : ℝ) : EReal) ((1 : ℝ) : EReal) := by
  refine ⟨valid_of_measurable measurable_const one_pos fun x _ => by
    rw [← EReal.coe_neg]; exact_mod_cast (by norm_num : (-0 : ℝ) ≤ 709), ?_⟩
  have h0 : (fun _ : ℝ => -((0 : ℝ) : EReal)) = fun _ => ((0 : ℝ) : EReal) := by funext; simp
  have : ∀ x, dens (fun _ => ((0 : ℝ) : EReal)) x = 1 := fun x => by
    unfold dens
    rw [if_neg (by rw [EReal.coe_lt_coe_iff]; norm_num), EReal.toReal_coe, Real.exp_zero]
  unfold mass
  rw [h0]
  simp only [this, R_coe]
  simp

section Table

open ParamStats

variable {M X I : Type}

/-- What a row of the table should be: parameter `j` moves in the box, or within `delta` of the
reference, the other parameters are those of the reference. -/
def RowOf (S : Scipy) (f : List ℝ → Py Flt) (l : List ℝ) (delta : ℝ) (box : Option (List ℝ × List ℝ)) (j : ℤ)
    (row : String × Stats) : Prop :=
  ∃ p : ℕ, ∃ hp : p < l.length, (j = p ∨ j = (p : ℤ) - l.length) ∧ row.1 = "param_" ++ toString j ∧
    ∃ lo hi, (match box with
      | none => lo = l[p] - delta ∧ hi = l[p] + delta
      | some b => pyGet b.1 j = .ok lo ∧ pyGet b.2 j = .ok hi) ∧
    stats S (fun x => f (l.set p x)) l[p] lo hi = .ok row.2

theorem row_iff (S : Scipy) (f : List ℝ → Py Flt) (l : List ℝ) (delta : ℝ) (box : Option (List ℝ × List ℝ)) (j : ℤ)
    (row : String × Stats) : (do
      let opt ← pyGet (Vec.floats l).vals j
      let (lo, hi) ← ParamStats.range opt delta box j
      let s ← stats S (single f (.floats l) j) opt lo hi
      return ("param_" ++ toString j, s) : Py (String × Stats)) = .ok row ↔ RowOf S f l delta box j row := by
  have hsingle : ∀ p : ℕ, p < l.length → (j = p ∨ j = (p : ℤ) - l.length) →
      single f (.floats l) j = fun x => f (l.set p x) := fun p hp hj => by
    funext x
    rcases hj with rfl | rfl
    · exact (single_floats f l hp x).1
    · exact (single_floats f l hp x).2
  constructor
  · intro h
    rcases ho : pyGet (Vec.floats l).vals j with e | opt
    · rw [ho] at h; cases h
    rcases hr : ParamStats.range opt delta box j with e | ⟨lo, hi⟩
    · rw [ho] at h; simp only [bind, Except.bind, hr] at h; cases h
    rcases hs : stats S (single f (.floats l) j) opt lo hi with e | s
    · rw [ho] at h; simp only [bind, Except.bind, hr, hs] at h; cases h
    rw [ho] at h
    simp only [bind, Except.bind, hr, hs, pure, Except.pure, Except.ok.injEq] at h
    subst h
    obtain ⟨p, hp, hj, rfl⟩ := (pyGet_iff _ _ _).mp ho
    refine ⟨p, hp, hj, rfl, lo, hi, ?_, by rw [← hsingle p hp hj]; exact hs⟩
    cases box with
    | none =>
      simp only [ParamStats.range, Except.ok.injEq, Prod.mk.injEq] at hr
      exact ⟨hr.1.symm, hr.2.symm⟩
    | some b =>
      simp only [ParamStats.range, bind, Except.bind] at hr
      rcases h1 : pyGet b.1 j with e | u
      · rw [h1] at hr; cases hr
      rcases h2 : pyGet b.2 j with e | u'
      · rw [h1, h2] at hr; cases hr
      rw [h1, h2] at hr
      simp only [pure, Except.pure, Except.ok.injEq, Prod.mk.injEq] at hr
      exact ⟨by rw [h1, hr.1], by rw [h2, hr.2]⟩
  · rintro ⟨p, hp, hj, hn, lo, hi, hb, hs⟩
    have ho : pyGet (Vec.floats l).vals j = .ok l[p] := (pyGet_iff _ _ _).mpr ⟨p, hp, hj, rfl⟩
    rw [ho, hsingle p hp hj]
    have hr : ParamStats.range l[p] delta box j = .ok (lo, hi) := by
      cases box with
      | none => simp only [ParamStats.range, hb.1, hb.2]
      | some b => simp only [ParamStats.range, bind, Except.bind, hb.1, hb.2, pure, Except.pure]
    simp only [bind, Except.bind, hr, hs, pure, Except.pure]
    rw [← hn]

/-- **C149** The table by integration has one row for each index, in order, with the statistics of the
criterion along that parameter; the Fisher information is that of the model at the reference. -/
theorem table_spec (S : Scipy) (fisher : M → X → List ℝ → ℝ → Py I) (info : Option (Info M X)) (model : Option M)
    (xi : Option X) (crit : Option (List ℝ → Py Flt)) (cp : Option Vec) (ind : Option (List ℤ))
    (box : Option (List ℝ × List ℝ)) (delta : ℝ) {f : List ℝ → Py Flt} {l : List ℝ} {m : M} {x : X}
    (h : resolve info model xi crit cp = .ok (f, .floats l, m, x)) (t : List (String × Stats)) (i : I) :
    table S fisher info model xi crit cp ind box delta = .ok (t, i) ↔
      fisher m x l (1 / 1000) = .ok i ∧
      List.Forall₂ (RowOf S f l delta box) (ind.getD ((List.range l.length).map fun (i : ℕ) => (i : ℤ))) t := by
  have hrows : ∀ ind t, rows (stats S) f (.floats l) delta box ind = .ok t ↔
      List.Forall₂ (RowOf S f l delta box) ind t := fun ind t => by
    unfold rows
    rw [mapM_forall₂]
    constructor <;> intro h <;> refine h.imp fun j r hr => ?_
    · exact (row_iff S f l delta box j r).mp hr
    · exact (row_iff S f l delta box j r).mpr hr
  unfold table
  rw [h]
  simp only [bind, Except.bind, Vec.vals]
  rw [← hrows]
  rcases rows (stats S) f (.floats l) delta box
    (ind.getD ((List.range l.length).map fun (i : ℕ) => (i : ℤ))) with e | t'
  · constructor
    · intro h; cases h
    · rintro ⟨_, h⟩; cases h
  · dsimp only
    rcases fisher m x l (1 / 1000) with e | i'
    · constructor
      · intro h; cases h
      · rintro ⟨h, _⟩; cases h
    · simp only [pure, Except.pure, Except.ok.injEq, Prod.mk.injEq]
      tauto

/-- Concrete case of `table_spec`: the inputs, the model, the criterion and the parameters are given. -/
example (f : List ℝ → Py Flt) : resolve (none : Option (Info Unit Unit)) (some ()) (some ()) (some f)
    (some (.floats [1, 2])) = .ok (f, .floats [1, 2], (), ()) := rfl

end Table

end Verif.Un1d
