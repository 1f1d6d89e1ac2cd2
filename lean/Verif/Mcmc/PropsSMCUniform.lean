import Verif.Mcmc.PropsSMCAdaptRun

/-!
# C265: a run whose temperatures are chosen by looking at the particles is consistent (families
of densities)
-/

set_option autoImplicit false

open MeasureTheory ProbabilityTheory Filter Topology Matrix
open scoped ENNReal

namespace Verif.SMC

open Verif

variable {d : ℕ} {T : Type} [TopologicalSpace T]

/-- Densities on `S` between `m` and `M`, continuous in their parameter, uniformly on `S`. -/
structure Family (S : Set (Pt d)) (dens : T → Pt d → ℝ) (m M : ℝ) : Prop where
  ok : ∀ t, Dens S (dens t)
  pos : 0 < m
  le : m ≤ M
  low : ∀ t y, y ∈ S → m ≤ dens t y
  high : ∀ t y, y ∈ S → dens t y ≤ M
  cont : ∀ t0 (ε : ℝ), 0 < ε → ∀ᶠ t in 𝓝 t0, ∀ y ∈ S, |dens t y - dens t0 y| ≤ ε

/-- Small when there are many particles and finitely many averages are accurate, uniformly in
the parameter. -/
def CtlU (S : Set (Pt d)) (dens : T → Pt d → ℝ) (V : T → Fun d) : Prop :=
  ∀ ε : ℝ, 0 < ε → ∃ (Phi : List (Pt d → ℝ)) (B : ℝ), 0 ≤ B ∧ (∀ φ ∈ Phi, Unit1 φ) ∧
    ∀ t N, 2 ≤ N → ∀ x : Fin N → Pt d, (∀ i, x i ∈ S) →
      V t N x ≤ ENNReal.ofReal (ε + B / N + B * (Phi.map fun φ => err (dens t) φ x).sum)

section ctl

omit [TopologicalSpace T]

variable {S : Set (Pt d)} {dens : T → Pt d → ℝ} {V W : T → Fun d}

theorem CtlU.at (h : CtlU S dens V) (t : T) : Ctl S (dens t) (V t) := by
  intro ε hε
  obtain ⟨Phi, B, hB, hu, hb⟩ := h ε hε
  exact ⟨Phi, B, hB, hu, hb t⟩

theorem ctlU_mono (hW : CtlU S dens W)
    (h : ∀ t N, 2 ≤ N → ∀ x : Fin N → Pt d, (∀ i, x i ∈ S) → V t N x ≤ W t N x) : CtlU S dens V := by
  intro ε hε
  obtain ⟨Phi, B, hB, hu, hb⟩ := hW ε hε
  exact ⟨Phi, B, hB, hu, fun t N hN x hx => (h t N hN x hx).trans (hb t N hN x hx)⟩

theorem ctlU_err {f : Pt d → ℝ} (hf : Unit1 f) :
    CtlU S dens fun t _ x => ENNReal.ofReal (err (dens t) f x) := by
  intro ε hε
  refine ⟨[f], 1, zero_le_one, by simpa using hf, fun t N hN x _ => ENNReal.ofReal_le_ofReal ?_⟩
  have : (0 : ℝ) ≤ 1 / N := by positivity
  simp only [List.map_cons, List.map_nil, List.sum_cons, List.sum_nil, add_zero, one_mul]
  linarith

theorem ctlU_inv {c : ℝ} (hc : 0 ≤ c) : CtlU S dens fun _ N _ => ENNReal.ofReal (c / N) := by
  intro ε hε
  refine ⟨[], c, hc, by simp, fun t N hN x _ => ENNReal.ofReal_le_ofReal ?_⟩
  simp only [List.map_nil, List.sum_nil, mul_zero, add_zero]
  linarith

theorem ctlU_add (hV : CtlU S dens V) (hW : CtlU S dens W) : CtlU S dens fun t N x => V t N x + W t N x := by
  intro ε hε
  obtain ⟨P, B, hB, hu, hb⟩ := hV (ε / 2) (by linarith)
  obtain ⟨Q, C, hC, hu', hb'⟩ := hW (ε / 2) (by linarith)
  refine ⟨P ++ Q, B + C, by linarith, ?_, fun t N hN x hx => ?_⟩
  · intro φ h
    rcases List.mem_append.1 h with h | h
    · exact hu φ h
    · exact hu' φ h
  · have h1 := errs_nonneg (g := dens t) P x
    have h2 := errs_nonneg (g := dens t) Q x
    refine (add_le_add (hb t N hN x hx) (hb' t N hN x hx)).trans ?_
    rw [← ENNReal.ofReal_add (by positivity) (by positivity), List.map_append, List.sum_append]
    refine ENNReal.ofReal_le_ofReal ?_
    have h3 : (B + C) / (N : ℝ) = B / N + C / N := add_div _ _ _
    rw [h3]
    nlinarith [mul_nonneg hB h2, mul_nonneg hC h1]

theorem ctlU_mul (hV : CtlU S dens V) {c : ℝ} (hc : 0 ≤ c) :
    CtlU S dens fun t N x => ENNReal.ofReal c * V t N x := by
  intro ε hε
  obtain ⟨P, B, hB, hu, hb⟩ := hV (ε / (c + 1)) (by positivity)
  refine ⟨P, c * B, by positivity, hu, fun t N hN x hx => ?_⟩
  refine (mul_le_mul_right (hb t N hN x hx) _).trans ?_
  rw [← ENNReal.ofReal_mul hc]
  refine ENNReal.ofReal_le_ofReal ?_
  have h1 : c * (ε / (c + 1)) ≤ ε := by
    rw [mul_div_assoc', div_le_iff₀ (by positivity)]
    nlinarith
  have h2 : c * (B / (N : ℝ)) = c * B / N := by ring
  nlinarith

theorem ctlU_lim (h : ∀ ε : ℝ, 0 < ε → ∃ W : T → Fun d, CtlU S dens W ∧
    ∀ t N, 2 ≤ N → ∀ x : Fin N → Pt d, (∀ i, x i ∈ S) → V t N x ≤ ENNReal.ofReal ε + W t N x) :
    CtlU S dens V := by
  intro ε hε
  obtain ⟨W, hW, hVW⟩ := h (ε / 2) (by linarith)
  obtain ⟨P, B, hB, hu, hb⟩ := hW (ε / 2) (by linarith)
  refine ⟨P, B, hB, hu, fun t N hN x hx => ?_⟩
  refine (hVW t N hN x hx).trans ((add_le_add le_rfl (hb t N hN x hx)).trans ?_)
  have h1 := errs_nonneg (g := dens t) P x
  rw [← ENNReal.ofReal_add (by positivity) (by positivity)]
  exact ENNReal.ofReal_le_ofReal (by linarith)

theorem ctlU_zero : CtlU S dens fun _ _ _ => 0 :=
  fun ε hε => ⟨[], 0, le_rfl, by simp, fun t N hN x _ => zero_le⟩

theorem ctlU_list {α : Type} (F : α → T → Fun d) (L : List α) (h : ∀ a ∈ L, CtlU S dens (F a)) :
    CtlU S dens fun t N x => (L.map fun a => F a t N x).sum := by
  induction L with
  | nil => exact ctlU_zero
  | cons a L ih =>
    simp only [List.map_cons, List.sum_cons]
    exact ctlU_add (h a (by simp)) (ih fun b hb => h b (by simp [hb]))

theorem ctlU_sum {α : Type} (s : Finset α) (F : α → T → Fun d) (h : ∀ a ∈ s, CtlU S dens (F a)) :
    CtlU S dens fun t N x => ∑ a ∈ s, F a t N x := by
  classical
  induction s using Finset.induction_on with
  | empty => simpa using ctlU_zero
  | insert a s ha ih =>
    simp only [Finset.sum_insert ha]
    exact ctlU_add (h a (by simp)) (ih fun b hb => h b (by simp [hb]))

/-- The worst of a family. -/
theorem ctlU_sup {T' : Type} {F : T × T' → Fun d}
    (h : CtlU S (fun p : T × T' => dens p.1) F) : CtlU S dens fun t N x => ⨆ t', F (t, t') N x := by
  intro ε hε
  obtain ⟨Phi, B, hB, hu, hb⟩ := h ε hε
  exact ⟨Phi, B, hB, hu, fun t N hN x hx => iSup_le fun t' => hb (t, t') N hN x hx⟩

/-- The parameters may be named otherwise. -/
theorem ctlU_comp {T' : Type} (a : T' → T) (h : CtlU S dens V) : CtlU S (fun t => dens (a t)) fun t => V (a t) := by
  intro ε hε
  obtain ⟨Phi, B, hB, hu, hb⟩ := h ε hε
  exact ⟨Phi, B, hB, hu, fun t => hb (a t)⟩

end ctl

/-- It is enough to look near each parameter. -/
theorem ctlU_local [CompactSpace T] {S : Set (Pt d)} {dens : T → Pt d → ℝ} {V : T → Fun d}
    (h : ∀ t0, ∀ ε : ℝ, 0 < ε → ∃ (Phi : List (Pt d → ℝ)) (B : ℝ), 0 ≤ B ∧ (∀ φ ∈ Phi, Unit1 φ) ∧
      ∀ᶠ t in 𝓝 t0, ∀ N, 2 ≤ N → ∀ x : Fin N → Pt d, (∀ i, x i ∈ S) →
        V t N x ≤ ENNReal.ofReal (ε + B / N + B * (Phi.map fun φ => err (dens t) φ x).sum)) :
    CtlU S dens V := by
  intro ε hε
  choose Phi B hB hu hev using fun t0 => h t0 ε hε
  obtain ⟨s, hs⟩ := CompactSpace.elim_nhds_subcover (fun t0 => {t | ∀ N, 2 ≤ N → ∀ x : Fin N → Pt d,
    (∀ i, x i ∈ S) → V t N x ≤ ENNReal.ofReal (ε + B t0 / N + B t0 * ((Phi t0).map fun φ => err (dens t) φ x).sum)})
    (fun t0 => hev t0)
  have key : ∀ s : Finset T, ∃ (P : List (Pt d → ℝ)) (C : ℝ), 0 ≤ C ∧ (∀ φ ∈ P, Unit1 φ) ∧
      ∀ t0 ∈ s, B t0 ≤ C ∧ ∀ t N (x : Fin N → Pt d), ((Phi t0).map fun φ => err (dens t) φ x).sum ≤
        (P.map fun φ => err (dens t) φ x).sum := by
    classical
    intro s
    induction s using Finset.induction_on with
    | empty => exact ⟨[], 0, le_rfl, by simp, by simp⟩
    | insert a s ha ih =>
      obtain ⟨P, C, hC, hu', hb⟩ := ih
      refine ⟨Phi a ++ P, B a + C, add_nonneg (hB a) hC, ?_, ?_⟩
      · intro φ h
        rcases List.mem_append.1 h with h | h
        · exact hu a φ h
        · exact hu' φ h
      · intro t0 ht0
        rcases Finset.mem_insert.1 ht0 with rfl | ht0
        · refine ⟨by linarith, fun t N x => ?_⟩
          rw [List.map_append, List.sum_append]
          have := errs_nonneg (g := dens t) P x
          linarith
        · obtain ⟨h1, h2⟩ := hb t0 ht0
          refine ⟨by linarith [hB a], fun t N x => ?_⟩
          rw [List.map_append, List.sum_append]
          have := errs_nonneg (g := dens t) (Phi a) x
          linarith [h2 t N x]
  obtain ⟨P, C, hC, hu', hb⟩ := key s
  refine ⟨P, C, hC, hu', fun t N hN x hx => ?_⟩
  have ht : t ∈ (⊤ : Set T) := trivial
  rw [← hs] at ht
  simp only [Set.mem_iUnion] at ht
  obtain ⟨t0, ht0, hm⟩ := ht
  obtain ⟨h1, h2⟩ := hb t0 ht0
  refine (hm N hN x hx).trans (ENNReal.ofReal_le_ofReal ?_)
  have h3 : B t0 / (N : ℝ) ≤ C / N := by gcongr
  have h4 := mul_le_mul h1 (h2 t N x) (errs_nonneg _ _) hC
  linarith

/-! ## Continuity in the parameter -/

section family

variable {S : Set (Pt d)} {dens : T → Pt d → ℝ} {m M : ℝ} (hF : Family S dens m M)

include hF

theorem Family.zero (t : T) {y : Pt d} (hy : y ∉ S) : dens t y = 0 :=
  le_antisymm (not_lt.1 fun h => hy (((hF.ok t).pos y).1 h)) ((hF.ok t).nonneg y)

theorem Family.vol (hS : MeasurableSet S) (t : T) : volume S < ⊤ := by
  have hi := (hF.ok t).int
  have h : Integrable (S.indicator fun _ => m) volume := by
    refine hi.mono' ((measurable_const.indicator hS).aestronglyMeasurable) (ae_of_all _ fun y => ?_)
    by_cases hy : y ∈ S
    · rw [Set.indicator_of_mem hy, Real.norm_eq_abs, abs_of_pos hF.pos]
      exact hF.low t y hy
    · rw [Set.indicator_of_notMem hy, norm_zero]
      exact (hF.ok t).nonneg y
  rw [integrable_indicator_iff hS, integrableOn_const_iff] at h
  rcases h with h | h
  · simp [hF.pos.ne'] at h
  · exact h

theorem Family.integral_tendsto (hS : MeasurableSet S) {f : Pt d → ℝ} (hf : Unit1 f) (t0 : T) :
    Tendsto (fun t => ∫ y, f y * dens t y) (𝓝 t0) (𝓝 (∫ y, f y * dens t0 y)) := by
  have hv := hF.vol hS t0
  have hint : ∀ t, Integrable (fun y => f y * dens t y) volume := fun t =>
    (hF.ok t).int.bdd_mul hf.meas.aestronglyMeasurable (c := 1) (ae_of_all _ fun y => by
      rw [Real.norm_eq_abs]; exact hf.bound y)
  rw [Metric.tendsto_nhds]
  intro ε hε
  set c := volume.real S with hc
  have hc0 : 0 ≤ c := measureReal_nonneg
  filter_upwards [hF.cont t0 (ε / (2 * (c + 1))) (by positivity)] with t ht
  rw [Real.dist_eq, ← integral_sub (hint t) (hint t0)]
  have e : ∫ y, (f y * dens t y - f y * dens t0 y) = ∫ y in S, (f y * dens t y - f y * dens t0 y) := by
    refine (setIntegral_eq_integral_of_forall_compl_eq_zero fun y hy => ?_).symm
    rw [hF.zero t hy, hF.zero t0 hy, sub_self]
  rw [e, ← Real.norm_eq_abs]
  refine (norm_setIntegral_le_of_norm_le_const hv (C := ε / (2 * (c + 1))) fun y hy => ?_).trans_lt ?_
  · rw [← mul_sub, Real.norm_eq_abs, abs_mul]
    exact (mul_le_of_le_one_left (abs_nonneg _) (hf.bound y)).trans (ht y hy)
  · rw [← hc, div_mul_eq_mul_div, div_lt_iff₀ (by positivity)]
    nlinarith

theorem Family.target_tendsto (hS : MeasurableSet S) {f : Pt d → ℝ} (hf : Unit1 f) (t0 : T) :
    Tendsto (fun t => ∫ y, f y ∂MH.targetLaw volume (dens t)) (𝓝 t0)
      (𝓝 (∫ y, f y ∂MH.targetLaw volume (dens t0))) := by
  have e : ∀ t, ∫ y, f y ∂MH.targetLaw volume (dens t) = (∫ y, f y * dens t y) / ∫ y, dens t y := fun t =>
    target_integral (hF.ok t).meas (hF.ok t).nonneg (hF.ok t).int _
  have h1 : Tendsto (fun t => ∫ y, dens t y) (𝓝 t0) (𝓝 (∫ y, dens t0 y)) := by
    have := hF.integral_tendsto hS (f := fun _ => 1) ⟨measurable_const, fun _ => by simp⟩ t0
    simpa only [one_mul] using this
  simp only [e]
  exact (hF.integral_tendsto hS hf t0).div h1 (hF.ok t0).mass.ne'

theorem Family.cov_tendsto (hS : MeasurableSet S) {R : ℝ} (hR : 0 < R) (hb : ∀ y ∈ S, ∀ a, |y a| ≤ R)
    (t0 : T) (a b : Fin d) :
    Tendsto (fun t => lawCov S R (dens t) a b) (𝓝 t0) (𝓝 (lawCov S R (dens t0) a b)) := by
  have hc := fun a => coord_unit1 hS hR hb a
  simp only [lawCov, Matrix.of_apply]
  exact ((hF.target_tendsto hS ((hc a).mul (hc b)) t0).sub ((hF.target_tendsto hS (hc a) t0).mul
    (hF.target_tendsto hS (hc b) t0))).const_mul _

/-- The ratio of two densities depends continuously on the parameters. -/
theorem Family.ratio_diff {t s t0 s0 : T} {x y : Pt d} (hx : x ∈ S) (hy : y ∈ S) {η : ℝ}
    (h1 : |dens t x - dens t0 x| ≤ η) (h2 : |dens s y - dens s0 y| ≤ η) :
    |dens s y / dens t x - dens s0 y / dens t0 x| ≤ (m + M) / m ^ 2 * η := by
  have a1 := hF.low t x hx
  have a2 := hF.low t0 x hx
  have a3 := hF.low s0 y hy
  have a4 := hF.high s0 y hy
  have hm := hF.pos
  have p1 : 0 < dens t x := by linarith
  have p2 : 0 < dens t0 x := by linarith
  have e : dens s y / dens t x - dens s0 y / dens t0 x =
      (dens s y - dens s0 y) / dens t x - dens s0 y * (dens t x - dens t0 x) / (dens t x * dens t0 x) := by
    field_simp
    ring
  have hη : 0 ≤ η := (abs_nonneg _).trans h1
  rw [e]
  refine (abs_sub _ _).trans ?_
  have b1 : |(dens s y - dens s0 y) / dens t x| ≤ η / m := by
    rw [abs_div, abs_of_pos p1]
    exact div_le_div₀ hη h2 hm a1
  have b2 : |dens s0 y * (dens t x - dens t0 x) / (dens t x * dens t0 x)| ≤ M * η / (m * m) := by
    rw [abs_div, abs_mul, abs_of_pos (by linarith : 0 < dens s0 y), abs_of_pos (mul_pos p1 p2)]
    refine div_le_div₀ (mul_nonneg (by linarith) hη) (mul_le_mul a4 h1 (abs_nonneg _) (by linarith)) (by positivity)
      (mul_le_mul a1 a2 hm.le p1.le)
  refine (add_le_add b1 b2).trans (le_of_eq ?_)
  field_simp

/-- The expectation after a move depends continuously on the density. -/
theorem Family.kern_diff {K : Matrix (Fin d) (Fin d) ℝ} {f : Pt d → ℝ} (hf : Unit1 f) {t t0 : T} {η : ℝ}
    (hη : 0 ≤ η) (h : ∀ y ∈ S, |dens t y - dens t0 y| ≤ η) {x : Pt d} (hx : x ∈ S) :
    |kern (dens t) K f x - kern (dens t0) K f x| ≤ 2 * ((m + M) / m ^ 2 * η) := by
  classical
  have hm := hF.pos
  have hM : m ≤ M := (hF.low t x hx).trans (hF.high t x hx)
  set c := (m + M) / m ^ 2 * η with hc
  have hc0 : 0 ≤ c := mul_nonneg (div_nonneg (by linarith) (by positivity)) hη
  have hme : ∀ t, Measurable fun v : Pt d × ℝ => f (moved (dens t) (x, v)) := fun t =>
    hf.meas.comp ((moved_measurable (hF.ok t).meas).comp measurable_prodMk_left)
  have hint : ∀ t, Integrable (fun v : Pt d × ℝ => f (moved (dens t) (x, v)))
      ((Core.normalLaw 0 K).prod unitLaw) := fun t =>
    Integrable.of_bound (hme t).aestronglyMeasurable 1 (ae_of_all _ fun v => by
      rw [Real.norm_eq_abs]; exact hf.bound _)
  unfold kern noiseLaw
  rw [← integral_sub (hint t) (hint t0), integral_prod (fun v : Pt d × ℝ => f (moved (dens t) (x, v)) - f (moved (dens t0) (x, v)))
    ((hint t).sub (hint t0)), ← Real.norm_eq_abs]
  have hin : ∀ e : Pt d, ‖∫ u, (f (moved (dens t) (x, (e, u))) - f (moved (dens t0) (x, (e, u)))) ∂unitLaw‖ ≤ 2 * c := by
    intro e
    have p1 := ((hF.ok t).pos x).2 hx
    have p2 := ((hF.ok t0).pos x).2 hx
    by_cases hy : x + e ∈ S
    · set r := dens t (x + e) / dens t x with hr
      set r0 := dens t0 (x + e) / dens t0 x with hr0
      have hrr : |r - r0| ≤ c := hF.ratio_diff hx hy (h x hx) (h _ hy)
      set I := Set.Ico (min r r0) (max r r0) with hI
      have hbound : ∀ u : ℝ, ‖f (moved (dens t) (x, (e, u))) - f (moved (dens t0) (x, (e, u)))‖ ≤
          I.indicator (fun _ => (2 : ℝ)) u := by
        intro u
        have c1 : u * dens t x < dens t (x + e) ↔ u < r := by rw [hr, lt_div_iff₀ p1]
        have c2 : u * dens t0 x < dens t0 (x + e) ↔ u < r0 := by rw [hr0, lt_div_iff₀ p2]
        by_cases hu : u ∈ I
        · rw [Set.indicator_of_mem hu, Real.norm_eq_abs]
          refine (abs_sub _ _).trans ?_
          have := hf.bound (moved (dens t) (x, (e, u)))
          have := hf.bound (moved (dens t0) (x, (e, u)))
          linarith
        · rw [Set.indicator_of_notMem hu]
          have hiff : u < r ↔ u < r0 := by
            simp only [hI, Set.mem_Ico, not_and_or, not_le, not_lt] at hu
            rcases hu with hu | hu
            · exact iff_of_true (lt_min_iff.1 hu).1 (lt_min_iff.1 hu).2
            · exact iff_of_false (not_lt.2 ((le_max_left _ _).trans hu)) (not_lt.2 ((le_max_right _ _).trans hu))
          simp only [moved, c1, c2, hiff, sub_self, norm_zero, le_refl]
      have hIi : Integrable (I.indicator fun _ => (2 : ℝ)) unitLaw :=
        (integrable_const _).indicator measurableSet_Ico
      refine (norm_integral_le_of_norm_le hIi (ae_of_all _ hbound)).trans ?_
      rw [integral_indicator measurableSet_Ico, setIntegral_const, smul_eq_mul, mul_comm]
      refine mul_le_mul_of_nonneg_left ?_ (by norm_num)
      have h1 : unitLaw I ≤ ENNReal.ofReal (max r r0 - min r r0) := by
        unfold unitLaw
        refine (Measure.restrict_apply_le _ _).trans ?_
        rw [hI, Real.volume_Ico]
      have h2 : max r r0 - min r r0 = |r - r0| := max_sub_min_eq_abs' r r0
      rw [h2] at h1
      refine (ENNReal.toReal_le_of_le_ofReal (abs_nonneg _) h1).trans hrr
    · have hz : ∀ᵐ u ∂unitLaw, f (moved (dens t) (x, (e, u))) - f (moved (dens t0) (x, (e, u))) = 0 := by
        have : ∀ᵐ v : ℝ ∂unitLaw, v ∈ Set.Ico (0 : ℝ) 1 := ae_restrict_mem measurableSet_Ico
        filter_upwards [this] with u hu
        have z1 := hF.zero t hy
        have z2 := hF.zero t0 hy
        have n1 : ¬ u * dens t x < 0 := not_lt.2 (mul_nonneg hu.1 p1.le)
        have n2 : ¬ u * dens t0 x < 0 := not_lt.2 (mul_nonneg hu.1 p2.le)
        simp only [moved, z1, z2, n1, n2, if_false, sub_self]
      rw [integral_congr_ae hz, integral_zero, norm_zero]
      linarith
  have := norm_integral_le_of_norm_le_const (μ := Core.normalLaw 0 K) (C := 2 * c) (ae_of_all _ hin)
  rw [probReal_univ, mul_one] at this
  exact this

/-- Averages of functions that depend continuously on the parameter. -/
theorem ctlU_fam [CompactSpace T] {F : T → Pt d → ℝ} (hu : ∀ t, Unit1 (F t))
    (hc : ∀ t0 (ε : ℝ), 0 < ε → ∀ᶠ t in 𝓝 t0, ∀ y ∈ S, |F t y - F t0 y| ≤ ε) :
    CtlU S dens fun t _ x => ENNReal.ofReal (err (dens t) (F t) x) := by
  refine ctlU_local fun t0 ε hε => ?_
  obtain ⟨η, hη, hηε⟩ : ∃ η : ℝ, 0 < η ∧ 8 * η ^ 2 ≤ ε := by
    refine ⟨min 1 (ε / 8), lt_min one_pos (by linarith), ?_⟩
    have h1 : min 1 (ε / 8) ≤ 1 := min_le_left _ _
    have h2 : min 1 (ε / 8) ≤ ε / 8 := min_le_right _ _
    have h3 : 0 < min 1 (ε / 8) := lt_min one_pos (by linarith)
    nlinarith
  refine ⟨[F t0], 2, by norm_num, by simpa using hu t0, ?_⟩
  filter_upwards [hc t0 η hη] with t ht N hN x hx
  refine ENNReal.ofReal_le_ofReal ?_
  have hp := (hF.ok t).prob
  have h1 : |avg (F t) x - avg (F t0) x| ≤ η := avg_diff hη.le x fun i => ht _ (hx i)
  have h2 : |∫ y, F t y ∂MH.targetLaw volume (dens t) - ∫ y, F t0 y ∂MH.targetLaw volume (dens t)| ≤ η := by
    rw [← integral_sub ((hu t).integrable _) ((hu t0).integrable _), ← Real.norm_eq_abs]
    have := norm_integral_le_of_norm_le_const (μ := MH.targetLaw volume (dens t)) (C := η)
      (f := fun y => F t y - F t0 y) ((target_mem (hF.ok t)).mono fun y hy => ht y hy)
    rwa [probReal_univ, mul_one] at this
  simp only [List.map_cons, List.map_nil, List.sum_cons, List.sum_nil, add_zero, err]
  have h3 : (0 : ℝ) ≤ 2 / N := by positivity
  set A := avg (F t) x
  set B := avg (F t0) x
  set p := ∫ y, F t y ∂MH.targetLaw volume (dens t)
  set q := ∫ y, F t0 y ∂MH.targetLaw volume (dens t)
  have h4 : ((A - B) - (p - q)) ^ 2 ≤ (2 * η) ^ 2 := by
    rw [← sq_abs]
    refine pow_le_pow_left₀ (abs_nonneg _) ?_ 2
    exact (abs_sub _ _).trans (by linarith)
  nlinarith [sq_nonneg ((B - q) - ((A - B) - (p - q)))]

end family

/-- Near each parameter, and up to any tolerance. -/
theorem ctlU_near [CompactSpace T] {S : Set (Pt d)} {dens : T → Pt d → ℝ} {V : T → Fun d}
    (h : ∀ t0, ∀ ε : ℝ, 0 < ε → ∃ W : T → Fun d, CtlU S dens W ∧ ∀ᶠ t in 𝓝 t0, ∀ N, 2 ≤ N →
      ∀ x : Fin N → Pt d, (∀ i, x i ∈ S) → V t N x ≤ ENNReal.ofReal ε + W t N x) : CtlU S dens V := by
  refine ctlU_local fun t0 ε hε => ?_
  obtain ⟨W, hW, hVW⟩ := h t0 (ε / 2) (by linarith)
  obtain ⟨P, B, hB, hu, hb⟩ := hW (ε / 2) (by linarith)
  refine ⟨P, B, hB, hu, hVW.mono fun t ht N hN x hx => ?_⟩
  refine (ht N hN x hx).trans ((add_le_add le_rfl (hb t N hN x hx)).trans ?_)
  have h1 := errs_nonneg (g := dens t) P x
  rw [← ENNReal.ofReal_add (by positivity) (by positivity)]
  exact ENNReal.ofReal_le_ofReal (by linarith)

/-! ## Moves -/

section move

variable [CompactSpace T] {S : Set (Pt d)} (hS : MeasurableSet S) {R : ℝ} (hR : 0 < R)
  (hb : ∀ y ∈ S, ∀ a, |y a| ≤ R) {dens : T → Pt d → ℝ} {m M : ℝ} (hF : Family S dens m M)
  {root : Matrix (Fin d) (Fin d) ℝ → Option (Matrix (Fin d) (Fin d) ℝ)}
  (hroot : ∀ A L, root A = some L → L * Lᵀ = A)

include hS hR hb in
omit [TopologicalSpace T] [CompactSpace T] in
theorem covErr_ctlU : CtlU S dens fun t => covErr S R (dens t) := by
  have hc := fun a => coord_unit1 hS hR hb a
  refine ctlU_sum _ _ fun ab _ => ?_
  exact ctlU_add (ctlU_add (ctlU_add (ctlU_err ((hc _).mul (hc _))) (ctlU_err (hc _))) (ctlU_err (hc _)))
    (ctlU_inv (by norm_num))

include hF in
theorem kern_ctlU {f : Pt d → ℝ} (hf : Unit1 f) (K : Matrix (Fin d) (Fin d) ℝ) :
    CtlU S dens fun t _ x => ENNReal.ofReal (err (dens t) (kern (dens t) K f) x) := by
  refine ctlU_fam hF (fun t => kern_unit1 (hF.ok t).meas hf) fun t0 ε hε => ?_
  have hm := hF.pos
  have hM := hF.le
  have hc : 0 < (m + M) / m ^ 2 := div_pos (by linarith) (by positivity)
  filter_upwards [hF.cont t0 (ε / (2 * ((m + M) / m ^ 2))) (by positivity)] with t ht y hy
  refine (hF.kern_diff hf (by positivity) ht hy).trans (le_of_eq ?_)
  have : m + M ≠ 0 := by linarith
  field_simp

include hS hR hb hF hroot in
theorem mvU_err {f : Pt d → ℝ} (hf : Unit1 f) (s : ℝ) :
    CtlU S dens fun t => Mv root (dens t) s fun _ x => ENNReal.ofReal (err (dens t) f x) := by
  by_cases hs : 0 < s
  swap
  · refine ctlU_mono ctlU_zero fun t N hN x hx => ?_
    unfold Mv
    rw [if_neg hs]
  refine ctlU_near fun t0 ε hε => ?_
  set C0 := lawCov S R (dens t0) with hC0
  set K := s • C0 with hK
  have hKpd : K.PosDef := (lawCov_posDef hS hR hb (hF.ok t0)).smul hs
  obtain ⟨η, hη, hηε⟩ : ∃ η : ℝ, 0 < η ∧ 2 * η ^ 2 ≤ ε / 2 := by
    refine ⟨min 1 (ε / 4), lt_min one_pos (by linarith), ?_⟩
    have h1 : min 1 (ε / 4) ≤ 1 := min_le_left _ _
    have h2 : min 1 (ε / 4) ≤ ε / 4 := min_le_right _ _
    have h3 : 0 < min 1 (ε / 4) := lt_min one_pos (by linarith)
    nlinarith
  obtain ⟨δ, hδ, hnear⟩ := normal_near hKpd hη
  set c : ℝ := 8 * s ^ 2 / δ ^ 2 with hc
  have hc0 : 0 ≤ c := by positivity
  refine ⟨fun t N x => ENNReal.ofReal (1 / N) + (ENNReal.ofReal (2 * c * (R ^ 4 * 4)) * covErr S R (dens t) N x +
    ENNReal.ofReal 2 * ENNReal.ofReal (err (dens t) (kern (dens t) K f) x)), ?_, ?_⟩
  · exact ctlU_add (ctlU_inv zero_le_one) (ctlU_add (ctlU_mul (covErr_ctlU hS hR hb) (by positivity))
      (ctlU_mul (kern_ctlU hF hf K) (by norm_num)))
  have hlim : Tendsto (fun t => ∑ ab : Fin d × Fin d, (lawCov S R (dens t) ab.1 ab.2 - C0 ab.1 ab.2) ^ 2)
      (𝓝 t0) (𝓝 0) := by
    have : Tendsto (fun t => ∑ ab : Fin d × Fin d, (lawCov S R (dens t) ab.1 ab.2 - C0 ab.1 ab.2) ^ 2)
      (𝓝 t0) (𝓝 (∑ ab : Fin d × Fin d, (C0 ab.1 ab.2 - C0 ab.1 ab.2) ^ 2)) :=
      tendsto_finsetSum _ fun ab _ => ((hF.cov_tendsto hS hR hb t0 _ _).sub_const _).pow 2
    simpa using this
  filter_upwards [(tendsto_order.1 hlim).2 (ε / (4 * (c + 1))) (by positivity)] with t ht N hN x hx
  have hg := hF.ok t
  have hN0 : 0 < N := by omega
  refine (mv_pi hg hroot hf hN0 x).trans ?_
  have := hg.prob
  have hcen : ∫ y, kern (dens t) K f y ∂MH.targetLaw volume (dens t) = ∫ y, f y ∂MH.targetLaw volume (dens t) :=
    kern_target hg.meas hg.nonneg this hKpd.posSemidef hf
  set D := avg (kern (dens t) (s • empCov x) f) x - avg (kern (dens t) K f) x with hD
  set Q0 := ∑ ab : Fin d × Fin d, (empCov x ab.1 ab.2 - C0 ab.1 ab.2) ^ 2 with hQ0
  set Q := ∑ ab : Fin d × Fin d, (empCov x ab.1 ab.2 - lawCov S R (dens t) ab.1 ab.2) ^ 2 with hQ
  set P := ∑ ab : Fin d × Fin d, (lawCov S R (dens t) ab.1 ab.2 - C0 ab.1 ab.2) ^ 2 with hP
  have hQn : 0 ≤ Q := Finset.sum_nonneg fun _ _ => sq_nonneg _
  have hQQ : Q0 ≤ 2 * Q + 2 * P := by
    rw [hQ0, hQ, hP, Finset.mul_sum, Finset.mul_sum, ← Finset.sum_add_distrib]
    refine Finset.sum_le_sum fun ab _ => ?_
    nlinarith [sq_nonneg ((empCov x ab.1 ab.2 - lawCov S R (dens t) ab.1 ab.2) -
      (lawCov S R (dens t) ab.1 ab.2 - C0 ab.1 ab.2))]
  have hDb : 2 * D ^ 2 ≤ 2 * η ^ 2 + c * Q0 := dev_bound hg hf hη.le hδ hnear x
  have hcP : c * (2 * P) ≤ ε / 2 := by
    have h1 : c * (2 * P) ≤ c * (2 * (ε / (4 * (c + 1)))) := by gcongr
    refine h1.trans ?_
    rw [mul_div_assoc', mul_div_assoc', div_le_div_iff₀ (by positivity) (by norm_num)]
    nlinarith
  have hsplit : (avg (kern (dens t) (s • empCov x) f) x - ∫ y, f y ∂MH.targetLaw volume (dens t)) ^ 2 ≤
      ε + 2 * c * Q + 2 * err (dens t) (kern (dens t) K f) x := by
    have e : avg (kern (dens t) (s • empCov x) f) x - ∫ y, f y ∂MH.targetLaw volume (dens t) =
        D + (avg (kern (dens t) K f) x - ∫ y, f y ∂MH.targetLaw volume (dens t)) := by rw [hD]; ring
    rw [e, err, hcen]
    have h2 := mul_le_mul_of_nonneg_left hQQ hc0
    nlinarith [sq_nonneg (D - (avg (kern (dens t) K f) x - ∫ y, f y ∂MH.targetLaw volume (dens t)))]
  have hE := err_nonneg (g := dens t) (f := kern (dens t) K f) x
  calc ENNReal.ofReal (1 / N + (avg (kern (dens t) (s • empCov x) f) x - ∫ y, f y ∂MH.targetLaw volume (dens t)) ^ 2)
      ≤ ENNReal.ofReal (1 / N + (ε + 2 * c * Q + 2 * err (dens t) (kern (dens t) K f) x)) :=
        ENNReal.ofReal_le_ofReal (by linarith)
    _ = ENNReal.ofReal ε + (ENNReal.ofReal (1 / N) + (ENNReal.ofReal (2 * c) * ENNReal.ofReal Q +
          ENNReal.ofReal 2 * ENNReal.ofReal (err (dens t) (kern (dens t) K f) x))) := by
        rw [← ENNReal.ofReal_mul (by positivity), ← ENNReal.ofReal_mul (by norm_num),
          ← ENNReal.ofReal_add (by positivity) (by positivity),
          ← ENNReal.ofReal_add (by positivity) (by positivity),
          ← ENNReal.ofReal_add hε.le (by positivity)]
        congr 1
        ring
    _ ≤ _ := by
        refine add_le_add le_rfl (add_le_add le_rfl (add_le_add ?_ le_rfl))
        rw [ENNReal.ofReal_mul (p := 2 * c) (by positivity), mul_assoc]
        exact mul_le_mul_right (covErr_le hS hR hb hg hN x hx) _

include hS hR hb hF hroot in
/-- Moves keep what is small small, uniformly. -/
theorem mvU_ctl {V : T → Fun d} (hV : CtlU S dens V) (s : ℝ) :
    CtlU S dens fun t => Mv root (dens t) s (V t) := by
  refine ctlU_lim fun ε hε => ?_
  obtain ⟨Phi, B, hB, hu, hbd⟩ := hV ε hε
  refine ⟨fun t N x => ENNReal.ofReal (B / N) + ENNReal.ofReal B *
    (Phi.map fun φ => Mv root (dens t) s (fun _ x => ENNReal.ofReal (err (dens t) φ x)) N x).sum, ?_,
    fun t N hN x hx => ?_⟩
  · exact ctlU_add (ctlU_inv hB) (ctlU_mul (ctlU_list
      (fun φ t => Mv root (dens t) s fun _ x => ENNReal.ofReal (err (dens t) φ x)) Phi
      fun φ h => mvU_err hS hR hb hF hroot (hu φ h) s) hB)
  · exact mv_le (hF.ok t) hε.le hB hu (hbd t N hN) x hx

include hS hR hb hF hroot in
theorem iterateU_ctl {V : T → Fun d} (hV : CtlU S dens V) (s : ℝ) (j : ℕ) :
    CtlU S dens fun t => (Mv root (dens t) s)^[j] (V t) := by
  induction j with
  | zero => exact hV
  | succ j ih =>
    simp only [Function.iterate_succ_apply']
    exact mvU_ctl hS hR hb hF hroot ih s

include hS hR hb hF hroot in
theorem cmU_ctl {V : T → ℝ → Fun d} (hV : ∀ s, CtlU S dens fun t => V t s) (f : ℝ) (j k : ℕ) (s : ℝ) :
    CtlU S dens fun t => CM root (dens t) f j (V t) k s := by
  induction k generalizing s with
  | zero => exact iterateU_ctl hS hR hb hF hroot (hV s) s j
  | succ k ih =>
    exact mvU_ctl hS hR hb hF hroot (ctlU_add (iterateU_ctl hS hR hb hF hroot (hV s) s j)
      (ctlU_add (ih _) (ih _))) s

end move

end Verif.SMC
