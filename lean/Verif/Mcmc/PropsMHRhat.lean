import Verif.Mcmc.PropsMHDiag
import Verif.Mcmc.PropsMHMemory
import Mathlib.Probability.StrongLaw
import Mathlib.Probability.Independence.InfinitePi
import Mathlib.Analysis.SpecificLimits.Basic

/-!
# C254: what the Gelman-Rubin statistic tends to
-/

set_option autoImplicit false

namespace Verif.MH

open Verif MeasureTheory ProbabilityTheory Filter
open scoped Topology

variable {d m : ℕ}

/-! ## Long chains -/

/-- The sampler has made `n` steps, whose states are those of `x`. -/
structure Follows (s : St d m) (x : Fin m → ℕ → Pt d) (n : ℕ) : Prop where
  iter : s.iter = n
  hist : ∀ c t, t < n → s.x c t = x c t

/-- The limit of the statistic: `mu` are the limits of the averages of the chains and `q` those of the
averages of the squares. -/
noncomputable def rlim (mu q : Fin m → ℝ) : ℝ :=
  Real.sqrt (1 + (∑ c, (mu c - (∑ c', mu c') / m) ^ 2) / ((m : ℝ) - 1) / ((∑ c, (q c - mu c ^ 2)) / m))

/-- The limit is 1 when the chains have the same averages and larger otherwise. -/
theorem rlim_one (hm : 2 ≤ m) {mu q : Fin m → ℝ} (hw : 0 < ∑ c, (q c - mu c ^ 2)) :
    1 ≤ rlim mu q ∧ (rlim mu q = 1 ↔ ∀ c c', mu c = mu c') := by
  have hm0 : (0 : ℝ) < m := by exact_mod_cast (by omega : 0 < m)
  have hW : 0 < (∑ c, (q c - mu c ^ 2)) / (m : ℝ) := div_pos hw hm0
  obtain ⟨h0, hz⟩ := varChains_nonneg hm mu
  unfold varChains meanChains at h0 hz
  unfold rlim
  set B := (∑ c, (mu c - (∑ c', mu c') / m) ^ 2) / ((m : ℝ) - 1)
  set W := (∑ c, (q c - mu c ^ 2)) / (m : ℝ)
  have hBW : 0 ≤ B / W := div_nonneg h0 hW.le
  refine ⟨?_, ?_⟩
  · rw [Real.one_le_sqrt]; linarith
  · rw [Real.sqrt_eq_one, ← hz]
    constructor
    · intro h
      have : B / W = 0 := by linarith
      rcases div_eq_zero_iff.mp this with h | h
      · exact h
      · exact absurd h hW.ne'
    · intro h; rw [h]; simp

theorem meanOver_limit (b : ℕ) {f : ℕ → ℝ} {a : ℝ}
    (h : Tendsto (fun n : ℕ => (∑ t ∈ Finset.range n, f t) / (n : ℝ)) atTop (𝓝 a)) :
    Tendsto (fun n => meanOver b n f) atTop (𝓝 a) := by
  have h1 : Tendsto (fun n : ℕ => (n : ℝ) / ((n : ℝ) - b)) atTop (𝓝 1) := by
    have := (tendsto_natCast_div_add_atTop (𝕜 := ℝ) (-(b : ℝ)))
    simpa [sub_eq_add_neg] using this
  have h2 : Tendsto (fun n : ℕ => (∑ t ∈ Finset.range b, f t) / ((n : ℝ) - b)) atTop (𝓝 0) := by
    have : Tendsto (fun n : ℕ => (n : ℝ) - b) atTop atTop :=
      tendsto_atTop_add_const_right _ _ tendsto_natCast_atTop_atTop
    exact this.const_div_atTop _
  have h3 := (h.mul h1).sub h2
  rw [mul_one, sub_zero] at h3
  refine h3.congr' ?_
  filter_upwards [eventually_gt_atTop b] with n hn
  unfold meanOver
  rw [Finset.sum_Ico_eq_sub _ hn.le, Nat.cast_sub hn.le]
  have hn0 : (n : ℝ) ≠ 0 := by
    have : 0 < n := by omega
    positivity
  have hnb : (n : ℝ) - b ≠ 0 := by
    have : (b : ℝ) < n := by exact_mod_cast hn
    linarith
  field_simp

theorem varOver_limit (b : ℕ) {f : ℕ → ℝ} {a q : ℝ}
    (h : Tendsto (fun n : ℕ => (∑ t ∈ Finset.range n, f t) / (n : ℝ)) atTop (𝓝 a))
    (hq : Tendsto (fun n : ℕ => (∑ t ∈ Finset.range n, f t ^ 2) / (n : ℝ)) atTop (𝓝 q)) :
    Tendsto (fun n => varOver b n f) atTop (𝓝 (q - a ^ 2)) := by
  have h1 := meanOver_limit b h
  have h2 := meanOver_limit b hq
  have h3 : Tendsto (fun n : ℕ => ((n : ℝ) - b) / ((n : ℝ) - b - 1)) atTop (𝓝 1) := by
    have g1 : Tendsto (fun n : ℕ => (n : ℝ) / ((n : ℝ) - b - 1)) atTop (𝓝 1) := by
      have := (tendsto_natCast_div_add_atTop (𝕜 := ℝ) (-(b : ℝ) - 1))
      refine this.congr fun n => ?_
      congr 1; ring
    have g2 : Tendsto (fun n : ℕ => (b : ℝ) / ((n : ℝ) - b - 1)) atTop (𝓝 0) := by
      have : Tendsto (fun n : ℕ => (n : ℝ) - b - 1) atTop atTop :=
        tendsto_atTop_add_const_right _ _ (tendsto_atTop_add_const_right _ _ tendsto_natCast_atTop_atTop)
      exact this.const_div_atTop _
    have := g1.sub g2
    rw [sub_zero] at this
    refine this.congr fun n => ?_
    rw [sub_div]
  have h4 := (h2.sub (h1.pow 2)).mul h3
  rw [mul_one] at h4
  refine h4.congr' ?_
  filter_upwards [eventually_gt_atTop (b + 1)] with n hn
  unfold varOver
  set M := meanOver b n f with hM
  have hc : ((n - b : ℕ) : ℝ) = n - b := Nat.cast_sub (by omega)
  have hnb : (n : ℝ) - b - 1 ≠ 0 := by
    have : ((b + 1 : ℕ) : ℝ) < n := by exact_mod_cast hn
    push_cast at this
    linarith
  have hnb' : (n : ℝ) - b ≠ 0 := by
    have : ((b + 1 : ℕ) : ℝ) < n := by exact_mod_cast hn
    push_cast at this
    intro h; linarith
  have hsum : ∑ t ∈ Finset.Ico b n, f t = M * (n - b) := by
    rw [hM]; unfold meanOver; rw [hc]; field_simp
  have e : ∑ t ∈ Finset.Ico b n, (f t - M) ^ 2 = ∑ t ∈ Finset.Ico b n, f t ^ 2 - M ^ 2 * (n - b) := by
    have : ∀ t, (f t - M) ^ 2 = f t ^ 2 - 2 * M * f t + M ^ 2 := fun t => by ring
    simp only [this]
    rw [Finset.sum_add_distrib, Finset.sum_sub_distrib, ← Finset.mul_sum, hsum, Finset.sum_const, Nat.card_Ico,
      nsmul_eq_mul, hc]
    ring
  rw [e, hc]
  unfold meanOver
  rw [hc]
  field_simp

/-- **C254** Chains whose averages, and averages of squares, converge: R-hat of each coordinate tends to
`sqrt(1 + B/W)`, where `B` is the variance of the limits of the chains and `W` the mean of their limit
variances; this is 1 exactly when all chains have the same average. -/
theorem rhat_limit (hm : 2 ≤ m) (b : ℕ) {x : Fin m → ℕ → Pt d} {mu q : Fin d → Fin m → ℝ}
    (h1 : ∀ j c, Tendsto (fun n : ℕ => (∑ t ∈ Finset.range n, x c t j) / (n : ℝ)) atTop (𝓝 (mu j c)))
    (h2 : ∀ j c, Tendsto (fun n : ℕ => (∑ t ∈ Finset.range n, x c t j ^ 2) / (n : ℝ)) atTop (𝓝 (q j c)))
    (hw : ∀ j, 0 < ∑ c, (q j c - mu j c ^ 2)) {s : ℕ → St d m} (hs : ∀ n, Follows (s n) x n) :
    ∃ r : ℕ → Fin d → ℝ, (∀ᶠ n in atTop, rhat (s n) b none = .ok fun j => .fin (r n j)) ∧
      ∀ j, Tendsto (fun n => r n j) atTop (𝓝 (rlim (mu j) (q j))) := by
  have hm0 : (0 : ℝ) < m := by exact_mod_cast (by omega : 0 < m)
  have lW : ∀ j, Tendsto (fun n => meanChains fun c => varOver b n fun t => x c t j) atTop
      (𝓝 ((∑ c, (q j c - mu j c ^ 2)) / m)) := fun j => by
    unfold meanChains
    exact (tendsto_finsetSum _ fun c _ => varOver_limit b (h1 j c) (h2 j c)).div_const _
  have lB : ∀ j, Tendsto (fun n => varChains fun c => meanOver b n fun t => x c t j) atTop
      (𝓝 ((∑ c, (mu j c - (∑ c', mu j c') / m) ^ 2) / ((m : ℝ) - 1))) := fun j => by
    unfold varChains meanChains
    exact (tendsto_finsetSum _ fun c _ => ((meanOver_limit b (h1 j c)).sub
      ((tendsto_finsetSum _ fun c' _ => meanOver_limit b (h1 j c')).div_const _)).pow 2).div_const _
  refine ⟨fun n j => Real.sqrt (((((n - b : ℕ) : ℝ) - 1) / ((n - b : ℕ) : ℝ)) +
    (varChains fun c => meanOver b n fun t => x c t j) / meanChains fun c => varOver b n fun t => x c t j), ?_, fun j => ?_⟩
  · have hpos : ∀ᶠ n in atTop, ∀ j, 0 < meanChains fun c => varOver b n fun t => x c t j := by
      rw [eventually_all]
      exact fun j => (lW j).eventually (lt_mem_nhds (div_pos (hw j) hm0))
    filter_upwards [eventually_gt_atTop (b + 1), hpos] with n hn hp
    unfold rhat
    rw [if_neg (by omega), (hs n).iter, sliceStart, if_neg (by omega)]
    congr 1
    funext j
    rw [rhat1_congr (y := fun c t => x c t j) fun c t ht => by rw [(hs n).hist c t ht]]
    unfold rhat1
    simp only [divNonneg, if_neg (hp j).ne']
    have hn1 : ((n - b : ℕ) : ℝ) ≠ 0 := by
      have : 0 < n - b := by omega
      positivity
    have hW := (hp j).ne'
    have e : ∀ N w B : ℝ, N ≠ 0 → w ≠ 0 → ((N - 1) / N * w + 1 / N * (N * B)) / w = (N - 1) / N + B / w :=
      fun N w B hN hw => by field_simp
    rw [e _ _ _ hn1 hW]
    rfl
  · have hnn : Tendsto (fun n : ℕ => ((((n - b : ℕ) : ℝ) - 1) / ((n - b : ℕ) : ℝ))) atTop (𝓝 1) := by
      have g : Tendsto (fun n : ℕ => 1 - 1 / ((n : ℝ) - b)) atTop (𝓝 (1 - 0)) := by
        have : Tendsto (fun n : ℕ => (n : ℝ) - b) atTop atTop :=
          tendsto_atTop_add_const_right _ _ tendsto_natCast_atTop_atTop
        exact tendsto_const_nhds.sub (this.const_div_atTop _)
      rw [sub_zero] at g
      refine g.congr' ?_
      filter_upwards [eventually_gt_atTop b] with n hn
      rw [Nat.cast_sub hn.le]
      have : (n : ℝ) - b ≠ 0 := by
        have : (b : ℝ) < n := by exact_mod_cast hn
        linarith
      field_simp
    have := hnn.add ((lB j).div (lW j) (div_pos (hw j) hm0).ne')
    exact (Real.continuous_sqrt.tendsto _).comp this

/-- **C254** With any threshold above 1 the check is eventually passed when in each coordinate all chains
have the same average; it is eventually refused when in one coordinate the limit exceeds the threshold. -/
theorem check_limit (hm : 2 ≤ m) (b : ℕ) {x : Fin m → ℕ → Pt d} {mu q : Fin d → Fin m → ℝ}
    (h1 : ∀ j c, Tendsto (fun n : ℕ => (∑ t ∈ Finset.range n, x c t j) / (n : ℝ)) atTop (𝓝 (mu j c)))
    (h2 : ∀ j c, Tendsto (fun n : ℕ => (∑ t ∈ Finset.range n, x c t j ^ 2) / (n : ℝ)) atTop (𝓝 (q j c)))
    (hw : ∀ j, 0 < ∑ c, (q j c - mu j c ^ 2)) {s : ℕ → St d m} (hs : ∀ n, Follows (s n) x n) (thr : ℝ) :
    ((∀ j, rlim (mu j) (q j) < thr) → ∀ᶠ n in atTop, checkGR (s n) b none thr = .ok true) ∧
    ((∃ j, thr < rlim (mu j) (q j)) → ∀ᶠ n in atTop, checkGR (s n) b none thr = .ok false) ∧
    (1 < thr → (∀ j c c', mu j c = mu j c') → ∀ᶠ n in atTop, checkGR (s n) b none thr = .ok true) := by
  obtain ⟨r, hr, hl⟩ := rhat_limit hm b h1 h2 hw hs
  have key : (∀ j, rlim (mu j) (q j) < thr) → ∀ᶠ n in atTop, checkGR (s n) b none thr = .ok true := fun h => by
    have : ∀ᶠ n in atTop, ∀ j, r n j < thr := by
      rw [eventually_all]
      exact fun j => (hl j).eventually (gt_mem_nhds (h j))
    filter_upwards [hr, this] with n hn ht
    unfold checkGR
    rw [hn]
    simp only [Bind.bind, Except.bind, Pure.pure, Except.pure]
    congr 1
    simp only [decide_eq_true_eq]
    exact fun j => (Flt.fin_lt _ _).2 (ht j)
  refine ⟨key, ?_, fun ht he => key fun j => ?_⟩
  · rintro ⟨j, hj⟩
    filter_upwards [hr, (hl j).eventually (lt_mem_nhds hj)] with n hn ht
    unfold checkGR
    rw [hn]
    simp only [Bind.bind, Except.bind, Pure.pure, Except.pure]
    congr 1
    simp only [decide_eq_false_iff_not]
    intro h
    exact absurd ((Flt.fin_lt _ _).1 (h j)) (not_lt.2 ht.le)
  · rw [((rlim_one hm (hw j)).2).2 (he j)]
    exact ht

/-! ## Independent draws -/

section Draws
variable {Om : Type} [MeasurableSpace Om] {P : Measure Om} [IsProbabilityMeasure P]

omit [IsProbabilityMeasure P] in
theorem draws_average {Y : ℕ → Om → Pt d} {nu : Measure (Pt d)} (hY : ∀ t, Measurable (Y t))
    (hlaw : ∀ t, P.map (Y t) = nu) (hind : Pairwise fun t t' => IndepFun (Y t) (Y t') P) {g : Pt d → ℝ}
    (hg : Measurable g) (hi : Integrable g nu) :
    ∀ᵐ w ∂P, Tendsto (fun n : ℕ => (∑ t ∈ Finset.range n, g (Y t w)) / (n : ℝ)) atTop (𝓝 (∫ y, g y ∂nu)) := by
  have hint : Integrable (fun w => g (Y 0 w)) P := by
    have := hi
    rw [← hlaw 0] at this
    exact this.comp_measurable (hY 0)
  have hsl := strong_law_ae_real (μ := P) (fun j w => g (Y j w)) hint
    (fun i j hij => (hind hij).comp hg hg) fun j => by
      have : IdentDistrib (Y j) (Y 0) P P := ⟨(hY j).aemeasurable, (hY 0).aemeasurable, by rw [hlaw, hlaw]⟩
      exact this.comp hg
  have hz : ∫ w, g (Y 0 w) ∂P = ∫ y, g y ∂nu := by
    rw [← hlaw 0, integral_map (hY 0).aemeasurable hg.aestronglyMeasurable]
  rw [hz] at hsl
  exact hsl

/-- **C254** Chains made of independent draws, each from its own law with a second moment: almost surely
R-hat tends to the limit given by the means and second moments. If all chains draw from the same law it
tends to 1, and the check with any threshold above 1 is eventually passed. -/
theorem rhat_draws (hm : 2 ≤ m) (b : ℕ) {X : Fin m → ℕ → Om → Pt d} {nu : Fin m → Measure (Pt d)}
    (hX : ∀ c t, Measurable (X c t)) (hlaw : ∀ c t, P.map (X c t) = nu c)
    (hind : ∀ c, Pairwise fun t t' => IndepFun (X c t) (X c t') P)
    (hsq : ∀ c j, Integrable (fun y => y j ^ 2) (nu c))
    (hv : ∀ j, 0 < ∑ c, (∫ y, y j ^ 2 ∂nu c - (∫ y, y j ∂nu c) ^ 2))
    {s : Om → ℕ → St d m} (hs : ∀ w n, Follows (s w n) (fun c t => X c t w) n) :
    ∀ᵐ w ∂P, ∃ r : ℕ → Fin d → ℝ, (∀ᶠ n in atTop, rhat (s w n) b none = .ok fun j => .fin (r n j)) ∧
      (∀ j, Tendsto (fun n => r n j) atTop (𝓝 (rlim (fun c => ∫ y, y j ∂nu c) fun c => ∫ y, y j ^ 2 ∂nu c))) ∧
      ((∀ c c', nu c = nu c') → (∀ j, Tendsto (fun n => r n j) atTop (𝓝 1)) ∧
        ∀ thr, 1 < thr → ∀ᶠ n in atTop, checkGR (s w n) b none thr = .ok true) := by
  have hp : ∀ c, IsProbabilityMeasure (nu c) := fun c => by
    rw [← hlaw c 0]
    exact Measure.isProbabilityMeasure_map (hX c 0).aemeasurable
  have hint : ∀ c j, Integrable (fun y : Pt d => y j) (nu c) := fun c j => by
    have hm : AEStronglyMeasurable (fun y : Pt d => y j) (nu c) := (measurable_pi_apply j).aestronglyMeasurable
    have := ((memLp_two_iff_integrable_sq hm).2 (hsq c j))
    exact this.integrable (by norm_num)
  have h1 : ∀ᵐ w ∂P, ∀ j c, Tendsto (fun n : ℕ => (∑ t ∈ Finset.range n, X c t w j) / (n : ℝ)) atTop
      (𝓝 (∫ y, y j ∂nu c)) :=
    ae_all_iff.2 fun j => ae_all_iff.2 fun c =>
      draws_average (hX c) (hlaw c) (hind c) (measurable_pi_apply j) (hint c j)
  have h2 : ∀ᵐ w ∂P, ∀ j c, Tendsto (fun n : ℕ => (∑ t ∈ Finset.range n, X c t w j ^ 2) / (n : ℝ)) atTop
      (𝓝 (∫ y, y j ^ 2 ∂nu c)) :=
    ae_all_iff.2 fun j => ae_all_iff.2 fun c =>
      draws_average (hX c) (hlaw c) (hind c) ((measurable_pi_apply j).pow_const 2) (hsq c j)
  filter_upwards [h1, h2] with w a1 a2
  obtain ⟨r, hr, hl⟩ := rhat_limit hm b (x := fun c t => X c t w) (mu := fun j c => ∫ y, y j ∂nu c)
    (q := fun j c => ∫ y, y j ^ 2 ∂nu c) a1 a2 hv (hs w)
  refine ⟨r, hr, hl, fun he => ⟨fun j => ?_, fun thr ht => ?_⟩⟩
  · have := hl j
    rwa [((rlim_one hm (hv j)).2).2 fun c c' => by rw [he c c']] at this
  · exact (check_limit hm b (x := fun c t => X c t w) (mu := fun j c => ∫ y, y j ∂nu c)
      (q := fun j c => ∫ y, y j ^ 2 ∂nu c) a1 a2 hv (hs w) thr).2.2 ht fun j c c' => by simp only [he c c']

end Draws

/-! ## What the check does not see -/

/-- A sampler after `n` steps of the given chains. -/
def after (x : Fin m → ℕ → Pt d) (n : ℕ) : St d m :=
  { x := x, accept := fun _ _ => true, logT := fun _ _ => .fin 0, size := n + 1, iter := n, burnin := 0,
    params := fun _ => .diag 1, scale := fun _ => 1, hFactor := 1 }

theorem after_follows (x : Fin m → ℕ → Pt d) (n : ℕ) : Follows (after x n) x n := ⟨rfl, fun _ _ _ => rfl⟩

/-- Two chains: one alternates between -1 and 1, the other between -2 and 2. -/
def twoScales (c : Fin 2) (t : ℕ) : Pt 1 := fun _ => ((c : ℕ) + 1) * (-1) ^ t

theorem alternate_average (a : ℝ) :
    Tendsto (fun n : ℕ => (∑ t ∈ Finset.range n, a * (-1) ^ t) / (n : ℝ)) atTop (𝓝 0) := by
  have hb : ∀ n : ℕ, |(∑ t ∈ Finset.range n, a * (-1) ^ t) / (n : ℝ)| ≤ |a| / (n : ℝ) := fun n => by
    rw [← Finset.mul_sum, neg_one_geom_sum, abs_div, abs_mul, Nat.abs_cast]
    refine div_le_div_of_nonneg_right ?_ (Nat.cast_nonneg n)
    split
    · simp
    · simp
  exact squeeze_zero_norm (fun n => by rw [Real.norm_eq_abs]; exact hb n)
    (tendsto_natCast_atTop_atTop.const_div_atTop _)

/-- **C254 (false)** Passing the check does not mean that the chains explore the same law: R-hat tends to
1, and the check passes for long runs with any threshold above 1, for two chains that have no value in
common. -/
theorem rhat_scale_false : (∀ t t', twoScales 0 t ≠ twoScales 1 t') ∧
    (∃ r : ℕ → Fin 1 → ℝ, (∀ᶠ n in atTop, rhat (after twoScales n) 0 none = .ok fun j => .fin (r n j)) ∧
      ∀ j, Tendsto (fun n => r n j) atTop (𝓝 1)) ∧
    ∀ thr, 1 < thr → ∀ᶠ n in atTop, checkGR (after twoScales n) 0 none thr = .ok true := by
  have h1 : ∀ (j : Fin 1) (c : Fin 2), Tendsto (fun n : ℕ => (∑ t ∈ Finset.range n, twoScales c t j) / (n : ℝ)) atTop
      (𝓝 0) := fun j c => alternate_average _
  have h2 : ∀ (j : Fin 1) (c : Fin 2), Tendsto (fun n : ℕ => (∑ t ∈ Finset.range n, twoScales c t j ^ 2) / (n : ℝ)) atTop
      (𝓝 (((c : ℕ) + 1 : ℝ) ^ 2)) := fun j c => by
    have e : ∀ t, twoScales c t j ^ 2 = ((c : ℕ) + 1 : ℝ) ^ 2 := fun t => by
      simp only [twoScales]
      rw [mul_pow, ← pow_mul, mul_comm t 2, pow_mul]
      norm_num
    simp only [e, Finset.sum_const, Finset.card_range, nsmul_eq_mul]
    refine tendsto_const_nhds.congr' ?_
    filter_upwards [eventually_gt_atTop 0] with n hn
    have : (n : ℝ) ≠ 0 := by positivity
    field_simp
  have hw : ∀ j : Fin 1, 0 < ∑ c : Fin 2, ((((c : ℕ) : ℝ) + 1) ^ 2 - (0 : ℝ) ^ 2) := fun _ => by
    simp [Fin.sum_univ_two]; norm_num
  refine ⟨fun t t' h => ?_, ?_, fun thr ht => ?_⟩
  · have := congrFun h 0
    simp only [twoScales] at this
    rcases neg_one_pow_eq_or ℝ t with e | e <;> rcases neg_one_pow_eq_or ℝ t' with e' | e' <;>
      rw [e, e'] at this <;> norm_num at this
  · obtain ⟨r, hr, hl⟩ := rhat_limit le_rfl 0 (x := twoScales) (mu := fun _ _ => 0)
      (q := fun _ c => (((c : ℕ) : ℝ) + 1) ^ 2) h1 h2 hw (after_follows twoScales)
    refine ⟨r, hr, fun j => ?_⟩
    have := hl j
    rwa [((rlim_one le_rfl (hw j)).2).2 fun c c' => rfl] at this
  · exact (check_limit le_rfl 0 (x := twoScales) (mu := fun _ _ => 0)
      (q := fun _ c => (((c : ℕ) : ℝ) + 1) ^ 2) h1 h2 hw (after_follows twoScales) thr).2.2 ht fun _ _ _ => rfl

/-- Two chains on both sides of zero that do not mix: the limit is `sqrt 3`, and the check with the
default threshold is eventually refused. -/
example : ∀ᶠ n in atTop, checkGR (after (fun (c : Fin 2) t => (fun _ => (2 * (c : ℕ) - 1 : ℝ) + (-1) ^ t : Pt 1)) n) 0
    none 1.1 = .ok false := by
  have key : ∀ a : ℝ, Tendsto (fun n : ℕ => (∑ t ∈ Finset.range n, (a + (-1 : ℝ) ^ t)) / (n : ℝ)) atTop (𝓝 a) ∧
      Tendsto (fun n : ℕ => (∑ t ∈ Finset.range n, (a + (-1 : ℝ) ^ t) ^ 2) / (n : ℝ)) atTop (𝓝 (a ^ 2 + 1)) := fun a => by
    have ev : ∀ᶠ n : ℕ in atTop, (n : ℝ) ≠ 0 := by
      filter_upwards [eventually_gt_atTop 0] with n hn
      positivity
    constructor
    · have := (alternate_average 1).const_add a
      rw [add_zero] at this
      refine this.congr' ?_
      filter_upwards [ev] with n hn
      rw [Finset.sum_add_distrib, Finset.sum_const, Finset.card_range, nsmul_eq_mul]
      simp only [one_mul]
      field_simp
    · have := (alternate_average (2 * a)).const_add (a ^ 2 + 1)
      rw [add_zero] at this
      refine this.congr' ?_
      filter_upwards [ev] with n hn
      have e : ∀ t : ℕ, (a + (-1 : ℝ) ^ t) ^ 2 = (a ^ 2 + 1) + 2 * a * (-1) ^ t := fun t => by
        have : ((-1 : ℝ) ^ t) ^ 2 = 1 := by rw [← pow_mul, mul_comm t 2, pow_mul]; norm_num
        linear_combination this
      simp only [e]
      rw [Finset.sum_add_distrib, Finset.sum_const, Finset.card_range, nsmul_eq_mul]
      field_simp
  refine (check_limit le_rfl 0 (d := 1) (m := 2) (mu := fun _ c => 2 * (c : ℕ) - 1)
    (q := fun _ c => (2 * (c : ℕ) - 1 : ℝ) ^ 2 + 1) (fun j c => (key _).1) (fun j c => (key _).2)
    (fun j => ?_) (after_follows _) 1.1).2.1 ⟨0, ?_⟩
  · simp
  · unfold rlim
    rw [Real.lt_sqrt (by norm_num)]
    simp [Fin.sum_univ_two]
    norm_num

/-- Two chains of independent tosses of the same coin: R-hat tends to 1 almost surely. -/
example : ∃ P : Measure (Fin 2 × ℕ → Pt 1), IsProbabilityMeasure P ∧
    ∀ᵐ w ∂P, ∃ r : ℕ → Fin 1 → ℝ,
      (∀ᶠ n in atTop, rhat (after (fun (c : Fin 2) t => w (c, t)) n) 0 none = .ok fun j => .fin (r n j)) ∧
      ∀ j, Tendsto (fun n => r n j) atTop (𝓝 1) := by
  let nu : Measure (Pt 1) := (1 / 2 : ENNReal) • Measure.dirac 0 + (1 / 2 : ENNReal) • Measure.dirac 1
  have hp : IsProbabilityMeasure nu := ⟨by
    simp only [nu, Measure.coe_add, Measure.coe_smul, Pi.add_apply, Pi.smul_apply, measure_univ, smul_eq_mul, mul_one]
    exact ENNReal.add_halves 1⟩
  have hi : ∀ g : Pt 1 → ℝ, Measurable g → Integrable g nu ∧ ∫ y, g y ∂nu = (g 0 + g 1) / 2 := fun g hg => by
    have i0 : Integrable g (Measure.dirac 0) := integrable_dirac (by simp)
    have i1 : Integrable g (Measure.dirac 1) := integrable_dirac (by simp)
    have j0 := i0.smul_measure (c := (1 / 2 : ENNReal)) (by simp)
    have j1 := i1.smul_measure (c := (1 / 2 : ENNReal)) (by simp)
    refine ⟨j0.add_measure j1, ?_⟩
    rw [integral_add_measure j0 j1, integral_smul_measure, integral_smul_measure, integral_dirac, integral_dirac]
    simp
    ring
  refine ⟨Measure.infinitePi fun _ => nu, inferInstance, ?_⟩
  have := rhat_draws (P := Measure.infinitePi fun _ : Fin 2 × ℕ => nu) le_rfl 0 (X := fun c t w => w (c, t))
    (nu := fun _ => nu) (fun c t => by fun_prop)
    (fun c t => (measurePreserving_eval_infinitePi (fun _ : Fin 2 × ℕ => nu) (c, t)).map_eq)
    (fun c t t' h => (iIndepFun_infinitePi (P := fun _ : Fin 2 × ℕ => nu) (X := fun _ z => z)
      fun _ => measurable_id).indepFun (by simpa using h))
    (fun c j => (hi _ ((measurable_pi_apply j).pow_const 2)).1)
    (fun j => by
      rw [(hi _ ((measurable_pi_apply j).pow_const 2)).2, (hi _ (measurable_pi_apply j)).2]
      norm_num)
    (s := fun w n => after (fun c t => w (c, t)) n) (fun w n => after_follows _ n)
  filter_upwards [this] with w hw
  obtain ⟨r, hr, -, h1⟩ := hw
  exact ⟨r, hr, (h1 fun _ _ => rfl).1⟩

end Verif.MH
