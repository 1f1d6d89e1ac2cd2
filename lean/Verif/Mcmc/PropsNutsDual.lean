import Verif.Mcmc.PropsNuts
import Mathlib.Analysis.Complex.ExponentialBounds
import Mathlib.Probability.Process.Filtration
import Mathlib.MeasureTheory.Function.ConditionalExpectation.PullOut

/-!
# C262: dual averaging drives the mean acceptance to its target
-/

set_option autoImplicit false

namespace Verif.Nuts

open Verif Filter Topology MeasureTheory

/-- The state after `t` updates with the acceptance statistics `a 0, …, a (t - 1)`. -/
noncomputable def daAt (s : DA) (target gamma t0 kappa : ℝ) (a : ℕ → ℝ) (t : ℕ) : DA :=
  s.run target gamma t0 kappa ((List.range t).map a)

/-- The step used after `t` updates, nuts.py 974-981. -/
noncomputable def stepAt (s : DA) (target gamma t0 kappa lo hi : ℝ) (a : ℕ → ℝ) (t : ℕ) : ℝ :=
  clampStep lo hi (.fin (Real.exp (daAt s target gamma t0 kappa a t).logEps))

/-- Sum of the deficits. -/
noncomputable def deficit (target : ℝ) (a : ℕ → ℝ) (t : ℕ) : ℝ := ∑ i ∈ Finset.range t, (target - a i)

theorem deficit_succ (target : ℝ) (a : ℕ → ℝ) (t : ℕ) :
    deficit target a (t + 1) = deficit target a t + (target - a t) := Finset.sum_range_succ _ _

theorem list_sum_range (f : ℕ → ℝ) (t : ℕ) : ((List.range t).map f).sum = ∑ i ∈ Finset.range t, f i := by
  induction t with
  | zero => simp
  | succ t ih => rw [List.range_succ, List.map_append, List.sum_append, ih, Finset.sum_range_succ]; simp

variable {s : DA} {target gamma t0 kappa lo hi c : ℝ} {a : ℕ → ℝ}

theorem daAt_logEps (hs : s.t = 0) (hh : s.hBar = 0) (ht : 0 ≤ t0) {t : ℕ} (h : 0 < t) :
    (daAt s target gamma t0 kappa a t).logEps = s.mu - Real.sqrt t / gamma * (deficit target a t / (t + t0)) := by
  have hne : (List.range t).map a ≠ [] := by
    intro h0
    have := congrArg List.length h0
    simp at this
    omega
  have h1 := ((da_closed s hs hh target gamma t0 kappa ht ((List.range t).map a)).2.2 hne).2
  unfold daAt
  rw [h1, List.map_map, List.length_map, List.length_range]
  have : (List.map ((fun a => target - a) ∘ a) (List.range t)).sum = deficit target a t := list_sum_range _ t
  rw [this]

theorem clampStep_ge {x e : ℝ} (hlo : 0 < e) (hhi : e ≤ hi) (h : e ≤ x) : e ≤ clampStep lo hi (.fin x) := by
  simp only [clampStep, finite?_fin]
  split
  · linarith
  · split
    · linarith
    · split
      · exact hhi
      · exact h

theorem clampStep_le {x e : ℝ} (hlo : lo ≤ e) (h : x ≤ e) : clampStep lo hi (.fin x) ≤ e := by
  simp only [clampStep, finite?_fin]
  split
  · exact hlo
  · split
    · exact hlo
    · split
      · linarith
      · exact h

/-- How large the sum of deficits can be while the log step is within `c` of its reference. -/
theorem band (hg : 0 < gamma) (ht : 0 ≤ t0) (hs : s.t = 0) (hh : s.hBar = 0) (hc : 0 ≤ c) {t : ℕ} (h : 0 < t)
    (hb : c * gamma * (Real.sqrt t + t0) < |deficit target a t|) :
    (0 < deficit target a t ∧ (daAt s target gamma t0 kappa a t).logEps ≤ s.mu - c) ∨
      (deficit target a t < 0 ∧ s.mu + c ≤ (daAt s target gamma t0 kappa a t).logEps) := by
  rw [daAt_logEps hs hh ht h]
  have ht' : (1 : ℝ) ≤ t := by exact_mod_cast h
  have hsq : 1 ≤ Real.sqrt t := by rw [Real.one_le_sqrt]; exact ht'
  have hss : Real.sqrt t * Real.sqrt t = t := Real.mul_self_sqrt (by linarith)
  have hpos : 0 < (t : ℝ) + t0 := by linarith
  have h0 : 0 ≤ c * gamma * (Real.sqrt t + t0) := by positivity
  have key : ∀ D : ℝ, c * gamma * (Real.sqrt t + t0) < D → c ≤ Real.sqrt t / gamma * (D / (t + t0)) := by
    intro D hD
    rw [div_mul_div_comm, le_div_iff₀ (by positivity)]
    have h1 : Real.sqrt t * (c * gamma * (Real.sqrt t + t0)) ≤ Real.sqrt t * D :=
      mul_le_mul_of_nonneg_left hD.le (by linarith)
    have h2 : Real.sqrt t * (c * gamma * (Real.sqrt t + t0)) = c * gamma * (t + Real.sqrt t * t0) := by
      rw [← hss]
      rw [Real.sqrt_mul_self (Real.sqrt_nonneg _)]
      ring
    have h3 : c * gamma * (t + t0) ≤ c * gamma * (t + Real.sqrt t * t0) := by
      have : t0 ≤ Real.sqrt t * t0 := le_mul_of_one_le_left ht hsq
      have hcg : 0 ≤ c * gamma := by positivity
      exact mul_le_mul_of_nonneg_left (by linarith) hcg
    linarith
  rcases lt_or_ge (deficit target a t) 0 with hD | hD
  · right
    rw [abs_of_neg hD] at hb
    have := key _ hb
    refine ⟨hD, ?_⟩
    have e : Real.sqrt t / gamma * (-deficit target a t / (t + t0)) = -(Real.sqrt t / gamma * (deficit target a t / (t + t0))) := by ring
    rw [e] at this
    linarith
  · left
    rw [abs_of_nonneg hD] at hb
    have := key _ hb
    exact ⟨by linarith, by linarith⟩

/-- **C262** If acceptance is at most the target whenever the step is large and at least the target whenever it
is small, the sum of the deficits grows at most like the square root of the number of updates. -/
theorem da_deficit (hg : 0 < gamma) (ht : 0 ≤ t0) (hs : s.t = 0) (hh : s.hBar = 0) (hc : 0 ≤ c)
    (hlo : lo ≤ Real.exp (s.mu - c)) (hhi : Real.exp (s.mu + c) ≤ hi)
    (htar : 0 ≤ target ∧ target ≤ 1) (ha : ∀ t, 0 ≤ a t ∧ a t ≤ 1)
    (hlarge : ∀ t, 0 < t → Real.exp (s.mu + c) ≤ stepAt s target gamma t0 kappa lo hi a t → a t ≤ target)
    (hsmall : ∀ t, 0 < t → stepAt s target gamma t0 kappa lo hi a t ≤ Real.exp (s.mu - c) → target ≤ a t) (t : ℕ) :
    |deficit target a t| ≤ c * gamma * (Real.sqrt t + t0) + 1 := by
  induction t with
  | zero =>
    have : 0 ≤ c * gamma * (Real.sqrt (0 : ℕ) + t0) := by positivity
    simp only [deficit, Finset.range_zero, Finset.sum_empty, abs_zero]
    linarith
  | succ t ih =>
    have hd : |target - a t| ≤ 1 := by
      rw [abs_le]
      constructor <;> linarith [(ha t).1, (ha t).2, htar.1, htar.2]
    have hmono : c * gamma * (Real.sqrt t + t0) ≤ c * gamma * (Real.sqrt (t + 1 : ℕ) + t0) := by
      refine mul_le_mul_of_nonneg_left ?_ (by positivity)
      have : Real.sqrt t ≤ Real.sqrt (t + 1 : ℕ) := Real.sqrt_le_sqrt (by push_cast; linarith)
      linarith
    rw [deficit_succ]
    by_cases hb : c * gamma * (Real.sqrt t + t0) < |deficit target a t|
    · rcases Nat.eq_zero_or_pos t with h0 | h0
      · exfalso
        subst h0
        simp only [deficit, Finset.range_zero, Finset.sum_empty, abs_zero] at hb
        have : 0 ≤ c * gamma * (Real.sqrt (0 : ℕ) + t0) := by positivity
        linarith
      · rcases band (kappa := kappa) hg ht hs hh hc h0 hb with ⟨h1, h2⟩ | ⟨h1, h2⟩
        · have h3 := hsmall t h0 (clampStep_le hlo (Real.exp_le_exp.mpr h2))
          have h4 := abs_of_pos h1
          have h5 := abs_le.mp hd
          rw [abs_le]
          constructor
          · have : 0 ≤ c * gamma * (Real.sqrt (t + 1 : ℕ) + t0) := by positivity
            linarith
          · linarith
        · have h3 := hlarge t h0 (clampStep_ge (Real.exp_pos _) hhi (Real.exp_le_exp.mpr h2))
          have h4 := abs_of_neg h1
          have h5 := abs_le.mp hd
          rw [abs_le]
          constructor
          · linarith
          · have : 0 ≤ c * gamma * (Real.sqrt (t + 1 : ℕ) + t0) := by positivity
            linarith
    · push Not at hb
      exact (abs_add_le _ _).trans (by linarith)

theorem rate_tendsto (b d : ℝ) : Tendsto (fun t : ℕ => (b * (Real.sqrt t + t0) + d) / (t : ℝ)) atTop (𝓝 0) := by
  have h1 : Tendsto (fun t : ℕ => 1 / Real.sqrt (t : ℝ)) atTop (𝓝 0) := by
    simp only [one_div]
    exact tendsto_inv_atTop_zero.comp (Real.tendsto_sqrt_atTop.comp tendsto_natCast_atTop_atTop)
  have h2 := tendsto_one_div_atTop_nhds_zero_nat (𝕜 := ℝ)
  have h3 : Tendsto (fun t : ℕ => b * (1 / Real.sqrt (t : ℝ)) + (b * t0 + d) * (1 / (t : ℝ))) atTop (𝓝 0) := by
    have := (h1.const_mul b).add (h2.const_mul (b * t0 + d))
    simpa using this
  refine h3.congr' ?_
  filter_upwards [eventually_gt_atTop 0] with t ht
  have ht' : (0 : ℝ) < t := by exact_mod_cast ht
  have hsq : 0 < Real.sqrt t := Real.sqrt_pos.mpr ht'
  have hss : Real.sqrt t * Real.sqrt t = t := Real.mul_self_sqrt ht'.le
  have e : 1 / Real.sqrt (t : ℝ) = Real.sqrt t / t := by
    rw [div_eq_div_iff hsq.ne' ht'.ne']
    linarith
  rw [e]
  field_simp
  ring

theorem mean_deficit {t : ℕ} (ht : 0 < t) : (∑ i ∈ Finset.range t, a i) / t - target = -(deficit target a t / t) := by
  have ht' : (t : ℝ) ≠ 0 := by exact_mod_cast ht.ne'
  have : deficit target a t = t * target - ∑ i ∈ Finset.range t, a i := by
    simp [deficit, Finset.sum_sub_distrib]
  rw [this]
  field_simp
  ring

/-- **C262** Hence the mean acceptance tends to the target, at rate `1 / sqrt t`, and the log steps stay within
a fixed distance of their reference. -/
theorem da_mean_accept (hg : 0 < gamma) (ht : 0 ≤ t0) (hs : s.t = 0) (hh : s.hBar = 0) (hc : 0 ≤ c)
    (hlo : lo ≤ Real.exp (s.mu - c)) (hhi : Real.exp (s.mu + c) ≤ hi)
    (htar : 0 ≤ target ∧ target ≤ 1) (ha : ∀ t, 0 ≤ a t ∧ a t ≤ 1)
    (hlarge : ∀ t, 0 < t → Real.exp (s.mu + c) ≤ stepAt s target gamma t0 kappa lo hi a t → a t ≤ target)
    (hsmall : ∀ t, 0 < t → stepAt s target gamma t0 kappa lo hi a t ≤ Real.exp (s.mu - c) → target ≤ a t) :
    (∀ t : ℕ, 0 < t → |(∑ i ∈ Finset.range t, a i) / t - target| ≤ (c * gamma * (Real.sqrt t + t0) + 1) / t) ∧
    Tendsto (fun t : ℕ => (∑ i ∈ Finset.range t, a i) / t) atTop (𝓝 target) ∧
    ∀ t, 0 < t → |(daAt s target gamma t0 kappa a t).logEps - s.mu| ≤ c * (1 + t0) + 1 / gamma := by
  have hD := da_deficit (kappa := kappa) hg ht hs hh hc hlo hhi htar ha hlarge hsmall
  have h1 : ∀ t : ℕ, 0 < t → |(∑ i ∈ Finset.range t, a i) / t - target| ≤ (c * gamma * (Real.sqrt t + t0) + 1) / t := by
    intro t h
    have ht' : (0 : ℝ) < t := by exact_mod_cast h
    rw [mean_deficit h, abs_neg, abs_div, abs_of_pos ht']
    exact div_le_div_of_nonneg_right (hD t) ht'.le
  refine ⟨h1, ?_, fun t h => ?_⟩
  · rw [tendsto_iff_dist_tendsto_zero]
    refine squeeze_zero' (Eventually.of_forall fun _ => dist_nonneg) ?_ (rate_tendsto (t0 := t0) (c * gamma) 1)
    filter_upwards [eventually_gt_atTop 0] with t h
    rw [Real.dist_eq]
    exact h1 t h
  · have ht' : (1 : ℝ) ≤ t := by exact_mod_cast h
    have hsq : 1 ≤ Real.sqrt t := by rw [Real.one_le_sqrt]; exact ht'
    have hss : Real.sqrt t * Real.sqrt t = t := Real.mul_self_sqrt (by linarith)
    have hpos : 0 < (t : ℝ) + t0 := by linarith
    rw [daAt_logEps hs hh ht h, sub_sub_cancel_left, abs_neg, abs_mul, abs_div, abs_div, abs_of_pos hg, abs_of_pos hpos,
      abs_of_nonneg (Real.sqrt_nonneg _), div_mul_div_comm, div_le_iff₀ (by positivity)]
    have h2 := mul_le_mul_of_nonneg_left (hD t) (Real.sqrt_nonneg t)
    refine h2.trans ?_
    have hle : Real.sqrt t ≤ t := by nlinarith
    have e : (c * (1 + t0) + 1 / gamma) * (gamma * (t + t0)) = c * gamma * ((1 + t0) * (t + t0)) + (t + t0) := by
      field_simp
    rw [e]
    have e2 : Real.sqrt t * (c * gamma * (Real.sqrt t + t0) + 1) = c * gamma * (t + Real.sqrt t * t0) + Real.sqrt t := by
      linear_combination (c * gamma) * hss
    rw [e2]
    have hcg : 0 ≤ c * gamma := by positivity
    have h3 : (t : ℝ) + Real.sqrt t * t0 ≤ (1 + t0) * (t + t0) := by nlinarith [mul_nonneg ht ht]
    have := mul_le_mul_of_nonneg_left h3 hcg
    linarith

/-! ## The warm-up loop -/

section Warm

variable {d m : ℕ}

/-- Mean acceptance of iteration `t + j` of the warm-up started at iteration `t`. -/
noncomputable def accAt (o : Options d) (lo hi : ℝ) (W : List (ℤ × ℤ)) (ker : Kern m d) (t : ℕ) (s : WState m d) (j : ℕ) : ℝ :=
  let r := warmLoop o lo hi W ker j t s
  (∑ c, (ker (t + j) c (r.q c) r.step fun i => 1 / r.mass i).2) / m

theorem warmLoop_succ (o : Options d) (lo hi : ℝ) (W : List (ℤ × ℤ)) (ker : Kern m d) (k t : ℕ) (s : WState m d) :
    warmLoop o lo hi W ker (k + 1) t s = warmStep o lo hi W ker (t + k) (warmLoop o lo hi W ker k t s) := by
  induction k generalizing t s with
  | zero => rfl
  | succ k ih =>
    have h1 : warmLoop o lo hi W ker (k + 1 + 1) t s = warmLoop o lo hi W ker (k + 1) (t + 1) (warmStep o lo hi W ker t s) := rfl
    rw [h1, ih]
    have h2 : warmLoop o lo hi W ker k (t + 1) (warmStep o lo hi W ker t s) = warmLoop o lo hi W ker (k + 1) t s := rfl
    rw [h2]
    congr 1
    omega

/-- **C262** As long as no window ends, the loop keeps the dual averaging of its mean acceptances, and its steps
are the clamped ones. -/
theorem warmLoop_da (o : Options d) (lo hi : ℝ) (W : List (ℤ × ℤ)) (ker : Kern m d) (t : ℕ) (s : WState m d)
    (hW : ∀ w ∈ W, w.2 ≤ t) (j : ℕ) :
    (warmLoop o lo hi W ker j t s).da = daAt s.da o.targetAccept o.gamma o.t0 o.kappa (accAt o lo hi W ker t s) j ∧
      (0 < j → (warmLoop o lo hi W ker j t s).step =
        stepAt s.da o.targetAccept o.gamma o.t0 o.kappa lo hi (accAt o lo hi W ker t s) j) := by
  induction j with
  | zero => exact ⟨rfl, fun h => absurd h (lt_irrefl _)⟩
  | succ j ih =>
    have hno : W.any (fun w => decide (w.2 = ((t + j : ℕ) : ℤ) + 1)) = false := by
      rw [List.any_eq_false]
      intro w hw
      have := hW w hw
      simp only [decide_eq_true_eq]
      push_cast
      omega
    have hda : (warmLoop o lo hi W ker (j + 1) t s).da =
        (warmLoop o lo hi W ker j t s).da.update (accAt o lo hi W ker t s j) o.targetAccept o.gamma o.t0 o.kappa := by
      rw [warmLoop_succ]
      simp only [warmStep, hno]
      rfl
    have hst : (warmLoop o lo hi W ker (j + 1) t s).step =
        clampStep lo hi (.fin (Real.exp (warmLoop o lo hi W ker (j + 1) t s).da.logEps)) := by
      rw [warmLoop_succ]
      simp only [warmStep, hno]
      rfl
    have h1 : (warmLoop o lo hi W ker (j + 1) t s).da =
        daAt s.da o.targetAccept o.gamma o.t0 o.kappa (accAt o lo hi W ker t s) (j + 1) := by
      rw [hda, ih.1]
      unfold daAt DA.run
      rw [List.range_succ, List.map_append, List.foldl_append]
      rfl
    refine ⟨h1, fun _ => ?_⟩
    rw [hst, h1]
    rfl

/-- **C262** The warm-up after its last window: if every chain's acceptance is at most the target for steps of at least
`exp (mu + c)` and at least the target for steps of at most `exp (mu - c)`, the mean acceptance of the
warm-up tends to the target. -/
theorem warm_mean_accept (o : Options d) (W : List (ℤ × ℤ)) (ker : Kern m d) (t : ℕ) (s : WState m d)
    (hW : ∀ w ∈ W, w.2 ≤ t) (hm : 0 < m) (hg : 0 < o.gamma) (ht : 0 ≤ o.t0) (hs : s.da.t = 0) (hh : s.da.hBar = 0) (hc : 0 ≤ c)
    (hlo : lo ≤ Real.exp (s.da.mu - c)) (hhi : Real.exp (s.da.mu + c) ≤ hi)
    (htar : 0 ≤ o.targetAccept ∧ o.targetAccept ≤ 1)
    (ha : ∀ i k q e im, 0 ≤ (ker i k q e im).2 ∧ (ker i k q e im).2 ≤ 1)
    (hlarge : ∀ i k q e im, Real.exp (s.da.mu + c) ≤ e → (ker i k q e im).2 ≤ o.targetAccept)
    (hsmall : ∀ i k q e im, e ≤ Real.exp (s.da.mu - c) → o.targetAccept ≤ (ker i k q e im).2) :
    (∀ n : ℕ, 0 < n → |(∑ j ∈ Finset.range n, accAt o lo hi W ker t s j) / n - o.targetAccept| ≤
      (c * o.gamma * (Real.sqrt n + o.t0) + 1) / n) ∧
    Tendsto (fun n : ℕ => (∑ j ∈ Finset.range n, accAt o lo hi W ker t s j) / n) atTop (𝓝 o.targetAccept) := by
  have hm' : (0 : ℝ) < m := by exact_mod_cast hm
  have up : ∀ (f : Fin m → ℝ) (b : ℝ), (∀ k, f k ≤ b) → (∑ k, f k) / m ≤ b := by
    intro f b hf
    rw [div_le_iff₀ hm']
    calc ∑ k, f k ≤ ∑ _k : Fin m, b := Finset.sum_le_sum fun k _ => hf k
      _ = b * m := by simp [mul_comm]
  have dn : ∀ (f : Fin m → ℝ) (b : ℝ), (∀ k, b ≤ f k) → b ≤ (∑ k, f k) / m := by
    intro f b hf
    rw [le_div_iff₀ hm']
    calc b * m = ∑ _k : Fin m, b := by simp [mul_comm]
      _ ≤ ∑ k, f k := Finset.sum_le_sum fun k _ => hf k
  have hda := warmLoop_da o lo hi W ker t s hW
  have key := da_mean_accept (kappa := o.kappa) (a := accAt o lo hi W ker t s) hg ht hs hh hc hlo hhi htar
    (fun j => ⟨dn _ _ fun k => (ha _ _ _ _ _).1, up _ _ fun k => (ha _ _ _ _ _).2⟩)
    (fun j hj h => up _ _ fun k => hlarge _ _ _ _ _ (by rw [(hda j).2 hj]; exact h))
    (fun j hj h => dn _ _ fun k => hsmall _ _ _ _ _ (by rw [(hda j).2 hj]; exact h))
  exact ⟨key.1, key.2.1⟩

/-- A chain that accepts exactly when the step is at most 1: the mean acceptance tends to 0.8. -/
example : Tendsto (fun n : ℕ => (∑ j ∈ Finset.range n, accAt (m := 2) (d := 1) {} (1 / 10) 10 []
    (fun _ _ q e _ => (q, if e ≤ 1 then 1 else 0)) 0 ⟨fun _ _ => 0, 1, fun _ => 1, ⟨0, 0, 0, 0, 0⟩, RunVar.init⟩ j) / n) atTop (𝓝 0.80) := by
  have he : Real.exp 1 < 3 := Real.exp_one_lt_three
  have he' : (1 / 10 : ℝ) ≤ Real.exp (0 - 1) := by
    rw [zero_sub, Real.exp_neg, one_div]
    exact inv_anti₀ (Real.exp_pos 1) (by linarith)
  have hh : Real.exp (0 + 1) ≤ 10 := by rw [zero_add]; linarith
  refine (warm_mean_accept (m := 2) (d := 1) (lo := 1 / 10) (hi := 10) (c := 1) {} [] (fun _ _ q e _ => (q, if e ≤ 1 then 1 else 0)) 0
    ⟨fun _ _ => 0, 1, fun _ => 1, ⟨0, 0, 0, 0, 0⟩, RunVar.init⟩ (by simp) (by norm_num) (by norm_num) (by norm_num) rfl rfl zero_le_one he'
    hh (by norm_num) ?_ ?_ ?_).2
  · intro i k q e im
    dsimp only
    split <;> norm_num
  · intro i k q e im h
    dsimp only at h ⊢
    rw [if_neg]
    · norm_num
    · have : (1 : ℝ) < Real.exp (0 + 1) := by rw [zero_add]; exact Real.one_lt_exp_iff.mpr one_pos
      linarith
  · intro i k q e im h
    dsimp only at h ⊢
    rw [if_pos]
    · norm_num
    · have : Real.exp (0 - 1) ≤ 1 := Real.exp_le_one_iff.mpr (by norm_num)
      linarith

/-- **C262** Without such a feedback the mean acceptance need not tend to the target: a chain that accepts every proposal
whatever the step (a flat target) has mean acceptance 1. -/
theorem warm_mean_accept_false : ¬ ∀ (o : Options 1) (lo hi : ℝ) (ker : Kern 1 1) (s : WState 1 1), 0 < lo → lo < hi → 0 < o.gamma → 0 ≤ o.t0 →
    s.da.t = 0 → s.da.hBar = 0 → 0 < o.targetAccept → o.targetAccept < 1 →
    (∀ i k q e im, 0 ≤ (ker i k q e im).2 ∧ (ker i k q e im).2 ≤ 1) →
    Tendsto (fun n : ℕ => (∑ j ∈ Finset.range n, accAt o lo hi [] ker 0 s j) / n) atTop (𝓝 o.targetAccept) := by
  intro h
  have h1 := h {} 1 2 (fun _ _ q _ _ => (q, 1)) ⟨fun _ _ => 0, 1, fun _ => 1, ⟨0, 0, 0, 0, 0⟩, RunVar.init⟩ one_pos (by norm_num)
    (by norm_num) (by norm_num) rfl rfl (by norm_num) (by norm_num) (fun _ _ _ _ _ => ⟨zero_le_one, le_rfl⟩)
  have h2 : Tendsto (fun n : ℕ => (∑ j ∈ Finset.range n, accAt (m := 1) (d := 1) {} 1 2 [] (fun _ _ q _ _ => (q, 1)) 0
      ⟨fun _ _ => 0, 1, fun _ => 1, ⟨0, 0, 0, 0, 0⟩, RunVar.init⟩ j) / n) atTop (𝓝 1) := by
    refine tendsto_const_nhds.congr' ?_
    filter_upwards [eventually_gt_atTop 0] with n hn
    have : (n : ℝ) ≠ 0 := by exact_mod_cast hn.ne'
    simp [accAt, this]
  have := tendsto_nhds_unique h1 h2
  norm_num at this

end Warm

/-! ## Random acceptance -/

section Random

variable {Om : Type} {m0 : MeasurableSpace Om} {mu : Measure Om} [IsProbabilityMeasure mu] {F : Filtration ℕ m0}
  {A : ℕ → Om → ℝ}

theorem deficit_meas (hA : ∀ t, StronglyMeasurable[F (t + 1)] (A t)) (t : ℕ) :
    StronglyMeasurable[F t] fun w => deficit target (fun i => A i w) t := by
  unfold deficit
  refine Finset.stronglyMeasurable_fun_sum _ fun i hi => ?_
  have hi' : i + 1 ≤ t := Finset.mem_range.mp hi
  exact stronglyMeasurable_const.sub ((hA i).mono (F.mono hi'))

theorem deficit_bound (htar : 0 ≤ target ∧ target ≤ 1) (ha : ∀ t, 0 ≤ a t ∧ a t ≤ 1) (t : ℕ) : |deficit target a t| ≤ t := by
  unfold deficit
  refine (Finset.abs_sum_le_sum_abs _ _).trans ?_
  have : ∀ i ∈ Finset.range t, |target - a i| ≤ 1 := fun i _ => by
    rw [abs_le]
    constructor <;> linarith [(ha i).1, (ha i).2, htar.1, htar.2]
  exact (Finset.sum_le_sum this).trans (by simp)

/-- **C262** With random acceptance statistics it is enough that their conditional means, given the past, are at most the
target when the step is large and at least the target when it is small: the mean square distance of the mean
acceptance to the target tends to zero. -/
theorem da_mean_accept_random (hg : 0 < gamma) (ht : 0 ≤ t0) (hs : s.t = 0) (hh : s.hBar = 0) (hc : 0 ≤ c)
    (hlo : lo ≤ Real.exp (s.mu - c)) (hhi : Real.exp (s.mu + c) ≤ hi)
    (htar : 0 ≤ target ∧ target ≤ 1) (ha : ∀ t w, 0 ≤ A t w ∧ A t w ≤ 1)
    (hA : ∀ t, StronglyMeasurable[F (t + 1)] (A t))
    (hlarge : ∀ t, 0 < t → ∀ᵐ w ∂mu, Real.exp (s.mu + c) ≤ stepAt s target gamma t0 kappa lo hi (fun i => A i w) t →
      (mu[A t | F t]) w ≤ target)
    (hsmall : ∀ t, 0 < t → ∀ᵐ w ∂mu, stepAt s target gamma t0 kappa lo hi (fun i => A i w) t ≤ Real.exp (s.mu - c) →
      target ≤ (mu[A t | F t]) w) :
    (∀ t : ℕ, 0 < t → ∫ w, ((∑ i ∈ Finset.range t, A i w) / t - target) ^ 2 ∂mu ≤ (2 * (c * gamma) * (Real.sqrt t + t0) + 1) / t) ∧
    Tendsto (fun t : ℕ => ∫ w, ((∑ i ∈ Finset.range t, A i w) / t - target) ^ 2 ∂mu) atTop (𝓝 0) := by
  set D : ℕ → Om → ℝ := fun t w => deficit target (fun i => A i w) t with hDdef
  have hDm : ∀ t, StronglyMeasurable[F t] (D t) := fun t => deficit_meas hA t
  have hDm' : ∀ t, StronglyMeasurable (D t) := fun t => (hDm t).mono (F.le t)
  have hAm : ∀ t, StronglyMeasurable (A t) := fun t => (hA t).mono (F.le _)
  have hDb : ∀ t w, |D t w| ≤ t := fun t w => deficit_bound htar (fun i => ha i w) t
  have hAi : ∀ t, Integrable (A t) mu := fun t =>
    Integrable.of_bound (hAm t).aestronglyMeasurable 1 (Eventually.of_forall fun w => by
      rw [Real.norm_eq_abs, abs_le]
      constructor <;> linarith [(ha t w).1, (ha t w).2])
  have hDi : ∀ t, Integrable (D t) mu := fun t =>
    Integrable.of_bound (hDm' t).aestronglyMeasurable t (Eventually.of_forall fun w => by
      rw [Real.norm_eq_abs]; exact hDb t w)
  have hDAi : ∀ t, Integrable (D t * A t) mu := fun t =>
    Integrable.of_bound ((hDm' t).mul (hAm t)).aestronglyMeasurable t (Eventually.of_forall fun w => by
      rw [Real.norm_eq_abs, Pi.mul_apply, abs_mul]
      have h1 : |A t w| ≤ 1 := by
        rw [abs_le]
        constructor <;> linarith [(ha t w).1, (ha t w).2]
      exact (mul_le_mul (hDb t w) h1 (abs_nonneg _) (Nat.cast_nonneg _)).trans (by rw [mul_one]))
  have hD2i : ∀ t, Integrable (fun w => D t w ^ 2) mu := fun t =>
    Integrable.of_bound ((hDm' t).pow 2).aestronglyMeasurable ((t : ℝ) ^ 2) (Eventually.of_forall fun w => by
      rw [Real.norm_eq_abs, abs_pow]
      exact pow_le_pow_left₀ (abs_nonneg _) (hDb t w) 2)
  -- the drift
  have drift : ∀ t, ∫ w, D t w * (target - A t w) ∂mu ≤ c * gamma * (Real.sqrt t + t0) := by
    intro t
    have h0 : 0 ≤ c * gamma * (Real.sqrt t + t0) := by positivity
    have hpull : mu[D t * A t | F t] =ᵐ[mu] D t * mu[A t | F t] :=
      condExp_mul_of_stronglyMeasurable_left (hDm t) (hDAi t) (hAi t)
    have hDci : Integrable (D t * mu[A t | F t]) mu := (integrable_condExp).congr hpull
    have e1 : ∫ w, D t w * A t w ∂mu = ∫ w, D t w * (mu[A t | F t]) w ∂mu := by
      have : ∫ w, (mu[D t * A t | F t]) w ∂mu = ∫ w, (D t * A t) w ∂mu := integral_condExp (F.le t)
      calc ∫ w, D t w * A t w ∂mu = ∫ w, (mu[D t * A t | F t]) w ∂mu := this.symm
        _ = ∫ w, D t w * (mu[A t | F t]) w ∂mu := integral_congr_ae hpull
    have e2 : ∫ w, D t w * (target - A t w) ∂mu = ∫ w, D t w * (target - (mu[A t | F t]) w) ∂mu := by
      simp only [mul_sub]
      refine (integral_sub ((hDi t).mul_const _) (hDAi t)).trans (Eq.trans ?_ (integral_sub ((hDi t).mul_const _) hDci).symm)
      exact congrArg (fun x => (∫ w, D t w * target ∂mu) - x) e1
    rw [e2]
    have hci : ∀ᵐ w ∂mu, 0 ≤ (mu[A t | F t]) w ∧ (mu[A t | F t]) w ≤ 1 := by
      have l : 0 ≤ᵐ[mu] mu[A t | F t] := condExp_nonneg (Eventually.of_forall fun w => (ha t w).1)
      have u : mu[A t | F t] ≤ᵐ[mu] mu[(fun _ => (1 : ℝ)) | F t] :=
        condExp_mono (hAi t) (integrable_const _) (Eventually.of_forall fun w => (ha t w).2)
      rw [condExp_const (F.le t)] at u
      filter_upwards [l, u] with w h1 h2
      exact ⟨h1, h2⟩
    have hle : ∀ᵐ w ∂mu, D t w * (target - (mu[A t | F t]) w) ≤ c * gamma * (Real.sqrt t + t0) := by
      rcases Nat.eq_zero_or_pos t with rfl | hpos
      · refine Eventually.of_forall fun w => ?_
        simp only [hDdef, deficit, Finset.range_zero, Finset.sum_empty, zero_mul]
        exact h0
      · filter_upwards [hlarge t hpos, hsmall t hpos, hci] with w h1 h2 h3
        by_cases hb : c * gamma * (Real.sqrt t + t0) < |D t w|
        · refine le_trans ?_ h0
          rcases band (kappa := kappa) hg ht hs hh hc hpos hb with ⟨h4, h5⟩ | ⟨h4, h5⟩
          · have h6 := h2 (clampStep_le hlo (Real.exp_le_exp.mpr h5))
            exact mul_nonpos_of_nonneg_of_nonpos h4.le (by linarith)
          · have h6 := h1 (clampStep_ge (Real.exp_pos _) hhi (Real.exp_le_exp.mpr h5))
            exact mul_nonpos_of_nonpos_of_nonneg h4.le (by linarith)
        · push Not at hb
          refine (le_abs_self _).trans ?_
          rw [abs_mul]
          have h4 : |target - (mu[A t | F t]) w| ≤ 1 := by
            rw [abs_le]
            constructor <;> linarith [h3.1, h3.2, htar.1, htar.2]
          exact (mul_le_mul hb h4 (abs_nonneg _) h0).trans (by rw [mul_one])
    have hint : Integrable (fun w => D t w * (target - (mu[A t | F t]) w)) mu := by
      simp only [mul_sub]
      exact ((hDi t).mul_const _).sub hDci
    calc ∫ w, D t w * (target - (mu[A t | F t]) w) ∂mu ≤ ∫ _, c * gamma * (Real.sqrt t + t0) ∂mu :=
          integral_mono_ae hint (integrable_const _) hle
      _ = c * gamma * (Real.sqrt t + t0) := by simp
  -- the second moments
  have second : ∀ t : ℕ, ∫ w, D t w ^ 2 ∂mu ≤ t * (2 * (c * gamma) * (Real.sqrt t + t0) + 1) := by
    intro t
    induction t with
    | zero => simp [hDdef, deficit]
    | succ t ih =>
      have e : ∀ w, D (t + 1) w ^ 2 = D t w ^ 2 + (2 * (D t w * (target - A t w)) + (target - A t w) ^ 2) := by
        intro w
        simp only [hDdef, deficit_succ]
        ring
      have hi1 : Integrable (fun w => D t w * (target - A t w)) mu := by
        simp only [mul_sub]
        exact ((hDi t).mul_const _).sub (hDAi t)
      have hsq : ∀ w, (target - A t w) ^ 2 ≤ 1 := fun w => by
        have h1 : |target - A t w| ≤ 1 := by
          rw [abs_le]
          constructor <;> linarith [(ha t w).1, (ha t w).2, htar.1, htar.2]
        rw [← sq_abs]
        exact pow_le_one₀ (abs_nonneg _) h1
      have hi2 : Integrable (fun w => (target - A t w) ^ 2) mu :=
        Integrable.of_bound ((stronglyMeasurable_const.sub (hAm t)).pow 2).aestronglyMeasurable 1
          (Eventually.of_forall fun w => by
            rw [Real.norm_eq_abs, abs_of_nonneg (sq_nonneg _)]; exact hsq w)
      have hI2 : ∫ w, (target - A t w) ^ 2 ∂mu ≤ 1 := by
        calc ∫ w, (target - A t w) ^ 2 ∂mu ≤ ∫ _, (1 : ℝ) ∂mu := integral_mono hi2 (integrable_const _) hsq
          _ = 1 := by simp
      have hsum : ∫ w, D (t + 1) w ^ 2 ∂mu = ∫ w, D t w ^ 2 ∂mu +
          (2 * ∫ w, D t w * (target - A t w) ∂mu + ∫ w, (target - A t w) ^ 2 ∂mu) := by
        simp only [e]
        refine (integral_add (hD2i t) ((hi1.const_mul 2).add hi2)).trans ?_
        congr 1
        refine (integral_add (hi1.const_mul 2) hi2).trans ?_
        rw [integral_const_mul]
      have hmono : 2 * (c * gamma) * (Real.sqrt t + t0) ≤ 2 * (c * gamma) * (Real.sqrt (t + 1 : ℕ) + t0) := by
        refine mul_le_mul_of_nonneg_left ?_ (by positivity)
        have : Real.sqrt t ≤ Real.sqrt (t + 1 : ℕ) := Real.sqrt_le_sqrt (by push_cast; linarith)
        linarith
      rw [hsum]
      have hd := drift t
      have h7 : (t : ℝ) * (2 * (c * gamma) * (Real.sqrt t + t0) + 1) ≤ t * (2 * (c * gamma) * (Real.sqrt (t + 1 : ℕ) + t0) + 1) :=
        mul_le_mul_of_nonneg_left (by linarith) (Nat.cast_nonneg t)
      have e8 : (((t + 1 : ℕ) : ℝ)) * (2 * (c * gamma) * (Real.sqrt (t + 1 : ℕ) + t0) + 1) =
          t * (2 * (c * gamma) * (Real.sqrt (t + 1 : ℕ) + t0) + 1) + (2 * (c * gamma) * (Real.sqrt (t + 1 : ℕ) + t0) + 1) := by
        push_cast
        ring
      rw [e8]
      linarith
  have h1 : ∀ t : ℕ, 0 < t → ∫ w, ((∑ i ∈ Finset.range t, A i w) / t - target) ^ 2 ∂mu ≤ (2 * (c * gamma) * (Real.sqrt t + t0) + 1) / t := by
    intro t hpos
    have ht' : (0 : ℝ) < t := by exact_mod_cast hpos
    have e : ∀ w, ((∑ i ∈ Finset.range t, A i w) / t - target) ^ 2 = 1 / (t : ℝ) ^ 2 * D t w ^ 2 := by
      intro w
      rw [mean_deficit (a := fun i => A i w) (target := target) hpos, neg_sq, div_pow]
      simp only [hDdef]
      ring
    simp only [e]
    rw [integral_const_mul, one_div_mul_eq_div, div_le_div_iff₀ (by positivity) ht']
    have := mul_le_mul_of_nonneg_right (second t) ht'.le
    calc (∫ w, D t w ^ 2 ∂mu) * t ≤ t * (2 * (c * gamma) * (Real.sqrt t + t0) + 1) * t := this
      _ = (2 * (c * gamma) * (Real.sqrt t + t0) + 1) * (t : ℝ) ^ 2 := by ring
  refine ⟨h1, ?_⟩
  refine squeeze_zero' (Eventually.of_forall fun _ => integral_nonneg fun _ => sq_nonneg _) ?_ (rate_tendsto (t0 := t0) (2 * (c * gamma)) 1)
  filter_upwards [eventually_gt_atTop 0] with t h
  exact h1 t h

/-- A random start (any measurable first acceptance), then acceptances at the target. -/
example (X : Om → ℝ) (hX : StronglyMeasurable X) (h01 : ∀ w, 0 ≤ X w ∧ X w ≤ 1) :
    Tendsto (fun t : ℕ => ∫ w, ((∑ i ∈ Finset.range t, (if i = 0 then X w else 0.8)) / t - 0.8) ^ 2 ∂mu) atTop (𝓝 0) := by
  refine (da_mean_accept_random (s := ⟨0, 0, 0, 0, 0⟩) (mu := mu) (F := Filtration.const ℕ m0 le_rfl) (gamma := 0.05) (t0 := 10) (kappa := 0.75)
    (lo := 0) (hi := Real.exp (0 + 1)) (c := 1) (A := fun t w => if t = 0 then X w else 0.8)
    (by norm_num) (by norm_num) rfl rfl zero_le_one (Real.exp_pos _).le le_rfl (by norm_num) ?_ ?_ ?_ ?_).2
  · intro t w
    split
    · exact h01 w
    · norm_num
  · intro t
    by_cases h : t = 0
    · simp only [h, if_true]
      exact hX
    · simp only [h, if_false]
      exact stronglyMeasurable_const
  · intro t ht
    simp only [ht.ne', if_false]
    refine Eventually.of_forall fun w _ => ?_
    rw [condExp_const (Filtration.le _ _)]
  · intro t ht
    simp only [ht.ne', if_false]
    refine Eventually.of_forall fun w _ => ?_
    rw [condExp_const (Filtration.le _ _)]

end Random

end Verif.Nuts
