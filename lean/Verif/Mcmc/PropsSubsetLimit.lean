import Verif.Mcmc.PropsSMCSearch

/-!
# C267: what the estimate of subset simulation tends to
-/

set_option autoImplicit false

open MeasureTheory ProbabilityTheory Filter Topology Matrix
open scoped ENNReal

namespace Verif.SMC

open Verif

variable {d : ℕ}

/-! ## A level of the simulation and its expectation -/

/-- `subsetLevel` (smc.py 1432-1461) for any log-density. -/
noncomputable def levelWith {N : ℕ} (env : Env N d) (cfg : PConfig) (sc : SConfig) (l : LogPdf N d)
    (p : Parts N d) : Py (Parts N d × Flt) := do
  let p ← reweight true (setLogpdf l p)
  let wsum := Flt.sum p.w
  let p := { p with w := fun i => (p.w i).div wsum }
  let p ← mutate env cfg sc p
  return (p, wsum)

theorem subsetLevel_eq {N : ℕ} (env : Env N d) (cfg : PConfig) (sc : SConfig) (f : Pt d → Flt)
    (logPx : Pt d → Flt) (upper : Bool) (u : Flt) (p : Parts N d) :
    subsetLevel env cfg sc f logPx upper u p = levelWith env cfg sc (logIndicator f logPx upper u) p := rfl

/-- Numbers that a multinomial generator accepts as probabilities. -/
def Chances {N : ℕ} (q : Fin N → Flt) : Prop :=
  ∃ r : Fin N → ℝ, q = (fun i => .fin (r i)) ∧ (∀ i, 0 ≤ r i) ∧ ∑ i, r i = 1

/-- Value of `F` if the code does not fail, `e` if it does. -/
noncomputable def outL {N : ℕ} (e : ℝ≥0∞) (F : Parts N d → Flt → ℝ≥0∞) : Py (Parts N d × Flt) → ℝ≥0∞
  | .ok r => F r.1 r.2
  | .error _ => e

open Classical in
/-- Expectation of `F` after a level; failures count `e`, also that of a generator which is
given no probabilities. -/
noncomputable def levelMean {N : ℕ} (e : ℝ≥0∞) (cfg : PConfig) (sc : SConfig)
    (root : Matrix (Fin d) (Fin d) ℝ → Option (Matrix (Fin d) (Fin d) ℝ)) (l : Pt d → Flt)
    (p : Parts N d) (F : Parts N d → Flt → ℝ≥0∞) : ℝ≥0∞ :=
  match reweight true (setLogpdf (pointwise l) p) with
  | .error _ => e
  | .ok a =>
    if Chances (probs a.wtmp) then
      ∑ c : Fin (draws cfg.scheme fun i => toReal (probs a.wtmp i)) → Fin N,
        ENNReal.ofReal (∏ i, dprob cfg.scheme (fun i => toReal (probs a.wtmp i)) (c i)) *
        ∫⁻ t : Fin (tapeLen sc) → Fin N → Pt d × ℝ,
          outL e F (levelWith (searchEnv a (dprob cfg.scheme fun i => toReal (probs a.wtmp i)) root c t) cfg sc
            (pointwise l) p)
          ∂(Measure.pi fun _ => Measure.pi fun _ => rawLaw d)
    else e

/-- Expectation of a function of the stage probabilities after the loop over the levels. -/
noncomputable def levelsMean {N : ℕ} (e : ℝ≥0∞) (cfg : PConfig) (sc : SConfig)
    (root : Matrix (Fin d) (Fin d) ℝ → Option (Matrix (Fin d) (Fin d) ℝ)) :
    List (Pt d → Flt) → Parts N d → (List Flt → ℝ≥0∞) → ℝ≥0∞
  | [], _, F => F []
  | l :: ls, p, F => levelMean e cfg sc root l p fun p' v =>
      levelsMean e cfg sc root ls p' fun vs => F (v :: vs)

/-- Expectation of a function of the stage probabilities of `run_subset_simulation`, smc.py
1362-1468: the particles are created, then initialised a second time. -/
noncomputable def subsetRun (N : ℕ) (e : ℝ≥0∞) (cfg : PConfig) (sc : SConfig)
    (root : Matrix (Fin d) (Fin d) ℝ → Option (Matrix (Fin d) (Fin d) ℝ)) (lo hi : Pt d)
    (ls : List (Pt d → Flt)) (F : List Flt → ℝ≥0∞) : ℝ≥0∞ :=
  ∫⁻ U : Fin N → Pt d,
    (match newParts (initEnv U) cfg lo hi with
    | .error _ => e
    | .ok p =>
      ∫⁻ U' : Fin N → Pt d,
        (match particlesInit (initEnv U') cfg lo hi p with
        | .error _ => e
        | .ok q => levelsMean e cfg sc root ls q F)
        ∂(Measure.pi fun _ => volume.restrict (Set.Icc 0 1)))
    ∂(Measure.pi fun _ => volume.restrict (Set.Icc 0 1))

/-! ## Probabilities add up to one -/

theorem chances_real {N : ℕ} {q : Fin N → Flt} (h : Chances q) :
    (∀ i, 0 ≤ toReal (q i)) ∧ ∑ i, toReal (q i) = 1 := by
  obtain ⟨r, rfl, h1, h2⟩ := h
  have e : ∀ i, toReal (Flt.fin (r i)) = r i := fun i => EReal.toReal_coe _
  simp only [e]
  exact ⟨h1, h2⟩

theorem draws_mass (sch : Scheme) {N : ℕ} {w : Fin N → ℝ} (hw0 : ∀ i, 0 ≤ w i) (hsum : 0 < ∑ i, w i) :
    ∑ c : Fin (draws sch w) → Fin N, ENNReal.ofReal (∏ i, dprob sch w (c i)) = 1 := by
  rw [← ENNReal.ofReal_sum_of_nonneg fun c _ => Finset.prod_nonneg fun i _ => dprob_nonneg sch hw0 hsum _]
  have := draws_one sch hw0 hsum
  unfold expect at this
  simp only [mul_one] at this
  rw [this, ENNReal.ofReal_one]

theorem levelMean_le_one {N : ℕ} {e : ℝ≥0∞} (he : e ≤ 1) (cfg : PConfig) (sc : SConfig)
    (root : Matrix (Fin d) (Fin d) ℝ → Option (Matrix (Fin d) (Fin d) ℝ)) (l : Pt d → Flt)
    (p : Parts N d) {F : Parts N d → Flt → ℝ≥0∞} (hF : ∀ p v, F p v ≤ 1) :
    levelMean e cfg sc root l p F ≤ 1 := by
  classical
  unfold levelMean
  split
  · exact he
  · rename_i a _
    split_ifs with hc
    · obtain ⟨h0, h1⟩ := chances_real hc
      refine le_trans ?_ (draws_mass cfg.scheme h0 (by rw [h1]; exact one_pos)).le
      refine Finset.sum_le_sum fun c _ => mul_le_of_le_one_right zero_le ?_
      refine (lintegral_mono (g := fun _ => 1) fun t => ?_).trans (by simp)
      cases levelWith (searchEnv a (dprob cfg.scheme fun i => toReal (probs a.wtmp i)) root c t) cfg sc
            (pointwise l) p with
      | error _ => exact he
      | ok r => exact hF _ _
    · exact he

theorem levelsMean_le_one {N : ℕ} {e : ℝ≥0∞} (he : e ≤ 1) (cfg : PConfig) (sc : SConfig)
    (root : Matrix (Fin d) (Fin d) ℝ → Option (Matrix (Fin d) (Fin d) ℝ)) (ls : List (Pt d → Flt))
    (p : Parts N d) {F : List Flt → ℝ≥0∞} (hF : ∀ v, F v ≤ 1) : levelsMean e cfg sc root ls p F ≤ 1 := by
  induction ls generalizing p F with
  | nil => exact hF []
  | cons l ls ih => exact levelMean_le_one he cfg sc root l p fun p' v => ih p' fun vs => hF _

/-! ## Weights that may be zero -/

section weights

variable {S S' : Set (Pt d)} {g g' : Pt d → ℝ} (hg : Dens S g) (hg' : Dens S' g') (hsub : S' ⊆ S)

include hg hg' hsub

theorem zero_out {y : Pt d} (hy : y ∉ S) : g y = 0 ∧ g' y = 0 :=
  ⟨le_antisymm (not_lt.1 fun h => hy ((hg.pos y).1 h)) (hg.nonneg y),
    le_antisymm (not_lt.1 fun h => hy (hsub ((hg'.pos y).1 h))) (hg'.nonneg y)⟩

theorem ratio_sub {M : ℝ} (hM : 0 < M) (hr : ∀ y ∈ S, g' y ≤ M * g y) : Unit1 (ratio g g' M) := by
  have h1 := hg.meas
  have h2 := hg'.meas
  refine ⟨by unfold ratio; fun_prop, fun y => ?_⟩
  unfold ratio
  rw [abs_of_nonneg (div_nonneg (div_nonneg (hg'.nonneg y) (hg.nonneg y)) hM.le), div_le_one hM]
  by_cases hy : y ∈ S
  · rw [div_le_iff₀ ((hg.pos y).2 hy)]
    exact hr y hy
  · rw [(zero_out hg hg' hsub hy).2, zero_div]
    exact hM.le

theorem ratio_mean {M : ℝ} (h : Pt d → ℝ) :
    ∫ y, ratio g g' M y * h y ∂MH.targetLaw volume g =
      (∫ y, h y ∂MH.targetLaw volume g') * ((∫ y, g' y) / (∫ y, g y) / M) := by
  rw [target_integral hg.meas hg.nonneg hg.int, target_integral hg'.meas hg'.nonneg hg'.int]
  have e : ∀ y, ratio g g' M y * h y * g y = h y * g' y / M := by
    intro y
    unfold ratio
    by_cases hy : y ∈ S
    · have := (hg.pos y).2 hy
      field_simp
    · obtain ⟨h1, h2⟩ := zero_out hg hg' hsub hy
      simp [h1, h2]
  simp only [e]
  rw [integral_div]
  have h1 := hg.mass
  have h2 := hg'.mass
  field_simp

theorem ratio_one {M : ℝ} :
    ∫ y, ratio g g' M y ∂MH.targetLaw volume g = (∫ y, g' y) / (∫ y, g y) / M := by
  have := ratio_mean hg hg' hsub (M := M) fun _ => 1
  have hp := hg'.prob
  simpa only [mul_one, integral_const, probReal_univ, smul_eq_mul, one_mul] using this

/-- The sum of the weights. -/
theorem total_eq {M : ℝ} (hM : 0 < M) {N : ℕ} (x : Fin N → Pt d) :
    (∑ j, wts g g' x j - (∫ y, g' y) / ∫ y, g y) ^ 2 = M ^ 2 * err g (ratio g g' M) x := by
  have e : ∑ j, wts g g' x j = M * avg (ratio g g' M) x := by
    unfold avg wts ratio
    rw [mul_div_assoc', Finset.mul_sum, Finset.sum_div]
    refine Finset.sum_congr rfl fun j _ => ?_
    field_simp
  unfold err
  rw [ratio_one hg hg' hsub, e]
  field_simp

/-- Weighted averages, where some weights may be zero. -/
theorem weighted_sub {N : ℕ} (hN : 0 < N) {M : ℝ} (hM : 0 < M) {h : Pt d → ℝ}
    (hh1 : Unit1 h) (x : Fin N → Pt d) (hsum : 0 < ∑ j, wts g g' x j) :
    (∑ j, nw (wts g g' x) j * h (x j) - ∫ y, h y ∂MH.targetLaw volume g') ^ 2 ≤
      2 * (M / ((∫ y, g' y) / ∫ y, g y)) ^ 2 *
        (err g (fun y => ratio g g' M y * h y) x + err g (ratio g g' M) x) := by
  have hN' : (0 : ℝ) < N := by exact_mod_cast hN
  set mu := ∫ y, h y ∂MH.targetLaw volume g' with hmu
  set G := ratio g g' M with hG
  set r := (∫ y, g' y) / ∫ y, g y with hr'
  have hrp : 0 < r := div_pos hg'.mass hg.mass
  have hG0 : ∀ j, 0 ≤ G (x j) := fun j =>
    div_nonneg (div_nonneg (hg'.nonneg _) (hg.nonneg _)) hM.le
  have ewG : ∀ j, wts g g' x j = M / N * G (x j) := fun j => by
    simp only [wts, hG, ratio]
    field_simp
  have hGs : 0 < ∑ k, G (x k) := by
    simp only [ewG, ← Finset.mul_sum] at hsum
    exact pos_of_mul_pos_right hsum (by positivity)
  have hQ : 0 < avg G x := div_pos hGs hN'
  have hP : |avg (fun y => G y * h y) x| ≤ avg G x := by
    unfold avg
    rw [abs_div, abs_of_pos hN']
    refine div_le_div_of_nonneg_right ((Finset.abs_sum_le_sum_abs _ _).trans ?_) hN'.le
    refine Finset.sum_le_sum fun j _ => ?_
    rw [abs_mul, abs_of_nonneg (hG0 j)]
    exact mul_le_of_le_one_right (hG0 j) (hh1.bound _)
  have ew : ∑ j, nw (wts g g' x) j * h (x j) = avg (fun y => G y * h y) x / avg G x := by
    have : ∀ j, nw (wts g g' x) j * h (x j) = (G (x j) * h (x j)) / ∑ k, G (x k) := by
      intro j
      simp only [nw, ewG, ← Finset.mul_sum]
      have := hGs.ne'
      field_simp
    simp only [this, ← Finset.sum_div, avg]
    rw [div_div_div_cancel_right₀ hN'.ne']
  have eb : ∫ y, G y ∂MH.targetLaw volume g = r / M := ratio_one hg hg' hsub
  have ea : ∫ y, G y * h y ∂MH.targetLaw volume g = mu * (r / M) := ratio_mean hg hg' hsub (M := M) h
  have hbp : 0 < r / M := div_pos hrp hM
  have key := ratio_error (a := mu * (r / M)) hQ hbp hP
  rw [mul_div_cancel_right₀ _ hbp.ne', ← ew] at key
  have ec : 2 / (r / M) ^ 2 = 2 * (M / r) ^ 2 := by field_simp
  rw [ec] at key
  unfold err
  rw [ea, eb]
  nlinarith [key]

end weights

/-! ## The resampling -/

theorem nw_of_one {N : ℕ} {q : Fin N → ℝ} (h : ∑ i, q i = 1) : nw q = q := by
  funext i
  rw [nw, h, div_one]

/-- Expectation after the resampling with probabilities `q`, with the worst arrangement of the
copies in `S`. -/
noncomputable def RsW (sch : Scheme) (S : Set (Pt d)) {N : ℕ} (q : Fin N → ℝ) (x : Fin N → Pt d) (V : Fun d) : ℝ≥0∞ :=
  ∑ c : Fin (draws sch q) → Fin N, ENNReal.ofReal (∏ i, dprob sch q (c i)) *
    ⨆ x' : {x' : Fin N → Pt d // (∀ i, x' i ∈ S) ∧ ∀ h : Pt d → ℝ,
      ∑ i, h (x' i) = (∑ j, (sure sch q j : ℝ) * h (x j)) + ∑ k, h (x (c k))}, V N x'

theorem rsW_le (sch : Scheme) {S : Set (Pt d)} {g : Pt d → ℝ} {N : ℕ} (hN : 2 ≤ N) {q : Fin N → ℝ}
    (hq0 : ∀ i, 0 ≤ q i) (hq1 : ∑ i, q i = 1) (x : Fin N → Pt d) {V : Fun d} {ε B : ℝ} (hε : 0 ≤ ε) (hB : 0 ≤ B)
    {Phi : List (Pt d → ℝ)} (hu : ∀ φ ∈ Phi, Unit1 φ)
    (hbd : ∀ x' : Fin N → Pt d, (∀ i, x' i ∈ S) →
      V N x' ≤ ENNReal.ofReal (ε + B / N + B * (Phi.map fun φ => err g φ x').sum)) :
    RsW sch S q x V ≤ ENNReal.ofReal ε + (ENNReal.ofReal (B / N) + ENNReal.ofReal B *
      (Phi.map fun φ => ENNReal.ofReal (1 / N + (∑ j, q j * φ (x j) - ∫ y, φ y ∂MH.targetLaw volume g) ^ 2)).sum) := by
  have hN0 : 0 < N := by omega
  have hsum : 0 < ∑ i, q i := by rw [hq1]; exact one_pos
  have hpc := draws_mass sch hq0 hsum
  have hp0 : ∀ c : Fin (draws sch q) → Fin N, 0 ≤ ∏ i, dprob sch q (c i) := fun c =>
    Finset.prod_nonneg fun i _ => dprob_nonneg sch hq0 hsum _
  have inner : ∀ c : Fin (draws sch q) → Fin N,
      (⨆ x' : {x' : Fin N → Pt d // (∀ i, x' i ∈ S) ∧ ∀ h : Pt d → ℝ,
        ∑ i, h (x' i) = (∑ j, (sure sch q j : ℝ) * h (x j)) + ∑ k, h (x (c k))}, V N x') ≤
        (ENNReal.ofReal ε + ENNReal.ofReal (B / N)) + ENNReal.ofReal B *
          (Phi.map fun φ => ENNReal.ofReal ((((∑ j, (sure sch q j : ℝ) * φ (x j)) +
          ∑ k, φ (x (c k))) / N - ∫ y, φ y ∂MH.targetLaw volume g) ^ 2)).sum := by
    intro c
    refine iSup_le fun x' => ?_
    refine (hbd x' x'.2.1).trans (le_of_eq ?_)
    have e : ∀ φ : Pt d → ℝ, err g φ (x' : Fin N → Pt d) =
        (((∑ j, (sure sch q j : ℝ) * φ (x j)) +
          ∑ k, φ (x (c k))) / N - ∫ y, φ y ∂MH.targetLaw volume g) ^ 2 := fun φ => by
      unfold err avg
      rw [x'.2.2 φ]
    rw [ENNReal.ofReal_add (by positivity) (mul_nonneg hB (errs_nonneg _ _)),
      ENNReal.ofReal_add hε (by positivity), ENNReal.ofReal_mul hB, ofReal_list]
    simp only [e]
  have hone : ∀ φ, Unit1 φ → ∑ c : Fin (draws sch q) → Fin N, ENNReal.ofReal (∏ i, dprob sch q (c i)) *
      ENNReal.ofReal ((((∑ j, (sure sch q j : ℝ) * φ (x j)) +
          ∑ k, φ (x (c k))) / N - ∫ y, φ y ∂MH.targetLaw volume g) ^ 2) ≤
      ENNReal.ofReal (1 / N + (∑ j, q j * φ (x j) - ∫ y, φ y ∂MH.targetLaw volume g) ^ 2) := by
    intro φ hφ
    have h1 := draws_mse sch hN0 hq0 hsum (fun j => φ (x j)) (fun j => hφ.bound _)
      (∫ y, φ y ∂MH.targetLaw volume g)
    rw [nw_of_one hq1] at h1
    refine le_trans (le_of_eq ?_) (ENNReal.ofReal_le_ofReal h1)
    unfold expect
    rw [ENNReal.ofReal_sum_of_nonneg fun c _ => mul_nonneg (hp0 c) (sq_nonneg _)]
    exact Finset.sum_congr rfl fun c _ => (ENNReal.ofReal_mul (hp0 c)).symm
  calc RsW sch S q x V ≤
      ∑ c : Fin (draws sch q) → Fin N, ENNReal.ofReal (∏ i, dprob sch q (c i)) *
        ((ENNReal.ofReal ε + ENNReal.ofReal (B / N)) + ENNReal.ofReal B *
          (Phi.map fun φ => ENNReal.ofReal ((((∑ j, (sure sch q j : ℝ) * φ (x j)) +
          ∑ k, φ (x (c k))) / N - ∫ y, φ y ∂MH.targetLaw volume g) ^ 2)).sum) :=
        Finset.sum_le_sum fun c _ => mul_le_mul_right (inner c) _
    _ = ENNReal.ofReal ε + (ENNReal.ofReal (B / N) + ENNReal.ofReal B *
        (Phi.map fun φ => ∑ c : Fin (draws sch q) → Fin N, ENNReal.ofReal (∏ i, dprob sch q (c i)) *
          ENNReal.ofReal ((((∑ j, (sure sch q j : ℝ) * φ (x j)) +
          ∑ k, φ (x (c k))) / N - ∫ y, φ y ∂MH.targetLaw volume g) ^ 2)).sum) := by
        simp only [mul_add, Finset.sum_add_distrib, ← Finset.sum_mul, hpc, one_mul]
        rw [add_assoc]
        congr 2
        rw [← sum_list_swap, Finset.mul_sum]
        refine Finset.sum_congr rfl fun c _ => ?_
        ring
    _ ≤ _ := by
        refine add_le_add le_rfl (add_le_add le_rfl (mul_le_mul_right ?_ _))
        exact List.sum_le_sum fun φ hφ => hone φ (hu φ hφ)

/-- Error of one average after the resampling. -/
noncomputable def rsErr (g g' : Pt d → ℝ) (M kap : ℝ) (φ : Pt d → ℝ) : Fun d := fun N x =>
  ENNReal.ofReal (1 / N) + ENNReal.ofReal kap * (ENNReal.ofReal (err g (fun y => ratio g g' M y * φ y) x) +
    ENNReal.ofReal (err g (ratio g g' M) x))

theorem rsErr_ctl {S S' : Set (Pt d)} {g g' : Pt d → ℝ} (hg : Dens S g) (hg' : Dens S' g') (hsub : S' ⊆ S)
    {M : ℝ} (hM : 0 < M) (hr : ∀ y ∈ S, g' y ≤ M * g y) {kap : ℝ} (hk : 0 ≤ kap) {φ : Pt d → ℝ} (hφ : Unit1 φ) :
    Ctl S g (rsErr g g' M kap φ) := by
  have hG := ratio_sub hg hg' hsub hM hr
  exact ctl_add (ctl_inv zero_le_one) (ctl_mul (ctl_add (ctl_err (hG.mul hφ)) (ctl_err hG)) hk)

theorem rsErr_le {S S' : Set (Pt d)} {g g' : Pt d → ℝ} (hg : Dens S g) (hg' : Dens S' g') (hsub : S' ⊆ S)
    {M : ℝ} (hM : 0 < M) {φ : Pt d → ℝ} (hφ : Unit1 φ) {N : ℕ} (hN : 0 < N) (x : Fin N → Pt d)
    (hs : 0 < ∑ j, wts g g' x j) :
    ENNReal.ofReal (1 / N + (∑ j, nw (wts g g' x) j * φ (x j) - ∫ y, φ y ∂MH.targetLaw volume g') ^ 2) ≤
      rsErr g g' M (2 * (M / ((∫ y, g' y) / ∫ y, g y)) ^ 2) φ N x := by
  unfold rsErr
  have hkap0 : 0 ≤ 2 * (M / ((∫ y, g' y) / ∫ y, g y)) ^ 2 := by positivity
  rw [← ENNReal.ofReal_add (err_nonneg _) (err_nonneg _), ← ENNReal.ofReal_mul hkap0,
    ← ENNReal.ofReal_add (by positivity) (mul_nonneg hkap0 (add_nonneg (err_nonneg _) (err_nonneg _)))]
  exact ENNReal.ofReal_le_ofReal (add_le_add le_rfl (weighted_sub hg hg' hsub hN hM hφ x hs))

/-- Resampling towards a density with a smaller support keeps what is small small. -/
theorem rsW_ctl (sch : Scheme) {S S' : Set (Pt d)} {g g' : Pt d → ℝ} (hg : Dens S g) (hg' : Dens S' g')
    (hsub : S' ⊆ S) {M : ℝ} (hM : 0 < M) (hr : ∀ y ∈ S, g' y ≤ M * g y) {V : Fun d} (hV : Ctl S' g' V) :
    Ctl S g fun _ x => ⨆ _ : 0 < ∑ j, wts g g' x j, RsW sch S' (nw (wts g g' x)) x V := by
  refine ctl_lim fun ε hε => ?_
  obtain ⟨Phi, B, hB, hu, hbd⟩ := hV ε hε
  have hkap0 : 0 ≤ 2 * (M / ((∫ y, g' y) / ∫ y, g y)) ^ 2 := by positivity
  have hc := ctl_add (S := S) (g := g) (ctl_inv hB) (ctl_mul (ctl_list _ Phi fun φ h =>
    rsErr_ctl hg hg' hsub hM hr hkap0 (hu φ h)) hB)
  refine ⟨_, hc, fun N hN x hx => iSup_le fun hs => ?_⟩
  have hw0 : ∀ j, 0 ≤ wts g g' x j := fun j =>
    mul_nonneg (by positivity) (div_nonneg (hg'.nonneg _) (hg.nonneg _))
  have h1 := rsW_le sch hN (fun i => div_nonneg (hw0 i) hs.le) (nw_sum hs) x hε.le hB hu
      (fun x' hx' => hbd N hN x' hx')
  refine h1.trans (add_le_add le_rfl (add_le_add le_rfl (mul_le_mul_right ?_ _)))
  exact List.sum_le_sum fun φ hφ => rsErr_le hg hg' hsub hM (hu φ hφ) (by omega) x hs

/-! ## The code of a level -/

theorem reweight_sub {N : ℕ} {S : Set (Pt d)} {g g' : Pt d → ℝ} (hg : Dens S g) {l : Pt d → Flt} (hl : LogOf l g')
    {s : ℝ} {p : Parts N d} (hp : Ready S g s p) :
    ∃ a, reweight true (setLogpdf (pointwise l) p) = .ok a ∧ a.x = p.x ∧
      (∀ i, a.logpx i = l (p.x i)) ∧ a.logpdf = pointwise l ∧ a.s = s ∧
      a.wtmp = (fun i => .fin (wts g g' p.x i)) ∧ a.w = fun i => .fin (wts g g' p.x i) := by
  have e : (fun i => (p.w i).mul ((l (p.x i)).sub (p.logpx i)).exp) = fun i => Flt.fin (wts g g' p.x i) := by
    funext i
    have h1 := (hg.pos _).2 (hp.mem i)
    simp only [hp.logpx, hp.w, uniformW]
    rcases hl (p.x i) with ⟨h2, h3⟩ | ⟨h2, h3⟩
    · rw [h3, Flt.sub_fin, Flt.exp_fin, Flt.mul_fin, Real.exp_sub, Real.exp_log h2, Real.exp_log h1]
      rfl
    · have h4 : (Flt.num ⊥).sub (.fin (Real.log (g (p.x i)))) = .num ⊥ := by
        simp [Flt.sub, Flt.add, Flt.neg, Flt.fin]
      rw [h3, h4, Flt.exp_bot, Flt.mul_fin, wts, h2, zero_div]
  exact ⟨_, rfl, rfl, fun i => rfl, rfl, hp.s, e, e⟩

theorem dprob_pos {sch : Scheme} {N : ℕ} {q : Fin N → ℝ} (h : ∑ i, q i = 1) {j : Fin N} (hj : dprob sch q j ≠ 0) :
    q j ≠ 0 := by
  intro h0
  apply hj
  have h1 : nw q j = 0 := by rw [nw_of_one h, h0]
  cases sch
  · exact h1
  · show fracs q j = 0
    simp [fracs, h1]
  · show fracs q j = 0
    simp [fracs, h1]

theorem sure_pos {sch : Scheme} {N : ℕ} {q : Fin N → ℝ} (h : ∑ i, q i = 1) {j : Fin N} (hj : sure sch q j ≠ 0) :
    q j ≠ 0 := by
  intro h0
  apply hj
  have h1 : nw q j = 0 := by rw [nw_of_one h, h0]
  cases sch
  · rfl
  · show ⌊(N : ℝ) * nw q j⌋₊ = 0
    simp [h1]
  · show ⌊(N : ℝ) * nw q j⌋₊ = 0
    simp [h1]

theorem resample_one {root : Matrix (Fin d) (Fin d) ℝ → Option (Matrix (Fin d) (Fin d) ℝ)}
    {N : ℕ} {a : Parts N d} {w : Fin N → ℝ} (hw : a.wtmp = fun i => .fin (w i))
    (hw0 : ∀ i, 0 ≤ w i) (hsum : 0 < ∑ i, w i) {cfg : PConfig} (hne : cfg.scheme ≠ .other) {J : ℕ}
    (c : Fin (draws cfg.scheme (nw w)) → Fin N) (t : Fin J → Fin N → Pt d × ℝ) :
    resample (searchEnv a (dprob cfg.scheme (nw w)) root c t) cfg a =
      copyParts (searchEnv a (dprob cfg.scheme (nw w)) root c t) (fun i => sure cfg.scheme (nw w) i + tally c i) a := by
  have hn := nw_of_one (nw_sum hsum)
  have hr : rest (nw w) = rest w := by unfold rest; rw [hn]
  have e1 : draws cfg.scheme (nw w) = draws cfg.scheme w := by
    cases cfg.scheme
    · rfl
    · exact hr
    · exact hr
  have hf : fracs (nw w) = fracs w := by
    funext i
    unfold fracs
    rw [hn, hr]
  have e2 : dprob cfg.scheme (nw w) = dprob cfg.scheme w := by
    cases cfg.scheme
    · exact hn
    · exact hf
    · exact hf
  have e3 : sure cfg.scheme (nw w) = sure cfg.scheme w := by
    cases cfg.scheme
    · rfl
    · show (fun i => ⌊(N : ℝ) * nw (nw w) i⌋₊) = _
      rw [hn]; rfl
    · show (fun i => ⌊(N : ℝ) * nw (nw w) i⌋₊) = _
      rw [hn]; rfl
  rw [e2, e3]
  generalize draws cfg.scheme (nw w) = K at c e1
  subst e1
  exact resample_search hw hw0 hsum rfl hne c t

section level

variable {S S' : Set (Pt d)} {root : Matrix (Fin d) (Fin d) ℝ → Option (Matrix (Fin d) (Fin d) ℝ)}
  {cfg : PConfig} (hcov : cfg.cov = .normal) (hsch : cfg.scheme ≠ .other)
  (hlow : 0 < cfg.sLower) {sc : SConfig} {e : ℝ≥0∞}

include hcov hsch hlow in
/-- A level, when some particle survives. -/
theorem level_bound {g g' : Pt d → ℝ} (hg : Dens S g) (hg' : Dens S' g') {l : Pt d → Flt} (hl : LogOf l g')
    {N : ℕ} (hN : 2 ≤ N) {p : Parts N d} (hp : Ready S g p.s p) {q : ℕ}
    (hbud : Bud e cfg sc root (q + sc.maxIter) p.s) {F : Parts N d → Flt → ℝ≥0∞} {V : ℝ → Fun d}
    (hs : 0 < ∑ j, wts g g' p.x j)
    (hF : ∀ p', Ready S' g' p'.s p' → Bud e cfg sc root q p'.s →
      F p' (.fin (∑ j, wts g g' p.x j)) ≤ V p'.s N p'.x) :
    levelMean e cfg sc root l p F ≤
      RsW cfg.scheme S' (nw (wts g g' p.x)) p.x (CM root g' sc.factor (sc.mhSteps - 1).toNat V sc.maxIter p.s) := by
  obtain ⟨a, ha, hax, hal, had, has, hawt, haw⟩ := reweight_sub hg hl hp
  set w := wts g g' p.x with hw
  have hw0 : ∀ j, 0 ≤ w j := fun j => mul_nonneg (by positivity) (div_nonneg (hg'.nonneg _) (hg.nonneg _))
  have hpr : probs a.wtmp = fun i => .fin (nw w i) := by rw [hawt, probs_fin w hs.ne']; rfl
  have hq0 : ∀ i, 0 ≤ nw w i := fun i => div_nonneg (hw0 i) hs.le
  have hq1 := nw_sum hs
  unfold levelMean
  rw [ha]
  dsimp only
  rw [if_pos ⟨nw w, hpr, hq0, hq1⟩]
  have hwt : (fun i => toReal (probs a.wtmp i)) = nw w := by
    funext i
    rw [hpr]
    exact EReal.toReal_coe _
  rw [hwt]
  unfold RsW
  refine Finset.sum_le_sum fun c _ => ?_
  rcases eq_or_ne (∏ i, dprob cfg.scheme (nw w) (c i)) 0 with h0 | h0
  · rw [h0, ENNReal.ofReal_zero, zero_mul]
    exact zero_le
  refine mul_le_mul_right ?_ _
  have hcpos : ∀ k, nw w (c k) ≠ 0 := fun k => dprob_pos hq1 (Finset.prod_ne_zero_iff.1 h0 k (Finset.mem_univ _))
  set q0 := dprob cfg.scheme (nw w) with hq0'
  set a' : Parts N d := { a with w := fun i => (a.w i).div (Flt.sum a.w) } with ha'
  have henv : ∀ t : Fin (tapeLen sc) → Fin N → Pt d × ℝ, searchEnv a q0 root c t = searchEnv a' q0 root c t :=
    fun t => rfl
  obtain ⟨b0, hb0, hcop, hwu, -, hpd, hbs0⟩ := copyParts_ok (searchEnv a' q0 root c (J := 0) Fin.elim0) _
    (sure_total hq0 (by rw [hq1]; exact one_pos) c) a'
  have hclock : b0.clock = a'.clock + 1 := by
    unfold copyParts at hb0
    cases h : copyLoop a'.x a'.logpx (fun i => sure cfg.scheme (nw w) i + tally c i)
      ⟨0, (searchEnv a' q0 root c (J := 0) Fin.elim0).junkX a'.clock,
      (searchEnv a' q0 root c (J := 0) Fin.elim0).junkL a'.clock⟩ with
    | error e => rw [h] at hb0; simp [Bind.bind, Except.bind] at hb0
    | ok q =>
      rw [h] at hb0
      simp only [Bind.bind, Except.bind, Pure.pure, Except.pure, Except.ok.injEq] at hb0
      rw [← hb0]
  have hbs : b0.s = p.s := hbs0.trans has
  have hmob : Mobile S' l b0.s b0 := by
    obtain ⟨σ, h2, h3⟩ := hcop
    refine ⟨fun i => ?_, fun i => ?_, hwu, rfl, hpd.trans had⟩
    · have h4 : sure cfg.scheme (nw w) (σ i) + tally c (σ i) ≠ 0 := by
        have h7 := h3 (σ i)
        dsimp only at h7
        rw [← h7]
        exact (Finset.card_pos.2 ⟨i, by simp⟩).ne'
      have h5 : nw w (σ i) ≠ 0 := by
        rcases Nat.eq_zero_or_pos (tally c (σ i)) with h6 | h6
        · exact sure_pos (sch := cfg.scheme) hq1 (by rwa [h6, add_zero] at h4)
        · obtain ⟨k, hk⟩ := Finset.card_pos.1 h6
          have : c k = σ i := by simpa using hk
          rw [← this]
          exact hcpos k
      have h6 : g' (p.x (σ i)) ≠ 0 := by
        intro h7
        apply h5
        rw [nw, hw, wts, h7, zero_div, mul_zero, zero_div]
      rw [(h2 i).1]
      show a.x (σ i) ∈ S'
      rw [hax]
      exact (hg'.pos _).1 (lt_of_le_of_ne (hg'.nonneg _) h6.symm)
    · rw [(h2 i).2, (h2 i).1]
      show a.logpx (σ i) = l (a.x (σ i))
      rw [hal, hax]
  have hres : ∀ t : Fin (tapeLen sc) → Fin N → Pt d × ℝ, resample (searchEnv a' q0 root c t) cfg a' = .ok b0 :=
    fun t => (resample_one (a := a') hawt hw0 hs hsch c t).trans hb0
  have hsumw : Flt.sum a.w = .fin (∑ j, w j) := by rw [haw, Flt.sum_fin]
  have hlev : ∀ t : Fin (tapeLen sc) → Fin N → Pt d × ℝ,
      outL e F (levelWith (searchEnv a q0 root c t) cfg sc (pointwise l) p) =
        out e (fun p' => F p' (.fin (∑ j, w j))) (controlledMove (searchEnv a' q0 root c t) cfg sc sc.maxIter b0 >>=
          moves (searchEnv a' q0 root c t) cfg (sc.mhSteps - 1).toNat) := by
    intro t
    unfold levelWith
    rw [ha, henv]
    simp only [Bind.bind, Except.bind, mutate]
    rw [← ha', hres t]
    dsimp only
    cases controlledMove (searchEnv a' q0 root c t) cfg sc sc.maxIter b0 with
    | error _ => rfl
    | ok b1 =>
      dsimp only
      cases moves (searchEnv a' q0 root c t) cfg (sc.mhSteps - 1).toNat b1 with
      | error _ => rfl
      | ok b2 =>
        simp only [Pure.pure, Except.pure, outL, out, hsumw]
  simp only [hlev]
  have hx' : (∀ i, b0.x i ∈ S') ∧ ∀ h : Pt d → ℝ,
      ∑ i, h (b0.x i) = (∑ j, (sure cfg.scheme (nw w) j : ℝ) * h (p.x j)) + ∑ k, h (p.x (c k)) :=
    ⟨hmob.mem, fun h => by
      have hxa : a'.x = p.x := hax
      rw [copies_sum hcop h, ← tally_sum c fun j => h (p.x j), hxa, ← Finset.sum_add_distrib]
      refine Finset.sum_congr rfl fun j _ => ?_
      push_cast
      ring⟩
  refine le_trans ?_ (le_iSup (fun x' : {x' : Fin N → Pt d // (∀ i, x' i ∈ S') ∧
    ∀ h : Pt d → ℝ, ∑ i, h (x' i) = (∑ j, (sure cfg.scheme (nw w) j : ℝ) * h (p.x j)) + ∑ k, h (p.x (c k))} =>
      CM root g' sc.factor (sc.mhSteps - 1).toNat V sc.maxIter p.s N x') ⟨b0.x, hx'⟩)
  dsimp only
  rw [← hbs]
  exact ctrl_bound hg' hl hcov hN hlow (sc.mhSteps - 1).toNat q sc.maxIter (tapeLen sc) le_rfl
    (fun t => searchEnv a' q0 root c t) (a'.clock + 1) (fun t => searchEnv_tape a' q0 c t) b0 hmob hclock
    (by rw [hbs]; exact hbud) _ V (fun p' hp' hq => hF p' (hp'.ready hg' hl) hq)

end level

/-! ## The loop over the levels -/

open Classical in
/-- 0 if every stage probability is within `δ` of its limit, else 1. -/
noncomputable def miss (δ : ℝ) (ps : List ℝ) (vs : List Flt) : ℝ≥0∞ :=
  if ∃ rs : List ℝ, vs = rs.map .fin ∧ List.Forall₂ (fun r p => |r - p| < δ) rs ps then 0 else 1

theorem miss_le_one (δ : ℝ) (ps : List ℝ) (vs : List Flt) : miss δ ps vs ≤ 1 := by
  unfold miss
  split_ifs <;> simp

theorem miss_cons {δ p r : ℝ} (h : |r - p| < δ) (ps : List ℝ) (vs : List Flt) :
    miss δ (p :: ps) (.fin r :: vs) = miss δ ps vs := by
  unfold miss
  congr 1
  apply propext
  constructor
  · rintro ⟨rs, h1, h2⟩
    cases rs with
    | nil => simp at h1
    | cons a rs =>
      simp only [List.map_cons, List.cons.injEq] at h1
      exact ⟨rs, h1.2, (List.forall₂_cons.1 h2).2⟩
  · rintro ⟨rs, h1, h2⟩
    exact ⟨r :: rs, by rw [h1]; rfl, List.forall₂_cons.2 ⟨h, h2⟩⟩

/-- Densities with shrinking supports, their logarithms, and the quotients of their masses. -/
inductive Nested : Set (Pt d) → (Pt d → ℝ) → List (Pt d → Flt) → List ℝ → Prop
  | nil (S : Set (Pt d)) (g : Pt d → ℝ) : Nested S g [] []
  | cons {S S' : Set (Pt d)} {g g' : Pt d → ℝ} {l : Pt d → Flt} {M : ℝ} {ls : List (Pt d → Flt)} {ps : List ℝ}
      (dens : Dens S' g') (meas : MeasurableSet S') (sub : S' ⊆ S) (log : LogOf l g') (pos : 0 < M)
      (le : ∀ y ∈ S, g' y ≤ M * g y) (tail : Nested S' g' ls ps) :
      Nested S g (l :: ls) ((∫ y, g' y) / (∫ y, g y) :: ps)

section levels

variable {root : Matrix (Fin d) (Fin d) ℝ → Option (Matrix (Fin d) (Fin d) ℝ)}
  (hroot : ∀ A L, root A = some L → L * Lᵀ = A)
  {cfg : PConfig} (hcov : cfg.cov = .normal) (hsch : cfg.scheme ≠ .other)
  (hlow : 0 < cfg.sLower) {sc : SConfig} {e : ℝ≥0∞} (he : e ≤ 1)

include hroot hcov hsch hlow he in
theorem levels_bound {R : ℝ} (hR : 0 < R) {S : Set (Pt d)} {g : Pt d → ℝ} {ls : List (Pt d → Flt)} {ps : List ℝ}
    (hn : Nested S g ls ps) (hg : Dens S g) (hb : ∀ y ∈ S, ∀ a, |y a| ≤ R) {δ : ℝ} (hδ : 0 < δ) :
    ∃ V : ℝ → Fun d, (∀ s, Ctl S g (V s)) ∧ ∀ N, 2 ≤ N → ∀ p : Parts N d, Ready S g p.s p →
      Bud e cfg sc root (sc.maxIter * ls.length) p.s → levelsMean e cfg sc root ls p (miss δ ps) ≤ V p.s N p.x := by
  induction hn with
  | nil S g =>
    refine ⟨fun _ _ _ => 0, fun s => ctl_zero, fun N hN p hp hbud => ?_⟩
    unfold levelsMean miss
    rw [if_pos ⟨[], rfl, List.Forall₂.nil⟩]
  | @cons S S' g g' l M ls ps dens meas sub log pos le tail ih =>
    have hb' : ∀ y ∈ S', ∀ a, |y a| ≤ R := fun y hy => hb y (sub hy)
    obtain ⟨V, hV, hbd⟩ := ih dens hb'
    set P := (∫ y, g' y) / ∫ y, g y with hP
    have hP0 : 0 < P := div_pos dens.mass hg.mass
    set η := min δ P with hη
    have hη0 : 0 < η := lt_min hδ hP0
    have c1 : Ctl S g fun N x => ENNReal.ofReal (M ^ 2 / η ^ 2) * ENNReal.ofReal (err g (ratio g g' M) x) :=
      ctl_mul (ctl_err (ratio_sub hg dens sub pos le)) (by positivity)
    have c2 := fun s => rsW_ctl cfg.scheme hg dens sub pos le
      (cm_ctl meas hR hb' hroot dens hV sc.factor (sc.mhSteps - 1).toNat sc.maxIter s)
    refine ⟨_, fun s => ctl_add c1 (c2 s), fun N hN p hp hbud => ?_⟩
    unfold levelsMean
    by_cases hw : |∑ j, wts g g' p.x j - P| < η
    · have hs : 0 < ∑ j, wts g g' p.x j := by
        have h1 := (abs_lt.1 hw).1
        have h2 : η ≤ P := min_le_right _ _
        linarith
      refine le_add_left (le_trans ?_ (le_iSup (fun _ : 0 < ∑ j, wts g g' p.x j => RsW cfg.scheme S'
        (nw (wts g g' p.x)) p.x (CM root g' sc.factor (sc.mhSteps - 1).toNat V sc.maxIter p.s)) hs))
      refine level_bound (q := sc.maxIter * ls.length) hcov hsch hlow hg dens log hN hp ?_ hs fun p' hp' hq => ?_
      · rw [List.length_cons, Nat.mul_succ] at hbud
        exact hbud
      · simp only [miss_cons (hw.trans_le (min_le_left _ _))]
        exact hbd N hN p' hp' hq
    · refine le_add_right ((levelMean_le_one he cfg sc root l p fun p' v =>
        levelsMean_le_one he cfg sc root ls p' fun vs => miss_le_one _ _ _).trans ?_)
      rw [← ENNReal.ofReal_mul (by positivity), ENNReal.one_le_ofReal, div_mul_eq_mul_div,
        ← total_eq hg dens sub pos, ← hP, one_le_div (by positivity), ← sq_abs (_ - _)]
      exact pow_le_pow_left₀ hη0.le (not_lt.1 hw) 2

include hroot hcov hsch hlow he in
/-- The stage probabilities tend to the quotients of the masses. -/
theorem levels_tendsto {lo hi : Pt d} (hbox : ∀ j, lo j < hi j) (hunif : cfg.randunif = true)
    {ls : List (Pt d → Flt)} {ps : List ℝ} (hn : Nested (Set.Icc lo hi) (flat lo hi) ls ps)
    (hbud : Bud e cfg sc root (sc.maxIter * ls.length) cfg.s0) {δ : ℝ} (hδ : 0 < δ) :
    Tendsto (fun N => subsetRun N e cfg sc root lo hi ls (miss δ ps)) atTop (𝓝 0) := by
  have hR : 0 < 1 + ∑ j, (|lo j| + |hi j|) := by positivity
  obtain ⟨V, hV, hbd⟩ := levels_bound hroot hcov hsch hlow (sc := sc) he hR hn (flat_dens hbox) box_bound hδ
  refine tendsto_of_tendsto_of_tendsto_of_le_of_le' tendsto_const_nhds (fresh_tendsto hbox (hV cfg.s0))
    (Eventually.of_forall fun _ => zero_le) ?_
  filter_upwards [eventually_ge_atTop 2] with N hN
  have hprob : IsProbabilityMeasure (volume.restrict (Set.Icc (0 : Pt d) 1)) := ⟨by
    rw [Measure.restrict_apply MeasurableSet.univ, Set.univ_inter, Real.volume_Icc_pi]
    simp⟩
  unfold subsetRun
  refine (lintegral_mono (g := fun _ => ∫⁻ U : Fin N → Pt d, V cfg.s0 N (fun i => toBox lo hi (U i))
      ∂(Measure.pi fun _ => volume.restrict (Set.Icc 0 1))) fun U => ?_).trans (by simp)
  unfold newParts
  rw [fresh_init hbox hunif]
  dsimp only
  refine lintegral_mono_ae ?_
  filter_upwards [fresh_mem hbox N] with U' hmem
  rw [fresh_init hbox hunif]
  dsimp only
  exact hbd N hN _ ⟨hmem, fun i => by simp [flat, hmem i], rfl, rfl⟩ hbud

end levels

/-! ## Monotony -/

theorem levelMean_mono {N : ℕ} {e : ℝ≥0∞} (cfg : PConfig) (sc : SConfig)
    (root : Matrix (Fin d) (Fin d) ℝ → Option (Matrix (Fin d) (Fin d) ℝ)) (l : Pt d → Flt)
    (p : Parts N d) {F G : Parts N d → Flt → ℝ≥0∞} (h : ∀ p v, F p v ≤ G p v) :
    levelMean e cfg sc root l p F ≤ levelMean e cfg sc root l p G := by
  classical
  unfold levelMean
  split
  · exact le_rfl
  · rename_i a _
    split_ifs with hc
    · refine Finset.sum_le_sum fun c _ => mul_le_mul_right (lintegral_mono fun t => ?_) _
      cases levelWith (searchEnv a (dprob cfg.scheme fun i => toReal (probs a.wtmp i)) root c t) cfg sc
            (pointwise l) p with
      | error _ => exact le_rfl
      | ok r => exact h _ _
    · exact le_rfl

theorem levelsMean_mono {N : ℕ} {e : ℝ≥0∞} (cfg : PConfig) (sc : SConfig)
    (root : Matrix (Fin d) (Fin d) ℝ → Option (Matrix (Fin d) (Fin d) ℝ)) (ls : List (Pt d → Flt))
    (p : Parts N d) {F G : List Flt → ℝ≥0∞} (h : ∀ v, F v ≤ G v) :
    levelsMean e cfg sc root ls p F ≤ levelsMean e cfg sc root ls p G := by
  induction ls generalizing p F G with
  | nil => exact h []
  | cons l ls ih => exact levelMean_mono cfg sc root l p fun p' v => ih p' fun vs => h _

theorem subsetRun_mono {N : ℕ} {e : ℝ≥0∞} (cfg : PConfig) (sc : SConfig)
    (root : Matrix (Fin d) (Fin d) ℝ → Option (Matrix (Fin d) (Fin d) ℝ)) (lo hi : Pt d) (ls : List (Pt d → Flt))
    {F G : List Flt → ℝ≥0∞} (h : ∀ v, F v ≤ G v) :
    subsetRun N e cfg sc root lo hi ls F ≤ subsetRun N e cfg sc root lo hi ls G := by
  unfold subsetRun
  refine lintegral_mono fun U => ?_
  cases newParts (initEnv U) cfg lo hi with
  | error _ => exact le_rfl
  | ok p =>
    dsimp only
    refine lintegral_mono fun U' => ?_
    cases particlesInit (initEnv U') cfg lo hi p with
    | error _ => exact le_rfl
    | ok q => exact levelsMean_mono cfg sc root ls q h

/-! ## The estimate -/

theorem prod_map_fin (rs : List ℝ) : Flt.prod (rs.map .fin) = .fin rs.prod := by
  have h : ∀ a : ℝ, (rs.map Flt.fin).foldl Flt.mul (.fin a) = .fin (a * rs.prod) := by
    induction rs with
    | nil => intro a; simp
    | cons r rs ih =>
      intro a
      rw [List.map_cons, List.foldl_cons, Flt.mul_fin, ih, List.prod_cons, mul_assoc]
  rw [Flt.prod, h, one_mul]

theorem prod_near (ps : List ℝ) {δ : ℝ} (hδ : 0 < δ) : ∃ η, 0 < η ∧ ∀ rs : List ℝ,
    List.Forall₂ (fun r p => |r - p| < η) rs ps → |rs.prod - ps.prod| < δ := by
  induction ps generalizing δ with
  | nil =>
    refine ⟨1, one_pos, fun rs h => ?_⟩
    cases h
    simpa using hδ
  | cons p ps ih =>
    have h1 : 0 < |p| + 1 := by positivity
    have h2 : 0 < |ps.prod| + 1 := by positivity
    obtain ⟨η, hη, hb⟩ := ih (δ := δ / (2 * (|p| + 1))) (by positivity)
    refine ⟨min η (min 1 (δ / (2 * (|ps.prod| + 1)))), by positivity, fun rs h => ?_⟩
    cases h with
    | @cons r _ rs _ hr hrs =>
      have h3 := hb rs (hrs.imp fun _ _ h => h.trans_le (min_le_left _ _))
      have h4 : |r - p| < 1 := hr.trans_le ((min_le_right _ _).trans (min_le_left _ _))
      have h5 : |r - p| < δ / (2 * (|ps.prod| + 1)) := hr.trans_le ((min_le_right _ _).trans (min_le_right _ _))
      rw [lt_div_iff₀ (by positivity)] at h3 h5
      have h6 : |r| ≤ |p| + 1 := by
        have := abs_sub_abs_le_abs_sub r p
        linarith
      rw [List.prod_cons, List.prod_cons]
      have e : r * rs.prod - p * ps.prod = r * (rs.prod - ps.prod) + (r - p) * ps.prod := by ring
      rw [e]
      refine (abs_add_le _ _).trans_lt ?_
      rw [abs_mul, abs_mul]
      have h7 : |r| * |rs.prod - ps.prod| ≤ (|p| + 1) * |rs.prod - ps.prod| :=
        mul_le_mul_of_nonneg_right h6 (abs_nonneg _)
      have h8 : |r - p| * |ps.prod| ≤ |r - p| * (|ps.prod| + 1) :=
        mul_le_mul_of_nonneg_left (by linarith) (abs_nonneg _)
      linarith

/-- The side of the threshold that counts. -/
def Pass (upper : Bool) (f : Pt d → ℝ) (u : ℝ) (y : Pt d) : Prop := if upper then u < f y else f y < u

open Classical in
/-- `log_indicator_density`, smc.py 1345-1359, where `-1e100` is replaced by minus infinity: in
double precision the exponential of either is 0, and no logarithm of a positive number lies below either. -/
noncomputable def cutLog (upper : Bool) (f : Pt d → ℝ) (logPx : Pt d → Flt) (u : ℝ) (y : Pt d) : Flt :=
  if Pass upper f u y then logPx y else .num ⊥

open Classical in
noncomputable def cutDens (upper : Bool) (f px : Pt d → ℝ) (u : ℝ) (y : Pt d) : ℝ :=
  if Pass upper f u y then px y else 0

theorem cut_log {upper : Bool} {f : Pt d → ℝ} {logPx : Pt d → Flt} {px : Pt d → ℝ} (h : LogOf logPx px) (u : ℝ) :
    LogOf (cutLog upper f logPx u) (cutDens upper f px u) := by
  intro y
  unfold cutLog cutDens
  split_ifs
  · exact h y
  · exact Or.inr ⟨rfl, rfl⟩

theorem pass_measurable (upper : Bool) {f : Pt d → ℝ} (hf : Measurable f) (u : ℝ) :
    MeasurableSet {y | Pass upper f u y} := by
  unfold Pass
  cases upper
  · exact measurableSet_lt hf measurable_const
  · exact measurableSet_lt measurable_const hf

theorem cut_integral (upper : Bool) {f px : Pt d → ℝ} (hf : Measurable f) (u : ℝ) :
    ∫ y, cutDens upper f px u y = ∫ y in {y | Pass upper f u y}, px y := by
  classical
  rw [← integral_indicator (pass_measurable upper hf u)]
  rfl

/-- Further in. -/
def Inner (upper : Bool) (u v : ℝ) : Prop := if upper then u ≤ v else v ≤ u

theorem Inner.pass {upper : Bool} {u v : ℝ} (h : Inner upper u v) {f : Pt d → ℝ} {y : Pt d} (hy : Pass upper f v y) :
    Pass upper f u y := by
  unfold Inner at h
  unfold Pass at hy ⊢
  cases upper
  · exact lt_of_lt_of_le hy h
  · exact lt_of_le_of_lt h hy

section cut

variable {upper : Bool} {f px : Pt d → ℝ} {S : Set (Pt d)} (hf : Measurable f) (hpx : Dens S px)

include hf hpx

theorem cut_dens {u : ℝ} (h : 0 < ∫ y, cutDens upper f px u y) :
    Dens (S ∩ {y | Pass upper f u y}) (cutDens upper f px u) := by
  classical
  have hm := pass_measurable upper hf u
  have e : cutDens upper f px u = {y | Pass upper f u y}.indicator px := rfl
  refine ⟨by rw [e]; exact hpx.meas.indicator hm, fun y => ?_, fun y => ?_, ?_, h⟩
  · unfold cutDens
    split_ifs
    · exact hpx.nonneg y
    · exact le_rfl
  · unfold cutDens
    split_ifs with hy
    · rw [hpx.pos]
      exact ⟨fun h => ⟨h, hy⟩, fun h => h.1⟩
    · exact ⟨fun h => absurd h (lt_irrefl _), fun h => absurd h.2 hy⟩
  · rw [e]
    exact hpx.int.indicator hm

omit hf in
theorem cut_mono {u v : ℝ} (h : Inner upper u v) (y : Pt d) : cutDens upper f px v y ≤ cutDens upper f px u y := by
  unfold cutDens
  by_cases hy : Pass upper f v y
  · rw [if_pos hy, if_pos (h.pass hy)]
  · rw [if_neg hy]
    split_ifs
    · exact hpx.nonneg y
    · exact le_rfl

theorem cut_integrable (u : ℝ) : Integrable (cutDens upper f px u) := by
  classical
  exact hpx.int.indicator (pass_measurable upper hf u)

/-- The levels of the simulation, after the first. -/
theorem cut_nested {logPx : Pt d → Flt} (hlog : LogOf logPx px) (hS : MeasurableSet S) (us : List ℝ) (u : ℝ)
    (hsort : (u :: us).Pairwise (Inner upper))
    (hpos : 0 < ∫ y, cutDens upper f px ((u :: us).getLast (by simp)) y) :
    ∃ ps : List ℝ, Nested (S ∩ {y | Pass upper f u y}) (cutDens upper f px u) (us.map (cutLog upper f logPx)) ps ∧
      ps.prod = (∫ y, cutDens upper f px ((u :: us).getLast (by simp)) y) / ∫ y, cutDens upper f px u y := by
  induction us generalizing u with
  | nil =>
    exact ⟨[], Nested.nil _ _, by simp only [List.prod_nil, List.getLast_singleton] at hpos ⊢; rw [div_self hpos.ne']⟩
  | cons v us ih =>
    rw [List.pairwise_cons] at hsort
    rw [List.getLast_cons (by simp)] at hpos
    obtain ⟨ps, h1, h2⟩ := ih v hsort.2 hpos
    have huv : Inner upper u v := hsort.1 v (by simp)
    have hv : 0 < ∫ y, cutDens upper f px v y := by
      refine hpos.trans_le (integral_mono (cut_integrable hf hpx _) (cut_integrable hf hpx _) fun y => ?_)
      rcases List.eq_nil_or_concat us with h | ⟨l, b, h⟩
      · subst h
        exact le_rfl
      · subst h
        have h3 : Inner upper v b := (List.pairwise_cons.1 hsort.2).1 b (by simp)
        have h4 : (v :: l.concat b).getLast (by simp) = b := by simp
        rw [h4]
        exact cut_mono hpx h3 y
    have hu : 0 < ∫ y, cutDens upper f px u y :=
      hv.trans_le (integral_mono (cut_integrable hf hpx _) (cut_integrable hf hpx _) fun y => cut_mono hpx huv y)
    refine ⟨_, Nested.cons (cut_dens hf hpx hv) (hS.inter (pass_measurable upper hf v))
      (fun y hy => ⟨hy.1, huv.pass hy.2⟩) (cut_log hlog v) one_pos
      (fun y _ => by rw [one_mul]; exact cut_mono hpx huv y) h1, ?_⟩
    have hl : (u :: v :: us).getLast (by simp) = (v :: us).getLast (by simp) := List.getLast_cons (by simp)
    rw [List.prod_cons, h2, hl]
    field_simp

end cut

theorem flat_mass {lo hi : Pt d} (h : ∀ j, lo j < hi j) : ∫ y, flat lo hi y = ∏ j, (hi j - lo j) := by
  rw [flat_eq, integral_indicator measurableSet_Icc, setIntegral_const, smul_eq_mul, mul_one,
    Measure.real, box_volume h, ENNReal.toReal_ofReal (Finset.prod_nonneg fun j _ => (sub_pos.2 (h j)).le)]

open Classical in
/-- 0 if the estimate (the product of the stage probabilities) is a number within `δ` of `z`, else 1. -/
noncomputable def offBy (δ z : ℝ) (vs : List Flt) : ℝ≥0∞ :=
  if ∃ r, Flt.prod vs = .fin r ∧ |r - z| < δ then 0 else 1

open Classical in
/-- 1 if the estimate is a number within `δ` of `z`, else 0. -/
noncomputable def hits (δ z : ℝ) (vs : List Flt) : ℝ≥0∞ :=
  if ∃ r, Flt.prod vs = .fin r ∧ |r - z| < δ then 1 else 0

/-- **C267** What `run_subset_simulation` estimates.  Let `px` be a bounded density that is positive
on the box, zero outside; let the thresholds go inwards, and let the last level have positive
probability.  Then as the number of particles grows, with either resampling scheme and with
adapted proposals, the probability that the estimate differs by `δ` or more from
`P(f(X) beyond the last threshold) / volume(box)` tends to 0.  Exceptions and a
level without survivors count as differing (if `e = 1`, where the scale has room to
change). -/
theorem subset_limit {lo hi : Pt d} (hbox : ∀ j, lo j < hi j) {px : Pt d → ℝ} (hpx : Dens (Set.Icc lo hi) px)
    {M : ℝ} (hM : ∀ y, px y ≤ M) {logPx : Pt d → Flt} (hlog : LogOf logPx px) {f : Pt d → ℝ} (hf : Measurable f)
    {upper : Bool} {u : ℝ} {us : List ℝ} (hsort : (u :: us).Pairwise (Inner upper))
    (hpos : 0 < ∫ y in {y | Pass upper f ((u :: us).getLast (by simp)) y}, px y)
    {cfg : PConfig} (hunif : cfg.randunif = true) (hsch : cfg.scheme ≠ .other) (hcov : cfg.cov = .normal)
    (hlow : 0 < cfg.sLower) {sc : SConfig} {root : Matrix (Fin d) (Fin d) ℝ → Option (Matrix (Fin d) (Fin d) ℝ)}
    (hroot : ∀ A L, root A = some L → L * Lᵀ = A) {e : ℝ≥0∞} (he : e ≤ 1)
    (hbud : Bud e cfg sc root (sc.maxIter * (us.length + 1)) cfg.s0) {δ : ℝ} (hδ : 0 < δ) :
    Tendsto (fun N => subsetRun N e cfg sc root lo hi ((u :: us).map (cutLog upper f logPx))
      (offBy δ ((∫ y in {y | Pass upper f ((u :: us).getLast (by simp)) y}, px y) / ∏ j, (hi j - lo j))))
      atTop (𝓝 0) := by
  rw [← cut_integral upper hf] at hpos ⊢
  obtain ⟨ps, h1, h2⟩ := cut_nested hf hpx hlog measurableSet_Icc us u hsort hpos
  have hu : 0 < ∫ y, cutDens upper f px u y := by
    refine hpos.trans_le (integral_mono (cut_integrable hf hpx _) (cut_integrable hf hpx _) fun y => ?_)
    rcases List.eq_nil_or_concat us with h | ⟨l, b, h⟩
    · subst h
      exact le_rfl
    · subst h
      have h3 : Inner upper u b := (List.pairwise_cons.1 hsort).1 b (by simp)
      have h4 : (u :: l.concat b).getLast (by simp) = b := by simp
      rw [h4]
      exact cut_mono hpx h3 y
  have hn : Nested (Set.Icc lo hi) (flat lo hi) ((u :: us).map (cutLog upper f logPx))
      ((∫ y, cutDens upper f px u y) / (∫ y, flat lo hi y) :: ps) := by
    refine Nested.cons (M := max M 1) (cut_dens hf hpx hu) (measurableSet_Icc.inter (pass_measurable upper hf u))
      (fun y hy => hy.1) (cut_log hlog u) (by positivity) (fun y hy => ?_) h1
    have h3 : flat lo hi y = 1 := by simp [flat, hy]
    rw [h3, mul_one]
    unfold cutDens
    split_ifs
    · exact (hM y).trans (le_max_left _ _)
    · positivity
  have hprod : ((∫ y, cutDens upper f px u y) / (∫ y, flat lo hi y) :: ps).prod =
      (∫ y, cutDens upper f px ((u :: us).getLast (by simp)) y) / ∏ j, (hi j - lo j) := by
    rw [List.prod_cons, h2, flat_mass hbox]
    field_simp
  obtain ⟨η, hη, hnear⟩ := prod_near ((∫ y, cutDens upper f px u y) / (∫ y, flat lo hi y) :: ps) hδ
  have hb' : Bud e cfg sc root (sc.maxIter * ((u :: us).map (cutLog upper f logPx)).length) cfg.s0 := by
    simpa using hbud
  refine tendsto_of_tendsto_of_tendsto_of_le_of_le tendsto_const_nhds
    (levels_tendsto hroot hcov hsch hlow (sc := sc) he hbox hunif hn hb' hη) (fun _ => zero_le) fun N => ?_
  refine subsetRun_mono cfg sc root lo hi _ fun vs => ?_
  unfold offBy miss
  by_cases h : ∃ rs : List ℝ, vs = rs.map .fin ∧ List.Forall₂ (fun r p => |r - p| < η) rs
      ((∫ y, cutDens upper f px u y) / (∫ y, flat lo hi y) :: ps)
  · obtain ⟨rs, h3, h4⟩ := h
    have h5 := hnear rs h4
    rw [hprod] at h5
    rw [if_pos ⟨rs.prod, by rw [h3, prod_map_fin], h5⟩]
    exact zero_le
  · rw [if_neg h]
    split_ifs <;> simp

/-- **C267, false in general.** The estimate is not one of `P(f(X) beyond the last threshold)`:
if the volume of the box is not 1, the probability that it is anywhere near tends to 0. -/
theorem subset_biased {lo hi : Pt d} (hbox : ∀ j, lo j < hi j) {px : Pt d → ℝ} (hpx : Dens (Set.Icc lo hi) px)
    {M : ℝ} (hM : ∀ y, px y ≤ M) {logPx : Pt d → Flt} (hlog : LogOf logPx px) {f : Pt d → ℝ} (hf : Measurable f)
    {upper : Bool} {u : ℝ} {us : List ℝ} (hsort : (u :: us).Pairwise (Inner upper))
    (hpos : 0 < ∫ y in {y | Pass upper f ((u :: us).getLast (by simp)) y}, px y)
    {cfg : PConfig} (hunif : cfg.randunif = true) (hsch : cfg.scheme ≠ .other) (hcov : cfg.cov = .normal)
    (hlow : 0 < cfg.sLower) {sc : SConfig} {root : Matrix (Fin d) (Fin d) ℝ → Option (Matrix (Fin d) (Fin d) ℝ)}
    (hroot : ∀ A L, root A = some L → L * Lᵀ = A) (hvol : ∏ j, (hi j - lo j) ≠ 1) :
    ∃ δ, 0 < δ ∧ Tendsto (fun N => subsetRun N 0 cfg sc root lo hi ((u :: us).map (cutLog upper f logPx))
      (hits δ (∫ y in {y | Pass upper f ((u :: us).getLast (by simp)) y}, px y))) atTop (𝓝 0) := by
  have hv : 0 < ∏ j, (hi j - lo j) := Finset.prod_pos fun j _ => sub_pos.2 (hbox j)
  have hd := subset_limit hbox hpx hM hlog hf hsort hpos hunif hsch hcov hlow hroot (sc := sc) zero_le_one
    (Or.inl rfl) (δ := |(∫ y in {y | Pass upper f ((u :: us).getLast (by simp)) y}, px y) / ∏ j, (hi j - lo j) -
      ∫ y in {y | Pass upper f ((u :: us).getLast (by simp)) y}, px y| / 2)
  generalize (∫ y in {y | Pass upper f ((u :: us).getLast (by simp)) y}, px y) = P at hd hpos ⊢
  generalize ∏ j, (hi j - lo j) = v at hd hv hvol
  have hne : P / v - P ≠ 0 := by
    intro h
    have h1 : P = P * v := (div_eq_iff hv.ne').1 (sub_eq_zero.1 h)
    have h2 : P * (v - 1) = 0 := by linarith
    rcases mul_eq_zero.1 h2 with h3 | h3
    · exact hpos.ne' h3
    · exact hvol (by linarith)
  have hδ : 0 < |P / v - P| / 2 := by positivity
  refine ⟨_, hδ, tendsto_of_tendsto_of_tendsto_of_le_of_le tendsto_const_nhds (hd hδ) (fun _ => zero_le) fun N => ?_⟩
  refine subsetRun_mono cfg sc root lo hi _ fun vs => ?_
  unfold hits offBy
  split_ifs with h1 h2
  · obtain ⟨r, h3, h4⟩ := h1
    obtain ⟨r', h5, h6⟩ := h2
    have e : r' = r := Flt.fin_inj.1 (h5.symm.trans h3)
    subst e
    have := abs_sub_le (P / v) r' P
    rw [abs_sub_comm (P / v) r'] at this
    linarith
  · exact le_rfl
  · exact zero_le
  · exact zero_le

/-- **C267** If the log-density passed is that of `X` relative to the uniform law on the
box, the estimate tends to the probability. -/
theorem subset_relative {lo hi : Pt d} (hbox : ∀ j, lo j < hi j) {px : Pt d → ℝ} (hpx : Dens (Set.Icc lo hi) px)
    {M : ℝ} (hM : ∀ y, px y ≤ M) {logPx : Pt d → Flt}
    (hlog : LogOf logPx fun y => (∏ j, (hi j - lo j)) * px y) {f : Pt d → ℝ} (hf : Measurable f)
    {upper : Bool} {u : ℝ} {us : List ℝ} (hsort : (u :: us).Pairwise (Inner upper))
    (hpos : 0 < ∫ y in {y | Pass upper f ((u :: us).getLast (by simp)) y}, px y)
    {cfg : PConfig} (hunif : cfg.randunif = true) (hsch : cfg.scheme ≠ .other) (hcov : cfg.cov = .normal)
    (hlow : 0 < cfg.sLower) {sc : SConfig} {root : Matrix (Fin d) (Fin d) ℝ → Option (Matrix (Fin d) (Fin d) ℝ)}
    (hroot : ∀ A L, root A = some L → L * Lᵀ = A) {e : ℝ≥0∞} (he : e ≤ 1)
    (hbud : Bud e cfg sc root (sc.maxIter * (us.length + 1)) cfg.s0) {δ : ℝ} (hδ : 0 < δ) :
    Tendsto (fun N => subsetRun N e cfg sc root lo hi ((u :: us).map (cutLog upper f logPx))
      (offBy δ (∫ y in {y | Pass upper f ((u :: us).getLast (by simp)) y}, px y))) atTop (𝓝 0) := by
  have hv : 0 < ∏ j, (hi j - lo j) := Finset.prod_pos fun j _ => sub_pos.2 (hbox j)
  have hd : Dens (Set.Icc lo hi) fun y => (∏ j, (hi j - lo j)) * px y := by
    refine ⟨hpx.meas.const_mul _, fun y => mul_nonneg hv.le (hpx.nonneg y), fun y => ?_, hpx.int.const_mul _, ?_⟩
    · rw [← hpx.pos, mul_pos_iff_of_pos_left hv]
    · rw [integral_const_mul]
      exact mul_pos hv hpx.mass
  have h := subset_limit hbox hd (M := (∏ j, (hi j - lo j)) * M) (fun y => mul_le_mul_of_nonneg_left (hM y) hv.le)
    hlog hf hsort (by rw [integral_const_mul]; exact mul_pos hv hpos) hunif hsch hcov hlow hroot he hbud hδ
  rw [integral_const_mul, mul_div_cancel_left₀ _ hv.ne'] at h
  exact h

/-! ## A concrete case: `X` uniform on `[0, 2]`, the event `X > 1` -/

theorem half_dens : Dens (Set.Icc (0 : Pt 1) 2) fun y => 1 / 2 * flat (0 : Pt 1) 2 y := by
  have h := flat_dens (lo := (0 : Pt 1)) (hi := 2) (fun j => by simp)
  refine ⟨h.meas.const_mul _, fun y => mul_nonneg (by norm_num) (h.nonneg y), fun y => ?_, h.int.const_mul _, ?_⟩
  · rw [← h.pos, mul_pos_iff_of_pos_left (by norm_num)]
  · rw [integral_const_mul]
    exact mul_pos (by norm_num) h.mass

open Classical in
/-- Its logarithm. -/
noncomputable def logHalf (y : Pt 1) : Flt := if y ∈ Set.Icc (0 : Pt 1) 2 then .fin (Real.log (1 / 2)) else .num ⊥

theorem logHalf_of : LogOf logHalf fun y => 1 / 2 * flat (0 : Pt 1) 2 y := by
  intro y
  unfold logHalf flat
  by_cases h : y ∈ Set.Icc (0 : Pt 1) 2
  · simp only [if_pos h]
    exact Or.inl ⟨by norm_num, by norm_num⟩
  · simp only [if_neg h]
    exact Or.inr ⟨by norm_num, trivial⟩

/-- The probability of the event. -/
theorem half_event : ∫ y in {y : Pt 1 | Pass true (fun y => y 0) 1 y}, 1 / 2 * flat (0 : Pt 1) 2 y = 1 / 2 := by
  have hm : MeasurableSet {y : Pt 1 | Pass true (fun y => y 0) 1 y} := pass_measurable true (by fun_prop) 1
  have e : Set.Icc (0 : Pt 1) 2 ∩ {y : Pt 1 | Pass true (fun y => y 0) 1 y} =
      Set.pi Set.univ fun _ : Fin 1 => Set.Ioc (1 : ℝ) 2 := by
    ext y
    simp only [Pass, Set.mem_inter_iff, Set.mem_Icc, Pi.le_def, Set.mem_ofPred_eq, if_true, Set.mem_pi,
      Set.mem_univ, true_imp_iff, Set.mem_Ioc, Fin.forall_fin_one, Pi.ofNat_apply]
    constructor
    · rintro ⟨⟨-, h2⟩, h3⟩
      exact ⟨h3, h2⟩
    · rintro ⟨h3, h2⟩
      exact ⟨⟨by linarith, h2⟩, h3⟩
  rw [integral_const_mul, flat_eq, setIntegral_indicator measurableSet_Icc, setIntegral_const, Set.inter_comm, e,
    Measure.real, Real.volume_pi_Ioc]
  norm_num

/-- **C267, false as documented.** `X` is uniform on the box `[0, 2]`, the event `X > 1` has probability
1/2, and the estimate of `run_subset_simulation` tends to 1/4: the probability that it is within 1/8 of
the true value tends to 0. -/
theorem subset_estimate_false {cfg : PConfig} (hunif : cfg.randunif = true) (hsch : cfg.scheme ≠ .other)
    (hcov : cfg.cov = .normal) (hlow : 0 < cfg.sLower) (sc : SConfig)
    {root : Matrix (Fin 1) (Fin 1) ℝ → Option (Matrix (Fin 1) (Fin 1) ℝ)}
    (hroot : ∀ A L, root A = some L → L * Lᵀ = A) :
    ∫ y in {y : Pt 1 | 1 < y 0}, 1 / 2 * flat (0 : Pt 1) 2 y = 1 / 2 ∧
    Tendsto (fun N => subsetRun N 0 cfg sc root 0 2 [cutLog true (fun y => y 0) logHalf (1 / 2),
      cutLog true (fun y => y 0) logHalf 1] (hits (1 / 8) (1 / 2))) atTop (𝓝 0) := by
  refine ⟨half_event, ?_⟩
  have hp := half_event
  have h := subset_limit (lo := (0 : Pt 1)) (hi := 2) (fun j => by simp) half_dens (M := 1 / 2) (fun y => ?_)
    logHalf_of (f := fun y => y 0) (by fun_prop) (upper := true) (u := 1 / 2) (us := [1]) ?_ ?_ hunif hsch hcov hlow
    hroot (sc := sc) (e := 0) zero_le_one (Or.inl rfl) (δ := 1 / 8) (by norm_num)
  · simp only [List.map_cons, List.map_nil] at h
    refine tendsto_of_tendsto_of_tendsto_of_le_of_le tendsto_const_nhds h (fun _ => zero_le) fun N => ?_
    refine subsetRun_mono cfg sc root 0 2 _ fun vs => ?_
    have e : (∫ y in {y : Pt 1 | Pass true (fun y => y 0) (([1 / 2, 1] : List ℝ).getLast (by simp)) y},
        1 / 2 * flat (0 : Pt 1) 2 y) / ∏ j : Fin 1, ((2 : Pt 1) j - (0 : Pt 1) j) = 1 / 4 := by
      rw [show ([1 / 2, 1] : List ℝ).getLast (by simp) = 1 from rfl, half_event]
      norm_num
    rw [e]
    unfold hits offBy
    split_ifs with h1 h2
    · obtain ⟨r, h3, h4⟩ := h1
      obtain ⟨r', h5, h6⟩ := h2
      have e : r' = r := Flt.fin_inj.1 (h5.symm.trans h3)
      subst e
      rw [abs_lt] at h4 h6
      linarith [h4.1, h6.2]
    · exact le_rfl
    · exact zero_le
    · exact zero_le
  · unfold flat
    split_ifs <;> norm_num
  · simp [Inner]
    norm_num
  · rw [show ([1 / 2, 1] : List ℝ).getLast (by simp) = 1 from rfl, half_event]
    norm_num

open Classical in
/-- With the log-density relative to the box, the estimate tends to the probability 1/2, and no run
fails when the scale changes at most once per level. -/
example : Tendsto (fun N => subsetRun N 1 { scheme := .residual, cov := .normal } { maxIter := 1 } someRoot 0 2
    ([1 / 2, 1].map (cutLog true (fun y : Pt 1 => y 0) fun y => if y ∈ Set.Icc (0 : Pt 1) 2 then .fin 0 else .num ⊥))
    (offBy (1 / 10) (1 / 2))) atTop (𝓝 0) := by
  have hl : LogOf (fun y => if y ∈ Set.Icc (0 : Pt 1) 2 then Flt.fin 0 else .num ⊥)
      fun y => (∏ j : Fin 1, ((2 : Pt 1) j - (0 : Pt 1) j)) * (1 / 2 * flat (0 : Pt 1) 2 y) := by
    intro y
    unfold flat
    by_cases h : y ∈ Set.Icc (0 : Pt 1) 2
    · simp only [if_pos h]
      exact Or.inl ⟨by norm_num, by norm_num⟩
    · simp only [if_neg h]
      exact Or.inr ⟨by norm_num, trivial⟩
  have hp := half_event
  have h := subset_relative (lo := (0 : Pt 1)) (hi := 2) (fun j => by simp) half_dens (M := 1 / 2)
    (fun y => by unfold flat; split_ifs <;> norm_num)
    hl (f := fun y => y 0) (by fun_prop) (upper := true) (u := 1 / 2) (us := [1])
    (by simp [Inner]; norm_num)
    (by rw [show ([1 / 2, 1] : List ℝ).getLast (by simp) = 1 from rfl, half_event]; norm_num)
    (cfg := { scheme := .residual, cov := .normal }) (sc := { maxIter := 1 }) rfl (by simp) rfl (by norm_num)
    someRoot_ok (e := 1) le_rfl (Or.inr ⟨by norm_num, by norm_num, by norm_num, someRoot_total⟩) (δ := 1 / 10)
    (by norm_num)
  rw [show ([1 / 2, 1] : List ℝ).getLast (by simp) = 1 from rfl, half_event] at h
  exact h

end Verif.SMC
