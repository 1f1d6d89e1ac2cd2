import Verif.Mcmc.PropsSMCUniform
import Verif.Mcmc.PropsSMCRun
import Verif.Mcmc.PropsPosteriorSMC

/-!
# C265: a run whose temperatures are chosen by looking at the particles is consistent
-/

set_option autoImplicit false

open MeasureTheory ProbabilityTheory Filter Topology Matrix
open scoped ENNReal

namespace Verif.SMC

open Verif

variable {d : ℕ}

/-! ## The draws of the two resampling schemes -/

/-- Number of random draws. -/
noncomputable def draws (sch : Scheme) {N : ℕ} (w : Fin N → ℝ) : ℕ :=
  match sch with
  | .multinomial => N
  | _ => rest w

/-- Their probabilities. -/
noncomputable def dprob (sch : Scheme) {N : ℕ} (w : Fin N → ℝ) : Fin N → ℝ :=
  match sch with
  | .multinomial => nw w
  | _ => fracs w

/-- Number of copies that are sure. -/
noncomputable def sure (sch : Scheme) {N : ℕ} (w : Fin N → ℝ) : Fin N → ℕ :=
  match sch with
  | .multinomial => fun _ => 0
  | _ => fun i => ⌊(N : ℝ) * nw w i⌋₊

theorem dprob_nonneg (sch : Scheme) {N : ℕ} {w : Fin N → ℝ} (hw0 : ∀ i, 0 ≤ w i) (hsum : 0 < ∑ i, w i)
    (j : Fin N) : 0 ≤ dprob sch w j := by
  have h1 : ∀ j, 0 ≤ nw w j := fun j => div_nonneg (hw0 j) hsum.le
  have h2 : 0 ≤ fracs w j := by
    unfold fracs
    refine div_nonneg (sub_nonneg.2 (Nat.floor_le (mul_nonneg (Nat.cast_nonneg _) (h1 j)))) (Nat.cast_nonneg _)
  cases sch
  · exact h1 j
  · exact h2
  · exact h2

theorem fracs_one {N : ℕ} {w : Fin N → ℝ} (hw0 : ∀ i, 0 ≤ w i) (hsum : 0 < ∑ i, w i) :
    expect (rest w) (fracs w) (fun _ => 1) = 1 := by
  by_cases h : rest w = 0
  · exact expect_empty h _ _ fun k => absurd k.2 (by omega)
  · refine expect_one _ _ ?_
    simp only [fracs]
    rw [← Finset.sum_div, (rest_cast hw0 hsum).2, div_self (by exact_mod_cast h)]

theorem draws_one (sch : Scheme) {N : ℕ} {w : Fin N → ℝ} (hw0 : ∀ i, 0 ≤ w i) (hsum : 0 < ∑ i, w i) :
    expect (draws sch w) (dprob sch w) (fun _ => 1) = 1 := by
  cases sch
  · exact expect_one N _ (nw_sum hsum)
  · exact fracs_one hw0 hsum
  · exact fracs_one hw0 hsum

/-- Squared error of the average after the resampling. -/
theorem draws_mse (sch : Scheme) {N : ℕ} (hN : 0 < N) {w : Fin N → ℝ} (hw0 : ∀ i, 0 ≤ w i)
    (hsum : 0 < ∑ i, w i) (phi : Fin N → ℝ) (hphi : ∀ j, |phi j| ≤ 1) (mu : ℝ) :
    expect (draws sch w) (dprob sch w) (fun c =>
      (((∑ j, (sure sch w j : ℝ) * phi j) + ∑ k, phi (c k)) / N - mu) ^ 2) ≤
      1 / N + (∑ j, nw w j * phi j - mu) ^ 2 := by
  have hN' : (0 : ℝ) < N := by exact_mod_cast hN
  have hq0 : ∀ j, 0 ≤ nw w j := fun j => div_nonneg (hw0 j) hsum.le
  have hb : ∑ j, nw w j * phi j ^ 2 ≤ 1 := by
    rw [← nw_sum hsum]
    refine Finset.sum_le_sum fun j _ => ?_
    have := hphi j
    have h2 : phi j ^ 2 ≤ 1 := by rw [← sq_abs]; nlinarith [abs_nonneg (phi j)]
    nlinarith [hq0 j]
  have hb' : (∑ j, nw w j * phi j ^ 2) / N ≤ 1 / N := div_le_div_of_nonneg_right hb hN'.le
  have hmom : expect (draws sch w) (dprob sch w)
      (fun c => (∑ j, (sure sch w j : ℝ) * phi j) + ∑ k, phi (c k)) = N * ∑ j, nw w j * phi j ∧
      variance (draws sch w) (dprob sch w)
        (fun c => (∑ j, (sure sch w j : ℝ) * phi j) + ∑ k, phi (c k)) ≤
        N * (∑ j, nw w j * phi j ^ 2 - (∑ j, nw w j * phi j) ^ 2) := by
    cases sch
    · have e : (∑ j, (sure .multinomial w j : ℝ) * phi j) = 0 := by simp [sure]
      rw [e]
      exact ⟨(expect_total N _ (nw_sum hsum) phi 0).trans (zero_add _),
        (variance_total N _ (nw_sum hsum) phi 0).le⟩
    · exact residual_moments hw0 hsum phi
    · exact residual_moments hw0 hsum phi
  have := expect_dist hN (draws_one sch hw0 hsum) _ hmom.1 hmom.2 mu
  linarith

/-! ## The expectation over the random draws of the code -/

open Classical in
/-- The random draws of a stage that starts (after reweighting) from `a`: the multinomial
generator is asked for `K` draws with probabilities `q` and gives `c`; the rest as in `adaptEnv`. -/
noncomputable def searchEnv {N : ℕ} (a : Parts N d) (q : Fin N → ℝ)
    (root : Matrix (Fin d) (Fin d) ℝ → Option (Matrix (Fin d) (Fin d) ℝ)) {J K : ℕ}
    (c : Fin K → Fin N) (t : Fin J → Fin N → Pt d × ℝ) : Env N d where
  init _ _ _ := 0
  mult k M q' := if k = a.clock ∧ M = K ∧ q' = (fun i => .fin (q i)) then .ok (tally c) else .error .valueError
  rvs k A := if h : a.clock < k ∧ k - a.clock - 1 < J then
      (match root A with
        | some L => .ok fun i => L *ᵥ (t ⟨k - a.clock - 1, h.2⟩ i).1
        | none => .error .valueError)
    else .error .valueError
  unif k i := if h : k - a.clock - 1 < J then (t ⟨k - a.clock - 1, h⟩ i).2 else 0
  cov m x := if m = .normal then
      (match MH.covRows (List.ofFn x) with
        | some C => .ok C
        | none => .error .valueError)
    else .error .valueError
  junkX _ _ _ := 0
  junkL _ _ := .nan

/-- Expectation of `F` after a call of `step`, smc.py 609-664, with either resampling scheme;
failures count `e`. -/
noncomputable def searchStage {N : ℕ} (e : ℝ≥0∞) (cfg : PConfig) (sc : SConfig)
    (root : Matrix (Fin d) (Fin d) ℝ → Option (Matrix (Fin d) (Fin d) ℝ)) (ell : ℝ → Pt d → Flt)
    (τ : ℝ) (p : Parts N d) (F : Parts N d → ℝ≥0∞) : ℝ≥0∞ :=
  match reweight true (setLogpdfParam (rowwise ell N) τ p) with
  | .error _ => e
  | .ok a =>
    ∑ c : Fin (draws cfg.scheme fun i => toReal (a.wtmp i)) → Fin N,
      ENNReal.ofReal (∏ i, dprob cfg.scheme (fun i => toReal (a.wtmp i)) (c i)) *
      ∫⁻ t : Fin (tapeLen sc) → Fin N → Pt d × ℝ,
        out e F (step (searchEnv a (dprob cfg.scheme fun i => toReal (a.wtmp i)) root c t) cfg sc
          (rowwise ell N) τ p)
        ∂(Measure.pi fun _ => Measure.pi fun _ => rawLaw d)

/-- Expectation of `F` after the loop of `restart`, smc.py 796-823, for at most `k` stages with
searches of at most `kb` steps; failures count `e`, runs that have not ended count `u`. -/
noncomputable def searchLoop {N : ℕ} (e u : ℝ≥0∞) (brentq : (ℝ → Py Flt) → ℝ → ℝ → Py ℝ) (cfg : PConfig)
    (sc : SConfig) (root : Matrix (Fin d) (Fin d) ℝ → Option (Matrix (Fin d) (Fin d) ℝ))
    (ell : ℝ → Pt d → Flt) (target thr : ℝ) (kb : ℕ) (F : Parts N d → ℝ≥0∞) :
    ℕ → ℝ → Parts N d → ℝ≥0∞
  | 0, _, _ => u
  | k + 1, cur, p =>
    open Classical in
    if cur = target then F p
    else
      match nextParam brentq sc kb (rowwise ell N) p cur target thr with
      | .error _ => e
      | .ok none => u
      | .ok (some t) => searchStage e cfg sc root ell t p fun p' =>
          searchLoop e u brentq cfg sc root ell target thr kb F k t p'

/-- Expectation of `F` after `run_smc_sampling`, smc.py 1242-1343: fresh particles, and
`step_with_possible_restart` (666-725), which goes to the target at once or restarts (727-827)
from other fresh particles. -/
noncomputable def searchRun (N : ℕ) (e u : ℝ≥0∞) (brentq : (ℝ → Py Flt) → ℝ → ℝ → Py ℝ) (cfg : PConfig)
    (sc : SConfig) (root : Matrix (Fin d) (Fin d) ℝ → Option (Matrix (Fin d) (Fin d) ℝ)) (lo hi : Pt d)
    (ell : ℝ → Pt d → Flt) (initial target minEss p0 : ℝ) (k : ℕ) (F : Parts N d → ℝ≥0∞) : ℝ≥0∞ :=
  open Classical in
  ∫⁻ U : Fin N → Pt d,
    (match newParts (initEnv U) cfg lo hi >>= fun p => reweight false (setLogpdfParam (rowwise ell N) target p) with
    | .error _ => e
    | .ok q =>
      if ((ess q.wtmp).div (.fin N)).lt (.fin minEss) then
        ∫⁻ U' : Fin N → Pt d,
          (match particlesInit (initEnv U') cfg lo hi q >>= fun p =>
              reweight false (setLogpdfParam (rowwise ell N) initial p) with
          | .error _ => e
          | .ok q' => searchLoop e u brentq cfg sc root ell target
              (restartThreshold sc minEss p0 ((ess q'.wtmp).div (.fin N))) k F k initial q')
          ∂(Measure.pi fun _ => volume.restrict (Set.Icc 0 1))
      else searchStage e cfg sc root ell target q F)
    ∂(Measure.pi fun _ => volume.restrict (Set.Icc 0 1))

/-! ## The resampling -/

/-- The weights. -/
noncomputable def wts (g g' : Pt d → ℝ) {N : ℕ} (x : Fin N → Pt d) (j : Fin N) : ℝ :=
  1 / (N : ℝ) * (g' (x j) / g (x j))

/-- Expectation after the resampling, with the worst arrangement of the copies. -/
noncomputable def RsU (sch : Scheme) (S : Set (Pt d)) (g g' : Pt d → ℝ) (V : Fun d) : Fun d := fun N x =>
  ∑ c : Fin (draws sch (wts g g' x)) → Fin N, ENNReal.ofReal (∏ i, dprob sch (wts g g' x) (c i)) *
    ⨆ x' : {x' : Fin N → Pt d // (∀ i, x' i ∈ S) ∧ ∀ h : Pt d → ℝ,
      ∑ i, h (x' i) = (∑ j, (sure sch (wts g g' x) j : ℝ) * h (x j)) + ∑ k, h (x (c k))}, V N x'

theorem wts_pos {S : Set (Pt d)} {g g' : Pt d → ℝ} (hg : Dens S g) (hg' : Dens S g') {N : ℕ} (hN : 0 < N)
    {x : Fin N → Pt d} (hx : ∀ i, x i ∈ S) (j : Fin N) : 0 < wts g g' x j := by
  have h1 := (hg.pos _).2 (hx j)
  have h2 := (hg'.pos _).2 (hx j)
  have h3 : (0 : ℝ) < N := by exact_mod_cast hN
  unfold wts
  positivity

theorem wts_sum {S : Set (Pt d)} {g g' : Pt d → ℝ} (hg : Dens S g) (hg' : Dens S g') {N : ℕ} (hN : 0 < N)
    {x : Fin N → Pt d} (hx : ∀ i, x i ∈ S) : 0 < ∑ j, wts g g' x j :=
  Finset.sum_pos (fun j _ => wts_pos hg hg' hN hx j) ⟨⟨0, hN⟩, Finset.mem_univ _⟩

section family

variable {T : Type} [TopologicalSpace T] [CompactSpace T] {S : Set (Pt d)} {dens : T → Pt d → ℝ}
  {m M : ℝ} (hF : Family S dens m M)

include hF

omit [CompactSpace T] in
theorem Family.fst : Family S (fun p : T × T => dens p.1) m M :=
  ⟨fun p => hF.ok p.1, hF.pos, hF.le, fun p => hF.low p.1, fun p => hF.high p.1,
    fun p ε hε => (continuous_fst.tendsto p).eventually (hF.cont p.1 ε hε)⟩

omit [CompactSpace T] in
theorem Family.quot {t t' : T} {y : Pt d} (hy : y ∈ S) : dens t' y ≤ M / m * dens t y := by
  have h1 := hF.high t' y hy
  have h2 := hF.low t y hy
  have h3 := hF.pos
  have h4 := hF.le
  rw [div_mul_eq_mul_div, le_div_iff₀ h3]
  nlinarith

omit [CompactSpace T] in
theorem Family.mass_le (t t' : T) : M / m / ((∫ y, dens t' y) / ∫ y, dens t y) ≤ M / m * (M / m) := by
  have h1 := (hF.ok t).mass
  have h2 := (hF.ok t').mass
  have h3 := hF.pos
  have h4 := hF.le
  have h5 : ∫ y, dens t y ≤ M / m * ∫ y, dens t' y := by
    rw [← integral_const_mul]
    refine integral_mono (hF.ok t).int ((hF.ok t').int.const_mul _) fun y => ?_
    by_cases hy : y ∈ S
    · exact hF.quot hy
    · simp only [hF.zero t hy, hF.zero t' hy, mul_zero, le_refl]
  have h6 : 0 < M / m := div_pos (by linarith) h3
  rw [div_div_eq_mul_div, mul_div_assoc]
  refine mul_le_mul_of_nonneg_left ?_ h6.le
  rwa [div_le_iff₀ h2]

/-- Averages of the importance ratios. -/
theorem ratio_ctlU {φ : Pt d → ℝ} (hφ : Unit1 φ) : CtlU S (fun p : T × T => dens p.1) fun p _ x =>
    ENNReal.ofReal (err (dens p.1) (fun y => ratio (dens p.1) (dens p.2) (M / m) y * φ y) x) := by
  have h3 := hF.pos
  have h4 := hF.le
  have hMm : 0 < M / m := div_pos (by linarith) h3
  have hc : 0 < (m + M) / m ^ 2 := div_pos (by linarith) (by positivity)
  refine ctlU_fam hF.fst (F := fun p y => ratio (dens p.1) (dens p.2) (M / m) y * φ y)
    (fun p => (ratio_unit1 (hF.ok _) (hF.ok _) hMm fun y hy => hF.quot hy).mul hφ) fun p0 ε hε => ?_
  set η := ε * (M / m) / ((m + M) / m ^ 2) with hη
  have hη0 : 0 < η := by positivity
  filter_upwards [(continuous_fst.tendsto p0).eventually (hF.cont p0.1 η hη0),
    (continuous_snd.tendsto p0).eventually (hF.cont p0.2 η hη0)] with p h1 h2 y hy
  rw [← sub_mul, abs_mul]
  refine (mul_le_of_le_one_right (abs_nonneg _) (hφ.bound y)).trans ?_
  unfold ratio
  rw [← sub_div, abs_div, abs_of_pos hMm, div_le_iff₀ hMm]
  refine (hF.ratio_diff hy hy (h1 y hy) (h2 y hy)).trans (le_of_eq ?_)
  rw [hη, mul_div_cancel₀ _ hc.ne']

/-- Resampling towards any of the densities keeps what is small small. -/
theorem rsU_ctl (sch : Scheme) {V : T → Fun d} (hV : CtlU S dens V) :
    CtlU S dens fun t N x => ⨆ t', RsU sch S (dens t) (dens t') (V t') N x := by
  have h3 := hF.pos
  have h4 := hF.le
  have hMm : 0 < M / m := div_pos (by linarith) h3
  refine ctlU_sup (F := fun p : T × T => RsU sch S (dens p.1) (dens p.2) (V p.2)) ?_
  set kap := 2 * (M / m * (M / m)) ^ 2 with hkap
  have hkap0 : 0 ≤ kap := by positivity
  -- the error of one average
  set E : (Pt d → ℝ) → T × T → Fun d := fun φ p N x =>
    ∑ c : Fin (draws sch (wts (dens p.1) (dens p.2) x)) → Fin N,
      ENNReal.ofReal (∏ i, dprob sch (wts (dens p.1) (dens p.2) x) (c i)) *
        ENNReal.ofReal ((((∑ j, (sure sch (wts (dens p.1) (dens p.2) x) j : ℝ) * φ (x j)) +
          ∑ k, φ (x (c k))) / N - ∫ y, φ y ∂MH.targetLaw volume (dens p.2)) ^ 2) with hE
  have hone : ∀ φ, Unit1 φ → CtlU S (fun p : T × T => dens p.1) (E φ) := by
    intro φ hφ
    have hr1 : CtlU S (fun p : T × T => dens p.1) fun p _ x =>
        ENNReal.ofReal (err (dens p.1) (ratio (dens p.1) (dens p.2) (M / m)) x) := by
      have := ratio_ctlU hF (φ := fun _ => 1) ⟨measurable_const, fun _ => by simp⟩
      simpa only [mul_one] using this
    refine ctlU_mono (ctlU_add (ctlU_inv zero_le_one) (ctlU_mul (ctlU_add (ratio_ctlU hF hφ) hr1) hkap0))
      fun p N hN x hx => ?_
    have hN0 : 0 < N := by omega
    have hg := hF.ok p.1
    have hg' := hF.ok p.2
    set w := wts (dens p.1) (dens p.2) x with hw
    have hw0 : ∀ j, 0 ≤ w j := fun j => (wts_pos hg hg' hN0 hx j).le
    have hsum := wts_sum hg hg' hN0 hx
    have h1 := draws_mse sch hN0 hw0 hsum (fun j => φ (x j)) (fun j => hφ.bound _)
      (∫ y, φ y ∂MH.targetLaw volume (dens p.2))
    have h2 := weighted_mse hN0 hg hg' hMm (fun y hy => hF.quot hy) hφ x hx
    have h5 : 2 * (M / m / ((∫ y, dens p.2 y) / ∫ y, dens p.1 y)) ^ 2 ≤ kap := by
      rw [hkap]
      have h6 : 0 ≤ M / m / ((∫ y, dens p.2 y) / ∫ y, dens p.1 y) :=
        div_nonneg hMm.le (div_nonneg hg'.mass.le hg.mass.le)
      have := pow_le_pow_left₀ h6 (hF.mass_le p.1 p.2) 2
      linarith
    have h7 : 0 ≤ err (dens p.1) (fun y => ratio (dens p.1) (dens p.2) (M / m) y * φ y) x +
        err (dens p.1) (ratio (dens p.1) (dens p.2) (M / m)) x := add_nonneg (err_nonneg _) (err_nonneg _)
    have h8 := h2.trans (mul_le_mul_of_nonneg_right h5 h7)
    have hq0 : ∀ c : Fin (draws sch w) → Fin N, 0 ≤ ∏ i, dprob sch w (c i) := fun c =>
      Finset.prod_nonneg fun i _ => dprob_nonneg sch hw0 hsum _
    calc E φ p N x = ENNReal.ofReal (expect (draws sch w) (dprob sch w) fun c =>
          (((∑ j, (sure sch w j : ℝ) * φ (x j)) + ∑ k, φ (x (c k))) / N -
            ∫ y, φ y ∂MH.targetLaw volume (dens p.2)) ^ 2) := by
          simp only [hE, expect]
          rw [ENNReal.ofReal_sum_of_nonneg fun c _ => mul_nonneg (hq0 c) (sq_nonneg _)]
          exact Finset.sum_congr rfl fun c _ => (ENNReal.ofReal_mul (hq0 c)).symm
      _ ≤ ENNReal.ofReal (1 / N + kap * (err (dens p.1) (fun y => ratio (dens p.1) (dens p.2) (M / m) y * φ y) x +
          err (dens p.1) (ratio (dens p.1) (dens p.2) (M / m)) x)) :=
          ENNReal.ofReal_le_ofReal (h1.trans (add_le_add le_rfl h8))
      _ = _ := by
          rw [ENNReal.ofReal_add (by positivity) (mul_nonneg hkap0 h7), ENNReal.ofReal_mul hkap0,
            ENNReal.ofReal_add (err_nonneg _) (err_nonneg _)]
  refine ctlU_lim fun ε hε => ?_
  obtain ⟨Phi, B, hB, hu, hbd⟩ := hV ε hε
  refine ⟨fun p N x => ENNReal.ofReal (B / N) + ENNReal.ofReal B * (Phi.map fun φ => E φ p N x).sum,
    ctlU_add (ctlU_inv hB) (ctlU_mul (ctlU_list E Phi fun φ h => hone φ (hu φ h)) hB), fun p N hN x hx => ?_⟩
  have hN0 : 0 < N := by omega
  have hg := hF.ok p.1
  have hg' := hF.ok p.2
  set w := wts (dens p.1) (dens p.2) x with hw
  have hw0 : ∀ j, 0 ≤ w j := fun j => (wts_pos hg hg' hN0 hx j).le
  have hsum := wts_sum hg hg' hN0 hx
  have hpc : ∑ c : Fin (draws sch w) → Fin N, ENNReal.ofReal (∏ i, dprob sch w (c i)) = 1 := by
    rw [← ENNReal.ofReal_sum_of_nonneg fun c _ => Finset.prod_nonneg fun i _ => dprob_nonneg sch hw0 hsum _]
    have := draws_one sch hw0 hsum
    unfold expect at this
    simp only [mul_one] at this
    rw [this, ENNReal.ofReal_one]
  have inner : ∀ c : Fin (draws sch w) → Fin N,
      (⨆ x' : {x' : Fin N → Pt d // (∀ i, x' i ∈ S) ∧ ∀ h : Pt d → ℝ,
        ∑ i, h (x' i) = (∑ j, (sure sch w j : ℝ) * h (x j)) + ∑ k, h (x (c k))}, V p.2 N x') ≤
        (ENNReal.ofReal ε + ENNReal.ofReal (B / N)) + ENNReal.ofReal B *
          (Phi.map fun φ => ENNReal.ofReal ((((∑ j, (sure sch w j : ℝ) * φ (x j)) +
          ∑ k, φ (x (c k))) / N - ∫ y, φ y ∂MH.targetLaw volume (dens p.2)) ^ 2)).sum := by
    intro c
    refine iSup_le fun x' => ?_
    refine (hbd p.2 N hN x' x'.2.1).trans (le_of_eq ?_)
    have e : ∀ φ : Pt d → ℝ, err (dens p.2) φ (x' : Fin N → Pt d) =
        (((∑ j, (sure sch w j : ℝ) * φ (x j)) +
          ∑ k, φ (x (c k))) / N - ∫ y, φ y ∂MH.targetLaw volume (dens p.2)) ^ 2 := fun φ => by
      unfold err avg
      rw [x'.2.2 φ]
    rw [ENNReal.ofReal_add (by positivity) (mul_nonneg hB (errs_nonneg _ _)),
      ENNReal.ofReal_add hε.le (by positivity), ENNReal.ofReal_mul hB, ofReal_list]
    simp only [e]
  calc RsU sch S (dens p.1) (dens p.2) (V p.2) N x ≤
      ∑ c : Fin (draws sch w) → Fin N, ENNReal.ofReal (∏ i, dprob sch w (c i)) *
        ((ENNReal.ofReal ε + ENNReal.ofReal (B / N)) + ENNReal.ofReal B *
          (Phi.map fun φ => ENNReal.ofReal ((((∑ j, (sure sch w j : ℝ) * φ (x j)) +
          ∑ k, φ (x (c k))) / N - ∫ y, φ y ∂MH.targetLaw volume (dens p.2)) ^ 2)).sum) :=
        Finset.sum_le_sum fun c _ => mul_le_mul_right (inner c) _
    _ = _ := by
        simp only [mul_add, Finset.sum_add_distrib, ← Finset.sum_mul, hpc, one_mul]
        rw [add_assoc]
        congr 2
        rw [← sum_list_swap, Finset.mul_sum]
        refine Finset.sum_congr rfl fun c _ => ?_
        ring

end family

/-! ## The code of a stage -/

section stage

variable {S : Set (Pt d)} {root : Matrix (Fin d) (Fin d) ℝ → Option (Matrix (Fin d) (Fin d) ℝ)}

theorem searchEnv_tape {N : ℕ} (a : Parts N d) (q : Fin N → ℝ) {J K : ℕ} (c : Fin K → Fin N)
    (t : Fin J → Fin N → Pt d × ℝ) : Tape root (searchEnv a q root c t) (a.clock + 1) t := by
  have e1 : ∀ j : Fin J, a.clock + 1 + (j : ℕ) - a.clock - 1 = j := fun j => by omega
  have e2 : ∀ j : Fin J, a.clock < a.clock + 1 + (j : ℕ) := fun j => by omega
  refine ⟨fun x C h => ?_, fun j A L h => ?_, fun j A h => ?_, fun j i => ?_⟩
  · simp [searchEnv, h]
  · simp only [searchEnv, e1, e2, j.2, true_and, dif_pos, h]
  · simp only [searchEnv, e1, e2, j.2, true_and, dif_pos, h]
    exact ⟨_, rfl⟩
  · simp only [searchEnv, e1, j.2, dif_pos]

theorem sure_total {sch : Scheme} {N : ℕ} {w : Fin N → ℝ} (hw0 : ∀ i, 0 ≤ w i) (hsum : 0 < ∑ i, w i)
    (c : Fin (draws sch w) → Fin N) : ∑ i, (sure sch w i + tally c i) = N := by
  rw [Finset.sum_add_distrib, tally_total]
  cases sch
  · simp [sure, draws]
  · exact (rest_cast hw0 hsum).1
  · exact (rest_cast hw0 hsum).1

theorem resample_search {N : ℕ} {a : Parts N d} {w : Fin N → ℝ} (hw : a.wtmp = fun i => .fin (w i))
    (hw0 : ∀ i, 0 ≤ w i) (hsum : 0 < ∑ i, w i) {cfg : PConfig} {sch : Scheme} (hs : cfg.scheme = sch)
    (hne : sch ≠ .other) {J : ℕ} (c : Fin (draws sch w) → Fin N) (t : Fin J → Fin N → Pt d × ℝ) :
    resample (searchEnv a (dprob sch w) root c t) cfg a =
      copyParts (searchEnv a (dprob sch w) root c t) (fun i => sure sch w i + tally c i) a := by
  unfold resample
  rw [hs]
  cases sch with
  | other => exact absurd rfl hne
  | multinomial =>
    have hpr : probs a.wtmp = fun i => .fin (nw w i) := by rw [hw, probs_fin w hsum.ne']; rfl
    have hc : multinomialCounts (searchEnv a (dprob .multinomial w) root c t) a = .ok (tally c) := by
      unfold multinomialCounts
      rw [hpr]
      simp only [searchEnv, dprob, draws, true_and, if_true]
    simp only [hc, sure, zero_add]
    rfl
  | residual =>
    have hc := residualCounts_draws (searchEnv a (dprob .residual w) root c t) a w hw hw0 hsum c
      (fun _ => by
        unfold Draws
        simp only [searchEnv, dprob, draws, true_and, if_true])
    simp only [hc]
    rfl

variable {cfg : PConfig} (hcov : cfg.cov = .normal) (hsch : cfg.scheme ≠ .other)
  (hlow : 0 < cfg.sLower) {sc : SConfig} {e : ℝ≥0∞}

include hcov hsch hlow in
/-- A call of `step`. -/
theorem searchStage_bound {g g' : Pt d → ℝ} (hg : Dens S g) (hg' : Dens S g') {ell : ℝ → Pt d → Flt} {τ : ℝ}
    (hl : LogOf (ell τ) g') {N : ℕ} (hN : 2 ≤ N) {p : Parts N d} (hp : Ready S g p.s p) {q : ℕ}
    (hbud : Bud e cfg sc root (q + sc.maxIter) p.s) {G : Parts N d → ℝ≥0∞} {V : ℝ → Fun d}
    (hG : ∀ p', Ready S g' p'.s p' → Bud e cfg sc root q p'.s → G p' ≤ V p'.s N p'.x) :
    searchStage e cfg sc root ell τ p G ≤
      RsU cfg.scheme S g g' (CM root g' sc.factor (sc.mhSteps - 1).toNat V sc.maxIter p.s) N p.x := by
  obtain ⟨a, ha, hax, hal, had, has, haw⟩ := reweight_ready hg hg' hl hp
  unfold searchStage RsU
  rw [ha]
  dsimp only
  have hN0 : 0 < N := by omega
  have hwt : (fun i => toReal (a.wtmp i)) = wts g g' p.x := by
    funext i
    rw [haw]
    exact EReal.toReal_coe _
  rw [hwt]
  set w := wts g g' p.x with hw
  have hw0 : ∀ j, 0 ≤ w j := fun j => (wts_pos hg hg' hN0 hp.mem j).le
  have hsum : 0 < ∑ j, w j := wts_sum hg hg' hN0 hp.mem
  refine Finset.sum_le_sum fun c _ => mul_le_mul_right ?_ _
  set q0 := dprob cfg.scheme w with hq0
  obtain ⟨b0, hb0, hcop, hwu, -, hpd, hs⟩ := copyParts_ok (searchEnv a q0 root c (J := 0) Fin.elim0) _
    (sure_total hw0 hsum c) a
  have hclock : b0.clock = a.clock + 1 := by
    unfold copyParts at hb0
    cases h : copyLoop a.x a.logpx (fun i => sure cfg.scheme w i + tally c i)
      ⟨0, (searchEnv a q0 root c (J := 0) Fin.elim0).junkX a.clock,
      (searchEnv a q0 root c (J := 0) Fin.elim0).junkL a.clock⟩ with
    | error e => rw [h] at hb0; simp [Bind.bind, Except.bind] at hb0
    | ok q =>
      rw [h] at hb0
      simp only [Bind.bind, Except.bind, Pure.pure, Except.pure, Except.ok.injEq] at hb0
      rw [← hb0]
  have hbs : b0.s = p.s := hs.trans has
  have hmob : Mobile S (ell τ) b0.s b0 := by
    obtain ⟨σ, h2, -⟩ := hcop
    refine ⟨fun i => ?_, fun i => ?_, hwu, rfl, hpd.trans had⟩
    · rw [(h2 i).1, hax]; exact hp.mem _
    · rw [(h2 i).2, (h2 i).1, hal, hax]
  have hres : ∀ t : Fin (tapeLen sc) → Fin N → Pt d × ℝ, resample (searchEnv a q0 root c t) cfg a = .ok b0 :=
    fun t => (resample_search haw hw0 hsum rfl hsch c t).trans hb0
  have hstep : ∀ t : Fin (tapeLen sc) → Fin N → Pt d × ℝ,
      step (searchEnv a q0 root c t) cfg sc (rowwise ell N) τ p =
        (controlledMove (searchEnv a q0 root c t) cfg sc sc.maxIter b0 >>=
          moves (searchEnv a q0 root c t) cfg (sc.mhSteps - 1).toNat) := by
    intro t
    unfold step
    rw [ha]
    simp only [Bind.bind, Except.bind, mutate]
    rw [hres t]
  simp only [hstep]
  have hx' : (∀ i, b0.x i ∈ S) ∧ ∀ h : Pt d → ℝ,
      ∑ i, h (b0.x i) = (∑ j, (sure cfg.scheme w j : ℝ) * h (p.x j)) + ∑ k, h (p.x (c k)) :=
    ⟨hmob.mem, fun h => by
      rw [copies_sum hcop h, ← tally_sum c fun j => h (p.x j), hax, ← Finset.sum_add_distrib]
      refine Finset.sum_congr rfl fun j _ => ?_
      push_cast
      ring⟩
  refine le_trans ?_ (le_iSup (fun x' : {x' : Fin N → Pt d // (∀ i, x' i ∈ S) ∧
    ∀ h : Pt d → ℝ, ∑ i, h (x' i) = (∑ j, (sure cfg.scheme w j : ℝ) * h (p.x j)) + ∑ k, h (p.x (c k))} =>
      CM root g' sc.factor (sc.mhSteps - 1).toNat V sc.maxIter p.s N x') ⟨b0.x, hx'⟩)
  dsimp only
  rw [← hbs]
  exact ctrl_bound hg' hl hcov hN hlow (sc.mhSteps - 1).toNat q sc.maxIter (tapeLen sc) le_rfl
    (fun t => searchEnv a q0 root c t) (a.clock + 1) (fun t => searchEnv_tape a q0 c t) b0 hmob hclock
    (by rw [hbs]; exact hbud) G V (fun p' hp' hq => hG p' (hp'.ready hg' hl) hq)

end stage

/-! ## The search of the next temperature -/

theorem bisect_noerr {p : ℝ → Py Flt} (hp : ∀ t, ∃ v, p t = .ok v) (p0 tol : ℝ) (k : ℕ) (low high : ℝ) :
    ∃ r, bisect p p0 tol k low high = .ok r := by
  classical
  induction k generalizing low high with
  | zero => exact ⟨none, rfl⟩
  | succ k ih =>
    obtain ⟨v, hv⟩ := hp ((high + low) / 2)
    unfold bisect
    rw [hv]
    dsimp only
    split_ifs
    · exact ⟨_, rfl⟩
    · exact ih _ _
    · exact ih _ _

theorem nextP0_noerr {N : ℕ} (k : ℕ) (ell : ℝ → Pt d → Flt) (x : Fin N → Pt d) (cur target p0 : ℝ) :
    ∃ r, nextP0 k (rowwise ell N) x cur target p0 = .ok r := by
  classical
  unfold nextP0
  simp only [pValue, rowwise, Bind.bind, Except.bind, Pure.pure, Except.pure]
  split_ifs
  · exact ⟨_, rfl⟩
  · exact bisect_noerr (fun t => ⟨_, rfl⟩) _ _ _ _ _

/-- A root finder that stays inside its bracket. -/
def Bracketed (brentq : (ℝ → Py Flt) → ℝ → ℝ → Py ℝ) : Prop :=
  ∀ f a b t, a ≤ b → brentq f a b = .ok t → a ≤ t ∧ t ≤ b

theorem nextParam_between {N : ℕ} {brentq : (ℝ → Py Flt) → ℝ → ℝ → Py ℝ} (hb : Bracketed brentq)
    {sc : SConfig} {k : ℕ} {l : LogPdfP N d} {p : Parts N d} {cur target thr t : ℝ} (hne : cur ≠ target)
    (h : nextParam brentq sc k l p cur target thr = .ok (some t)) : t ∈ Set.uIcc cur target := by
  unfold nextParam at h
  rw [Set.mem_uIcc]
  split_ifs at h with hu
  · obtain ⟨t', h1, h2⟩ := MH.bind_ok h
    obtain rfl := Option.some.inj (Except.ok.inj h2)
    have := nextEss_between brentq hb l p cur target thr t' h1
    rcases le_total cur target with hc | hc
    · rw [min_eq_right hc, max_eq_left hc] at this
      exact Or.inl this
    · rw [min_eq_left hc, max_eq_right hc] at this
      exact Or.inr this
  · rcases nextP0_spec k l p.x cur target thr t h with ⟨rfl, -⟩ | ⟨-, h1, h2⟩
    · rcases le_total cur t with hc | hc
      · exact Or.inl ⟨hc, le_rfl⟩
      · exact Or.inr ⟨le_rfl, hc⟩
    · rcases lt_trichotomy cur target with hc | hc | hc
      · exact Or.inl ⟨(h1 hc).1.le, (h1 hc).2.le⟩
      · exact absurd hc hne
      · exact Or.inr ⟨(h2 hc).1.le, (h2 hc).2.le⟩

/-! ## The effective sample size -/

/-- The effective sample size divided by the number of particles, for weights `g'/g`. -/
noncomputable def essRatio (g g' : Pt d → ℝ) {N : ℕ} (x : Fin N → Pt d) : ℝ :=
  (∑ i, g' (x i) / g (x i)) ^ 2 / (N * ∑ i, (g' (x i) / g (x i)) ^ 2)

theorem deltaEta_ready {S : Set (Pt d)} {g g' : Pt d → ℝ} (hg : Dens S g) (hg' : Dens S g')
    {ell : ℝ → Pt d → Flt} {τ : ℝ} (hl : LogOf (ell τ) g') {N : ℕ} (hN : 0 < N) {s : ℝ} {p : Parts N d}
    (hp : Ready S g s p) (thr : ℝ) :
    deltaEta (rowwise ell N) p thr τ = .ok (.fin (essRatio g g' p.x - thr)) := by
  have hw : ∀ j, 0 < wts g g' p.x j := wts_pos hg hg' hN hp.mem
  have hN0 : (N : ℝ) ≠ 0 := by exact_mod_cast hN.ne'
  have h2 : 0 < ∑ i, wts g g' p.x i ^ 2 :=
    Finset.sum_pos (fun i _ => pow_pos (hw i) 2) ⟨⟨0, hN⟩, Finset.mem_univ _⟩
  have hwt : (fun i => (p.w i).mul ((ell τ (p.x i)).sub (p.logpx i)).exp) = fun i => .fin (wts g g' p.x i) := by
    obtain ⟨a, ha, -, -, -, -, haw⟩ := reweight_ready hg hg' hl hp
    obtain rfl := Except.ok.inj ha
    exact haw
  unfold deltaEta reweight
  simp only [setLogpdfParam, setLogpdf, rowwise, Bind.bind, Except.bind, Pure.pure, Except.pure, Bool.false_eq_true,
    if_false]
  rw [hwt, ess_fin _ h2.ne', Flt.div_fin hN0, Flt.sub_fin]
  refine congrArg (fun r => Except.ok (Flt.fin (r - thr))) ?_
  have e1 : ∑ i, wts g g' p.x i = 1 / N * ∑ i, g' (p.x i) / g (p.x i) := by
    rw [Finset.mul_sum]
    rfl
  have e2 : ∑ i, wts g g' p.x i ^ 2 = (1 / N) ^ 2 * ∑ i, (g' (p.x i) / g (p.x i)) ^ 2 := by
    rw [Finset.mul_sum]
    exact Finset.sum_congr rfl fun i _ => by unfold wts; ring
  rw [e2] at h2
  have h3 : ∑ i, (g' (p.x i) / g (p.x i)) ^ 2 ≠ 0 := by
    intro h
    rw [h, mul_zero] at h2
    exact lt_irrefl _ h2
  unfold essRatio
  rw [e1, e2]
  field_simp

/-- Close densities have a large effective sample size. -/
theorem essRatio_ge {S : Set (Pt d)} {g g' : Pt d → ℝ} (hg : Dens S g) (hg' : Dens S g') {N : ℕ} (hN : 0 < N)
    {x : Fin N → Pt d} (hx : ∀ i, x i ∈ S) {D : ℝ}
    (hD : ∀ y ∈ S, |Real.log (g' y) - Real.log (g y)| ≤ D) : Real.exp (-(2 * D)) ≤ essRatio g g' x := by
  set r : Fin N → ℝ := fun i => g' (x i) / g (x i) with hr
  have hpos : ∀ i, 0 < r i := fun i => div_pos ((hg'.pos _).2 (hx i)) ((hg.pos _).2 (hx i))
  have hlog : ∀ i, Real.log (r i) = Real.log (g' (x i)) - Real.log (g (x i)) := fun i =>
    Real.log_div ((hg'.pos _).2 (hx i)).ne' ((hg.pos _).2 (hx i)).ne'
  have hlo : ∀ i, Real.exp (-D) ≤ r i := by
    intro i
    rw [← Real.le_log_iff_exp_le (hpos i), hlog]
    exact (abs_le.1 (hD _ (hx i))).1
  have hhi : ∀ i, r i ≤ Real.exp D := by
    intro i
    rw [← Real.log_le_iff_le_exp (hpos i), hlog]
    exact (abs_le.1 (hD _ (hx i))).2
  have hNR : (0 : ℝ) < N := by exact_mod_cast hN
  have hs : 0 < ∑ i, r i := Finset.sum_pos (fun i _ => hpos i) ⟨⟨0, hN⟩, Finset.mem_univ _⟩
  have h2 : 0 < ∑ i, r i ^ 2 := Finset.sum_pos (fun i _ => pow_pos (hpos i) 2) ⟨⟨0, hN⟩, Finset.mem_univ _⟩
  have hup : ∑ i, r i ^ 2 ≤ Real.exp D * ∑ i, r i := by
    rw [Finset.mul_sum]
    exact Finset.sum_le_sum fun i _ => by nlinarith [hhi i, hpos i]
  have hdn : N * Real.exp (-D) ≤ ∑ i, r i := by
    have := Finset.sum_le_sum fun i (_ : i ∈ Finset.univ) => hlo i
    simpa using this
  change _ ≤ (∑ i, r i) ^ 2 / (N * ∑ i, r i ^ 2)
  rw [le_div_iff₀ (by positivity)]
  have he : Real.exp (-(2 * D)) * Real.exp D = Real.exp (-D) := by rw [← Real.exp_add]; congr 1; ring
  calc Real.exp (-(2 * D)) * (N * ∑ i, r i ^ 2)
      ≤ Real.exp (-(2 * D)) * (N * (Real.exp D * ∑ i, r i)) := by gcongr
    _ = (N * Real.exp (-D)) * ∑ i, r i := by rw [← he]; ring
    _ ≤ (∑ i, r i) ^ 2 := by rw [sq]; gcongr

/-- The values that a root finder with tolerance `η` may return. -/
def Accurate (η : ℝ) (brentq : (ℝ → Py Flt) → ℝ → ℝ → Py ℝ) : Prop :=
  ∀ f a b t v, brentq f a b = .ok t → f t = .ok (.fin v) → |v| ≤ η

/-- A root finder that answers when a continuous function changes its sign. -/
def Answers (brentq : (ℝ → Py Flt) → ℝ → ℝ → Py ℝ) : Prop :=
  ∀ (f : ℝ → Py Flt) (a b : ℝ) (g : ℝ → ℝ), a ≤ b → (∀ t ∈ Set.Icc a b, f t = .ok (.fin (g t))) →
    ContinuousOn g (Set.Icc a b) → g a * g b ≤ 0 → ∃ t, brentq f a b = .ok t

section progress

variable {T : Type} [TopologicalSpace T] {S : Set (Pt d)} {dens : T → Pt d → ℝ} {m M : ℝ} (hF : Family S dens m M)
  {a b target : ℝ} {idx : Set.Icc a b → T} {ell : ℝ → Pt d → Flt}
  (hl : ∀ τ : Set.Icc a b, LogOf (ell τ) (dens (idx τ))) (htar : target ∈ Set.Icc a b)
  {brentq : (ℝ → Py Flt) → ℝ → ℝ → Py ℝ}

include hF hl htar in
/-- Every stage but the last goes a fixed way. -/
theorem nextEss_progress (hbr : Bracketed brentq) {η : ℝ} (hacc : Accurate η brentq) {D : ℝ → ℝ → ℝ}
    (hD : ∀ c c' : Set.Icc a b, ∀ y ∈ S, |Real.log (dens (idx c') y) - Real.log (dens (idx c) y)| ≤ D c c')
    {thr δ : ℝ} (hδ : thr + η < Real.exp (-(2 * δ))) {N : ℕ} (hN : 0 < N) {cur t : ℝ} (hc : cur ∈ Set.Icc a b)
    {p : Parts N d} (hp : Ready S (dens (idx ⟨cur, hc⟩)) p.s p)
    (h : nextEss brentq (rowwise ell N) p cur target thr = .ok t) : t = target ∨ δ ≤ D cur t := by
  classical
  obtain ⟨ft, h1, h2⟩ := MH.bind_ok h
  by_cases hf : (Flt.fin 0).lt ft
  · rw [if_pos hf] at h2
    exact Or.inl (Except.ok.inj h2).symm
  · rw [if_neg hf] at h2
    obtain ⟨fl, h3, h4⟩ := MH.bind_ok h2
    obtain ⟨fh, h5, h6⟩ := MH.bind_ok h4
    by_cases hs : (Flt.fin 0).lt (fl.mul fh)
    · rw [if_pos hs] at h6
      exact Or.inl (Except.ok.inj h6).symm
    · rw [if_neg hs] at h6
      right
      have ht : t ∈ Set.Icc a b := by
        have h7 := hbr _ _ _ _ min_le_max h6
        exact ⟨(le_min htar.1 hc.1).trans h7.1, h7.2.trans (max_le htar.2 hc.2)⟩
      have h8 := deltaEta_ready (hF.ok _) (hF.ok _) (hl ⟨t, ht⟩) hN hp thr
      have h9 := (abs_le.1 (hacc _ _ _ _ _ h6 h8)).2
      have h10 := essRatio_ge (hF.ok _) (hF.ok _) hN hp.mem (hD ⟨cur, hc⟩ ⟨t, ht⟩)
      by_contra hlt
      push Not at hlt
      have : Real.exp (-(2 * δ)) ≤ Real.exp (-(2 * D cur t)) := Real.exp_le_exp.2 (by linarith)
      linarith

include hF hl htar in
theorem nextEss_answers (hidx : Continuous idx) (hans : Answers brentq) {N : ℕ} (hN : 0 < N) {t0 : T} {p : Parts N d}
    (hp : Ready S (dens t0) p.s p) {cur : ℝ} (hc : cur ∈ Set.Icc a b) (thr : ℝ) :
    ∃ t, nextEss brentq (rowwise ell N) p cur target thr = .ok t := by
  classical
  have key : ∀ τ : Set.Icc a b, deltaEta (rowwise ell N) p thr τ =
      .ok (.fin (essRatio (dens t0) (dens (idx τ)) p.x - thr)) := fun τ =>
    deltaEta_ready (hF.ok _) (hF.ok _) (hl τ) hN hp thr
  set G : ℝ → ℝ := fun τ => if h : τ ∈ Set.Icc a b then essRatio (dens t0) (dens (idx ⟨τ, h⟩)) p.x - thr else 0
    with hG
  have hGv : ∀ τ ∈ Set.Icc a b, deltaEta (rowwise ell N) p thr τ = .ok (.fin (G τ)) := by
    intro τ hτ
    rw [hG]
    simp only [dif_pos hτ]
    exact key ⟨τ, hτ⟩
  have hcont : ContinuousOn G (Set.Icc a b) := by
    rw [continuousOn_iff_continuous_domRestrict]
    have : (Set.Icc a b).domRestrict G = fun τ => essRatio (dens t0) (dens (idx τ)) p.x - thr := by
      funext τ
      exact dif_pos τ.2
    rw [this]
    have hd : ∀ i, Continuous fun τ => dens (idx τ) (p.x i) := by
      intro i
      have h1 : Continuous fun t => dens t (p.x i) := by
        rw [continuous_iff_continuousAt]
        intro s0
        rw [ContinuousAt, Metric.tendsto_nhds]
        intro ε hε
        filter_upwards [hF.cont s0 (ε / 2) (half_pos hε)] with s hs
        rw [Real.dist_eq]
        exact (hs _ (hp.mem i)).trans_lt (half_lt_self hε)
      exact h1.comp hidx
    unfold essRatio
    refine Continuous.sub (Continuous.div ?_ ?_ fun τ => ?_) continuous_const
    · exact (continuous_finsetSum _ fun i _ => (hd i).div_const _).pow 2
    · exact continuous_const.mul (continuous_finsetSum _ fun i _ => ((hd i).div_const _).pow 2)
    · have hpos : ∀ i, 0 < dens (idx τ) (p.x i) / dens t0 (p.x i) := fun i =>
        div_pos (((hF.ok _).pos _).2 (hp.mem i)) (((hF.ok _).pos _).2 (hp.mem i))
      have hNR : (0 : ℝ) < N := by exact_mod_cast hN
      have : 0 < ∑ i, (dens (idx τ) (p.x i) / dens t0 (p.x i)) ^ 2 :=
        Finset.sum_pos (fun i _ => pow_pos (hpos i) 2) ⟨⟨0, hN⟩, Finset.mem_univ _⟩
      positivity
  have hmin : min target cur ∈ Set.Icc a b := ⟨le_min htar.1 hc.1, (min_le_left _ _).trans htar.2⟩
  have hmax : max target cur ∈ Set.Icc a b := ⟨htar.1.trans (le_max_left _ _), max_le htar.2 hc.2⟩
  have hsub : Set.Icc (min target cur) (max target cur) ⊆ Set.Icc a b := Set.Icc_subset_Icc hmin.1 hmax.2
  unfold nextEss
  simp only [hGv _ htar, hGv _ hmin, hGv _ hmax, Bind.bind, Except.bind, Pure.pure, Except.pure]
  split_ifs with h1 h2
  · exact ⟨_, rfl⟩
  · exact ⟨_, rfl⟩
  · refine hans _ _ _ G min_le_max (fun t ht => hGv t (hsub ht)) (hcont.mono hsub) ?_
    rw [Flt.mul_fin, Flt.fin_lt, not_lt] at h2
    exact h2

end progress

/-! ## Whole runs -/

theorem Bud.of_le {k k' : ℕ} (h : k ≤ k') {e : ℝ≥0∞} {cfg : PConfig} {sc : SConfig}
    {root : Matrix (Fin d) (Fin d) ℝ → Option (Matrix (Fin d) (Fin d) ℝ)} (hlow : 0 < cfg.sLower) {s : ℝ}
    (hb : Bud e cfg sc root k' s) : Bud e cfg sc root k s := by
  induction h with
  | refl => exact hb
  | step h ih => exact ih (hb.less hlow)

/-- What is small for one of the densities. -/
theorem ctlU_point {T : Type} {S : Set (Pt d)} {dens : T → Pt d → ℝ} {V : Fun d} {t : T}
    (hV : Ctl S (dens t) V) : CtlU S dens fun t' N x => open Classical in if t' = t then V N x else 0 := by
  intro ε hε
  obtain ⟨Phi, B, hB, hu, hb⟩ := hV ε hε
  refine ⟨Phi, B, hB, hu, fun t' N hN x hx => ?_⟩
  dsimp only
  split_ifs with h
  · rw [h]
    exact hb N hN x hx
  · exact zero_le

/-- What bounds the number of stages of the rule on the effective sample size: `D` is a distance of
temperatures along which the log-densities change at most, and the solver has tolerance `η`. -/
structure Ends (S : Set (Pt d)) {a b : ℝ} (dens : Set.Icc a b → Pt d → ℝ) (brentq : (ℝ → Py Flt) → ℝ → ℝ → Py ℝ)
    (sc : SConfig) (η δ minEss : ℝ) (D : ℝ → ℝ → ℝ) (target : ℝ) : Prop where
  rule : sc.useEss = true
  acc : Accurate η brentq
  close : ∀ c c' : Set.Icc a b, ∀ y ∈ S, |Real.log (dens c' y) - Real.log (dens c y)| ≤ D c c'
  pos : 0 < δ
  thr : minEss + η < Real.exp (-(2 * δ))
  nonneg : ∀ c c', 0 ≤ D c c'
  add : ∀ c t, c ∈ Set.Icc a b → t ∈ Set.Icc a b → target ∈ Set.Icc a b → t ∈ Set.uIcc c target →
    D c t + D t target = D c target
  sep : ∀ c ∈ Set.Icc a b, D c target ≤ 0 → c = target

section loop

variable {T : Type} [TopologicalSpace T] [CompactSpace T] {S : Set (Pt d)} (hS : MeasurableSet S) {R : ℝ}
  (hR : 0 < R) (hb : ∀ y ∈ S, ∀ a, |y a| ≤ R) {dens : T → Pt d → ℝ} {m M : ℝ} (hF : Family S dens m M)
  {root : Matrix (Fin d) (Fin d) ℝ → Option (Matrix (Fin d) (Fin d) ℝ)}
  (hroot : ∀ A L, root A = some L → L * Lᵀ = A)
  {cfg : PConfig} (hcov : cfg.cov = .normal) (hsch : cfg.scheme ≠ .other)
  (hlow : 0 < cfg.sLower) {sc : SConfig} {e u : ℝ≥0∞} {brentq : (ℝ → Py Flt) → ℝ → ℝ → Py ℝ}
  (hbr : Bracketed brentq) {a b target : ℝ} {idx : Set.Icc a b → T} {ell : ℝ → Pt d → Flt}
  (hl : ∀ τ : Set.Icc a b, LogOf (ell τ) (dens (idx τ))) (htar : target ∈ Set.Icc a b)
  (he : e = 0 ∨ sc.useEss = false ∨ Continuous idx ∧ Answers brentq)
  {η δ minEss : ℝ} {D : ℝ → ℝ → ℝ} (hu : u = 0 ∨ Ends S (fun τ => dens (idx τ)) brentq sc η δ minEss D target)

include hS hR hb hF hroot hcov hsch hlow hbr he hl hu in
theorem loop_bound {V0 : Fun d} (hV0 : Ctl S (dens (idx ⟨target, htar⟩)) V0) (k : ℕ) :
    ∃ V : T → ℝ → Fun d, (∀ s, CtlU S dens fun t => V t s) ∧ ∀ N, 2 ≤ N → ∀ F : Parts N d → ℝ≥0∞,
      (∀ p, F p ≤ V0 N p.x) → ∀ thr kb cur, ∀ hc : cur ∈ Set.Icc a b, ∀ t : T,
      (cur = target → t = idx ⟨target, htar⟩) → ∀ p : Parts N d, Ready S (dens t) p.s p →
      Bud e cfg sc root (sc.maxIter * k) p.s → (u = 0 ∨ thr ≤ minEss ∧
        (t = idx ⟨cur, hc⟩ ∧ D cur target + δ ≤ k * δ ∨ D cur target + 2 * δ ≤ k * δ)) →
        searchLoop e u brentq cfg sc root ell target thr kb F k cur p ≤ V t p.s N p.x := by
  classical
  induction k with
  | zero =>
    refine ⟨fun _ _ _ _ => 0, fun _ => ctlU_zero, fun N hN F hF' thr kb cur hc t ht p hp hbud hk => ?_⟩
    unfold searchLoop
    rcases hu with hu | hu
    · rw [hu]
    · rcases hk with hk | ⟨-, hk⟩
      · rw [hk]
      · exfalso
        have h1 := hu.nonneg cur target
        have h2 := hu.pos
        push_cast at hk
        rcases hk with ⟨-, hk⟩ | hk <;> linarith
  | succ k ih =>
    obtain ⟨V, hV, hbd⟩ := ih
    refine ⟨fun t s N x => (if t = idx ⟨target, htar⟩ then V0 N x else 0) +
      ⨆ t', RsU cfg.scheme S (dens t) (dens t')
        (CM root (dens t') sc.factor (sc.mhSteps - 1).toNat (V t') sc.maxIter s) N x, fun s => ?_, ?_⟩
    · exact ctlU_add (ctlU_point hV0) (rsU_ctl hF cfg.scheme (cmU_ctl hS hR hb hF hroot hV _ _ _ s))
    · intro N hN F hF' thr kb cur hc t ht p hp hbud hk
      unfold searchLoop
      by_cases hct : cur = target
      · rw [if_pos hct]
        dsimp only
        rw [if_pos (ht hct)]
        exact le_add_right (hF' p)
      · rw [if_neg hct]
        refine le_add_left ?_
        cases hnp : nextParam brentq sc kb (rowwise ell N) p cur target thr with
        | error err =>
          dsimp only
          rcases he with he | he | ⟨he1, he2⟩
          · rw [he]; exact zero_le
          · exfalso
            unfold nextParam at hnp
            simp only [he, Bool.false_eq_true, if_false] at hnp
            obtain ⟨r, hr⟩ := nextP0_noerr kb ell p.x cur target thr
            rw [hr] at hnp
            cases hnp
          · exfalso
            unfold nextParam at hnp
            obtain ⟨r, hr⟩ := nextP0_noerr kb ell p.x cur target thr
            obtain ⟨r', hr'⟩ := nextEss_answers hF hl htar he1 he2 (by omega) hp hc thr
            rw [hr, hr'] at hnp
            split_ifs at hnp
            all_goals cases hnp
        | ok r =>
          cases r with
          | none =>
            dsimp only
            rcases hu with hu | hu
            · rw [hu]; exact zero_le
            · exfalso
              unfold nextParam at hnp
              rw [if_pos hu.rule] at hnp
              obtain ⟨t', -, h2⟩ := MH.bind_ok hnp
              cases h2
          | some τ =>
            dsimp only
            have hbet := nextParam_between hbr hct hnp
            have hτ : τ ∈ Set.Icc a b := Set.uIcc_subset_Icc hc htar hbet
            refine le_trans ?_ (le_iSup (fun t' => RsU cfg.scheme S (dens t) (dens t')
              (CM root (dens t') sc.factor (sc.mhSteps - 1).toNat (V t') sc.maxIter p.s) N p.x) (idx ⟨τ, hτ⟩))
            refine searchStage_bound hcov hsch hlow (hF.ok t) (hF.ok _) (hl ⟨τ, hτ⟩) hN hp
              (q := sc.maxIter * k) (by rwa [Nat.mul_succ] at hbud) fun p' hp' hq => ?_
            refine hbd N hN F hF' thr kb τ hτ _ (fun h => ?_) p' hp' hq ?_
            · subst h
              rfl
            · rcases hu with hu | hu
              · exact Or.inl hu
              · refine hk.imp_right fun ⟨hthr, hk⟩ => ⟨hthr, Or.inl ⟨rfl, ?_⟩⟩
                have hadd := hu.add cur τ hc hτ htar hbet
                have hn := hu.nonneg cur τ
                have hn2 := hu.nonneg cur target
                push_cast at hk
                rcases hk with ⟨rfl, hk⟩ | hk
                · unfold nextParam at hnp
                  rw [if_pos hu.rule] at hnp
                  obtain ⟨t', h1, h2⟩ := MH.bind_ok hnp
                  obtain rfl := Option.some.inj (Except.ok.inj h2)
                  rcases nextEss_progress hF hl htar hbr hu.acc hu.close (thr := thr) (δ := δ)
                    (by linarith [hu.thr]) (by omega) hc hp h1 with h3 | h3
                  · rw [h3] at hadd ⊢
                    have hk' : D cur target ≤ k * δ := by linarith
                    have hk0 : k ≠ 0 := by
                      intro h0
                      rw [h0, Nat.cast_zero, zero_mul] at hk'
                      exact hct (hu.sep cur hc hk')
                    have : (1 : ℝ) ≤ k := by exact_mod_cast Nat.one_le_iff_ne_zero.2 hk0
                    nlinarith [hu.pos]
                  · linarith
                · linarith

end loop

/-- The densities of the temperatures with that of the first particles. -/
noncomputable def withFlat (lo hi : Pt d) {a b : ℝ} (dens : Set.Icc a b → Pt d → ℝ) : Unit ⊕ Set.Icc a b → Pt d → ℝ :=
  Sum.elim (fun _ => flat lo hi) dens

theorem withFlat_family {lo hi : Pt d} (hbox : ∀ j, lo j < hi j) {a b m M : ℝ} {dens : Set.Icc a b → Pt d → ℝ}
    (hF : Family (Set.Icc lo hi) dens m M) : Family (Set.Icc lo hi) (withFlat lo hi dens) (min m 1) (max M 1) := by
  classical
  refine ⟨?_, lt_min hF.pos one_pos, (min_le_right _ _).trans (le_max_right _ _), ?_, ?_, ?_⟩
  · rintro (t | t)
    · exact flat_dens hbox
    · exact hF.ok t
  · rintro (t | t) y hy
    · simp [withFlat, flat, hy]
    · exact (min_le_left _ _).trans (hF.low t y hy)
  · rintro (t | t) y hy
    · simp [withFlat, flat, hy]
    · exact (hF.high t y hy).trans (le_max_left _ _)
  · rintro (t0 | t0) ε hε
    · rw [nhds_inl, eventually_map]
      refine Eventually.of_forall fun t y hy => ?_
      simp [withFlat, hε.le]
    · rw [nhds_inr, eventually_map]
      exact hF.cont t0 ε hε

/-- Points with the state of a new array of particles, after `reweight(update_w=False)`. -/
theorem fresh_ready {N : ℕ} {lo hi : Pt d} (hbox : ∀ j, lo j < hi j) {cfg : PConfig} (hunif : cfg.randunif = true)
    {U : Fin N → Pt d} (hU : ∀ i, toBox lo hi (U i) ∈ Set.Icc lo hi) (ell : ℝ → Pt d → Flt) (τ : ℝ) (p : Parts N d) :
    ∃ q, (particlesInit (initEnv U) cfg lo hi p >>= fun p =>
        reweight false (setLogpdfParam (rowwise ell N) τ p)) = .ok q ∧
      Ready (Set.Icc lo hi) (flat lo hi) p.s q ∧ q.x = fun i => toBox lo hi (U i) := by
  rw [fresh_init hbox hunif]
  exact ⟨_, rfl, ⟨hU, fun i => by simp [flat, hU i, setLogpdfParam, setLogpdf], rfl, rfl⟩, rfl⟩

theorem restartThreshold_le {sc : SConfig} {minEss : ℝ} (p0 : ℝ) (r : Flt) (h : sc.useEss = true) :
    restartThreshold sc minEss p0 r ≤ minEss := by
  unfold restartThreshold
  rw [if_pos h]
  split_ifs
  · exact min_le_left _ _
  · exact le_rfl

/-- The two ways a run can start: with a restart, or straight to the target. -/
theorem searchRun_le {lo hi : Pt d} (hbox : ∀ j, lo j < hi j) {N : ℕ} {ell : ℝ → Pt d → Flt}
    {cfg : PConfig} (hunif : cfg.randunif = true) {sc : SConfig}
    {root : Matrix (Fin d) (Fin d) ℝ → Option (Matrix (Fin d) (Fin d) ℝ)}
    {brentq : (ℝ → Py Flt) → ℝ → ℝ → Py ℝ} {e u : ℝ≥0∞} {k : ℕ} {initial target minEss p0 : ℝ}
    {F : Parts N d → ℝ≥0∞} {A B : (Fin N → Pt d) → ℝ≥0∞}
    (hA : ∀ thr, (sc.useEss = true → thr ≤ minEss) → ∀ q : Parts N d, Ready (Set.Icc lo hi) (flat lo hi) cfg.s0 q →
      searchLoop e u brentq cfg sc root ell target thr k F k initial q ≤ A q.x)
    (hB : ∀ q : Parts N d, Ready (Set.Icc lo hi) (flat lo hi) cfg.s0 q →
      searchStage e cfg sc root ell target q F ≤ B q.x) :
    searchRun N e u brentq cfg sc root lo hi ell initial target minEss p0 k F ≤
      (∫⁻ U, A (fun i => toBox lo hi (U i)) ∂(Measure.pi fun _ => volume.restrict (Set.Icc (0 : Pt d) 1))) +
      ∫⁻ U, B (fun i => toBox lo hi (U i)) ∂(Measure.pi fun _ => volume.restrict (Set.Icc (0 : Pt d) 1)) := by
  have hprob : IsProbabilityMeasure (volume.restrict (Set.Icc (0 : Pt d) 1)) := ⟨by
    rw [Measure.restrict_apply MeasurableSet.univ, Set.univ_inter, Real.volume_Icc_pi]
    simp⟩
  unfold searchRun
  refine le_trans (b := ∫⁻ U : Fin N → Pt d, ((∫⁻ U' : Fin N → Pt d, A (fun i => toBox lo hi (U' i))
      ∂(Measure.pi fun _ => volume.restrict (Set.Icc (0 : Pt d) 1))) +
    B (fun i => toBox lo hi (U i))) ∂(Measure.pi fun _ => volume.restrict (Set.Icc (0 : Pt d) 1))) ?_ ?_
  · refine lintegral_mono_ae ?_
    filter_upwards [fresh_mem hbox N] with U hmem
    obtain ⟨q, hq, hr, hx⟩ := fresh_ready hbox hunif hmem ell target
      { x := fun _ _ => 0, logpx := fun _ => .fin 0, w := uniformW N, wtmp := uniformW N,
        s := cfg.s0, logpdf := fun _ => .error .typeError, clock := 0 }
    unfold newParts
    rw [hq]
    dsimp only
    split_ifs with hess
    · refine le_add_right (lintegral_mono_ae ?_)
      filter_upwards [fresh_mem hbox N] with U' hmem'
      obtain ⟨q', hq', hr', hx'⟩ := fresh_ready hbox hunif hmem' ell initial q
      rw [hq']
      dsimp only
      rw [← hx']
      have hs : q.s = cfg.s0 := hr.s
      exact hA _ (restartThreshold_le _ _) q' (by rw [← hs]; exact hr')
    · refine le_add_left ?_
      rw [← hx]
      exact hB q hr
  · rw [lintegral_add_left measurable_const, lintegral_const, measure_univ, mul_one]

theorem rs_point {T : Type} [TopologicalSpace T] [CompactSpace T] {S : Set (Pt d)} (hS : MeasurableSet S) {R : ℝ}
    (hR : 0 < R) (hb : ∀ y ∈ S, ∀ a, |y a| ≤ R) {dens : T → Pt d → ℝ} {m M : ℝ} (hF : Family S dens m M)
    {root : Matrix (Fin d) (Fin d) ℝ → Option (Matrix (Fin d) (Fin d) ℝ)}
    (hroot : ∀ A L, root A = some L → L * Lᵀ = A) (t0 t1 : T) (sch : Scheme) (factor : ℝ) (n q : ℕ) (s : ℝ)
    {V0 : Fun d} (hV0 : Ctl S (dens t1) V0) :
    Ctl S (dens t0) (RsU sch S (dens t0) (dens t1) (CM root (dens t1) factor n (fun _ => V0) q s)) := by
  classical
  have hc : CtlU S dens fun t' N x => if t' = t1 then V0 N x else 0 := ctlU_point hV0
  have c := (rsU_ctl hF sch (cmU_ctl hS hR hb hF hroot
      (V := fun t' _ N x => if t' = t1 then V0 N x else 0) (fun s => hc) factor n q s)).at t0
  intro ε hε
  obtain ⟨Phi, B, hB, hu, hbd⟩ := c ε hε
  refine ⟨Phi, B, hB, hu, fun N hN x hx => le_trans ?_ (hbd N hN x hx)⟩
  refine le_trans (le_of_eq ?_) (le_iSup (fun t' => RsU sch S (dens t0) (dens t')
    (CM root (dens t') factor n (fun _ N x => if t' = t1 then V0 N x else 0) q s) N x) t1)
  simp only [if_true]

/-- The general form. -/
theorem search_tendsto {lo hi : Pt d} (hbox : ∀ j, lo j < hi j) {a b initial target m M : ℝ}
    {dens : Set.Icc a b → Pt d → ℝ} (hF : Family (Set.Icc lo hi) dens m M)
    {ell : ℝ → Pt d → Flt} (hl : ∀ τ : Set.Icc a b, LogOf (ell τ) (dens τ))
    (hini : initial ∈ Set.Icc a b) (htar : target ∈ Set.Icc a b) (hne : initial ≠ target)
    {cfg : PConfig} (hunif : cfg.randunif = true)
    (hsch : cfg.scheme ≠ .other) (hcov : cfg.cov = .normal) (hlow : 0 < cfg.sLower)
    {sc : SConfig} {root : Matrix (Fin d) (Fin d) ℝ → Option (Matrix (Fin d) (Fin d) ℝ)}
    (hroot : ∀ A L, root A = some L → L * Lᵀ = A) {brentq : (ℝ → Py Flt) → ℝ → ℝ → Py ℝ}
    (hbr : Bracketed brentq) {e u : ℝ≥0∞} (he : e = 0 ∨ sc.useEss = false ∨ Answers brentq) (k : ℕ)
    (hbud : Bud e cfg sc root (sc.maxIter * (k + 1)) cfg.s0) (minEss p0 : ℝ)
    (hu : u = 0 ∨ ∃ η δ D, Ends (Set.Icc lo hi) dens brentq sc η δ minEss D target ∧
      D initial target + 2 * δ ≤ k * δ) {V0 : Fun d}
    (hV0 : Ctl (Set.Icc lo hi) (dens ⟨target, htar⟩) V0)
    {F : (N : ℕ) → Parts N d → ℝ≥0∞} (hFV : ∀ N p, F N p ≤ V0 N p.x) :
    Tendsto (fun N => searchRun N e u brentq cfg sc root lo hi ell initial target minEss p0 k (F N))
      atTop (𝓝 0) := by
  have hR : 0 < 1 + ∑ j, (|lo j| + |hi j|) := by positivity
  have hFF := withFlat_family hbox hF
  have hl' : ∀ τ : Set.Icc a b, LogOf (ell τ) (withFlat lo hi dens (Sum.inr τ)) := hl
  obtain ⟨η, δ, D, hu⟩ : ∃ η δ D, u = 0 ∨ (Ends (Set.Icc lo hi) dens brentq sc η δ minEss D target ∧
      D initial target + 2 * δ ≤ k * δ) := by
    rcases hu with hu | ⟨η, δ, D, hu⟩
    · exact ⟨0, 0, fun _ _ => 0, Or.inl hu⟩
    · exact ⟨η, δ, D, Or.inr hu⟩
  obtain ⟨V, hV, hbd⟩ := loop_bound (e := e) (u := u) (sc := sc) (idx := Sum.inr) measurableSet_Icc hR box_bound hFF
    hroot hcov hsch hlow hbr hl' htar (he.imp_right (Or.imp_right fun h => ⟨continuous_inr, h⟩))
    (hu.imp_right And.left) hV0 k
  have c1 : Ctl (Set.Icc lo hi) (flat lo hi) (V (Sum.inl ()) cfg.s0) := (hV cfg.s0).at (Sum.inl ())
  obtain ⟨W, c2, hW⟩ : ∃ W : Fun d, Ctl (Set.Icc lo hi) (flat lo hi) W ∧ ∀ N, 2 ≤ N → ∀ q : Parts N d,
      Ready (Set.Icc lo hi) (flat lo hi) cfg.s0 q → searchStage e cfg sc root ell target q (F N) ≤ W N q.x := by
    have c := rs_point measurableSet_Icc hR box_bound hFF hroot (Sum.inl ()) (Sum.inr ⟨target, htar⟩) cfg.scheme
      sc.factor (sc.mhSteps - 1).toNat sc.maxIter cfg.s0 hV0
    refine ⟨_, c, fun N hN q hq => ?_⟩
    have hqs : q.s = cfg.s0 := hq.s
    have h := searchStage_bound (e := e) (sc := sc) (root := root) (q := 0)
      (V := fun _ => V0) hcov hsch hlow (flat_dens hbox) (hF.ok ⟨target, htar⟩)
      (hl ⟨target, htar⟩) hN (p := q) (by rw [hqs]; exact hq)
      (by rw [hqs]; exact hbud.of_le (by rw [zero_add, Nat.mul_succ]; exact Nat.le_add_left _ _) hlow)
      (G := F N) (fun p' _ _ => hFV N p')
    rw [hqs] at h
    exact h
  have hlim := (fresh_tendsto hbox c1).add (fresh_tendsto hbox c2)
  rw [add_zero] at hlim
  refine tendsto_of_tendsto_of_tendsto_of_le_of_le' tendsto_const_nhds hlim
    (Eventually.of_forall fun _ => zero_le) ?_
  filter_upwards [eventually_ge_atTop 2] with N hN
  refine searchRun_le hbox hunif (fun thr hthr q hq => ?_) (fun q hq => hW N hN q hq)
  have hqs : q.s = cfg.s0 := hq.s
  have := hbd N hN (F N) (hFV N) thr k initial hini (Sum.inl ()) (fun h => absurd h hne) q (by rw [hqs]; exact hq)
    (by rw [hqs]; exact hbud.of_le (Nat.mul_le_mul_left _ (Nat.le_succ k)) hlow)
    (hu.imp_right fun h => ⟨hthr h.1.rule, Or.inr h.2⟩)
  rwa [hqs] at this

/-- **C265** A run of `run_smc_sampling` is consistent whatever temperatures its rule picks.  The
temperatures are chosen from the particles, with the rule on the effective sample size or with the
rule on the mean acceptance, there is a restart or not, the resampling is multinomial or residual,
and proposals and scale are adapted.  If the densities are bounded away from 0 and infinity on
the box, uniformly in the temperature, and depend continuously on it, then the mean squared
difference between the average of a bounded function over the final particles and its
expectation under the target tends to 0 as the number of particles grows.  Runs that end in an
exception or need more than `k` stages do not count. -/
theorem search_consistent {lo hi : Pt d} (hbox : ∀ j, lo j < hi j) {a b initial target m M : ℝ}
    {dens : Set.Icc a b → Pt d → ℝ} (hF : Family (Set.Icc lo hi) dens m M)
    {ell : ℝ → Pt d → Flt} (hl : ∀ τ : Set.Icc a b, LogOf (ell τ) (dens τ))
    (hini : initial ∈ Set.Icc a b) (htar : target ∈ Set.Icc a b) (hne : initial ≠ target)
    {cfg : PConfig} (hunif : cfg.randunif = true)
    (hsch : cfg.scheme ≠ .other) (hcov : cfg.cov = .normal) (hlow : 0 < cfg.sLower)
    (sc : SConfig) {root : Matrix (Fin d) (Fin d) ℝ → Option (Matrix (Fin d) (Fin d) ℝ)}
    (hroot : ∀ A L, root A = some L → L * Lᵀ = A) {brentq : (ℝ → Py Flt) → ℝ → ℝ → Py ℝ}
    (hbr : Bracketed brentq) (k : ℕ) (minEss p0 : ℝ) {f : Pt d → ℝ} (hf : Measurable f) (hf1 : ∀ y, |f y| ≤ 1) :
    Tendsto (fun N => searchRun N 0 0 brentq cfg sc root lo hi ell initial target minEss p0 k fun p =>
      ENNReal.ofReal (((∑ i, f (p.x i)) / N -
        ∫ y, f y ∂MH.targetLaw volume (dens ⟨target, htar⟩)) ^ 2)) atTop (𝓝 0) :=
  search_tendsto hbox hF hl hini htar hne hunif hsch hcov hlow hroot hbr (Or.inl rfl) k (Or.inl rfl) minEss p0
    (Or.inl rfl)
    (V0 := fun _ x => ENNReal.ofReal (err (dens ⟨target, htar⟩) f x)) (ctl_err ⟨hf, hf1⟩)
    (fun _ _ => le_rfl)

/-- **C265** With the rule on the mean acceptance failed runs may count as infinite errors, if the
range of the scale leaves room for every change in `k + 1` stages and the normal generator accepts
all positive semi-definite covariances. -/
theorem search_total {lo hi : Pt d} (hbox : ∀ j, lo j < hi j) {a b initial target m M : ℝ}
    {dens : Set.Icc a b → Pt d → ℝ} (hF : Family (Set.Icc lo hi) dens m M)
    {ell : ℝ → Pt d → Flt} (hl : ∀ τ : Set.Icc a b, LogOf (ell τ) (dens τ))
    (hini : initial ∈ Set.Icc a b) (htar : target ∈ Set.Icc a b) (hne : initial ≠ target)
    {cfg : PConfig} (hunif : cfg.randunif = true)
    (hsch : cfg.scheme ≠ .other) (hcov : cfg.cov = .normal) (hlow : 0 < cfg.sLower)
    {sc : SConfig} (hrule : sc.useEss = false)
    {root : Matrix (Fin d) (Fin d) ℝ → Option (Matrix (Fin d) (Fin d) ℝ)}
    (hroot : ∀ A L, root A = some L → L * Lᵀ = A)
    (htot : ∀ A : Matrix (Fin d) (Fin d) ℝ, A.PosSemidef → (root A).isSome)
    {brentq : (ℝ → Py Flt) → ℝ → ℝ → Py ℝ}
    (hbr : Bracketed brentq) (k : ℕ)
    (hfac : 1 ≤ sc.factor) (hlo : cfg.sLower * sc.factor ^ (sc.maxIter * (k + 1)) ≤ cfg.s0)
    (hup : cfg.s0 * sc.factor ^ (sc.maxIter * (k + 1)) ≤ cfg.sUpper) (minEss p0 : ℝ) {f : Pt d → ℝ}
    (hf : Measurable f) (hf1 : ∀ y, |f y| ≤ 1) :
    Tendsto (fun N => searchRun N ⊤ 0 brentq cfg sc root lo hi ell initial target minEss p0 k fun p =>
      ENNReal.ofReal (((∑ i, f (p.x i)) / N -
        ∫ y, f y ∂MH.targetLaw volume (dens ⟨target, htar⟩)) ^ 2)) atTop (𝓝 0) :=
  search_tendsto hbox hF hl hini htar hne hunif hsch hcov hlow hroot hbr (Or.inr (Or.inl hrule)) k
    (Or.inr ⟨hfac, hlo, hup, htot⟩) minEss p0 (Or.inl rfl)
    (V0 := fun _ x => ENNReal.ofReal (err (dens ⟨target, htar⟩) f x)) (ctl_err ⟨hf, hf1⟩)
    (fun _ _ => le_rfl)

/-- **C266** With the rule on the effective sample size all runs count: failed and unfinished ones as
infinite errors.  The log-densities change by at most `D` between two temperatures, the root finder
answers for a sign change, to a tolerance `η`, and `δ > 0` is such that a change of the log-densities by
`δ` keeps the ratio above `minEss + η`.  Then `D/δ + 2` stages suffice, and the mean squared error
of every bounded function tends to 0. -/
theorem search_all {lo hi : Pt d} (hbox : ∀ j, lo j < hi j) {a b initial target m M : ℝ}
    {dens : Set.Icc a b → Pt d → ℝ} (hF : Family (Set.Icc lo hi) dens m M)
    {ell : ℝ → Pt d → Flt} (hl : ∀ τ : Set.Icc a b, LogOf (ell τ) (dens τ))
    (hini : initial ∈ Set.Icc a b) (htar : target ∈ Set.Icc a b) (hne : initial ≠ target)
    {cfg : PConfig} (hunif : cfg.randunif = true)
    (hsch : cfg.scheme ≠ .other) (hcov : cfg.cov = .normal) (hlow : 0 < cfg.sLower)
    {sc : SConfig} {root : Matrix (Fin d) (Fin d) ℝ → Option (Matrix (Fin d) (Fin d) ℝ)}
    (hroot : ∀ A L, root A = some L → L * Lᵀ = A)
    (htot : ∀ A : Matrix (Fin d) (Fin d) ℝ, A.PosSemidef → (root A).isSome)
    {brentq : (ℝ → Py Flt) → ℝ → ℝ → Py ℝ} (hbr : Bracketed brentq) (hans : Answers brentq)
    {η δ minEss : ℝ} {D : ℝ → ℝ → ℝ} (hends : Ends (Set.Icc lo hi) dens brentq sc η δ minEss D target) (k : ℕ)
    (hk : D initial target / δ + 2 ≤ k)
    (hfac : 1 ≤ sc.factor) (hlo : cfg.sLower * sc.factor ^ (sc.maxIter * (k + 1)) ≤ cfg.s0)
    (hup : cfg.s0 * sc.factor ^ (sc.maxIter * (k + 1)) ≤ cfg.sUpper) (p0 : ℝ) {f : Pt d → ℝ}
    (hf : Measurable f) (hf1 : ∀ y, |f y| ≤ 1) :
    Tendsto (fun N => searchRun N ⊤ ⊤ brentq cfg sc root lo hi ell initial target minEss p0 k fun p =>
      ENNReal.ofReal (((∑ i, f (p.x i)) / N -
        ∫ y, f y ∂MH.targetLaw volume (dens ⟨target, htar⟩)) ^ 2)) atTop (𝓝 0) :=
  search_tendsto hbox hF hl hini htar hne hunif hsch hcov hlow hroot hbr (Or.inr (Or.inr hans)) k
    (Or.inr ⟨hfac, hlo, hup, htot⟩) minEss p0
    (Or.inr ⟨η, δ, D, hends, by
      have h := mul_le_mul_of_nonneg_right hk hends.pos.le
      rwa [add_mul, div_mul_cancel₀ _ hends.pos.ne'] at h⟩)
    (V0 := fun _ x => ENNReal.ofReal (err (dens ⟨target, htar⟩) f x)) (ctl_err ⟨hf, hf1⟩)
    (fun _ _ => le_rfl)

open Classical in
/-- **C265** The probability that a run ends within `k` stages, without exception, and with an
average off by `δ` or more tends to 0. -/
theorem search_probability {lo hi : Pt d} (hbox : ∀ j, lo j < hi j) {a b initial target m M : ℝ}
    {dens : Set.Icc a b → Pt d → ℝ} (hF : Family (Set.Icc lo hi) dens m M)
    {ell : ℝ → Pt d → Flt} (hl : ∀ τ : Set.Icc a b, LogOf (ell τ) (dens τ))
    (hini : initial ∈ Set.Icc a b) (htar : target ∈ Set.Icc a b) (hne : initial ≠ target)
    {cfg : PConfig} (hunif : cfg.randunif = true)
    (hsch : cfg.scheme ≠ .other) (hcov : cfg.cov = .normal) (hlow : 0 < cfg.sLower)
    (sc : SConfig) {root : Matrix (Fin d) (Fin d) ℝ → Option (Matrix (Fin d) (Fin d) ℝ)}
    (hroot : ∀ A L, root A = some L → L * Lᵀ = A) {brentq : (ℝ → Py Flt) → ℝ → ℝ → Py ℝ}
    (hbr : Bracketed brentq) (k : ℕ) (minEss p0 : ℝ) {f : Pt d → ℝ} (hf : Measurable f) (hf1 : ∀ y, |f y| ≤ 1)
    {δ : ℝ} (hδ : 0 < δ) :
    Tendsto (fun N => searchRun N 0 0 brentq cfg sc root lo hi ell initial target minEss p0 k fun p =>
      if δ ≤ |(∑ i, f (p.x i)) / N - ∫ y, f y ∂MH.targetLaw volume (dens ⟨target, htar⟩)|
        then 1 else 0) atTop (𝓝 0) := by
  refine search_tendsto hbox hF hl hini htar hne hunif hsch hcov hlow hroot hbr (Or.inl rfl) k (Or.inl rfl) minEss p0
    (Or.inl rfl)
    (V0 := fun _ x => ENNReal.ofReal (1 / δ ^ 2) * ENNReal.ofReal (err (dens ⟨target, htar⟩) f x))
    (ctl_mul (ctl_err ⟨hf, hf1⟩) (by positivity)) fun N p => ?_
  split_ifs with h
  · rw [← ENNReal.ofReal_mul (by positivity), ENNReal.one_le_ofReal, err, avg, one_div,
      ← div_eq_inv_mul, one_le_div (by positivity), ← sq_abs (_ - _)]
    exact pow_le_pow_left₀ hδ.le h 2
  · exact zero_le

/-! ## Tempered posteriors -/

open Classical in
/-- The density `exp(-J/T)` on a box, param_posterior.py 737-757. -/
noncomputable def temper (lo hi : Pt d) (J : Pt d → ℝ) (T : ℝ) (y : Pt d) : ℝ :=
  if y ∈ Set.Icc lo hi then Real.exp (-J y / T) else 0

open Classical in
/-- Its logarithm. -/
noncomputable def logTemper (lo hi : Pt d) (J : Pt d → ℝ) (T : ℝ) (y : Pt d) : Flt :=
  if y ∈ Set.Icc lo hi then .fin (-J y / T) else .num ⊥

theorem temper_log (lo hi : Pt d) (J : Pt d → ℝ) (T : ℝ) : LogOf (logTemper lo hi J T) (temper lo hi J T) := by
  intro y
  unfold logTemper temper
  split_ifs with h
  · exact Or.inl ⟨Real.exp_pos _, by rw [Real.log_exp]⟩
  · exact Or.inr ⟨rfl, rfl⟩

theorem temper_family {lo hi : Pt d} (hbox : ∀ j, lo j < hi j) {J : Pt d → ℝ} (hJ : Measurable J) {C : ℝ}
    (hC : ∀ y ∈ Set.Icc lo hi, |J y| ≤ C) {a b : ℝ} (ha : 0 < a) :
    Family (Set.Icc lo hi) (fun (T : Set.Icc a b) => temper lo hi J T) (Real.exp (-(C / a))) (Real.exp (C / a)) := by
  classical
  have hC0 : 0 ≤ C := (abs_nonneg _).trans (hC lo (Set.left_mem_Icc.2 fun j => (hbox j).le))
  have hbd : ∀ (T : Set.Icc a b) (y : Pt d), y ∈ Set.Icc lo hi → |-J y / T| ≤ C / a := by
    intro T y hy
    have hT : 0 < (T : ℝ) := ha.trans_le T.2.1
    rw [abs_div, abs_neg, abs_of_pos hT]
    exact div_le_div₀ hC0 (hC y hy) ha T.2.1
  have hlo : ∀ (T : Set.Icc a b) (y : Pt d), y ∈ Set.Icc lo hi → Real.exp (-(C / a)) ≤ temper lo hi J T y := by
    intro T y hy
    simp only [temper, hy, if_true]
    exact Real.exp_le_exp.2 (abs_le.1 (hbd T y hy)).1
  have hhi : ∀ (T : Set.Icc a b) (y : Pt d), y ∈ Set.Icc lo hi → temper lo hi J T y ≤ Real.exp (C / a) := by
    intro T y hy
    simp only [temper, hy, if_true]
    exact Real.exp_le_exp.2 (abs_le.1 (hbd T y hy)).2
  have hfl := flat_dens hbox
  refine ⟨fun T => ?_, Real.exp_pos _, Real.exp_le_exp.2 (by have : 0 ≤ C / a := by positivity
                                                             linarith), hlo, hhi, ?_⟩
  · have hm : Measurable (temper lo hi J T) :=
      Measurable.ite measurableSet_Icc (Real.measurable_exp.comp (hJ.neg.div_const _)) measurable_const
    have h0 : ∀ y, 0 ≤ temper lo hi J T y := by
      intro y
      unfold temper
      split_ifs
      · exact (Real.exp_pos _).le
      · exact le_rfl
    have hle : ∀ y, temper lo hi J T y ≤ Real.exp (C / a) * flat lo hi y := by
      intro y
      by_cases hy : y ∈ Set.Icc lo hi
      · have := hhi T y hy
        simpa [flat, hy] using this
      · simp [temper, flat, hy]
    have hge : ∀ y, Real.exp (-(C / a)) * flat lo hi y ≤ temper lo hi J T y := by
      intro y
      by_cases hy : y ∈ Set.Icc lo hi
      · have := hlo T y hy
        simpa [flat, hy] using this
      · simp [temper, flat, hy]
    have hint : Integrable (temper lo hi J T) volume :=
      (hfl.int.const_mul _).mono' hm.aestronglyMeasurable
        (Eventually.of_forall fun y => by rw [Real.norm_of_nonneg (h0 y)]; exact hle y)
    refine ⟨hm, h0, fun y => ?_, hint, ?_⟩
    · unfold temper
      split_ifs with h
      · simp [h, Real.exp_pos]
      · simp [h]
    · refine lt_of_lt_of_le ?_ (integral_mono (hfl.int.const_mul (Real.exp (-(C / a)))) hint hge)
      rw [integral_const_mul]
      exact mul_pos (Real.exp_pos _) hfl.mass
  · intro T0 ε hε
    have hT0 : 0 < (T0 : ℝ) := ha.trans_le T0.2.1
    -- exp is Lipschitz on the range of the exponents
    have hc : Tendsto (fun T : Set.Icc a b => Real.exp (C / a) * (C * |1 / (T : ℝ) - 1 / T0|)) (𝓝 T0)
        (𝓝 (Real.exp (C / a) * (C * |1 / (T0 : ℝ) - 1 / T0|))) := by
      have h1 : Tendsto (fun T : Set.Icc a b => 1 / (T : ℝ)) (𝓝 T0) (𝓝 (1 / T0)) :=
        tendsto_const_nhds.div (continuous_subtype_val.tendsto T0) hT0.ne'
      exact ((h1.sub_const _).abs.const_mul C).const_mul _
    rw [sub_self, abs_zero, mul_zero, mul_zero] at hc
    filter_upwards [hc.eventually (gt_mem_nhds hε)] with T hT y hy
    refine le_trans ?_ hT.le
    have h1 := hhi T y hy
    have h2 := hhi T0 y hy
    simp only [temper, hy, if_true] at h1 h2 ⊢
    have hlip : ∀ u v : ℝ, Real.exp u ≤ Real.exp (C / a) → Real.exp v ≤ Real.exp (C / a) →
        |Real.exp u - Real.exp v| ≤ Real.exp (C / a) * |u - v| := by
      have key : ∀ u v : ℝ, v ≤ u → Real.exp u ≤ Real.exp (C / a) →
          |Real.exp u - Real.exp v| ≤ Real.exp (C / a) * |u - v| := by
        intro u v huv hu
        rw [abs_of_nonneg (sub_nonneg.2 (Real.exp_le_exp.2 huv)), abs_of_nonneg (sub_nonneg.2 huv)]
        have h3 := Real.add_one_le_exp (v - u)
        have h4 : Real.exp v = Real.exp u * Real.exp (v - u) := by rw [← Real.exp_add]; congr 1; ring
        rw [h4]
        have h5 := Real.exp_pos u
        nlinarith
      intro u v hu hv
      rcases le_total v u with h | h
      · exact key u v h hu
      · rw [abs_sub_comm, abs_sub_comm u v]
        exact key v u h hv
    refine (hlip _ _ h1 h2).trans (mul_le_mul_of_nonneg_left ?_ (Real.exp_pos _).le)
    have : -J y / (T : ℝ) - -J y / T0 = -J y * (1 / T - 1 / T0) := by ring
    rw [this, abs_mul, abs_neg]
    exact mul_le_mul_of_nonneg_right (hC y hy) (abs_nonneg _)

/-- The log-density that `sample_from_selection_criterion_smc` passes on is this one. -/
theorem smcTarget_temper {N : ℕ} (lo hi : Pt d) {J : Pt d → ℝ} {f : Posterior.Crit}
    (hf : ∀ y : Pt d, f d y = .ok (.fin (J y))) {T : ℝ} (hT : T ≠ 0) (x : Fin N → Pt d) :
    Posterior.smcTarget f (some (lo, hi)) x T = rowwise (logTemper lo hi J) N x T := by
  refine (Posterior.smcTarget_spec f _ x T _).2 ⟨fun i => .fin (J (x i)), fun i => hf _, fun i => ?_⟩
  have h : Posterior.Outside (some (lo, hi)) (x i) ↔ ¬ x i ∈ Set.Icc lo hi := by
    rw [← Posterior.outside_iff]
    simp only [Option.mem_some_iff, exists_eq_left', Set.mem_Icc, Pi.le_def, not_and_or, not_forall, not_le]
  unfold logTemper
  by_cases hx : x i ∈ Set.Icc lo hi
  · rw [if_pos hx, if_neg (by rw [h]; exact fun h => h hx)]
    have : (Flt.fin (J (x i))).neg = Flt.fin (-J (x i)) := by
      simp [Flt.neg, Flt.fin]
    rw [this, Flt.div_fin hT]
  · rw [if_neg hx, if_pos (h.2 hx)]

/-- **C265** The SMC sampler of posteriors is consistent.  With the options that
`sample_from_selection_criterion_smc` sets (residual resampling, next temperature from the effective
sample size), for a criterion that is measurable and bounded on the box used for the first
particles and for sampling, averages over the final particles tend to the expectation under
`exp(-J/T)` at the final temperature. -/
theorem posterior_consistent {lo hi : Pt d} (hbox : ∀ j, lo j < hi j) {J : Pt d → ℝ} (hJ : Measurable J) {C : ℝ}
    (hC : ∀ y ∈ Set.Icc lo hi, |J y| ≤ C) {initial final : ℝ} (hfin : 0 < final) (hlt : final < initial)
    (mhSteps : ℕ) (minEss : ℝ) {root : Matrix (Fin d) (Fin d) ℝ → Option (Matrix (Fin d) (Fin d) ℝ)}
    (hroot : ∀ A L, root A = some L → L * Lᵀ = A) {brentq : (ℝ → Py Flt) → ℝ → ℝ → Py ℝ}
    (hbr : Bracketed brentq) (k : ℕ) {f : Pt d → ℝ} (hf : Measurable f) (hf1 : ∀ y, |f y| ≤ 1) :
    Tendsto (fun N => searchRun N 0 0 brentq { scheme := .residual, cov := .normal }
      { useEss := true, mhSteps := mhSteps } root lo hi (logTemper lo hi J) initial final minEss 0 k fun p =>
      ENNReal.ofReal (((∑ i, f (p.x i)) / N -
        ∫ y, f y ∂MH.targetLaw volume (temper lo hi J final)) ^ 2)) atTop (𝓝 0) :=
  search_consistent (a := final) (b := initial) hbox (temper_family hbox hJ hC hfin)
    (fun T => temper_log lo hi J T) (Set.right_mem_Icc.2 hlt.le) (Set.left_mem_Icc.2 hlt.le) hlt.ne' rfl
    (by simp) rfl (by norm_num) _ hroot hbr k minEss 0 hf hf1

/-- The distance of two temperatures for a criterion bounded by `C`. -/
noncomputable def tempDist (C c c' : ℝ) : ℝ := C * |1 / c' - 1 / c|

theorem temper_ends {lo hi : Pt d} {J : Pt d → ℝ} {C : ℝ} (hC0 : 0 < C) (hC : ∀ y ∈ Set.Icc lo hi, |J y| ≤ C)
    {final initial : ℝ} (hfin : 0 < final) {brentq : (ℝ → Py Flt) → ℝ → ℝ → Py ℝ}
    {sc : SConfig} (hrule : sc.useEss = true) {η δ minEss : ℝ} (hacc : Accurate η brentq) (hδ : 0 < δ)
    (hthr : minEss + η < Real.exp (-(2 * δ))) :
    Ends (Set.Icc lo hi) (fun T : Set.Icc final initial => temper lo hi J T) brentq sc η δ minEss
      (tempDist C) final := by
  classical
  refine ⟨hrule, hacc, fun c c' y hy => ?_, hδ, hthr, fun c c' => by unfold tempDist; positivity,
    fun c t hc ht hf hbet => ?_, fun c hc h => ?_⟩
  · simp only [temper, hy, if_true, Real.log_exp, tempDist]
    have : -J y / (c' : ℝ) - -J y / c = -J y * (1 / c' - 1 / c) := by ring
    rw [this, abs_mul, abs_neg]
    exact mul_le_mul_of_nonneg_right (hC y hy) (abs_nonneg _)
  · have h1 : t ≤ c := by
      rw [Set.mem_uIcc] at hbet
      rcases hbet with h | h
      · exact h.2.trans hc.1
      · exact h.2
    have h0 : 0 < t := hfin.trans_le ht.1
    have h2 : 1 / c ≤ 1 / t := one_div_le_one_div_of_le h0 h1
    have h3 : 1 / t ≤ 1 / final := one_div_le_one_div_of_le hfin ht.1
    unfold tempDist
    rw [abs_of_nonneg (by linarith), abs_of_nonneg (by linarith), abs_of_nonneg (by linarith)]
    ring
  · unfold tempDist at h
    have h1 : |1 / final - 1 / c| = 0 := by
      have h2 := abs_nonneg (1 / final - 1 / c)
      by_contra h3
      have := mul_pos hC0 (lt_of_le_of_ne h2 (Ne.symm h3))
      linarith
    rw [abs_eq_zero, sub_eq_zero, one_div, one_div, _root_.inv_inj] at h1
    exact h1.symm

/-- **C266** The SMC sampler of posteriors, with its usual options, ends after at most
`C (1/final - 1/initial) / δ + 2` temperatures, whatever the number of particles: unfinished runs may
count as infinite errors.  Here `C` bounds the criterion, and `exp(-2 δ)` is above the ratio asked for plus
the tolerance of the root finder. -/
theorem posterior_finishes {lo hi : Pt d} (hbox : ∀ j, lo j < hi j) {J : Pt d → ℝ} (hJ : Measurable J) {C : ℝ}
    (hC0 : 0 < C) (hC : ∀ y ∈ Set.Icc lo hi, |J y| ≤ C) {initial final : ℝ} (hfin : 0 < final)
    (hlt : final < initial)
    (mhSteps : ℕ) {minEss : ℝ} {root : Matrix (Fin d) (Fin d) ℝ → Option (Matrix (Fin d) (Fin d) ℝ)}
    (hroot : ∀ A L, root A = some L → L * Lᵀ = A) {brentq : (ℝ → Py Flt) → ℝ → ℝ → Py ℝ}
    (hbr : Bracketed brentq) {η δ : ℝ} (hacc : Accurate η brentq) (hδ : 0 < δ)
    (hthr : minEss + η < Real.exp (-(2 * δ))) (k : ℕ) (hk : C * (1 / final - 1 / initial) / δ + 2 ≤ k)
    {f : Pt d → ℝ} (hf : Measurable f) (hf1 : ∀ y, |f y| ≤ 1) :
    Tendsto (fun N => searchRun N 0 ⊤ brentq { scheme := .residual, cov := .normal }
      { useEss := true, mhSteps := mhSteps } root lo hi (logTemper lo hi J) initial final minEss 0 k fun p =>
      ENNReal.ofReal (((∑ i, f (p.x i)) / N -
        ∫ y, f y ∂MH.targetLaw volume (temper lo hi J final)) ^ 2)) atTop (𝓝 0) :=
  search_tendsto (a := final) (b := initial) (dens := fun T : Set.Icc final initial => temper lo hi J T)
    (htar := Set.left_mem_Icc.2 hlt.le) hbox (temper_family hbox hJ hC hfin)
    (fun T => temper_log lo hi J T) (Set.right_mem_Icc.2 hlt.le) hlt.ne' rfl
    (by simp) rfl (by norm_num) hroot hbr (Or.inl rfl) k (Or.inl rfl) minEss 0
    (Or.inr ⟨η, δ, tempDist C, temper_ends hC0 hC hfin rfl hacc hδ hthr, by
      have h := mul_le_mul_of_nonneg_right hk hδ.le
      rw [add_mul, div_mul_cancel₀ _ hδ.ne'] at h
      unfold tempDist
      rwa [abs_of_nonneg (sub_nonneg.2 (one_div_le_one_div_of_le hfin hlt.le))]⟩)
    (V0 := fun _ x => ENNReal.ofReal (err (temper lo hi J final) f x)) (ctl_err ⟨hf, hf1⟩)
    (fun _ _ => le_rfl)

/-! ## Examples -/

open Classical in
/-- A root finder that answers when there is a root. -/
noncomputable def someZero (f : ℝ → Py Flt) (a b : ℝ) : Py ℝ :=
  if h : ∃ t, (a ≤ t ∧ t ≤ b) ∧ f t = .ok (.fin 0) then .ok h.choose else .error .valueError

theorem someZero_bracketed : Bracketed someZero := by
  intro f a b t _ h
  unfold someZero at h
  split_ifs at h with h1
  rw [← Except.ok.inj h]
  exact h1.choose_spec.1

/-- A quadratic criterion on a square, at the default temperatures. -/
example {f : Pt 2 → ℝ} (hf : Measurable f) (hf1 : ∀ y, |f y| ≤ 1) :
    Tendsto (fun N => searchRun N 0 0 someZero { scheme := .residual, cov := .normal }
      { useEss := true, mhSteps := 20 } someRoot (-1) 1 (logTemper (-1) 1 fun y => y 0 ^ 2 + y 0 * y 1)
      1000000 1 (1 / 2) 0 50 fun p =>
      ENNReal.ofReal (((∑ i, f (p.x i)) / N -
        ∫ y, f y ∂MH.targetLaw volume (temper (-1) 1 (fun y => y 0 ^ 2 + y 0 * y 1) 1)) ^ 2)) atTop (𝓝 0) :=
  posterior_consistent (C := 2) (fun _ => by norm_num) (by fun_prop) (fun y hy => by
      have h1 := hy.1 0
      have h2 := hy.1 1
      have h3 := hy.2 0
      have h4 := hy.2 1
      simp only [Pi.neg_apply, Pi.one_apply] at h1 h2 h3 h4
      rw [abs_le]
      constructor <;> nlinarith) one_pos (by norm_num) 20 (1 / 2) someRoot_ok someZero_bracketed 50 hf hf1

/-- The rule on the mean acceptance with one change of the scale per stage and at most four stages: no
run fails. -/
example {f : Pt 1 → ℝ} (hf : Measurable f) (hf1 : ∀ y, |f y| ≤ 1) :
    Tendsto (fun N => searchRun N ⊤ 0 someZero {} { maxIter := 1 } someRoot 0 1
      (logTemper 0 1 fun y => y 0) 4 1 (1 / 2) (1 / 2) 4 fun p =>
      ENNReal.ofReal (((∑ i, f (p.x i)) / N -
        ∫ y, f y ∂MH.targetLaw volume (temper 0 1 (fun y => y 0) 1)) ^ 2)) atTop (𝓝 0) :=
  search_total (a := 1) (b := 4) (dens := fun T : Set.Icc (1 : ℝ) 4 => temper 0 1 (fun y => y 0) T)
    (target := 1) (htar := by norm_num)
    (fun _ => by simp) (temper_family (C := 1) (fun _ => by simp) (by fun_prop) (fun y hy => by
      have h1 := hy.1 0
      have h3 := hy.2 0
      simp only [Pi.zero_apply, Pi.one_apply] at h1 h3
      rw [abs_of_nonneg h1]
      exact h3) one_pos) (fun T => temper_log 0 1 _ T) (by norm_num) (by norm_num) rfl (by simp) rfl
    (by norm_num) rfl someRoot_ok someRoot_total someZero_bracketed 4 (by norm_num) (by norm_num) (by norm_num)
    _ _ hf hf1

theorem someZero_accurate : Accurate 0 someZero := by
  intro f a b t v h hv
  unfold someZero at h
  split_ifs at h with h1
  rw [← Except.ok.inj h, h1.choose_spec.2] at hv
  have := Flt.fin_inj.1 (Except.ok.inj hv)
  rw [← this, abs_zero]

theorem someZero_answers : Answers someZero := by
  intro f a b g hab hfg hg hs
  have h0 : (0 : ℝ) ∈ g '' Set.Icc a b := by
    rcases mul_nonpos_iff.1 hs with h | h
    · exact intermediate_value_Icc' hab hg ⟨h.2, h.1⟩
    · exact intermediate_value_Icc hab hg ⟨h.1, h.2⟩
  obtain ⟨t, ht, h0⟩ := h0
  unfold someZero
  rw [dif_pos ⟨t, ht, by rw [hfg t ht, h0]⟩]
  exact ⟨_, rfl⟩

/-- The quadratic criterion again: 12 temperatures always suffice. -/
example {f : Pt 2 → ℝ} (hf : Measurable f) (hf1 : ∀ y, |f y| ≤ 1) :
    Tendsto (fun N => searchRun N 0 ⊤ someZero { scheme := .residual, cov := .normal }
      { useEss := true, mhSteps := 20 } someRoot (-1) 1 (logTemper (-1) 1 fun y => y 0 ^ 2 + y 0 * y 1)
      1000000 1 (1 / 2) 0 12 fun p =>
      ENNReal.ofReal (((∑ i, f (p.x i)) / N -
        ∫ y, f y ∂MH.targetLaw volume (temper (-1) 1 (fun y => y 0 ^ 2 + y 0 * y 1) 1)) ^ 2)) atTop (𝓝 0) :=
  posterior_finishes (C := 2) (η := 0) (δ := 1 / 5) (fun _ => by norm_num) (by fun_prop) two_pos (fun y hy => by
      have h1 := hy.1 0
      have h2 := hy.1 1
      have h3 := hy.2 0
      have h4 := hy.2 1
      simp only [Pi.neg_apply, Pi.one_apply] at h1 h2 h3 h4
      rw [abs_le]
      constructor <;> nlinarith) one_pos (by norm_num) 20 someRoot_ok someZero_bracketed someZero_accurate
    (by norm_num) (by
      have := Real.add_one_lt_exp (show -(2 * (1 / 5 : ℝ)) ≠ 0 by norm_num)
      linarith) 12 (by norm_num) hf hf1

/-- One change of the scale per stage at most and six stages: no run fails or remains unfinished. -/
example {f : Pt 1 → ℝ} (hf : Measurable f) (hf1 : ∀ y, |f y| ≤ 1) :
    Tendsto (fun N => searchRun N ⊤ ⊤ someZero {} { useEss := true, maxIter := 1 } someRoot 0 1
      (logTemper 0 1 fun y => y 0) 4 1 (1 / 2) 0 6 fun p =>
      ENNReal.ofReal (((∑ i, f (p.x i)) / N -
        ∫ y, f y ∂MH.targetLaw volume (temper 0 1 (fun y => y 0) 1)) ^ 2)) atTop (𝓝 0) := by
  have hC : ∀ y ∈ Set.Icc (0 : Pt 1) 1, |y 0| ≤ 1 := fun y hy => by
    have h1 := hy.1 0
    have h3 := hy.2 0
    simp only [Pi.zero_apply, Pi.one_apply] at h1 h3
    rw [abs_of_nonneg h1]
    exact h3
  exact search_all (a := 1) (b := 4) (dens := fun T : Set.Icc (1 : ℝ) 4 => temper 0 1 (fun y => y 0) T)
    (target := 1) (htar := by norm_num) (fun _ => by simp)
    (temper_family (C := 1) (fun _ => by simp) (by fun_prop) hC one_pos)
    (fun T => temper_log 0 1 _ T) (by norm_num) (by norm_num) rfl (by simp) rfl (by norm_num) someRoot_ok someRoot_total
    someZero_bracketed someZero_answers
    (temper_ends (C := 1) (η := 0) (δ := 1 / 5) one_pos hC one_pos rfl someZero_accurate (by norm_num) (by
      have := Real.add_one_lt_exp (show -(2 * (1 / 5 : ℝ)) ≠ 0 by norm_num)
      linarith)) 6 (by norm_num [tempDist]) (by norm_num) (by norm_num) (by norm_num) _ hf hf1

end Verif.SMC
