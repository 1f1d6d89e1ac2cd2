import Verif.Mcmc.PropsSMCAdaptive
import Verif.Mcmc.PropsMHTune

/-!
# C264: a run whose proposals are adapted to the particles is consistent (whole runs)
-/

set_option autoImplicit false

open MeasureTheory ProbabilityTheory Filter Topology Matrix
open scoped ENNReal

namespace Verif.SMC

open Verif

variable {d : ℕ}

/-! ## The expectation over the random draws of the code -/

/-- The greatest number of moves in a stage. -/
def tapeLen (sc : SConfig) : ℕ := sc.maxIter + (sc.mhSteps - 1).toNat

/-- Value of `F` if the code does not fail, `e` if it does. -/
noncomputable def out {N : ℕ} (e : ℝ≥0∞) (F : Parts N d → ℝ≥0∞) : Py (Parts N d) → ℝ≥0∞
  | .ok p => F p
  | .error _ => e

open Classical in
/-- The random draws of a stage that starts (after reweighting) from `a`: `c` are the
particles chosen in the resampling, `t` the standard normal vectors and the uniform numbers of
the moves.  Normal draws with covariance `A` are `L z` with `root A = some L`; the generator
refuses `A` if there is no such root.  Covariances are those of the particles. -/
noncomputable def adaptEnv {N : ℕ} (a : Parts N d)
    (root : Matrix (Fin d) (Fin d) ℝ → Option (Matrix (Fin d) (Fin d) ℝ)) {J : ℕ}
    (c : Fin N → Fin N) (t : Fin J → Fin N → Pt d × ℝ) : Env N d where
  init _ _ _ := 0
  mult k M q := if k = a.clock ∧ M = N ∧ q = probs a.wtmp then .ok (tally c) else .error .valueError
  rvs k A := if h : a.clock < k ∧ k - a.clock - 1 < J then
      (match root A with
        | some L => .ok fun i => L *ᵥ (t ⟨k - a.clock - 1, h.2⟩ i).1
        | none => .error .valueError)
    else .error .valueError
  unif k i := if h : k - a.clock - 1 < J then (t ⟨k - a.clock - 1, h⟩ i).2 else 0
  cov m x := if m = .normal then
      (match MH.covRows (List.ofFn x) with
        | some C => .ok C
        | none => .error .valueError)
    else .error .valueError
  junkX _ _ _ := 0
  junkL _ _ := .nan

/-- Expectation of `F` after a call of `step`; failures count `e`. -/
noncomputable def adaptStage {N : ℕ} (e : ℝ≥0∞) (cfg : PConfig) (sc : SConfig)
    (root : Matrix (Fin d) (Fin d) ℝ → Option (Matrix (Fin d) (Fin d) ℝ)) (ell : ℝ → Pt d → Flt)
    (τ : ℝ) (p : Parts N d) (F : Parts N d → ℝ≥0∞) : ℝ≥0∞ :=
  match reweight true (setLogpdfParam (rowwise ell N) τ p) with
  | .error _ => e
  | .ok a => ∑ c : Fin N → Fin N, ENNReal.ofReal (∏ i, toReal (probs a.wtmp (c i))) *
      ∫⁻ t : Fin (tapeLen sc) → Fin N → Pt d × ℝ,
        out e F (step (adaptEnv a root c t) cfg sc (rowwise ell N) τ p)
        ∂(Measure.pi fun _ => Measure.pi fun _ => rawLaw d)

/-- Expectation of `F` after the calls of `step` for the listed temperatures. -/
noncomputable def adaptStages {N : ℕ} (e : ℝ≥0∞) (cfg : PConfig) (sc : SConfig)
    (root : Matrix (Fin d) (Fin d) ℝ → Option (Matrix (Fin d) (Fin d) ℝ)) (ell : ℝ → Pt d → Flt) :
    List ℝ → Parts N d → (Parts N d → ℝ≥0∞) → ℝ≥0∞
  | [], p, F => F p
  | τ :: τs, p, F => adaptStage e cfg sc root ell τ p fun p' => adaptStages e cfg sc root ell τs p' F

/-- Expectation of `F` after a run from fresh particles in the box. -/
noncomputable def adaptRun (N : ℕ) (e : ℝ≥0∞) (cfg : PConfig) (sc : SConfig)
    (root : Matrix (Fin d) (Fin d) ℝ → Option (Matrix (Fin d) (Fin d) ℝ)) (lo hi : Pt d)
    (ell : ℝ → Pt d → Flt) (τs : List ℝ) (F : Parts N d → ℝ≥0∞) : ℝ≥0∞ :=
  ∫⁻ U : Fin N → Pt d, (match newParts (initEnv U) cfg lo hi with
    | .ok p => adaptStages e cfg sc root ell τs p F
    | .error _ => e) ∂(Measure.pi fun _ => volume.restrict (Set.Icc 0 1))

/-! ## The resampling -/

/-- Expectation after the resampling, with the worst arrangement of the copies. -/
noncomputable def Rs (S : Set (Pt d)) (g g' : Pt d → ℝ) (V : Fun d) : Fun d := fun N x =>
  ∑ c : Fin N → Fin N, ENNReal.ofReal (∏ i, nw (fun j => 1 / (N : ℝ) * (g' (x j) / g (x j))) (c i)) *
    ⨆ x' : {x' : Fin N → Pt d // (∀ i, x' i ∈ S) ∧ ∀ h : Pt d → ℝ, ∑ i, h (x' i) = ∑ k, h (x (c k))},
      V N x'

theorem ofReal_list {N : ℕ} {g : Pt d → ℝ} (Phi : List (Pt d → ℝ)) (x : Fin N → Pt d) :
    ENNReal.ofReal (Phi.map fun φ => err g φ x).sum = (Phi.map fun φ => ENNReal.ofReal (err g φ x)).sum := by
  induction Phi with
  | nil => simp
  | cons φ L ih =>
    simp only [List.map_cons, List.sum_cons]
    rw [ENNReal.ofReal_add (err_nonneg _) (errs_nonneg _ _), ih]

theorem sum_list_swap {α β : Type} [Fintype α] (q : α → ℝ≥0∞) (F : α → β → ℝ≥0∞) (L : List β) :
    ∑ a, q a * (L.map (F a)).sum = (L.map fun b => ∑ a, q a * F a b).sum := by
  induction L with
  | nil => simp
  | cons b L ih => simp only [List.map_cons, List.sum_cons, mul_add, Finset.sum_add_distrib, ih]

theorem rs_ctl {S : Set (Pt d)} {g g' : Pt d → ℝ} (hg : Dens S g) (hg' : Dens S g') {M0 : ℝ}
    (hM0 : ∀ y ∈ S, g' y ≤ M0 * g y) {V : Fun d} (hV : Ctl S g' V) : Ctl S g (Rs S g g' V) := by
  set M := max M0 1 with hMdef
  have hM : 0 < M := lt_of_lt_of_le one_pos (le_max_right _ _)
  have hr : ∀ y ∈ S, g' y ≤ M * g y := fun y hy =>
    (hM0 y hy).trans (mul_le_mul_of_nonneg_right (le_max_left _ _) (hg.nonneg y))
  set kap := 2 * (M / ((∫ y, g' y) / ∫ y, g y)) ^ 2 with hkap
  have hkap0 : 0 ≤ kap := by positivity
  have hG := ratio_unit1 hg hg' hM hr
  -- the error of one average
  have hone : ∀ φ, Unit1 φ → Ctl S g fun N x => ∑ c : Fin N → Fin N,
      ENNReal.ofReal (∏ i, nw (fun j => 1 / (N : ℝ) * (g' (x j) / g (x j))) (c i)) *
        ENNReal.ofReal (err g' φ (x ∘ c)) := by
    intro φ hφ
    refine ctl_mono (W := fun N x => ENNReal.ofReal (1 / N) + ENNReal.ofReal kap *
      (ENNReal.ofReal (err g (fun y => ratio g g' M y * φ y) x) + ENNReal.ofReal (err g (ratio g g' M) x)))
      (ctl_add (ctl_inv zero_le_one) (ctl_mul (ctl_add (ctl_err (hG.mul hφ)) (ctl_err hG)) hkap0))
      fun N hN x hx => ?_
    have h := stage_mse (A := 0) (by omega : 0 < N) hg hg' hM hr PosSemidef.zero 0 hφ x hx
      (fun c => x ∘ c) (fun c h => rfl)
    simp only [walk, lintegral_const, measure_univ, mul_one, Nat.cast_zero, zero_add,
      Function.iterate_zero, id_eq] at h
    refine h.trans (le_of_eq ?_)
    rw [ENNReal.ofReal_add (by positivity) (mul_nonneg hkap0 (add_nonneg (err_nonneg _) (err_nonneg _))),
      ENNReal.ofReal_mul hkap0, ENNReal.ofReal_add (err_nonneg _) (err_nonneg _)]
  refine ctl_lim fun ε hε => ?_
  obtain ⟨Phi, B, hB, hu, hbd⟩ := hV ε hε
  refine ⟨fun N x => ENNReal.ofReal (B / N) + ENNReal.ofReal B * (Phi.map fun φ =>
    ∑ c : Fin N → Fin N, ENNReal.ofReal (∏ i, nw (fun j => 1 / (N : ℝ) * (g' (x j) / g (x j))) (c i)) *
        ENNReal.ofReal (err g' φ (x ∘ c))).sum,
    ctl_add (ctl_inv hB) (ctl_mul (ctl_list _ Phi fun φ h => hone φ (hu φ h)) hB), fun N hN x hx => ?_⟩
  have hN0 : 0 < N := by omega
  have hN' : (0 : ℝ) < N := by exact_mod_cast hN0
  set w : Fin N → ℝ := fun j => 1 / (N : ℝ) * (g' (x j) / g (x j)) with hw
  have hw0 : ∀ j, 0 < w j := fun j => by
    have h1 := (hg.pos _).2 (hx j)
    have h2 := (hg'.pos _).2 (hx j)
    simp only [hw]
    positivity
  have hsum : 0 < ∑ j, w j := Finset.sum_pos (fun j _ => hw0 j) ⟨⟨0, hN0⟩, Finset.mem_univ _⟩
  have hq0 : ∀ j, 0 ≤ nw w j := fun j => div_nonneg (hw0 j).le hsum.le
  have hpc : ∑ c : Fin N → Fin N, ENNReal.ofReal (∏ i, nw w (c i)) = 1 := by
    rw [← ENNReal.ofReal_sum_of_nonneg fun c _ => Finset.prod_nonneg fun i _ => hq0 _]
    have := expect_one N _ (nw_sum hsum)
    unfold expect at this
    simp only [mul_one] at this
    rw [this, ENNReal.ofReal_one]
  have inner : ∀ c : Fin N → Fin N,
      (⨆ x' : {x' : Fin N → Pt d // (∀ i, x' i ∈ S) ∧ ∀ h : Pt d → ℝ, ∑ i, h (x' i) = ∑ k, h (x (c k))},
        V N x') ≤ (ENNReal.ofReal ε + ENNReal.ofReal (B / N)) + ENNReal.ofReal B *
          (Phi.map fun φ => ENNReal.ofReal (err g' φ (x ∘ c))).sum := by
    intro c
    refine iSup_le fun x' => ?_
    refine (hbd N hN x' x'.2.1).trans (le_of_eq ?_)
    have e : ∀ φ : Pt d → ℝ, err g' φ (x' : Fin N → Pt d) = err g' φ (x ∘ c) := fun φ => by
      unfold err avg
      rw [x'.2.2 φ]
      rfl
    simp only [e]
    rw [ENNReal.ofReal_add (by positivity) (mul_nonneg hB (errs_nonneg _ _)),
      ENNReal.ofReal_add hε.le (by positivity), ENNReal.ofReal_mul hB, ofReal_list]
  calc Rs S g g' V N x ≤ ∑ c : Fin N → Fin N, ENNReal.ofReal (∏ i, nw w (c i)) *
        ((ENNReal.ofReal ε + ENNReal.ofReal (B / N)) + ENNReal.ofReal B *
          (Phi.map fun φ => ENNReal.ofReal (err g' φ (x ∘ c))).sum) :=
        Finset.sum_le_sum fun c _ => mul_le_mul_right (inner c) _
    _ = _ := by
        simp only [mul_add, Finset.sum_add_distrib, ← Finset.sum_mul, hpc, one_mul]
        rw [add_assoc]
        congr 2
        rw [← sum_list_swap, Finset.mul_sum]
        refine Finset.sum_congr rfl fun c _ => ?_
        ring

/-! ## The code of a stage -/

/-- The environment gives the draws `t` from clock `b` on, and the covariance of the particles. -/
structure Tape {N : ℕ} (root : Matrix (Fin d) (Fin d) ℝ → Option (Matrix (Fin d) (Fin d) ℝ))
    (env : Env N d) (b : ℕ) {J : ℕ} (t : Fin J → Fin N → Pt d × ℝ) : Prop where
  cov : ∀ x C, MH.covRows (List.ofFn x) = some C → env.cov .normal x = .ok C
  rvs : ∀ (j : Fin J) A L, root A = some L → env.rvs (b + j) A = .ok fun i => L *ᵥ (t j i).1
  fail : ∀ (j : Fin J) A, root A = none → ∃ e, env.rvs (b + j) A = .error e
  unif : ∀ (j : Fin J) i, env.unif (b + j) i = (t j i).2

theorem Tape.tail {N J b : ℕ} {root : Matrix (Fin d) (Fin d) ℝ → Option (Matrix (Fin d) (Fin d) ℝ)}
    {env : Env N d} {v : Fin N → Pt d × ℝ} {t : Fin J → Fin N → Pt d × ℝ}
    (h : Tape root env b (Fin.cons v t : Fin (J + 1) → Fin N → Pt d × ℝ)) : Tape root env (b + 1) t := by
  refine ⟨h.cov, fun j A L hL => ?_, fun j A hA => ?_, fun j i => ?_⟩
  · have := h.rvs j.succ A L hL
    rw [Fin.val_succ, ← add_assoc, add_right_comm] at this
    simpa using this
  · have := h.fail j.succ A hA
    rw [Fin.val_succ, ← add_assoc, add_right_comm] at this
    exact this
  · have := h.unif j.succ i
    rw [Fin.val_succ, ← add_assoc, add_right_comm] at this
    simpa using this

open Classical in
/-- The particles after a move with displacements `e` and uniform numbers `u`. -/
noncomputable def moveTo {N : ℕ} (l : Pt d → Flt) (p : Parts N d) (e : Fin N → Pt d) (u : Fin N → ℝ) :
    Parts N d :=
  { p with
    x := fun i => if (Flt.logU (u i)).lt ((l (p.x i + e i)).sub (p.logpx i)) then p.x i + e i else p.x i
    logpx := fun i => if (Flt.logU (u i)).lt ((l (p.x i + e i)).sub (p.logpx i)) then l (p.x i + e i)
      else p.logpx i
    clock := p.clock + 1 }

open Classical in
/-- Proportion of accepted displacements. -/
noncomputable def rateOf {N : ℕ} (l : Pt d → Flt) (p : Parts N d) (e : Fin N → Pt d) (u : Fin N → ℝ) : ℝ :=
  ((Finset.univ.filter fun i => (Flt.logU (u i)).lt ((l (p.x i + e i)).sub (p.logpx i))).card : ℝ) / N

section code

variable {S : Set (Pt d)} {g : Pt d → ℝ} (hg : Dens S g) {l : Pt d → Flt} (hl : LogOf l g)
  {root : Matrix (Fin d) (Fin d) ℝ → Option (Matrix (Fin d) (Fin d) ℝ)}
  {cfg : PConfig} (hcov : cfg.cov = .normal) {N : ℕ} (hN : 2 ≤ N)

include hcov hN in
theorem move_tape {env : Env N d} {b J : ℕ} {t : Fin (J + 1) → Fin N → Pt d × ℝ} (hT : Tape root env b t)
    {p : Parts N d} (hpd : p.logpdf = pointwise l) (hb : p.clock = b) :
    (∃ L, root (p.s • empCov p.x) = some L ∧ cfg.sLower ≤ p.s ∧ p.s ≤ cfg.sUpper ∧
      move env cfg p = .ok (moveTo l p (fun i => L *ᵥ (t 0 i).1) (fun i => (t 0 i).2),
        rateOf l p (fun i => L *ᵥ (t 0 i).1) fun i => (t 0 i).2)) ∨
    (∃ e, move env cfg p = .error e) ∧
      ¬ (cfg.sLower ≤ p.s ∧ p.s ≤ cfg.sUpper ∧ (root (p.s • empCov p.x)).isSome) := by
  classical
  have hbase : baseCov env cfg p.x = .ok (empCov p.x) := by
    unfold baseCov
    rw [hcov]
    exact hT.cov _ _ (covRows_emp hN p.x)
  have h0 : ((0 : Fin (J + 1)) : ℕ) = 0 := rfl
  by_cases hs : cfg.sUpper < p.s ∨ p.s < cfg.sLower
  · refine Or.inr ⟨⟨particlesSetError, ?_⟩, ?_⟩
    · unfold move perturb
      rw [if_pos hs]
      rfl
    · rintro ⟨h1, h2, -⟩
      rcases hs with h | h <;> linarith
  · have hs' := hs
    push Not at hs'
    cases hL : root (p.s • empCov p.x) with
    | none =>
      obtain ⟨e, he⟩ := hT.fail 0 _ hL
      rw [h0, add_zero, ← hb] at he
      refine Or.inr ⟨?_, by simp⟩
      unfold move perturb
      rw [if_neg hs, hbase]
      simp only [Bind.bind, Except.bind, Pure.pure, Except.pure, drawEps, he]
      split_ifs <;> exact ⟨_, rfl⟩
    | some L =>
      have he := hT.rvs 0 _ _ hL
      have hu := hT.unif 0
      rw [h0, add_zero, ← hb] at he hu
      refine Or.inl ⟨L, rfl, hs'.2, hs'.1, ?_⟩
      unfold move perturb
      rw [if_neg hs, hbase]
      simp only [Bind.bind, Except.bind, Pure.pure, Except.pure, drawEps, he, hpd, pointwise, accepts, hu,
        moveTo, rateOf]

include hg hl in
theorem moveTo_mobile {p : Parts N d} (hp : Mobile S l p.s p) {e : Fin N → Pt d} {u : Fin N → ℝ}
    (hu : ∀ i, 0 ≤ u i) :
    (moveTo l p e u).x = (fun i => moved g (p.x i, (e i, u i))) ∧ Mobile S l p.s (moveTo l p e u) := by
  classical
  have hacc : ∀ i, (Flt.logU (u i)).lt ((l (p.x i + e i)).sub (p.logpx i)) ↔
      u i * g (p.x i) < g (p.x i + e i) := by
    intro i
    rw [hp.logpx]
    exact accept_iff0 hl ((hg.pos _).2 (hp.mem i)) (hu i)
  have ex : (moveTo l p e u).x = fun i => moved g (p.x i, (e i, u i)) := by
    funext i
    simp only [moveTo, hacc, moved]
  refine ⟨ex, ⟨fun i => ?_, fun i => ?_, hp.w, rfl, hp.logpdf⟩⟩
  · rw [ex]
    exact moved_mem hg (hp.mem i) (hu i)
  · simp only [moveTo]
    split_ifs
    · rfl
    · exact hp.logpx i

/-- Failures count nothing, or the scale stays in its range for `k` more changes and the normal
generator accepts every covariance. -/
def Bud (e : ℝ≥0∞) (cfg : PConfig) (sc : SConfig)
    (root : Matrix (Fin d) (Fin d) ℝ → Option (Matrix (Fin d) (Fin d) ℝ)) (k : ℕ) (s : ℝ) : Prop :=
  e = 0 ∨ (1 ≤ sc.factor ∧ cfg.sLower * sc.factor ^ k ≤ s ∧ s * sc.factor ^ k ≤ cfg.sUpper ∧
    ∀ A : Matrix (Fin d) (Fin d) ℝ, A.PosSemidef → (root A).isSome)

variable {e : ℝ≥0∞} {sc : SConfig} (hlow : 0 < cfg.sLower)

include hlow in
theorem Bud.less {k : ℕ} {s : ℝ} (h : Bud e cfg sc root (k + 1) s) : Bud e cfg sc root k s := by
  refine h.imp id fun ⟨h1, h2, h3, h4⟩ => ?_
  have hf : 0 < sc.factor := by linarith
  have hs : 0 < s := lt_of_lt_of_le (by positivity) h2
  have hp : sc.factor ^ k ≤ sc.factor ^ (k + 1) := pow_le_pow_right₀ h1 (Nat.le_succ k)
  exact ⟨h1, (mul_le_mul_of_nonneg_left hp hlow.le).trans h2, (mul_le_mul_of_nonneg_left hp hs.le).trans h3, h4⟩

include hlow in
theorem Bud.down {k : ℕ} {s : ℝ} (h : Bud e cfg sc root (k + 1) s) : Bud e cfg sc root k (s / sc.factor) := by
  refine h.imp id fun ⟨h1, h2, h3, h4⟩ => ?_
  have hf : 0 < sc.factor := by linarith
  have hs : 0 < s := lt_of_lt_of_le (by positivity) h2
  refine ⟨h1, ?_, ?_, h4⟩
  · rw [le_div_iff₀ hf, mul_assoc, ← pow_succ]
    exact h2
  · refine le_trans ?_ h3
    have h5 : s / sc.factor ≤ s := div_le_self hs.le h1
    have hp : sc.factor ^ k ≤ sc.factor ^ (k + 1) := pow_le_pow_right₀ h1 (Nat.le_succ k)
    exact mul_le_mul h5 hp (by positivity) hs.le

include hlow in
theorem Bud.up {k : ℕ} {s : ℝ} (h : Bud e cfg sc root (k + 1) s) : Bud e cfg sc root k (s * sc.factor) := by
  refine h.imp id fun ⟨h1, h2, h3, h4⟩ => ?_
  have hf : 0 < sc.factor := by linarith
  have hs : 0 < s := lt_of_lt_of_le (by positivity) h2
  refine ⟨h1, ?_, ?_, h4⟩
  · have hp : sc.factor ^ k ≤ sc.factor ^ (k + 1) := pow_le_pow_right₀ h1 (Nat.le_succ k)
    exact ((mul_le_mul_of_nonneg_left hp hlow.le).trans h2).trans (le_mul_of_one_le_right hs.le h1)
  · rw [mul_assoc, ← pow_succ']
    exact h3

include hlow in
theorem Bud.zero {k : ℕ} {s : ℝ} (h : Bud e cfg sc root k s) : Bud e cfg sc root 0 s := by
  induction k with
  | zero => exact h
  | succ k ih => exact ih (h.less hlow)

include hN in
theorem empCov_psd (x : Fin N → Pt d) : (empCov x).PosSemidef := MH.covRows_psd (covRows_emp hN x)

include hlow hN in
/-- With enough room a failed move counts nothing. -/
theorem Bud.fail {k : ℕ} {s : ℝ} (h : Bud e cfg sc root k s) {x : Fin N → Pt d}
    (hf : ¬ (cfg.sLower ≤ s ∧ s ≤ cfg.sUpper ∧ (root (s • empCov x)).isSome)) : e = 0 := by
  rcases h.zero hlow with h | ⟨-, h2, h3, h4⟩
  · exact h
  · rw [pow_zero, mul_one] at h2 h3
    exact absurd ⟨h2, h3, h4 _ ((empCov_psd hN x).smul (hlow.le.trans h2))⟩ hf

theorem pi_succ_le {X : Type} [MeasurableSpace X] (mu : Measure X) [IsProbabilityMeasure mu] {J : ℕ}
    (H : (Fin (J + 1) → X) → ℝ≥0∞) :
    ∫⁻ t, H t ∂(Measure.pi fun _ => mu) ≤
      ∫⁻ v, ∫⁻ t : Fin J → X, H (Fin.cons v t) ∂(Measure.pi fun _ => mu) ∂mu := by
  have hmp := measurePreserving_piFinSuccAbove (fun _ : Fin (J + 1) => mu) 0
  have e := hmp.lintegral_comp_emb (MeasurableEquiv.measurableEmbedding _)
    (fun q : X × (Fin J → X) => H (Fin.cons q.1 q.2))
  have e2 : ∀ t : Fin (J + 1) → X, H (Fin.cons ((MeasurableEquiv.piFinSuccAbove (fun _ => X) 0) t).1
      ((MeasurableEquiv.piFinSuccAbove (fun _ => X) 0) t).2) = H t := by
    intro t
    congr 1
    exact Fin.cons_self_tail t
  simp only [e2] at e
  rw [e]
  exact lintegral_prod_le _

include hg hl hcov hN hlow in
/-- The expectation over the moves. -/
theorem moves_bound (k : ℕ) : ∀ (J : ℕ), k ≤ J → ∀ (E : (Fin J → Fin N → Pt d × ℝ) → Env N d) (b : ℕ),
    (∀ t, Tape root (E t) b t) → ∀ (p : Parts N d), Mobile S l p.s p → p.clock = b →
    Bud e cfg sc root 0 p.s → ∀ (G : Parts N d → ℝ≥0∞) (V : Fun d),
    (∀ p', Mobile S l p.s p' → G p' ≤ V N p'.x) →
    ∫⁻ t, out e G (moves (E t) cfg k p) ∂(Measure.pi fun _ => Measure.pi fun _ => rawLaw d) ≤
      ((Mv root g p.s)^[k] V) N p.x := by
  induction k with
  | zero =>
    intro J _ E b hE p hp hb hbud G V hG
    simp only [moves, out, lintegral_const, measure_univ, mul_one, Function.iterate_zero, id_eq]
    exact hG p hp
  | succ k ih =>
    intro J hJ E b hE p hp hb hbud G V hG
    obtain ⟨J, rfl⟩ : ∃ J', J = J' + 1 := ⟨J - 1, by omega⟩
    refine (pi_succ_le _ _).trans ?_
    rw [Function.iterate_succ_apply']
    have hstep : ∀ v : Fin N → Pt d × ℝ, (∀ i, 0 ≤ (v i).2) →
        ∫⁻ t : Fin J → Fin N → Pt d × ℝ, out e G (moves (E (Fin.cons v t)) cfg (k + 1) p)
          ∂(Measure.pi fun _ => Measure.pi fun _ => rawLaw d) ≤
        (if 0 < p.s then match root (p.s • empCov p.x) with
          | some L => ((Mv root g p.s)^[k] V) N fun i => moved g (p.x i, (L *ᵥ (v i).1, (v i).2))
          | none => 0 else 0) := by
      intro v hv
      by_cases hok : cfg.sLower ≤ p.s ∧ p.s ≤ cfg.sUpper ∧ (root (p.s • empCov p.x)).isSome
      · obtain ⟨h1, h2, h3⟩ := hok
        obtain ⟨L, hL⟩ := Option.isSome_iff_exists.1 h3
        rw [if_pos (lt_of_lt_of_le hlow h1), hL]
        dsimp only
        set p' := moveTo l p (fun i => L *ᵥ (v i).1) (fun i => (v i).2) with hp'
        obtain ⟨ex, hm⟩ := moveTo_mobile hg hl hp (e := fun i => L *ᵥ (v i).1) (u := fun i => (v i).2) hv
        rw [← ex]
        have hmv : ∀ t : Fin J → Fin N → Pt d × ℝ, moves (E (Fin.cons v t)) cfg (k + 1) p =
            moves (E (Fin.cons v t)) cfg k p' := by
          intro t
          rcases move_tape hcov hN (hE (Fin.cons v t)) hp.logpdf hb with ⟨L', hL', -, -, hmo⟩ | ⟨-, h⟩
          · rw [hL] at hL'
            obtain rfl := Option.some.inj hL'
            unfold moves
            rw [hmo]
            simp only [Bind.bind, Except.bind, Fin.cons_zero]
            cases k <;> rfl
          · exact absurd ⟨h1, h2, h3⟩ h
        simp only [hmv]
        exact ih J (by omega) (fun t => E (Fin.cons v t)) (b + 1) (fun t => (hE _).tail) p' hm
          (by rw [hp', moveTo, hb]) hbud G V hG
      · have he := hbud.fail hN hlow hok
        have hz : ∀ t : Fin J → Fin N → Pt d × ℝ, out e G (moves (E (Fin.cons v t)) cfg (k + 1) p) = 0 := by
          intro t
          rcases move_tape hcov hN (hE (Fin.cons v t)) hp.logpdf hb with ⟨L', hL', h1, h2, -⟩ | ⟨⟨e', h⟩, -⟩
          · exact absurd ⟨h1, h2, by rw [hL']; rfl⟩ hok
          · unfold moves
            rw [h]
            exact he
        simp only [hz, lintegral_zero]
        exact zero_le
    refine (lintegral_mono_ae (raw_nonneg.mono hstep)).trans ?_
    rw [Mv]
    split_ifs with hs
    · cases hL : root (p.s • empCov p.x) with
      | some L => exact le_rfl
      | none => simp
    · simp

/-- Bound of the expectation over the moves with control of the acceptance rate followed by `m`
moves. -/
noncomputable def CM (root : Matrix (Fin d) (Fin d) ℝ → Option (Matrix (Fin d) (Fin d) ℝ))
    (g : Pt d → ℝ) (f : ℝ) (m : ℕ) (V : ℝ → Fun d) : ℕ → ℝ → Fun d
  | 0, s => (Mv root g s)^[m] (V s)
  | k + 1, s => Mv root g s fun N x => (Mv root g s)^[m] (V s) N x +
      (CM root g f m V k (s / f) N x + CM root g f m V k (s * f) N x)

include hg hl hcov hN hlow in
theorem ctrl_bound (m q : ℕ) (k : ℕ) : ∀ (J : ℕ), k + m ≤ J →
    ∀ (E : (Fin J → Fin N → Pt d × ℝ) → Env N d) (b : ℕ),
    (∀ t, Tape root (E t) b t) → ∀ (p : Parts N d), Mobile S l p.s p → p.clock = b →
    Bud e cfg sc root (q + k) p.s → ∀ (G : Parts N d → ℝ≥0∞) (V : ℝ → Fun d),
    (∀ p', Mobile S l p'.s p' → Bud e cfg sc root q p'.s → G p' ≤ V p'.s N p'.x) →
    ∫⁻ t, out e G (controlledMove (E t) cfg sc k p >>= moves (E t) cfg m)
      ∂(Measure.pi fun _ => Measure.pi fun _ => rawLaw d) ≤ CM root g sc.factor m V k p.s N p.x := by
  classical
  induction k with
  | zero =>
    intro J hJ E b hE p hp hb hbud G V hG
    have e1 : ∀ t, (controlledMove (E t) cfg sc 0 p >>= moves (E t) cfg m) = moves (E t) cfg m p :=
      fun t => rfl
    simp only [e1]
    refine moves_bound hg hl hcov hN hlow m J (by omega) E b hE p hp hb (hbud.zero hlow) G (V p.s) ?_
    intro p' hp'
    have es : p'.s = p.s := hp'.s
    have := hG p' (by rw [es]; exact hp') (by rw [es]; exact hbud)
    rwa [es] at this
  | succ k ih =>
    intro J hJ E b hE p hp hb hbud G V hG
    obtain ⟨J, rfl⟩ : ∃ J', J = J' + 1 := ⟨J - 1, by omega⟩
    have hbud' : Bud e cfg sc root (q + k + 1) p.s := hbud
    have hbq : Bud e cfg sc root q p.s := by
      have h := hbud'.less hlow
      clear ih hbud hbud' hJ
      induction k with
      | zero => exact h
      | succ k ih => exact ih (h.less hlow)
    refine (pi_succ_le _ _).trans ?_
    have hstep : ∀ v : Fin N → Pt d × ℝ, (∀ i, 0 ≤ (v i).2) →
        ∫⁻ t : Fin J → Fin N → Pt d × ℝ, out e G (controlledMove (E (Fin.cons v t)) cfg sc (k + 1) p >>=
            moves (E (Fin.cons v t)) cfg m)
          ∂(Measure.pi fun _ => Measure.pi fun _ => rawLaw d) ≤
        (if 0 < p.s then match root (p.s • empCov p.x) with
          | some L => (fun N x => (Mv root g p.s)^[m] (V p.s) N x +
              (CM root g sc.factor m V k (p.s / sc.factor) N x +
                CM root g sc.factor m V k (p.s * sc.factor) N x)) N
              fun i => moved g (p.x i, (L *ᵥ (v i).1, (v i).2))
          | none => 0 else 0) := by
      intro v hv
      by_cases hok : cfg.sLower ≤ p.s ∧ p.s ≤ cfg.sUpper ∧ (root (p.s • empCov p.x)).isSome
      · obtain ⟨h1, h2, h3⟩ := hok
        obtain ⟨L, hL⟩ := Option.isSome_iff_exists.1 h3
        rw [if_pos (lt_of_lt_of_le hlow h1), hL]
        dsimp only
        set p' := moveTo l p (fun i => L *ᵥ (v i).1) (fun i => (v i).2) with hp'
        set r := rateOf l p (fun i => L *ᵥ (v i).1) (fun i => (v i).2) with hr
        obtain ⟨ex, hm⟩ := moveTo_mobile hg hl hp (e := fun i => L *ᵥ (v i).1) (u := fun i => (v i).2) hv
        rw [← ex]
        have hclk : p'.clock = b + 1 := by rw [hp', moveTo, hb]
        have hps : p'.s = p.s := rfl
        have hmv : ∀ t : Fin J → Fin N → Pt d × ℝ, move (E (Fin.cons v t)) cfg p = .ok (p', r) := by
          intro t
          rcases move_tape hcov hN (hE (Fin.cons v t)) hp.logpdf hb with ⟨L', hL', -, -, hmo⟩ | ⟨-, h⟩
          · rw [hL] at hL'
            obtain rfl := Option.some.inj hL'
            rw [hmo]
            simp only [Fin.cons_zero]
            rfl
          · exact absurd ⟨h1, h2, h3⟩ h
        simp only [controlledMove, hmv]
        by_cases hr1 : r < sc.accMin
        · simp only [if_pos hr1]
          refine le_trans ?_ (le_add_left (le_add_right le_rfl))
          exact ih J (by omega) (fun t => E (Fin.cons v t)) (b + 1) (fun t => (hE _).tail)
            { p' with s := p'.s / sc.factor } ⟨hm.mem, hm.logpx, hm.w, rfl, hm.logpdf⟩ hclk
            (by rw [hps]; exact hbud'.down hlow) G V hG
        · simp only [if_neg hr1]
          by_cases hr2 : sc.accMax < r
          · simp only [if_pos hr2]
            refine le_trans ?_ (le_add_left (le_add_left le_rfl))
            exact ih J (by omega) (fun t => E (Fin.cons v t)) (b + 1) (fun t => (hE _).tail)
              { p' with s := p'.s * sc.factor } ⟨hm.mem, hm.logpx, hm.w, rfl, hm.logpdf⟩ hclk
              (by rw [hps]; exact hbud'.up hlow) G V hG
          · simp only [if_neg hr2]
            refine le_trans ?_ (le_add_right le_rfl)
            have e1 : ∀ t : Fin J → Fin N → Pt d × ℝ, ((Except.ok p' : Py (Parts N d)) >>=
                moves (E (Fin.cons v t)) cfg m) = moves (E (Fin.cons v t)) cfg m p' := fun t => rfl
            simp only [e1]
            refine moves_bound hg hl hcov hN hlow m J (by omega) (fun t => E (Fin.cons v t)) (b + 1)
              (fun t => (hE _).tail) p' hm hclk (hbud.zero hlow) G (V p.s) ?_
            intro p'' hp''
            have es : p''.s = p.s := hp''.s
            have := hG p'' (by rw [es]; exact hp'') (by rw [es]; exact hbq)
            rwa [es] at this
      · have he := hbud.fail hN hlow hok
        have hz : ∀ t : Fin J → Fin N → Pt d × ℝ, out e G (controlledMove (E (Fin.cons v t)) cfg sc (k + 1) p >>=
            moves (E (Fin.cons v t)) cfg m) = 0 := by
          intro t
          rcases move_tape hcov hN (hE (Fin.cons v t)) hp.logpdf hb with ⟨L', hL', h1, h2, -⟩ | ⟨⟨e', h⟩, -⟩
          · exact absurd ⟨h1, h2, by rw [hL']; rfl⟩ hok
          · simp only [controlledMove]
            rw [h]
            exact he
        simp only [hz, lintegral_zero]
        exact zero_le
    refine (lintegral_mono_ae (raw_nonneg.mono hstep)).trans ?_
    rw [CM, Mv]
    split_ifs with hs
    · cases hL : root (p.s • empCov p.x) with
      | some L => exact le_rfl
      | none => simp
    · simp

end code

/-! ## Whole runs -/

section run

variable {S : Set (Pt d)} (hS : MeasurableSet S) {R : ℝ} (hR : 0 < R) (hb : ∀ y ∈ S, ∀ a, |y a| ≤ R)
  {root : Matrix (Fin d) (Fin d) ℝ → Option (Matrix (Fin d) (Fin d) ℝ)}
  (hroot : ∀ A L, root A = some L → L * Lᵀ = A)

include hS hR hb hroot in
theorem iterate_ctl {g : Pt d → ℝ} (hg : Dens S g) {V : Fun d} (hV : Ctl S g V) (s : ℝ) (m : ℕ) :
    Ctl S g ((Mv root g s)^[m] V) := by
  induction m with
  | zero => exact hV
  | succ m ih =>
    rw [Function.iterate_succ_apply']
    exact mv_ctl hS hR hb hg hroot ih s

include hS hR hb hroot in
theorem cm_ctl {g : Pt d → ℝ} (hg : Dens S g) {V : ℝ → Fun d} (hV : ∀ s, Ctl S g (V s)) (f : ℝ) (m k : ℕ)
    (s : ℝ) : Ctl S g (CM root g f m V k s) := by
  induction k generalizing s with
  | zero => exact iterate_ctl hS hR hb hroot hg (hV s) s m
  | succ k ih =>
    exact mv_ctl hS hR hb hg hroot (ctl_add (iterate_ctl hS hR hb hroot hg (hV s) s m)
      (ctl_add (ih _) (ih _))) s

theorem adaptEnv_tape {N : ℕ} (a : Parts N d) {J : ℕ} (c : Fin N → Fin N) (t : Fin J → Fin N → Pt d × ℝ) :
    Tape root (adaptEnv a root c t) (a.clock + 1) t := by
  have e1 : ∀ j : Fin J, a.clock + 1 + (j : ℕ) - a.clock - 1 = j := fun j => by omega
  have e2 : ∀ j : Fin J, a.clock < a.clock + 1 + (j : ℕ) := fun j => by omega
  refine ⟨fun x C h => ?_, fun j A L h => ?_, fun j A h => ?_, fun j i => ?_⟩
  · simp [adaptEnv, h]
  · simp only [adaptEnv, e1, e2, j.2, true_and, dif_pos, h]
  · simp only [adaptEnv, e1, e2, j.2, true_and, dif_pos, h]
    exact ⟨_, rfl⟩
  · simp only [adaptEnv, e1, j.2, dif_pos]

variable {cfg : PConfig} (hcov : cfg.cov = .normal) (hsch : cfg.scheme = .multinomial)
  (hlow : 0 < cfg.sLower) {sc : SConfig} {e : ℝ≥0∞}

include hcov hsch hlow in
/-- A call of `step`. -/
theorem stage_bound {g g' : Pt d → ℝ} (hg : Dens S g) (hg' : Dens S g') {ell : ℝ → Pt d → Flt} {τ : ℝ}
    (hl : LogOf (ell τ) g') {N : ℕ} (hN : 2 ≤ N) {p : Parts N d} (hp : Ready S g p.s p) {q : ℕ}
    (hbud : Bud e cfg sc root (q + sc.maxIter) p.s) {G : Parts N d → ℝ≥0∞} {V : ℝ → Fun d}
    (hG : ∀ p', Ready S g' p'.s p' → Bud e cfg sc root q p'.s → G p' ≤ V p'.s N p'.x) :
    adaptStage e cfg sc root ell τ p G ≤
      Rs S g g' (CM root g' sc.factor (sc.mhSteps - 1).toNat V sc.maxIter p.s) N p.x := by
  obtain ⟨a, ha, hax, hal, had, has, haw⟩ := reweight_ready hg hg' hl hp
  unfold adaptStage Rs
  rw [ha]
  dsimp only
  have hN0 : 0 < N := by omega
  have hN' : (0 : ℝ) < N := by exact_mod_cast hN0
  set w : Fin N → ℝ := fun j => 1 / (N : ℝ) * (g' (p.x j) / g (p.x j)) with hw
  have hw0 : ∀ j, 0 < w j := fun j => by
    have h1 := (hg.pos _).2 (hp.mem j)
    have h2 := (hg'.pos _).2 (hp.mem j)
    simp only [hw]
    positivity
  have hsum : 0 < ∑ j, w j := Finset.sum_pos (fun j _ => hw0 j) ⟨⟨0, hN0⟩, Finset.mem_univ _⟩
  have hpr : ∀ j, toReal (probs a.wtmp j) = nw w j := by
    intro j
    rw [haw, probs_fin w hsum.ne']
    simp [toReal, Flt.fin, nw]
  simp only [hpr]
  refine Finset.sum_le_sum fun c _ => mul_le_mul_right ?_ _
  obtain ⟨b0, hb0, hcop, hwt, -, hpd, hs⟩ := copyParts_ok (adaptEnv a root c (J := 0) Fin.elim0) (tally c) (tally_total c) a
  have hclock : b0.clock = a.clock + 1 := by
    unfold copyParts at hb0
    cases h : copyLoop a.x a.logpx (tally c) ⟨0, (adaptEnv a root c (J := 0) Fin.elim0).junkX a.clock,
      (adaptEnv a root c (J := 0) Fin.elim0).junkL a.clock⟩ with
    | error e => rw [h] at hb0; simp [Bind.bind, Except.bind] at hb0
    | ok q =>
      rw [h] at hb0
      simp only [Bind.bind, Except.bind, Pure.pure, Except.pure, Except.ok.injEq] at hb0
      rw [← hb0]
  have hbs : b0.s = p.s := hs.trans has
  have hmob : Mobile S (ell τ) b0.s b0 := by
    obtain ⟨σ, h2, -⟩ := hcop
    refine ⟨fun i => ?_, fun i => ?_, hwt, rfl, hpd.trans had⟩
    · rw [(h2 i).1, hax]; exact hp.mem _
    · rw [(h2 i).2, (h2 i).1, hal, hax]
  have hres : ∀ t : Fin (tapeLen sc) → Fin N → Pt d × ℝ, resample (adaptEnv a root c t) cfg a = .ok b0 := by
    intro t
    have hb : copyParts (adaptEnv a root c t) (tally c) a = .ok b0 := hb0
    unfold resample
    rw [hsch]
    simp only [multinomialCounts, adaptEnv, true_and, if_true, Bind.bind, Except.bind]
    exact hb
  have hstep : ∀ t : Fin (tapeLen sc) → Fin N → Pt d × ℝ,
      step (adaptEnv a root c t) cfg sc (rowwise ell N) τ p =
        (controlledMove (adaptEnv a root c t) cfg sc sc.maxIter b0 >>=
          moves (adaptEnv a root c t) cfg (sc.mhSteps - 1).toNat) := by
    intro t
    unfold step
    rw [ha]
    simp only [Bind.bind, Except.bind, mutate]
    rw [hres t]
  simp only [hstep]
  have hx' : (∀ i, b0.x i ∈ S) ∧ ∀ h : Pt d → ℝ, ∑ i, h (b0.x i) = ∑ k, h (p.x (c k)) :=
    ⟨hmob.mem, fun h => by rw [copies_sum hcop h, tally_sum c fun j => h (a.x j), hax]⟩
  refine le_trans ?_ (le_iSup (fun x' : {x' : Fin N → Pt d // (∀ i, x' i ∈ S) ∧
    ∀ h : Pt d → ℝ, ∑ i, h (x' i) = ∑ k, h (p.x (c k))} =>
      CM root g' sc.factor (sc.mhSteps - 1).toNat V sc.maxIter p.s N x') ⟨b0.x, hx'⟩)
  dsimp only
  rw [← hbs]
  exact ctrl_bound hg' hl hcov hN hlow (sc.mhSteps - 1).toNat q sc.maxIter (tapeLen sc) le_rfl
    (fun t => adaptEnv a root c t) (a.clock + 1) (fun t => adaptEnv_tape a c t) b0 hmob hclock
    (by rw [hbs]; exact hbud) G V (fun p' hp' hq => hG p' (hp'.ready hg' hl) hq)

/-- The weights at each stage are bounded. -/
def Ratios (S : Set (Pt d)) (dens : ℝ → Pt d → ℝ) : (Pt d → ℝ) → List ℝ → Prop
  | _, [] => True
  | g, τ :: τs => (∃ M, ∀ y ∈ S, dens τ y ≤ M * g y) ∧ Ratios S dens (dens τ) τs

/-- The density of the last stage. -/
def endDens (dens : ℝ → Pt d → ℝ) : (Pt d → ℝ) → List ℝ → Pt d → ℝ
  | g, [] => g
  | _, τ :: τs => endDens dens (dens τ) τs

include hS hR hb hroot hcov hsch hlow in
theorem adapt_bound {dens : ℝ → Pt d → ℝ} {ell : ℝ → Pt d → Flt} (τs : List ℝ)
    (hd : ∀ τ ∈ τs, Dens S (dens τ) ∧ LogOf (ell τ) (dens τ)) :
    ∀ g : Pt d → ℝ, Dens S g → Ratios S dens g τs → ∀ V0 : Fun d, Ctl S (endDens dens g τs) V0 →
    ∃ V : ℝ → Fun d, (∀ s, Ctl S g (V s)) ∧ ∀ (N : ℕ), 2 ≤ N → ∀ F : Parts N d → ℝ≥0∞,
      (∀ p, F p ≤ V0 N p.x) → ∀ p : Parts N d, Ready S g p.s p →
      Bud e cfg sc root (sc.maxIter * τs.length) p.s →
        adaptStages e cfg sc root ell τs p F ≤ V p.s N p.x := by
  induction τs with
  | nil =>
    intro g hg _ V0 hV0
    exact ⟨fun _ => V0, fun _ => hV0, fun N hN F hF p _ _ => hF p⟩
  | cons τ τs ih =>
    intro g hg hra V0 hV0
    obtain ⟨⟨M, hM⟩, hra'⟩ := hra
    obtain ⟨hg', hl⟩ := hd τ (by simp)
    obtain ⟨V, hV, hbd⟩ := ih (fun τ' h => hd τ' (by simp [h])) (dens τ) hg' hra' V0 hV0
    refine ⟨fun s => Rs S g (dens τ) (CM root (dens τ) sc.factor (sc.mhSteps - 1).toNat V sc.maxIter s),
      fun s => rs_ctl hg hg' hM (cm_ctl hS hR hb hroot hg' hV _ _ _ _), fun N hN F hF p hp hbud => ?_⟩
    simp only [adaptStages]
    refine stage_bound hcov hsch hlow hg hg' hl hN hp (q := sc.maxIter * τs.length) ?_
      (fun p' hp' hq => hbd N hN F hF p' hp' hq)
    rwa [List.length_cons, Nat.mul_succ] at hbud

end run

theorem box_bound {lo hi : Pt d} : ∀ y ∈ Set.Icc lo hi, ∀ a, |y a| ≤ 1 + ∑ j, (|lo j| + |hi j|) := by
  intro y hy a
  have h1 : |lo a| + |hi a| ≤ ∑ j, (|lo j| + |hi j|) :=
    Finset.single_le_sum (f := fun j => |lo j| + |hi j|) (fun _ _ => by positivity) (Finset.mem_univ a)
  have h2 := hy.1 a
  have h3 := hy.2 a
  have h4 := neg_abs_le (lo a)
  have h5 := le_abs_self (hi a)
  have h6 := abs_nonneg (lo a)
  have h7 := abs_nonneg (hi a)
  rw [abs_le]
  constructor <;> linarith

/-- Uniform numbers give points of the box. -/
theorem fresh_mem {lo hi : Pt d} (hbox : ∀ j, lo j < hi j) (N : ℕ) :
    ∀ᵐ U : Fin N → Pt d ∂(Measure.pi fun _ => volume.restrict (Set.Icc 0 1)),
      ∀ i, toBox lo hi (U i) ∈ Set.Icc lo hi := by
  have hprob : IsProbabilityMeasure (volume.restrict (Set.Icc (0 : Pt d) 1)) := ⟨by
    rw [Measure.restrict_apply MeasurableSet.univ, Set.univ_inter, Real.volume_Icc_pi]
    simp⟩
  refine ae_all_iff.2 fun i => ?_
  have : ∀ᵐ u ∂(volume.restrict (Set.Icc (0 : Pt d) 1)), u ∈ Set.Icc (0 : Pt d) 1 :=
    ae_restrict_mem measurableSet_Icc
  filter_upwards [(Measure.quasiMeasurePreserving_eval
    (fun _ : Fin N => volume.restrict (Set.Icc (0 : Pt d) 1)) i).ae this] with U hU
  simp only [Function.eval, Set.mem_Icc, Pi.le_def, toBox, Pi.zero_apply, Pi.one_apply] at hU ⊢
  refine ⟨fun j => ?_, fun j => ?_⟩
  · have h2 := hU.1 j
    have h3 := sub_pos.2 (hbox j)
    nlinarith
  · have h2 := hU.2 j
    have h3 := sub_pos.2 (hbox j)
    nlinarith

/-- The initialisation of the particles with the uniform numbers `U`. -/
theorem fresh_init {N : ℕ} {lo hi : Pt d} (hbox : ∀ j, lo j < hi j) {cfg : PConfig}
    (hunif : cfg.randunif = true) (U : Fin N → Pt d) (p : Parts N d) :
    particlesInit (initEnv U) cfg lo hi p = .ok
      { p with x := fun i => toBox lo hi (U i), logpx := fun _ => .fin 0, wtmp := uniformW N,
               w := uniformW N, clock := p.clock + 1 } := by
  unfold particlesInit scaleBox
  rw [if_pos hbox]
  simp only [hunif, initEnv, Bool.not_true, Bool.false_eq_true, if_false, Bind.bind,
    Except.bind, Pure.pure, Except.pure]
  rfl

/-- The expectation of what is small for uniform points vanishes. -/
theorem fresh_tendsto {lo hi : Pt d} (hbox : ∀ j, lo j < hi j) {V : Fun d}
    (hV : Ctl (Set.Icc lo hi) (flat lo hi) V) :
    Tendsto (fun N => ∫⁻ U : Fin N → Pt d, V N (fun i => toBox lo hi (U i))
      ∂(Measure.pi fun _ => volume.restrict (Set.Icc 0 1))) atTop (𝓝 0) := by
  rw [ENNReal.tendsto_nhds_zero]
  intro ε0 hε0
  obtain ⟨ε, hε, hεε⟩ : ∃ ε : ℝ, 0 < ε ∧ ENNReal.ofReal (2 * ε) ≤ ε0 := by
    rcases eq_or_ne ε0 ⊤ with h | h
    · exact ⟨1, one_pos, by rw [h]; exact le_top⟩
    · refine ⟨ε0.toReal / 2, half_pos (ENNReal.toReal_pos hε0.ne' h), ?_⟩
      rw [mul_div_cancel₀ _ two_ne_zero, ENNReal.ofReal_toReal h]
  obtain ⟨Phi, B, hB, hu, hbv⟩ := hV ε hε
  have hlim : Tendsto (fun N : ℕ => (B * (1 + Phi.length)) / (N : ℝ)) atTop (𝓝 0) :=
    tendsto_const_div_atTop_nhds_zero_nat _
  filter_upwards [(tendsto_order.1 hlim).2 ε hε, eventually_ge_atTop 2] with N hNε hN
  refine le_trans ?_ hεε
  have hN0 : 0 < N := by omega
  have hN' : (0 : ℝ) < N := by exact_mod_cast hN0
  set mu : Measure (Pt d) := volume.restrict (Set.Icc 0 1) with hmu
  have hprob : IsProbabilityMeasure mu := ⟨by
    rw [hmu, Measure.restrict_apply MeasurableSet.univ, Set.univ_inter,
      Real.volume_Icc_pi]
    simp⟩
  have hmeas : Measurable (toBox lo hi) := by
    unfold toBox
    fun_prop
  have hme : ∀ φ ∈ Phi, Measurable fun U : Fin N → Pt d =>
      ENNReal.ofReal (err (flat lo hi) φ fun i => toBox lo hi (U i)) := fun φ hφ => by
    refine ENNReal.measurable_ofReal.comp ((err_measurable (hu φ hφ).meas).comp
      (measurable_pi_lambda _ fun i => hmeas.comp (measurable_pi_apply i)))
  have hone : ∀ φ ∈ Phi, ∫⁻ U : Fin N → Pt d, ENNReal.ofReal (err (flat lo hi) φ fun i => toBox lo hi (U i))
      ∂(Measure.pi fun _ => mu) ≤ ENNReal.ofReal (1 / N) := by
    intro φ hφ
    have hint : ∫ u, φ (toBox lo hi u) ∂mu = ∫ y, φ y ∂MH.targetLaw volume (flat lo hi) := by
      rw [← flat_target, ← toBox_map hbox,
        integral_map hmeas.aemeasurable (hu φ hφ).meas.aestronglyMeasurable]
    have := pi_mse hN0 mu (fun _ u => φ (toBox lo hi u)) (fun i => (hu φ hφ).meas.comp hmeas)
      (fun i y => (hu φ hφ).bound _) (∫ y, φ y ∂MH.targetLaw volume (flat lo hi))
    refine this.trans (le_of_eq ?_)
    rw [hint, Finset.sum_const, Finset.card_univ, Fintype.card_fin, nsmul_eq_mul,
      mul_div_cancel_left₀ _ hN'.ne', sub_self]
    simp
  have hlist : ∀ L : List (Pt d → ℝ), (∀ φ ∈ L, φ ∈ Phi) →
      (Measurable fun U : Fin N → Pt d => (L.map fun φ =>
        ENNReal.ofReal (err (flat lo hi) φ fun i => toBox lo hi (U i))).sum) ∧
      ∫⁻ U : Fin N → Pt d, (L.map fun φ =>
        ENNReal.ofReal (err (flat lo hi) φ fun i => toBox lo hi (U i))).sum ∂(Measure.pi fun _ => mu) ≤
        ENNReal.ofReal (L.length * (1 / N)) := by
    intro L hL
    induction L with
    | nil => simp
    | cons φ L ih =>
      obtain ⟨i1, i2⟩ := ih fun ψ hψ => hL ψ (by simp [hψ])
      have h1 := hme φ (hL φ (by simp))
      simp only [List.map_cons, List.sum_cons, List.length_cons]
      refine ⟨h1.add i1, ?_⟩
      rw [lintegral_add_left h1]
      refine (add_le_add (hone φ (hL φ (by simp))) i2).trans (le_of_eq ?_)
      rw [← ENNReal.ofReal_add (by positivity) (by positivity)]
      congr 1
      push_cast
      ring
  obtain ⟨lm, li⟩ := hlist Phi fun _ h => h
  calc _ ≤ ∫⁻ U : Fin N → Pt d, (ENNReal.ofReal (ε + B / N) + ENNReal.ofReal B * (Phi.map fun φ =>
        ENNReal.ofReal (err (flat lo hi) φ fun i => toBox lo hi (U i))).sum)
        ∂(Measure.pi fun _ => mu) := by
        refine lintegral_mono_ae ?_
        filter_upwards [fresh_mem hbox N] with U hmem
        refine (hbv N hN _ hmem).trans (le_of_eq ?_)
        rw [ENNReal.ofReal_add (by positivity) (mul_nonneg hB (errs_nonneg _ _)), ENNReal.ofReal_mul hB,
          ofReal_list]
    _ = ENNReal.ofReal (ε + B / N) + ENNReal.ofReal B * ∫⁻ U : Fin N → Pt d, (Phi.map fun φ =>
        ENNReal.ofReal (err (flat lo hi) φ fun i => toBox lo hi (U i))).sum ∂(Measure.pi fun _ => mu) := by
        rw [lintegral_add_left measurable_const, lintegral_const, measure_univ, mul_one,
          lintegral_const_mul _ lm]
    _ ≤ ENNReal.ofReal (ε + B / N) + ENNReal.ofReal B * ENNReal.ofReal (Phi.length * (1 / N)) :=
        add_le_add le_rfl (mul_le_mul_right li _)
    _ = ENNReal.ofReal (ε + (B * (1 + Phi.length)) / N) := by
        rw [← ENNReal.ofReal_mul hB, ← ENNReal.ofReal_add (by positivity) (by positivity)]
        congr 1
        ring
    _ ≤ _ := ENNReal.ofReal_le_ofReal (by linarith)

/-- The general form: the expectation of what is small vanishes. -/
theorem adapt_tendsto {lo hi : Pt d} (hbox : ∀ j, lo j < hi j) {dens : ℝ → Pt d → ℝ}
    {ell : ℝ → Pt d → Flt} {cfg : PConfig} (hunif : cfg.randunif = true)
    (hsch : cfg.scheme = .multinomial) (hcov : cfg.cov = .normal) (hlow : 0 < cfg.sLower)
    {sc : SConfig} {root : Matrix (Fin d) (Fin d) ℝ → Option (Matrix (Fin d) (Fin d) ℝ)}
    (hroot : ∀ A L, root A = some L → L * Lᵀ = A) {e : ℝ≥0∞} (τs : List ℝ)
    (hbud : Bud e cfg sc root (sc.maxIter * τs.length) cfg.s0)
    (hd : ∀ τ ∈ τs, Dens (Set.Icc lo hi) (dens τ) ∧ LogOf (ell τ) (dens τ))
    (hra : Ratios (Set.Icc lo hi) dens (flat lo hi) τs) {V0 : Fun d}
    (hV0 : Ctl (Set.Icc lo hi) (endDens dens (flat lo hi) τs) V0)
    {F : (N : ℕ) → Parts N d → ℝ≥0∞} (hF : ∀ N p, F N p ≤ V0 N p.x) :
    Tendsto (fun N => adaptRun N e cfg sc root lo hi ell τs (F N)) atTop (𝓝 0) := by
  have hR : 0 < 1 + ∑ j, (|lo j| + |hi j|) := by positivity
  obtain ⟨V, hV, hbd⟩ := adapt_bound (e := e) (sc := sc) measurableSet_Icc hR box_bound hroot hcov hsch hlow τs hd
    (flat lo hi) (flat_dens hbox) hra V0 hV0
  refine tendsto_of_tendsto_of_tendsto_of_le_of_le' tendsto_const_nhds (fresh_tendsto hbox (hV cfg.s0))
    (Eventually.of_forall fun _ => zero_le) ?_
  filter_upwards [eventually_ge_atTop 2] with N hN
  unfold adaptRun
  refine lintegral_mono_ae ?_
  filter_upwards [fresh_mem hbox N] with U hmem
  unfold newParts
  rw [fresh_init hbox hunif]
  exact hbd N hN (F N) (hF N) _ ⟨hmem, fun i => by simp [flat, hmem i], rfl, rfl⟩ hbud

/-- **C264** A run of SMC with its usual adaptation is consistent.  The proposals have the
covariance of the current particles, the scale is changed until the acceptance rate lies in
its band, the resampling is multinomial, and the temperatures are given.  For densities positive
on the box with bounded ratios, the mean squared difference between the average of a bounded
function over the final particles and its expectation under the last density tends to 0 as
the number of particles grows.  Runs that end in an exception do not count. -/
theorem adaptive_consistent {lo hi : Pt d} (hbox : ∀ j, lo j < hi j) {dens : ℝ → Pt d → ℝ}
    {ell : ℝ → Pt d → Flt} {cfg : PConfig} (hunif : cfg.randunif = true)
    (hsch : cfg.scheme = .multinomial) (hcov : cfg.cov = .normal) (hlow : 0 < cfg.sLower)
    {sc : SConfig} {root : Matrix (Fin d) (Fin d) ℝ → Option (Matrix (Fin d) (Fin d) ℝ)}
    (hroot : ∀ A L, root A = some L → L * Lᵀ = A) (τs : List ℝ)
    (hd : ∀ τ ∈ τs, Dens (Set.Icc lo hi) (dens τ) ∧ LogOf (ell τ) (dens τ))
    (hra : Ratios (Set.Icc lo hi) dens (flat lo hi) τs) {f : Pt d → ℝ} (hf : Measurable f)
    (hf1 : ∀ y, |f y| ≤ 1) :
    Tendsto (fun N => adaptRun N 0 cfg sc root lo hi ell τs fun p =>
      ENNReal.ofReal (((∑ i, f (p.x i)) / N -
        ∫ y, f y ∂MH.targetLaw volume (endDens dens (flat lo hi) τs)) ^ 2)) atTop (𝓝 0) :=
  adapt_tendsto hbox hunif hsch hcov hlow hroot τs (Or.inl rfl) hd hra
    (V0 := fun _ x => ENNReal.ofReal (err (endDens dens (flat lo hi) τs) f x)) (ctl_err ⟨hf, hf1⟩)
    (fun _ _ => le_rfl)

/-- **C264** The same with failed runs counted as infinite errors, if the range of the scale
leaves room for every change that the control of the acceptance rate can make and the normal
generator accepts all positive semi-definite covariances. -/
theorem adaptive_total {lo hi : Pt d} (hbox : ∀ j, lo j < hi j) {dens : ℝ → Pt d → ℝ}
    {ell : ℝ → Pt d → Flt} {cfg : PConfig} (hunif : cfg.randunif = true)
    (hsch : cfg.scheme = .multinomial) (hcov : cfg.cov = .normal) (hlow : 0 < cfg.sLower)
    {sc : SConfig} {root : Matrix (Fin d) (Fin d) ℝ → Option (Matrix (Fin d) (Fin d) ℝ)}
    (hroot : ∀ A L, root A = some L → L * Lᵀ = A)
    (htot : ∀ A : Matrix (Fin d) (Fin d) ℝ, A.PosSemidef → (root A).isSome) (τs : List ℝ)
    (hfac : 1 ≤ sc.factor) (hlo : cfg.sLower * sc.factor ^ (sc.maxIter * τs.length) ≤ cfg.s0)
    (hup : cfg.s0 * sc.factor ^ (sc.maxIter * τs.length) ≤ cfg.sUpper)
    (hd : ∀ τ ∈ τs, Dens (Set.Icc lo hi) (dens τ) ∧ LogOf (ell τ) (dens τ))
    (hra : Ratios (Set.Icc lo hi) dens (flat lo hi) τs) {f : Pt d → ℝ} (hf : Measurable f)
    (hf1 : ∀ y, |f y| ≤ 1) :
    Tendsto (fun N => adaptRun N ⊤ cfg sc root lo hi ell τs fun p =>
      ENNReal.ofReal (((∑ i, f (p.x i)) / N -
        ∫ y, f y ∂MH.targetLaw volume (endDens dens (flat lo hi) τs)) ^ 2)) atTop (𝓝 0) :=
  adapt_tendsto hbox hunif hsch hcov hlow hroot τs (Or.inr ⟨hfac, hlo, hup, htot⟩) hd hra
    (V0 := fun _ x => ENNReal.ofReal (err (endDens dens (flat lo hi) τs) f x)) (ctl_err ⟨hf, hf1⟩)
    (fun _ _ => le_rfl)

open Classical in
/-- **C264** The probability that a run ends without exception and with an average off by `δ` or
more tends to 0. -/
theorem adaptive_probability {lo hi : Pt d} (hbox : ∀ j, lo j < hi j) {dens : ℝ → Pt d → ℝ}
    {ell : ℝ → Pt d → Flt} {cfg : PConfig} (hunif : cfg.randunif = true)
    (hsch : cfg.scheme = .multinomial) (hcov : cfg.cov = .normal) (hlow : 0 < cfg.sLower)
    {sc : SConfig} {root : Matrix (Fin d) (Fin d) ℝ → Option (Matrix (Fin d) (Fin d) ℝ)}
    (hroot : ∀ A L, root A = some L → L * Lᵀ = A) (τs : List ℝ)
    (hd : ∀ τ ∈ τs, Dens (Set.Icc lo hi) (dens τ) ∧ LogOf (ell τ) (dens τ))
    (hra : Ratios (Set.Icc lo hi) dens (flat lo hi) τs) {f : Pt d → ℝ} (hf : Measurable f)
    (hf1 : ∀ y, |f y| ≤ 1) {δ : ℝ} (hδ : 0 < δ) :
    Tendsto (fun N => adaptRun N 0 cfg sc root lo hi ell τs fun p =>
      if δ ≤ |(∑ i, f (p.x i)) / N - ∫ y, f y ∂MH.targetLaw volume (endDens dens (flat lo hi) τs)|
        then 1 else 0) atTop (𝓝 0) := by
  refine adapt_tendsto hbox hunif hsch hcov hlow hroot τs (Or.inl rfl) hd hra
    (V0 := fun _ x => ENNReal.ofReal (1 / δ ^ 2) * ENNReal.ofReal (err (endDens dens (flat lo hi) τs) f x))
    (ctl_mul (ctl_err ⟨hf, hf1⟩) (by positivity)) fun N p => ?_
  split_ifs with h
  · rw [← ENNReal.ofReal_mul (by positivity), ENNReal.one_le_ofReal, err, avg, one_div,
      ← div_eq_inv_mul, one_le_div (by positivity), ← sq_abs (_ - _)]
    exact pow_le_pow_left₀ hδ.le h 2
  · exact zero_le

/-! ## An example -/

open Classical in
/-- Some factorisation of every matrix that has one. -/
noncomputable def someRoot (A : Matrix (Fin d) (Fin d) ℝ) : Option (Matrix (Fin d) (Fin d) ℝ) :=
  if h : ∃ L : Matrix (Fin d) (Fin d) ℝ, L * Lᵀ = A then some h.choose else none

theorem someRoot_ok (A L : Matrix (Fin d) (Fin d) ℝ) (h : someRoot A = some L) : L * Lᵀ = A := by
  unfold someRoot at h
  split_ifs at h with h1
  rw [← Option.some.inj h]
  exact h1.choose_spec

theorem someRoot_total (A : Matrix (Fin d) (Fin d) ℝ) (hA : A.PosSemidef) : (someRoot A).isSome := by
  have h : ∃ L : Matrix (Fin d) (Fin d) ℝ, L * Lᵀ = A := by
    obtain ⟨L, hL⟩ := Core.exists_sqrt hA
    exact ⟨Lᵀ, by rw [transpose_transpose]; exact hL.symm⟩
  unfold someRoot
  rw [dif_pos h]
  rfl

theorem tilt_ratios : Ratios (Set.Icc (0 : Pt 1) 1) tilt (flat 0 1) [1 / 2, 1] := by
  refine ⟨⟨Real.exp 1, fun y hy => ?_⟩, ⟨Real.exp 1, fun y hy => ?_⟩, trivial⟩
  · have h2 := hy.2 0
    have h1 := hy.1 0
    simp only [Pi.one_apply, Pi.zero_apply] at h1 h2
    simp only [tilt, flat, hy, if_true, mul_one]
    exact Real.exp_le_exp.2 (by linarith)
  · have h2 := hy.2 0
    have h1 := hy.1 0
    simp only [Pi.one_apply, Pi.zero_apply] at h1 h2
    simp only [tilt, hy, if_true]
    rw [← Real.exp_add]
    exact Real.exp_le_exp.2 (by linarith)

theorem tilt_all : ∀ τ ∈ [(1 / 2 : ℝ), 1], Dens (Set.Icc (0 : Pt 1) 1) (tilt τ) ∧ LogOf (logTilt τ) (tilt τ) := by
  intro τ h
  have : 0 ≤ τ := by
    simp only [List.mem_cons, List.not_mem_nil, or_false] at h
    rcases h with h | h <;> rw [h] <;> norm_num
  exact ⟨tilt_dens this, tilt_log _⟩

/-- Two temperatures with all options at their defaults. -/
example {f : Pt 1 → ℝ} (hf : Measurable f) (hf1 : ∀ y, |f y| ≤ 1) :
    Tendsto (fun N => adaptRun N 0 {} {} someRoot 0 1 logTilt [1 / 2, 1] fun p =>
      ENNReal.ofReal (((∑ i, f (p.x i)) / N - ∫ y, f y ∂MH.targetLaw volume (tilt 1)) ^ 2))
      atTop (𝓝 0) :=
  adaptive_consistent (dens := tilt) (fun _ => by simp) rfl rfl rfl (by norm_num) someRoot_ok [1 / 2, 1]
    tilt_all tilt_ratios hf hf1

/-- Two temperatures with at most five changes of the scale per temperature: no run fails. -/
example {f : Pt 1 → ℝ} (hf : Measurable f) (hf1 : ∀ y, |f y| ≤ 1) :
    Tendsto (fun N => adaptRun N ⊤ {} { maxIter := 5 } someRoot 0 1 logTilt [1 / 2, 1] fun p =>
      ENNReal.ofReal (((∑ i, f (p.x i)) / N - ∫ y, f y ∂MH.targetLaw volume (tilt 1)) ^ 2))
      atTop (𝓝 0) :=
  adaptive_total (dens := tilt) (fun _ => by simp) rfl rfl rfl (by norm_num) someRoot_ok someRoot_total
    [1 / 2, 1] (by norm_num) (by norm_num) (by norm_num) tilt_all tilt_ratios hf hf1

end Verif.SMC
