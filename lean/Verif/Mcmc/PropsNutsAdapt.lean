import Verif.Mcmc.PropsNutsTree
import Mathlib.Analysis.Calculus.Deriv.Pow
import Mathlib.Analysis.Calculus.Deriv.Add
import Mathlib.Analysis.Calculus.Deriv.Mul

/-!
# C55, C59, C108, C112: Hamiltonian dynamics and adaptation windows
-/

set_option autoImplicit false

namespace Verif.Nuts

open Verif
open Verif.SMC (Pt)

variable {d : ℕ}

/-- The derivative of the kinetic energy in a momentum is the velocity. -/
theorem kinetic_deriv (p im : Pt d) (i : Fin d) :
    HasDerivAt (fun t => kinetic (Function.update p i t) im) (im i * p i) (p i) := by
  unfold kinetic
  have h : ∀ e, HasDerivAt (fun t => Function.update p i t e * Function.update p i t e * im e)
      (if e = i then 2 * p i * im i else 0) (p i) := by
    intro e
    by_cases he : e = i
    · subst he
      simp only [Function.update_self, if_true]
      refine (((hasDerivAt_id (p e)).mul (hasDerivAt_id (p e))).mul_const (im e)).congr_deriv ?_
      simp only [id]; ring
    · simp only [if_neg he, Function.update_of_ne he]
      exact hasDerivAt_const _ _
  have h2 : HasDerivAt
      (fun t => ∑ e, Function.update p i t e * Function.update p i t e * im e)
      (∑ e, if e = i then 2 * p i * im i else 0) (p i) := HasDerivAt.fun_sum fun e _ => h e
  rw [Finset.sum_ite_eq' Finset.univ i, if_pos (Finset.mem_univ i)] at h2
  refine (h2.const_mul 0.5).congr_deriv ?_
  ring

/-- **C55** The integrator follows Hamilton's equations of the energy used in the acceptance:
half a step of the momentum along minus the gradient of the potential, a full step of the
position along the momentum gradient of the kinetic energy, half a step of the momentum. -/
theorem leapfrog_hamilton (tg : Target d) (z : Z d) (eps : ℝ) (im : Pt d) (i : Fin d) :
    let pHalf : Pt d := fun i => z.p i - eps / 2 * z.g i
    (leapfrog tg z eps im).q i =
        z.q i + eps * deriv (fun t => kinetic (Function.update pHalf i t) im) (pHalf i) ∧
      (leapfrog tg z eps im).p i = pHalf i - eps / 2 * tg.g (leapfrog tg z eps im).q i := by
  intro pHalf
  rw [(kinetic_deriv pHalf im i).deriv]
  have h2 : ∀ j, z.p j - 0.5 * eps * z.g j = pHalf j := by
    intro j; simp only [pHalf]; ring
  constructor
  · simp only [leapfrog, h2]; ring
  · simp only [leapfrog, h2]; ring

/-- **C55** Momenta are drawn with the mass as covariance: their kinetic energy is half the
sum of squares of the normal draws. -/
theorem kinetic_momentum (im noise : Pt d) (h : ∀ i, 0 < im i) :
    kinetic (momentum im noise) im = (∑ i, noise i ^ 2) / 2 := by
  unfold kinetic momentum
  have : ∀ i, noise i * Real.sqrt (1 / im i) * (noise i * Real.sqrt (1 / im i)) * im i =
      noise i ^ 2 := by
    intro i
    have hs : Real.sqrt (1 / im i) * Real.sqrt (1 / im i) = 1 / im i :=
      Real.mul_self_sqrt (one_div_nonneg.mpr (h i).le)
    calc _ = noise i ^ 2 * (Real.sqrt (1 / im i) * Real.sqrt (1 / im i)) * im i := by ring
      _ = noise i ^ 2 := by rw [hs]; field_simp [(h i).ne']
  simp only [this]
  ring

example : kinetic (momentum (fun _ : Fin 1 => (4 : ℝ)) fun _ => 3) (fun _ => 4) = 9 / 2 := by
  rw [kinetic_momentum _ _ fun _ => by norm_num]; norm_num

/-- **C59** The acceptance of a trial step is `min(1, exp(H0 - H1))`. -/
theorem stepAlpha_spec (tg : Target d) (im : Pt d) (z : Z d) (eps h0 h1 : ℝ)
    (e0 : energy tg im z = .fin h0) (e1 : energy tg im (leapfrog tg z eps im) = .fin h1) :
    stepAlpha tg im z eps = .fin (min 1 (Real.exp (h0 - h1))) := by
  unfold stepAlpha
  rw [e0, e1, Flt.sub_fin, Flt.neg_fin]
  unfold alphaOf Flt.fin
  dsimp only
  have h : min ((-(h1 - h0) : ℝ) : EReal) 0 = ((min (-(h1 - h0)) 0 : ℝ) : EReal) := by
    rcases le_total (-(h1 - h0)) 0 with hle | hle
    · rw [min_eq_left hle, min_eq_left (by exact_mod_cast hle)]
    · rw [min_eq_right hle, min_eq_right (by exact_mod_cast hle)]; rfl
  rw [h]
  have := Flt.exp_fin (min (-(h1 - h0)) 0)
  unfold Flt.fin at this
  rw [this, Real.exp_strictMono.monotone.map_min, Real.exp_zero, min_comm, neg_sub]

/-- **C59** A trial step that leads to infinite energy has acceptance zero. -/
theorem stepAlpha_top (tg : Target d) (im : Pt d) (z : Z d) (eps h0 : ℝ)
    (e0 : energy tg im z = .fin h0) (e1 : energy tg im (leapfrog tg z eps im) = .num ⊤) :
    stepAlpha tg im z eps = .fin 0 := by
  unfold stepAlpha
  rw [e0, e1]
  have : ((Flt.num ⊤).sub (.fin h0)).neg = .num ⊥ := by
    simp [Flt.sub, Flt.neg, Flt.add, Flt.fin]
  rw [this]
  simp [alphaOf]

/-- **C112** The final step of the dual averaging is the geometric average of the steps with
the documented weights: each update mixes the new step with weight `t^(-kappa)`. -/
theorem da_final_average (s : DA) (accept target gamma t0 kappa : ℝ) :
    (s.update accept target gamma t0 kappa).final =
      Real.exp (s.update accept target gamma t0 kappa).logEps ^ (((s.t : ℝ) + 1) ^ (-kappa)) *
        s.final ^ (1 - ((s.t : ℝ) + 1) ^ (-kappa)) := by
  unfold DA.final
  rw [← Real.exp_mul, ← Real.exp_mul, ← Real.exp_add]
  congr 1
  simp only [DA.update]
  push_cast
  ring

/-- **C112** Right after the first update the final step is the step itself. -/
theorem da_final_first (s : DA) (h : s.t = 0) (accept target gamma t0 kappa : ℝ) :
    (s.update accept target gamma t0 kappa).final =
      Real.exp (s.update accept target gamma t0 kappa).logEps := by
  rw [da_final_average, h]
  simp

/-! ## Warm-up windows -/

/-- **C108** Outside the windows neither the mass nor the running variance changes. -/
theorem warmStep_outside (o : Options d) (lo hi : ℝ) (W : List (ℤ × ℤ)) {m : ℕ} (ker : Kern m d)
    (t : ℕ) (s : WState m d) (h : ∀ w ∈ W, (t : ℤ) < w.1 ∨ w.2 ≤ (t : ℤ)) (hne : ∀ w ∈ W, w.1 < w.2) :
    (warmStep o lo hi W ker t s).mass = s.mass ∧ (warmStep o lo hi W ker t s).rv = s.rv := by
  have h1 : ¬ W.any (fun w => decide (w.1 ≤ (t : ℤ)) && decide ((t : ℤ) < w.2)) = true := by
    simp only [List.any_eq_true, Bool.and_eq_true, decide_eq_true_eq, not_exists, not_and]
    intro w hw h1 h2
    rcases h w hw with h | h <;> omega
  have h2 : ¬ W.any (fun w => decide (w.2 = (t : ℤ) + 1)) = true := by
    simp only [List.any_eq_true, decide_eq_true_eq, not_exists, not_and]
    intro w hw h1
    have := hne w hw
    rcases h w hw with h | h <;> omega
  unfold warmStep
  dsimp only
  rw [if_neg h1, if_neg h2]
  exact ⟨rfl, rfl⟩

/-- Positions visited by `k` warm-up iterations from iteration `t`. -/
noncomputable def visited (o : Options d) (lo hi : ℝ) (W : List (ℤ × ℤ)) {m : ℕ} (ker : Kern m d) :
    ℕ → ℕ → WState m d → List (Pt d)
  | 0, _, _ => []
  | k + 1, t, s =>
    let s' := warmStep o lo hi W ker t s
    List.ofFn s'.q ++ visited o lo hi W ker k (t + 1) s'

theorem updates_append (s : RunVar d) (a b : List (Pt d)) :
    s.updates (a ++ b) = (s.updates a).updates b := List.foldl_append

theorem warmStep_inside (o : Options d) (lo hi : ℝ) (W : List (ℤ × ℤ)) {m : ℕ} (ker : Kern m d)
    (t : ℕ) (s : WState m d) (w : ℤ × ℤ) (hw : w ∈ W) (h1 : w.1 ≤ t) (h2 : (t : ℤ) + 1 < w.2)
    (hW : ∀ w' ∈ W, w'.2 ≤ w.1 ∨ w.2 ≤ w'.2) :
    (warmStep o lo hi W ker t s).mass = s.mass ∧
      (warmStep o lo hi W ker t s).rv =
        s.rv.updates (List.ofFn (warmStep o lo hi W ker t s).q) := by
  have ha : W.any (fun w => decide (w.1 ≤ (t : ℤ)) && decide ((t : ℤ) < w.2)) = true := by
    simp only [List.any_eq_true, Bool.and_eq_true, decide_eq_true_eq]
    exact ⟨w, hw, h1, by omega⟩
  have hb : ¬ W.any (fun w => decide (w.2 = (t : ℤ) + 1)) = true := by
    simp only [List.any_eq_true, decide_eq_true_eq, not_exists, not_and]
    intro w' hw' e
    rcases hW w' hw' with h | h <;> omega
  unfold warmStep
  dsimp only
  rw [if_pos ha, if_neg hb]
  exact ⟨rfl, rfl⟩

theorem warmStep_last (o : Options d) (lo hi : ℝ) (W : List (ℤ × ℤ)) {m : ℕ} (ker : Kern m d)
    (t : ℕ) (s : WState m d) (w : ℤ × ℤ) (hw : w ∈ W) (h1 : w.1 ≤ t) (h2 : (t : ℤ) + 1 = w.2) :
    (warmStep o lo hi W ker t s).mass =
        clipMin o.jitter (s.rv.updates (List.ofFn (warmStep o lo hi W ker t s).q)).var ∧
      (warmStep o lo hi W ker t s).rv = RunVar.init := by
  have ha : W.any (fun w => decide (w.1 ≤ (t : ℤ)) && decide ((t : ℤ) < w.2)) = true := by
    simp only [List.any_eq_true, Bool.and_eq_true, decide_eq_true_eq]
    exact ⟨w, hw, h1, by omega⟩
  have hb : W.any (fun w => decide (w.2 = (t : ℤ) + 1)) = true := by
    simp only [List.any_eq_true, decide_eq_true_eq]
    exact ⟨w, hw, h2.symm⟩
  unfold warmStep
  dsimp only
  rw [if_pos ha, if_pos hb]
  exact ⟨rfl, rfl⟩

theorem warmLoop_window_aux (o : Options d) (lo hi : ℝ) (W : List (ℤ × ℤ)) {m : ℕ} (ker : Kern m d)
    (w : ℤ × ℤ) (hw : w ∈ W) (hW : ∀ w' ∈ W, w'.2 ≤ w.1 ∨ w.2 ≤ w'.2) :
    ∀ (k t : ℕ) (s : WState m d), w.1 ≤ t → (t : ℤ) + (k + 1 : ℕ) = w.2 →
      (warmLoop o lo hi W ker (k + 1) t s).mass =
          clipMin o.jitter (s.rv.updates (visited o lo hi W ker (k + 1) t s)).var ∧
        (warmLoop o lo hi W ker (k + 1) t s).rv = RunVar.init := by
  intro k
  induction k with
  | zero =>
    intro t s h1 h2
    have := warmStep_last o lo hi W ker t s w hw h1 (by omega)
    simpa [warmLoop, visited] using this
  | succ k ih =>
    intro t s h1 h2
    obtain ⟨a, b⟩ := warmStep_inside o lo hi W ker t s w hw h1 (by omega) hW
    have := ih (t + 1) (warmStep o lo hi W ker t s) (by omega) (by omega)
    rw [b, ← updates_append] at this
    exact this

/-- **C108** At the end of a window the mass is the clipped sample variance of exactly the
positions visited in that window by all chains, and the accumulator starts afresh. -/
theorem window_mass (o : Options d) (lo hi : ℝ) (W : List (ℤ × ℤ)) {m : ℕ} (ker : Kern m d)
    (a k : ℕ) (hk : 0 < k) (hw : ((a : ℤ), (a : ℤ) + k) ∈ W)
    (hW : ∀ w' ∈ W, w'.2 ≤ (a : ℤ) ∨ (a : ℤ) + k ≤ w'.2) (s : WState m d) (hs : s.rv = RunVar.init) :
    (warmLoop o lo hi W ker k a s).mass =
        clipMin o.jitter (RunVar.init.updates (visited o lo hi W ker k a s)).var ∧
      (warmLoop o lo hi W ker k a s).rv = RunVar.init := by
  obtain ⟨k, rfl⟩ := Nat.exists_eq_succ_of_ne_zero hk.ne'
  have := warmLoop_window_aux o lo hi W ker _ hw hW k a s le_rfl rfl
  rwa [hs] at this

/-- **C108** The same with the variance spelled out: never below the jitter. -/
theorem window_mass_var (o : Options d) (lo hi : ℝ) (W : List (ℤ × ℤ)) {m : ℕ} (ker : Kern m d)
    (a k : ℕ) (hk : 0 < k) (hw : ((a : ℤ), (a : ℤ) + k) ∈ W)
    (hW : ∀ w' ∈ W, w'.2 ≤ (a : ℤ) ∨ (a : ℤ) + k ≤ w'.2) (s : WState m d) (hs : s.rv = RunVar.init)
    (i : Fin d) (h2 : 2 ≤ (visited o lo hi W ker k a s).length) :
    (warmLoop o lo hi W ker k a s).mass i =
      max o.jitter (listVar ((visited o lo hi W ker k a s).map fun x => x i)) := by
  rw [(window_mass o lo hi W ker a k hk hw hW s hs).1]
  unfold clipMin
  rw [runVar_spec, if_neg (by omega), max_comm]

/-- Two consecutive windows satisfy the hypothesis on the others. -/
example : ∀ w' ∈ [((1 : ℤ), (3 : ℤ)), (3, 7)], w'.2 ≤ 3 ∨ 7 ≤ w'.2 := by decide

end Verif.Nuts
