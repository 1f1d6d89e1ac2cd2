import Verif.Mcmc.Nuts
import Mathlib.Dynamics.Ergodic.MeasurePreserving
import Mathlib.MeasureTheory.Constructions.Pi
import Mathlib.MeasureTheory.Group.Prod
import Mathlib.MeasureTheory.Measure.Lebesgue.Basic
import Mathlib.MeasureTheory.Measure.Haar.OfBasis
import Mathlib.Data.List.Induction
import Mathlib.Algebra.BigOperators.Field
import Mathlib.Analysis.SpecificLimits.Basic

/-!
# C55, C57-C59, C108, C110-C112: integrator, adaptation and driver of the NUTS sampler
-/

set_option autoImplicit false

namespace Verif.Nuts

open Verif
open Verif.SMC (Pt)

variable {d : ℕ}

/-! ## C55: leapfrog -/

/-- **C55** A step with `-eps` undoes a step with `eps`. -/
theorem leapfrog_reverse (tg : Target d) (z : Z d) (hz : z.g = tg.g z.q) (eps : ℝ) (im : Pt d) :
    leapfrog tg (leapfrog tg z eps im) (-eps) im = z := by
  have hq : (leapfrog tg (leapfrog tg z eps im) (-eps) im).q = z.q := by
    funext i
    simp only [leapfrog]
    ring
  ext i
  · exact congrFun hq i
  · have : (leapfrog tg (leapfrog tg z eps im) (-eps) im).p i
        = (leapfrog tg z eps im).p i - 0.5 * (-eps) * (leapfrog tg z eps im).g i
          - 0.5 * (-eps) * tg.g (leapfrog tg (leapfrog tg z eps im) (-eps) im).q i := rfl
    rw [this, hq]
    simp only [leapfrog, hz]
    ring
  · have : (leapfrog tg (leapfrog tg z eps im) (-eps) im).g
        = tg.g (leapfrog tg (leapfrog tg z eps im) (-eps) im).q := rfl
    rw [this, hq, hz]

/-- The state with opposite momentum. -/
def Z.flip (z : Z d) : Z d := { z with p := fun i => -z.p i }

/-- **C55** Flipping the momentum exchanges steps forward and backward. -/
theorem leapfrog_flip (tg : Target d) (z : Z d) (eps : ℝ) (im : Pt d) :
    leapfrog tg z.flip eps im = (leapfrog tg z (-eps) im).flip := by
  have hq : (leapfrog tg z.flip eps im).q = (leapfrog tg z (-eps) im).q := by
    funext i; simp only [leapfrog, Z.flip]; ring
  ext i
  · exact congrFun hq i
  · have h1 : (leapfrog tg z.flip eps im).p i
        = -z.p i - 0.5 * eps * z.g i - 0.5 * eps * tg.g (leapfrog tg z.flip eps im).q i := rfl
    have h2 : (leapfrog tg z (-eps) im).flip.p i
        = -(z.p i - 0.5 * (-eps) * z.g i - 0.5 * (-eps) * tg.g (leapfrog tg z (-eps) im).q i) := rfl
    rw [h1, h2, hq]
    ring
  · have h1 : (leapfrog tg z.flip eps im).g = tg.g (leapfrog tg z.flip eps im).q := rfl
    rw [h1, hq]
    rfl

/-- The kinetic energy does not see the sign of the momentum. -/
theorem energy_flip (tg : Target d) (im : Pt d) (z : Z d) :
    energy tg im z.flip = energy tg im z := by
  simp [energy, kinetic, Z.flip]

/-- **C55** The U-turn test gives the same answer for the reversed trajectory. -/
theorem uturn_reverse (im : Pt d) (zm zp : Z d) : uturn im zp.flip zm.flip = uturn im zm zp := by
  have h : ∀ z : Z d, ∑ i, (zm.q i - zp.q i) * (im i * -z.p i)
      = ∑ i, (zp.q i - zm.q i) * (im i * z.p i) := fun z =>
    Finset.sum_congr rfl fun i _ => by ring
  unfold uturn
  simp only [Z.flip, h]
  rw [Bool.or_comm]

/-- The leapfrog step as a map of position and momentum. -/
noncomputable def leapMap (tg : Target d) (eps : ℝ) (im : Pt d) (x : Pt d × Pt d) : Pt d × Pt d :=
  let z := leapfrog tg ⟨x.1, x.2, tg.g x.1⟩ eps im
  (z.q, z.p)

open MeasureTheory in
/-- Shift of the second component by a function of the first. -/
theorem shear_snd (f : Pt d → Pt d) (hf : Measurable f) :
    MeasurePreserving (fun x : Pt d × Pt d => (x.1, x.2 + f x.1)) (volume.prod volume)
      (volume.prod volume) := by
  refine (MeasurePreserving.id (volume : Measure (Pt d))).skew_product
    (g := fun a b => b + f a) ?_ ?_
  · exact measurable_snd.add (hf.comp measurable_fst)
  · exact Filter.Eventually.of_forall fun a => (measurePreserving_add_right volume (f a)).map_eq

open MeasureTheory in
/-- Shift of the first component by a function of the second. -/
theorem shear_fst (f : Pt d → Pt d) (hf : Measurable f) :
    MeasurePreserving (fun x : Pt d × Pt d => (x.1 + f x.2, x.2)) (volume.prod volume)
      (volume.prod volume) := by
  have h1 : MeasurePreserving (Prod.swap : Pt d × Pt d → Pt d × Pt d) (volume.prod volume)
      (volume.prod volume) := Measure.measurePreserving_swap
  exact h1.comp ((shear_snd f hf).comp h1)

open MeasureTheory in
/-- **C55** The leapfrog step preserves volume in phase space. -/
theorem leapfrog_volume (tg : Target d) (hg : Measurable tg.g) (eps : ℝ) (im : Pt d) :
    MeasurePreserving (leapMap tg eps im) (volume.prod volume) (volume.prod volume) := by
  have e1 : Measurable fun q : Pt d => fun i => -(0.5 * eps * tg.g q i) :=
    measurable_pi_lambda _ fun i =>
      (((measurable_pi_apply i).comp hg).const_mul (0.5 * eps)).neg
  have e2 : Measurable fun p : Pt d => fun i => eps * (p i * im i) :=
    measurable_pi_lambda _ fun i => ((measurable_pi_apply i : Measurable fun p : Pt d => p i).mul_const (im i)).const_mul eps
  have h := (shear_snd _ e1).comp ((shear_fst _ e2).comp (shear_snd _ e1))
  have : leapMap tg eps im
      = (fun x : Pt d × Pt d => (x.1, x.2 + fun i => -(0.5 * eps * tg.g x.1 i))) ∘
        ((fun x : Pt d × Pt d => (x.1 + fun i => eps * (x.2 i * im i), x.2)) ∘
          fun x : Pt d × Pt d => (x.1, x.2 + fun i => -(0.5 * eps * tg.g x.1 i))) := by
    funext x
    have hq : (leapfrog tg ⟨x.1, x.2, tg.g x.1⟩ eps im).q
        = x.1 + fun i => eps * ((x.2 i + -(0.5 * eps * tg.g x.1 i)) * im i) := by
      funext i; simp only [leapfrog, Pi.add_apply]; ring
    refine Prod.ext hq ?_
    funext i
    have hp : (leapfrog tg ⟨x.1, x.2, tg.g x.1⟩ eps im).p i
        = x.2 i - 0.5 * eps * tg.g x.1 i
          - 0.5 * eps * tg.g (leapfrog tg ⟨x.1, x.2, tg.g x.1⟩ eps im).q i := rfl
    change (leapfrog tg ⟨x.1, x.2, tg.g x.1⟩ eps im).p i = _
    rw [hp, hq]
    simp only [Function.comp, Pi.add_apply]
    ring
  rw [this]
  exact h

/-! ## C57: warm-up windows -/

/-- Consecutive nonempty windows from `a` to `b`. -/
def Tiles : ℤ → ℤ → List (ℤ × ℤ) → Prop
  | a, b, [] => a = b
  | a, b, w :: ws => w.1 = a ∧ a < w.2 ∧ Tiles w.2 b ws

theorem windowLoop_tiles (e : ℤ) (fuel : ℕ) (start win : ℤ) (h1 : 1 ≤ win) (h2 : win ≤ e - start)
    (hf : e - start ≤ fuel) : Tiles start e (windowLoop e fuel start win) := by
  induction fuel generalizing start win with
  | zero => exfalso; push_cast at hf; omega
  | succ fuel ih =>
    unfold windowLoop
    by_cases hlt : start + win < e
    · rw [if_pos hlt]
      refine ⟨rfl, by simp only; omega, ?_⟩
      dsimp only
      rw [if_neg (by omega)]
      refine ih _ _ (by omega) (by omega) (by push_cast at hf; omega)
    · rw [if_neg hlt, if_pos (by omega)]
      exact ⟨rfl, by simp only; omega, rfl⟩

/-- **C57** With a base window of at least one iteration the windows tile the middle phase
exactly. -/
theorem windows_tile (n a b base : ℤ) (hb : 1 ≤ base) :
    (n - b ≤ a → windowsOf n a b base = []) ∧
      (a < n - b → Tiles a (n - b) (windowsOf n a b base)) := by
  constructor
  · intro h; unfold windowsOf; dsimp only; rw [if_pos h]
  · intro h
    unfold windowsOf
    dsimp only
    rw [if_neg (by omega)]
    refine windowLoop_tiles _ _ _ _ (by omega) (by omega) ?_
    rw [Int.toNat_of_nonneg (by omega)]

/-- **C57** A base window of zero iterations yields an empty window. -/
theorem windows_base_zero_false : (75, 75) ∈ windowsOf 1000 75 50 0 := by decide

/-- **C57** The default settings: up to 20 warm-up iterations there are no windows; beyond,
the windows tile everything between a start and an end buffer of at least one iteration
each. -/
theorem windows_default (n : ℤ) :
    (n ≤ 20 → warmupWindows (d := d) {} n = []) ∧
      (20 < n → ∃ a b : ℤ, 1 ≤ a ∧ 1 ≤ b ∧ a < n - b ∧ (150 ≤ n → a = 75 ∧ b = 50) ∧
        Tiles a (n - b) (warmupWindows (d := d) {} n)) := by
  constructor
  · intro h; unfold warmupWindows; rw [if_pos (by exact h)]
  · intro h
    have hw : warmupWindows (d := d) {} n = windowsOf n (buffers (d := d) {} n).1
        (buffers (d := d) {} n).2.1 (buffers (d := d) {} n).2.2 := by
      unfold warmupWindows; rw [if_neg (by simp only; omega)]
    rw [hw]
    unfold buffers
    by_cases hl : (150 : ℤ) ≤ n
    · rw [if_pos hl]
      refine ⟨75, 50, by norm_num, by norm_num, by omega, fun _ => ⟨rfl, rfl⟩, ?_⟩
      exact (windows_tile n 75 50 25 (by norm_num)).2 (by omega)
    · rw [if_neg hl]
      dsimp only
      have hn : (0 : ℝ) < n := by exact_mod_cast (by omega : (0 : ℤ) < n)
      have hn20 : (20 : ℝ) < n := by exact_mod_cast h
      have t1 : truncZ (0.15 * n) = ⌊(0.15 * n : ℝ)⌋ := by
        unfold truncZ; rw [if_pos (by positivity)]
      have t2 : truncZ (0.10 * n) = ⌊(0.10 * n : ℝ)⌋ := by
        unfold truncZ; rw [if_pos (by positivity)]
      rw [t1, t2]
      have f1 : (⌊(0.15 * n : ℝ)⌋ : ℝ) ≤ 0.15 * n := Int.floor_le _
      have f2 : (⌊(0.10 * n : ℝ)⌋ : ℝ) ≤ 0.10 * n := Int.floor_le _
      refine ⟨max 1 ⌊(0.15 * n : ℝ)⌋, max 1 ⌊(0.10 * n : ℝ)⌋, le_max_left _ _, le_max_left _ _, ?_,
        fun h => absurd h hl, ?_⟩
      · have : ((max 1 ⌊(0.15 * n : ℝ)⌋ : ℤ) : ℝ) + ((max 1 ⌊(0.10 * n : ℝ)⌋ : ℤ) : ℝ) < n := by
          push_cast
          rcases max_cases (1 : ℝ) (⌊(0.15 * n : ℝ)⌋ : ℝ) with ⟨e, _⟩ | ⟨e, _⟩ <;>
          rcases max_cases (1 : ℝ) (⌊(0.10 * n : ℝ)⌋ : ℝ) with ⟨e', _⟩ | ⟨e', _⟩ <;>
          rw [e, e'] <;> linarith
        have : (max 1 ⌊(0.15 * n : ℝ)⌋ : ℤ) + (max 1 ⌊(0.10 * n : ℝ)⌋ : ℤ) < n := by exact_mod_cast this
        omega
      · refine (windows_tile _ _ _ _ (le_max_left _ _)).2 ?_
        have : ((max 1 ⌊(0.15 * n : ℝ)⌋ : ℤ) : ℝ) + ((max 1 ⌊(0.10 * n : ℝ)⌋ : ℤ) : ℝ) < n := by
          push_cast
          rcases max_cases (1 : ℝ) (⌊(0.15 * n : ℝ)⌋ : ℝ) with ⟨e, _⟩ | ⟨e, _⟩ <;>
          rcases max_cases (1 : ℝ) (⌊(0.10 * n : ℝ)⌋ : ℝ) with ⟨e', _⟩ | ⟨e', _⟩ <;>
          rw [e, e'] <;> linarith
        have : (max 1 ⌊(0.15 * n : ℝ)⌋ : ℤ) + (max 1 ⌊(0.10 * n : ℝ)⌋ : ℤ) < n := by exact_mod_cast this
        omega

/-- The windows of 200 warm-up iterations. -/
example : windowsOf 200 75 50 25 = [(75, 100), (100, 150)] := by decide

/-- Every iteration of the middle phase is in exactly one window. -/
theorem tiles_unique {a b : ℤ} {ws : List (ℤ × ℤ)} (h : Tiles a b ws) (t : ℤ) (h1 : a ≤ t) (h2 : t < b) :
    ∃ w ∈ ws, w.1 ≤ t ∧ t < w.2 := by
  induction ws generalizing a with
  | nil => obtain rfl : a = b := h; omega
  | cons w ws ih =>
    obtain ⟨e1, e2, e3⟩ := h
    by_cases hw : t < w.2
    · exact ⟨w, List.mem_cons_self .., by omega, hw⟩
    · obtain ⟨w', m, p⟩ := ih e3 (by omega)
      exact ⟨w', List.mem_cons_of_mem _ m, p⟩

theorem tiles_bounds {a b : ℤ} {ws : List (ℤ × ℤ)} (h : Tiles a b ws) :
    a ≤ b ∧ ∀ w ∈ ws, a ≤ w.1 ∧ w.1 < w.2 ∧ w.2 ≤ b := by
  induction ws generalizing a with
  | nil => obtain rfl : a = b := h; simp
  | cons w ws ih =>
    obtain ⟨e1, e2, e3⟩ := h
    obtain ⟨i1, i2⟩ := ih e3
    refine ⟨by omega, fun w' hw' => ?_⟩
    rcases List.mem_cons.mp hw' with rfl | hw'
    · exact ⟨by omega, by omega, i1⟩
    · obtain ⟨a1, a2, a3⟩ := i2 _ hw'; exact ⟨by omega, a2, a3⟩

/-! ## C58: running variance -/

/-- Mean of a list. -/
noncomputable def listMean (xs : List ℝ) : ℝ := xs.sum / xs.length

/-- Unbiased variance of a list. -/
noncomputable def listVar (xs : List ℝ) : ℝ :=
  (xs.map fun x => (x - listMean xs) ^ 2).sum / ((xs.length : ℝ) - 1)

theorem runVar_inv (xs : List (Pt d)) (i : Fin d) :
    let s := (RunVar.init : RunVar d).updates xs
    s.n = xs.length ∧ s.mean i * xs.length = (xs.map fun x => x i).sum ∧
      s.m2 i = (xs.map fun x => x i ^ 2).sum - s.mean i * (xs.map fun x => x i).sum := by
  induction xs using List.reverseRecOn with
  | nil => simp [RunVar.updates, RunVar.init]
  | append_singleton xs x ih =>
    obtain ⟨h1, h2, h3⟩ := ih
    have hs : (RunVar.init : RunVar d).updates (xs ++ [x])
        = ((RunVar.init : RunVar d).updates xs).update x := by
      unfold RunVar.updates; rw [List.foldl_append]; rfl
    dsimp only
    rw [hs]
    set s := (RunVar.init : RunVar d).updates xs
    have hn : ((s.n + 1 : ℕ) : ℝ) ≠ 0 := by positivity
    have hmean : (s.update x).mean i = s.mean i + (x i - s.mean i) / ((s.n + 1 : ℕ) : ℝ) := rfl
    have hlen : (xs.length : ℝ) = s.n := by rw [h1]
    have hm' : (s.update x).mean i * ((s.n + 1 : ℕ) : ℝ) = (xs.map fun x => x i).sum + x i := by
      rw [hmean, ← h2, hlen, add_mul, div_mul_cancel₀ _ hn]
      push_cast; ring
    refine ⟨by simp [RunVar.update, h1], ?_, ?_⟩
    · rw [List.length_append, List.map_append, List.sum_append, ← h1]
      simpa using hm'
    · have hm2 : (s.update x).m2 i = s.m2 i + (x i - s.mean i) * (x i - (s.update x).mean i) := rfl
      rw [hm2, h3]
      simp only [List.map_append, List.sum_append, List.map_cons, List.map_nil, List.sum_cons,
        List.sum_nil, add_zero]
      generalize (s.update x).mean i = m' at *
      rw [← h2, hlen] at hm' ⊢
      push_cast at hm'
      linear_combination (s.mean i) * hm'

/-- **C58** After any sequence of updates the running variance is the unbiased sample
variance of the values seen, and one when fewer than two were seen. -/
theorem runVar_spec (xs : List (Pt d)) (i : Fin d) :
    ((RunVar.init : RunVar d).updates xs).var i
      = if xs.length < 2 then 1 else listVar (xs.map fun x => x i) := by
  obtain ⟨h1, h2, h3⟩ := runVar_inv xs i
  unfold RunVar.var
  rw [h1]
  split
  · rfl
  · next hl =>
    have hne : (xs.length : ℝ) ≠ 0 := by
      have : 0 < xs.length := by omega
      positivity
    dsimp only
    rw [h3]
    unfold listVar
    rw [List.length_map]
    congr 1
    have hm : listMean (xs.map fun x => x i) = ((RunVar.init : RunVar d).updates xs).mean i := by
      unfold listMean
      rw [← h2, List.length_map]
      field_simp
    rw [hm]
    generalize ((RunVar.init : RunVar d).updates xs).mean i = m at *
    have key : ∀ ys : List ℝ, (ys.map fun x => (x - m) ^ 2).sum
        = (ys.map fun x => x ^ 2).sum - 2 * m * ys.sum + ys.length * m ^ 2 := by
      intro ys
      induction ys with
      | nil => simp
      | cons y ys ih => simp only [List.map_cons, List.sum_cons, ih, List.length_cons]; push_cast; ring
    rw [key, List.map_map, List.length_map, ← h2]
    simp only [Function.comp_def]
    ring

/-- Updating in batches is the same. -/
theorem runVar_batches (s : RunVar d) (xs ys : List (Pt d)) :
    (s.updates xs).updates ys = s.updates (xs ++ ys) := by
  unfold RunVar.updates; rw [List.foldl_append]

/-- The values 1, 2, 6 have variance 7. -/
example : ((RunVar.init : RunVar 1).updates [fun _ => 1, fun _ => 2, fun _ => 6]).var 0 = 7 := by
  rw [runVar_spec]
  norm_num [listVar, listMean]

/-! ## C59: step-size search and clamping -/

theorem stepLoop_bounds (alpha : ℝ → Flt) (target base lo hi : ℝ) (hb : 1 < base) (hlo : 0 < lo)
    (up : Bool) (k : ℕ) (eps r : ℝ) (h1 : lo ≤ eps) (h2 : eps ≤ hi)
    (h : stepLoop alpha target base lo hi up k eps = some r) :
    lo / base ≤ r ∧ r ≤ hi * base := by
  classical
  induction k generalizing eps with
  | zero => cases h
  | succ k ih =>
    have hb0 : 0 < base := by linarith
    have he : 0 < eps := by linarith
    unfold stepLoop at h
    dsimp only at h
    set e := (if up = true then eps * base else eps * base⁻¹) with hedef
    have heb : lo / base ≤ e ∧ e ≤ hi * base := by
      rw [hedef, div_eq_mul_inv]
      have hi1 : base⁻¹ ≤ 1 := inv_le_one_of_one_le₀ hb.le
      have hi0 : 0 < base⁻¹ := inv_pos.mpr hb0
      split
      · exact ⟨by nlinarith, by nlinarith⟩
      · exact ⟨by nlinarith, by nlinarith⟩
    split at h
    · obtain rfl := Option.some.inj h; exact heb
    · split at h
      · obtain rfl := Option.some.inj h; exact heb
      · next hin =>
        rw [not_or, not_lt, not_lt] at hin
        exact ih _ hin.1 hin.2 h

theorem stepLoop_ends_up (alpha : ℝ → Flt) (target base lo hi : ℝ) (k : ℕ) (eps : ℝ)
    (hk : hi < eps * base ^ (k + 1)) :
    ∃ r, stepLoop alpha target base lo hi true (k + 1) eps = some r := by
  classical
  induction k generalizing eps with
  | zero =>
    rw [stepLoop]
    simp only [if_true]
    split
    · exact ⟨_, rfl⟩
    · rw [if_pos (Or.inr (by simpa using hk))]; exact ⟨_, rfl⟩
  | succ k ih =>
    rw [stepLoop]
    simp only [if_true]
    split
    · exact ⟨_, rfl⟩
    · split
      · exact ⟨_, rfl⟩
      · refine ih _ ?_
        rw [mul_assoc, ← pow_succ']
        exact hk

theorem stepLoop_ends_down (alpha : ℝ → Flt) (target base lo hi : ℝ) (k : ℕ) (eps : ℝ)
    (hk : eps * base⁻¹ ^ (k + 1) < lo) :
    ∃ r, stepLoop alpha target base lo hi false (k + 1) eps = some r := by
  classical
  induction k generalizing eps with
  | zero =>
    rw [stepLoop]
    simp only [Bool.false_eq_true, if_false]
    split
    · exact ⟨_, rfl⟩
    · rw [if_pos (Or.inl (by simpa using hk))]; exact ⟨_, rfl⟩
  | succ k ih =>
    rw [stepLoop]
    simp only [Bool.false_eq_true, if_false]
    split
    · exact ⟨_, rfl⟩
    · split
      · exact ⟨_, rfl⟩
      · refine ih _ ?_
        rw [mul_assoc, ← pow_succ']
        exact hk

/-- **C59** For a scale base above one the search ends, whatever the target density does. -/
theorem findStep_ends (tg : Target d) (im q noise : Pt d) (eps0 target base lo hi : ℝ)
    (hb : 1 < base) (he : 0 < eps0) (hlo : 0 < lo) :
    ∃ k r, findStep tg im q noise eps0 target base lo hi k = some r := by
  classical
  unfold findStep
  dsimp only
  generalize stepAlpha tg im ⟨q, momentum im noise, tg.g q⟩ = alpha
  cases decide ((Flt.fin target).lt (alpha eps0)) with
  | true =>
    obtain ⟨k, hk⟩ := pow_unbounded_of_one_lt (hi / eps0) hb
    refine ⟨k + 1, stepLoop_ends_up _ _ _ _ _ k eps0 ?_⟩
    rw [div_lt_iff₀ he] at hk
    calc hi < base ^ k * eps0 := hk
      _ ≤ eps0 * base ^ (k + 1) := by
        rw [pow_succ, mul_comm]
        have : 0 < base ^ k := by positivity
        nlinarith [mul_pos he this]
  | false =>
    obtain ⟨k, hk⟩ := exists_pow_lt_of_lt_one (div_pos hlo he) (inv_lt_one_of_one_lt₀ hb)
    refine ⟨k + 1, stepLoop_ends_down _ _ _ _ _ k eps0 ?_⟩
    rw [lt_div_iff₀ he] at hk
    have hi1 : base⁻¹ ≤ 1 := inv_le_one_of_one_le₀ hb.le
    have hi0 : 0 < base⁻¹ := inv_pos.mpr (by linarith)
    calc eps0 * base⁻¹ ^ (k + 1) ≤ base⁻¹ ^ k * eps0 := by
          rw [pow_succ, mul_comm]
          have : 0 < base⁻¹ ^ k := by positivity
          nlinarith [mul_pos he this]
      _ < lo := hk

/-- **C59** Its result is within one factor of the allowed range, when it starts inside. -/
theorem findStep_bounds (tg : Target d) (im q noise : Pt d) (eps0 target base lo hi : ℝ)
    (hb : 1 < base) (hlo : 0 < lo) (h1 : lo ≤ eps0) (h2 : eps0 ≤ hi) (k : ℕ) (r : ℝ)
    (h : findStep tg im q noise eps0 target base lo hi k = some r) :
    lo / base ≤ r ∧ r ≤ hi * base :=
  stepLoop_bounds _ _ _ _ _ hb hlo _ k eps0 r h1 h2 h

/-- The default search settings satisfy the hypotheses. -/
example : let o : Options 1 := {}
    1 < o.epsScale ∧ 0 < o.epsMin ∧ o.epsMin ≤ o.epsInit ∧ o.epsInit ≤ o.epsMax := by norm_num

/-- **C59** With the admissible option `find_eps_scale_base = 1` the search does not end, e.g.
for a flat density. -/
theorem findStep_base_one_false : ∃ (tg : Target 1) (im q noise : Pt 1),
    ∀ k, findStep tg im q noise 1 0.5 1 0.000001 100 k = none := by
  classical
  let tg : Target 1 := { U := fun _ => .fin 0, g := fun _ _ => 0 }
  refine ⟨tg, fun _ => 1, fun _ => 0, fun _ => 1, fun k => ?_⟩
  have ha : ∀ eps, stepAlpha tg (fun _ => 1) ⟨fun _ => 0, momentum (fun _ => 1) fun _ => 1, tg.g fun _ => 0⟩ eps
      = .fin 1 := by
    intro eps
    unfold stepAlpha energy
    simp only [tg, leapfrog, Flt.add_fin, Flt.sub_fin, Flt.neg_fin, mul_zero, sub_zero, sub_self,
      neg_zero]
    simp [alphaOf, Flt.fin, Flt.exp]
  unfold findStep
  simp only [ha]
  rw [show decide ((Flt.fin 0.5).lt (.fin 1)) = true from decide_eq_true (by rw [Flt.fin_lt]; norm_num)]
  induction k with
  | zero => rfl
  | succ k ih =>
    rw [stepLoop]
    simp only [ha, mul_one, if_true]
    rw [if_neg (by rw [Flt.fin_lt]; norm_num), if_neg (by norm_num)]
    exact ih

/-- **C59** The clamped step lies within its bounds. -/
theorem clampStep_bounds (lo hi : ℝ) (h : lo ≤ hi) (e : Flt) :
    lo ≤ clampStep lo hi e ∧ clampStep lo hi e ≤ hi := by
  classical
  unfold clampStep
  cases finite? e with
  | none => exact ⟨le_refl _, h⟩
  | some r =>
    dsimp only
    split
    · exact ⟨le_refl _, h⟩
    · split
      · exact ⟨le_refl _, h⟩
      · split
        · exact ⟨h, le_refl _⟩
        · next h1 h2 h3 => exact ⟨not_lt.mp h2, not_lt.mp h3⟩

theorem finite?_fin (r : ℝ) : finite? (.fin r) = some r := by
  unfold finite? Flt.fin
  simp

/-- **C59** A step already inside is kept. -/
theorem clampStep_inside (lo hi r : ℝ) (hlo : 0 < lo) (h1 : lo ≤ r) (h2 : r ≤ hi) :
    clampStep lo hi (.fin r) = r := by
  unfold clampStep
  rw [finite?_fin]
  dsimp only
  rw [if_neg (by linarith), if_neg (by linarith), if_neg (by linarith)]

/-- **C59** The bounds in use are positive and ordered whatever the options. -/
theorem epsBounds_ok (o : Options d) : 0 < (epsBounds o).1 ∧ (epsBounds o).1 < (epsBounds o).2 := by
  classical
  unfold epsBounds
  dsimp only
  have hlo : 0 < (if o.epsMin ≤ 0 then (10 : ℝ)⁻¹ ^ 12 else o.epsMin) := by
    split
    · positivity
    · next h => exact not_le.mp h
  refine ⟨hlo, ?_⟩
  generalize (if o.epsMin ≤ 0 then (10 : ℝ)⁻¹ ^ 12 else o.epsMin) = lo at *
  split
  · exact lt_of_lt_of_le (by linarith) (le_max_right _ _)
  · next h => exact not_le.mp h

/-! ## C110: adaptation keeps step and mass admissible and stops after warm-up -/

/-- Admissible adaptation state. -/
def Adm (lo hi jitter : ℝ) {m : ℕ} (s : WState m d) : Prop :=
  (lo ≤ s.step ∧ s.step ≤ hi) ∧ ∀ i, min 1 jitter ≤ s.mass i

theorem massUpdate_adm (lo hi jitter muFactor : ℝ) (h : lo ≤ hi) {m : ℕ} (s : WState m d) :
    Adm lo hi jitter (massUpdate lo hi jitter muFactor s) :=
  ⟨clampStep_bounds lo hi h (.fin s.step), fun _ => (min_le_right _ _).trans (le_max_right _ _)⟩

theorem warmStep_adm (o : Options d) (lo hi : ℝ) (h : lo ≤ hi) (windows : List (ℤ × ℤ)) {m : ℕ}
    (ker : Kern m d) (t : ℕ) (s : WState m d) (hs : Adm lo hi o.jitter s) :
    Adm lo hi o.jitter (warmStep o lo hi windows ker t s) := by
  unfold warmStep
  dsimp only
  split
  · exact massUpdate_adm lo hi o.jitter o.muFactor h _
  · exact ⟨clampStep_bounds lo hi h (.fin (Real.exp _)), hs.2⟩

theorem warmLoop_adm (o : Options d) (lo hi : ℝ) (h : lo ≤ hi) (windows : List (ℤ × ℤ)) {m : ℕ}
    (ker : Kern m d) (k t : ℕ) (s : WState m d) (hs : Adm lo hi o.jitter s) :
    Adm lo hi o.jitter (warmLoop o lo hi windows ker k t s) := by
  induction k generalizing t s with
  | zero => exact hs
  | succ k ih => exact ih _ _ (warmStep_adm o lo hi h windows ker t s hs)

/-- Positions after `t + 1` iterations of a fixed kernel. -/
noncomputable def iterate {m : ℕ} (f : ℕ → (Fin m → Pt d) → (Fin m → Pt d)) (q : Fin m → Pt d) :
    ℕ → (Fin m → Pt d)
  | 0 => q
  | t + 1 => f t (iterate f q t)

theorem sampleLoop_spec (step : ℝ) (im : Pt d) {m : ℕ} (ker : Kern m d) (k t0 : ℕ)
    (q : Fin m → Pt d) :
    (sampleLoop step im ker k t0 q).length = k ∧
      ∀ t < k, (sampleLoop step im ker k t0 q)[t]?
        = some (iterate (fun t q c => (ker (t0 + t) c (q c) step im).1) q (t + 1)) := by
  induction k generalizing t0 q with
  | zero => exact ⟨rfl, fun t ht => absurd ht (Nat.not_lt_zero _)⟩
  | succ k ih =>
    obtain ⟨h1, h2⟩ := ih (t0 + 1) fun c => (ker t0 c (q c) step im).1
    refine ⟨by simp only [sampleLoop, List.length_cons, h1], fun t ht => ?_⟩
    have shift : ∀ t, iterate (fun t q c => (ker (t0 + 1 + t) c (q c) step im).1)
        (fun c => (ker t0 c (q c) step im).1) t
        = iterate (fun t q c => (ker (t0 + t) c (q c) step im).1) q (t + 1) := by
      intro t
      induction t with
      | zero => rfl
      | succ t ih' =>
        rw [iterate, ih']
        simp only [show t0 + 1 + t = t0 + (t + 1) by omega]
        rfl
    cases t with
    | zero => rfl
    | succ t =>
      simp only [sampleLoop, List.getElem?_cons_succ]
      rw [h2 t (by omega), shift]

/-- **C110** The sampler returns the requested number of draws; they are iterates of the
transition with one fixed step and one fixed mass, the reported ones; the step is within
the repaired bounds and the masses are positive for a positive jitter. -/
theorem nutsSample_spec (o : Options d) {m : ℕ} (search : Pt d → Option ℝ) (ker : Kern m d)
    (num : ℕ) (q0 : Fin m → Pt d) (samples : List (Fin m → Pt d)) (step : ℝ) (mass : Pt d)
    (h : nutsSample o search ker num q0 = some (samples, step, mass)) :
    samples.length = num ∧ (epsBounds o).1 ≤ step ∧ step ≤ (epsBounds o).2 ∧
      (0 < o.jitter → ∀ i, 0 < mass i) ∧
      ∃ q1, ∀ t < num, samples[t]? = some (iterate
        (fun t q c => (ker (o.numWarmup.toNat + t) c (q c) step fun i => 1 / mass i).1) q1 (t + 1)) := by
  obtain ⟨hlo, hlt⟩ := epsBounds_ok o
  unfold nutsSample at h
  dsimp only at h
  rw [Option.map_eq_some_iff] at h
  obtain ⟨e0, he0, h⟩ := h
  obtain ⟨h1, h2⟩ := Prod.mk.inj h
  obtain ⟨h3, h4⟩ := Prod.mk.inj h2
  have hadm := warmLoop_adm o (epsBounds o).1 (epsBounds o).2 hlt.le (warmupWindows o o.numWarmup) ker
    o.numWarmup.toNat 0
    { q := q0, step := clampStep (epsBounds o).1 (epsBounds o).2 (.fin e0), mass := initMassOf o
      da := restartDA (epsBounds o).1 o.muFactor (clampStep (epsBounds o).1 (epsBounds o).2 (.fin e0))
      rv := RunVar.init } ⟨clampStep_bounds _ _ hlt.le (.fin e0), fun i => by
        unfold initMassOf
        split
        · exact min_le_left _ _
        · exact (min_le_right _ _).trans (le_max_right _ _)⟩
  rw [← h1, ← h3, ← h4]
  obtain ⟨a1, a2⟩ := sampleLoop_spec (clampStep (epsBounds o).1 (epsBounds o).2 (.fin (DA.final
    (warmLoop o (epsBounds o).1 (epsBounds o).2 (warmupWindows o o.numWarmup) ker o.numWarmup.toNat 0
      { q := q0, step := clampStep (epsBounds o).1 (epsBounds o).2 (.fin e0), mass := initMassOf o
        da := restartDA (epsBounds o).1 o.muFactor (clampStep (epsBounds o).1 (epsBounds o).2 (.fin e0))
        rv := RunVar.init }).da))) _ ker num o.numWarmup.toNat _
  refine ⟨a1, (clampStep_bounds _ _ hlt.le _).1, (clampStep_bounds _ _ hlt.le _).2, fun hj i => ?_,
    _, a2⟩
  exact lt_of_lt_of_le (lt_min one_pos hj) (hadm.2 i)

/-! ## C111: options -/

/-- **C111** Without an options object the keyword arguments are used as they are; with
one, exactly the keyword arguments that differ from their defaults replace its values. -/
theorem resolve_spec (o : Options d) (a : Args d) :
    (resolve none a).numWarmup = a.numWarmup ∧ (resolve none a).maxDepth = a.maxDepth ∧
      (resolve none a).targetAccept = a.targetAccept ∧ (resolve none a).deltaMax = a.deltaMax ∧
      (resolve none a).jitter = a.jitter ∧ (resolve none a).initStep = a.initStep ∧
      (resolve none a).initMass = a.initMass ∧ (resolve none a).seed = a.seed ∧
      (a.numWarmup ≠ 1000 → (resolve (some o) a).numWarmup = a.numWarmup) ∧
      (a.numWarmup = 1000 → (resolve (some o) a).numWarmup = o.numWarmup) ∧
      (a.targetAccept ≠ 0.80 → (resolve (some o) a).targetAccept = a.targetAccept) ∧
      (a.targetAccept = 0.80 → (resolve (some o) a).targetAccept = o.targetAccept) ∧
      (a.maxDepth ≠ 10 → (resolve (some o) a).maxDepth = a.maxDepth) ∧
      (a.maxDepth = 10 → (resolve (some o) a).maxDepth = o.maxDepth) ∧
      (a.deltaMax ≠ 1000 → (resolve (some o) a).deltaMax = a.deltaMax) ∧
      (a.deltaMax = 1000 → (resolve (some o) a).deltaMax = o.deltaMax) ∧
      (a.jitter ≠ 0.0001 → (resolve (some o) a).jitter = a.jitter) ∧
      (a.jitter = 0.0001 → (resolve (some o) a).jitter = o.jitter) ∧
      (∀ e, a.initStep = some e → (resolve (some o) a).initStep = some e) ∧
      (a.initStep = none → (resolve (some o) a).initStep = o.initStep) ∧
      (∀ v, a.initMass = some v → (resolve (some o) a).initMass = some v) ∧
      (a.initMass = none → (resolve (some o) a).initMass = o.initMass) ∧
      (∀ v, a.seed = some v → (resolve (some o) a).seed = some v) ∧
      (a.seed = none → (resolve (some o) a).seed = o.seed) := by
  classical
  refine ⟨rfl, rfl, rfl, rfl, rfl, rfl, rfl, rfl, ?_, ?_, ?_, ?_, ?_, ?_, ?_, ?_, ?_, ?_, ?_, ?_, ?_,
    ?_, ?_, ?_⟩ <;> intros <;> simp_all [resolve, pick]

/-- **C111** A value cannot be reset to the default by keyword: asking for 1000 warm-up
iterations with an options object asking for 10 gives 10. -/
theorem resolve_reset_false : ∃ (o : Options d) (a : Args d),
    a.numWarmup = 1000 ∧ (resolve (some o) a).numWarmup = 10 :=
  ⟨{ numWarmup := 10 }, {}, rfl, by simp [resolve, pick]⟩

/-! ## C112: dual averaging -/

/-- The state after a list of acceptance statistics. -/
noncomputable def DA.run (s : DA) (target gamma t0 kappa : ℝ) (as : List ℝ) : DA :=
  as.foldl (fun s a => s.update a target gamma t0 kappa) s

/-- **C112** Closed form: after a restart the log step is `mu - sqrt t / gamma` times the
sum of the deficits `target - a` divided by `t + t0`. -/
theorem da_closed (s : DA) (hs : s.t = 0) (hh : s.hBar = 0) (target gamma t0 kappa : ℝ) (ht : 0 ≤ t0)
    (as : List ℝ) :
    let r := s.run target gamma t0 kappa as
    r.t = as.length ∧ r.mu = s.mu ∧
      (as ≠ [] → r.hBar = (as.map fun a => target - a).sum / (as.length + t0) ∧
        r.logEps = s.mu - Real.sqrt as.length / gamma
          * ((as.map fun a => target - a).sum / (as.length + t0))) := by
  induction as using List.reverseRecOn with
  | nil => exact ⟨hs, rfl, fun h => absurd rfl h⟩
  | append_singleton as a ih =>
    obtain ⟨h1, h2, h3⟩ := ih
    have hr : s.run target gamma t0 kappa (as ++ [a])
        = (s.run target gamma t0 kappa as).update a target gamma t0 kappa := by
      unfold DA.run; rw [List.foldl_append]; rfl
    dsimp only
    rw [hr]
    set r := s.run target gamma t0 kappa as with hrdef
    have hpos : (0 : ℝ) < (as.length : ℝ) + 1 + t0 := by positivity
    have hbar : (r.update a target gamma t0 kappa).hBar
        = ((as ++ [a]).map fun a => target - a).sum / (((as ++ [a]).length : ℕ) + t0) := by
      have e : (r.update a target gamma t0 kappa).hBar
          = (1 - 1 / (((r.t + 1 : ℕ) : ℝ) + t0)) * r.hBar
            + 1 / (((r.t + 1 : ℕ) : ℝ) + t0) * (target - a) := rfl
      rw [e, h1]
      simp only [List.map_append, List.sum_append, List.map_cons, List.map_nil, List.sum_cons,
        List.sum_nil, add_zero, List.length_append, List.length_cons, List.length_nil, zero_add]
      push_cast
      by_cases has : as = []
      · have : r.hBar = 0 := by rw [hrdef, has]; exact hh
        rw [this, has]
        simp only [List.map_nil, List.sum_nil, List.length_nil]
        ring
      · obtain ⟨h4, _⟩ := h3 has
        rw [h4]
        have hl : (0 : ℝ) < as.length := by
          have := List.length_pos_iff.mpr has; exact_mod_cast this
        have : (0 : ℝ) < (as.length : ℝ) + t0 := by positivity
        field_simp
        ring
    refine ⟨?_, h2, fun _ => ⟨hbar, ?_⟩⟩
    · change r.t + 1 = _
      rw [h1]; simp
    · have e : (r.update a target gamma t0 kappa).logEps
          = r.mu - Real.sqrt ((r.t + 1 : ℕ) : ℝ) / gamma * (r.update a target gamma t0 kappa).hBar := rfl
      rw [e, hbar, h2, h1]
      congr 3
      simp

/-- **C112** Lower acceptance gives a smaller next step. -/
theorem da_monotone (s : DA) (a a' target gamma t0 kappa : ℝ) (hg : 0 < gamma) (ht : 0 ≤ t0)
    (h : a < a') :
    (s.update a target gamma t0 kappa).logEps < (s.update a' target gamma t0 kappa).logEps := by
  have e : ∀ b, (s.update b target gamma t0 kappa).logEps
      = s.mu - Real.sqrt ((s.t + 1 : ℕ) : ℝ) / gamma * ((1 - 1 / (((s.t + 1 : ℕ) : ℝ) + t0)) * s.hBar
        + 1 / (((s.t + 1 : ℕ) : ℝ) + t0) * (target - b)) := fun b => rfl
  rw [e, e]
  have h1 : 0 < Real.sqrt ((s.t + 1 : ℕ) : ℝ) / gamma := by positivity
  have h2 : 0 < 1 / (((s.t + 1 : ℕ) : ℝ) + t0) := by positivity
  have := mul_lt_mul_of_pos_left (mul_lt_mul_of_pos_left (sub_lt_sub_left h target) h2) h1
  nlinarith [this]

/-- **C112** The averaged log step stays within the range of the log steps taken since the
restart. -/
theorem da_average (s : DA) (hs : s.t = 0) (target gamma t0 kappa : ℝ) (hk : 0 ≤ kappa) (lo hi : ℝ)
    (as : List ℝ) (has : as ≠ [])
    (hb : ∀ bs, bs ≠ [] → bs <+: as → lo ≤ (s.run target gamma t0 kappa bs).logEps ∧
      (s.run target gamma t0 kappa bs).logEps ≤ hi) :
    lo ≤ (s.run target gamma t0 kappa as).logEpsBar ∧
      (s.run target gamma t0 kappa as).logEpsBar ≤ hi := by
  have ht : ∀ as : List ℝ, (s.run target gamma t0 kappa as).t = as.length := by
    intro as
    induction as using List.reverseRecOn with
    | nil => exact hs
    | append_singleton as a ih =>
      have : s.run target gamma t0 kappa (as ++ [a])
        = (s.run target gamma t0 kappa as).update a target gamma t0 kappa := by
        unfold DA.run; rw [List.foldl_append]; rfl
      rw [this]
      change (s.run target gamma t0 kappa as).t + 1 = _
      rw [ih]; simp
  induction as using List.reverseRecOn with
  | nil => exact absurd rfl has
  | append_singleton as a ih =>
    have hr : s.run target gamma t0 kappa (as ++ [a])
        = (s.run target gamma t0 kappa as).update a target gamma t0 kappa := by
      unfold DA.run; rw [List.foldl_append]; rfl
    have hlast := hb (as ++ [a]) (by simp) (List.prefix_refl _)
    have e : (s.run target gamma t0 kappa (as ++ [a])).logEpsBar
        = (((s.run target gamma t0 kappa as).t + 1 : ℕ) : ℝ) ^ (-kappa)
            * (s.run target gamma t0 kappa (as ++ [a])).logEps
          + (1 - (((s.run target gamma t0 kappa as).t + 1 : ℕ) : ℝ) ^ (-kappa))
            * (s.run target gamma t0 kappa as).logEpsBar := by rw [hr]; rfl
    rw [e]
    by_cases hnil : as = []
    · subst hnil
      rw [ht []]
      simp only [List.length_nil, zero_add, Nat.cast_one, Real.one_rpow, one_mul, sub_self, zero_mul,
        add_zero]
      exact hlast
    · have hi' := ih hnil (fun bs h1 h2 => hb bs h1 (h2.trans (List.prefix_append _ _)))
      set w := (((s.run target gamma t0 kappa as).t + 1 : ℕ) : ℝ) ^ (-kappa)
      have hw0 : 0 ≤ w := Real.rpow_nonneg (by positivity) _
      have hw1 : w ≤ 1 := by
        refine Real.rpow_le_one_of_one_le_of_nonpos ?_ (by linarith)
        push_cast
        linarith [Nat.cast_nonneg (α := ℝ) (s.run target gamma t0 kappa as).t]
      constructor
      · nlinarith [hlast.1, hi'.1]
      · nlinarith [hlast.2, hi'.2]

/-! ## C108: the adapted metric -/

/-- The independent Gaussian target with standard deviations `σ`. -/
noncomputable def gauss (σ : Pt d) : Target d :=
  { U := fun q => .fin (∑ i, q i ^ 2 / (2 * σ i ^ 2)), g := fun q i => q i / σ i ^ 2 }

/-- A leapfrog step of the unit oscillator. -/
noncomputable def unitStep (h x y : ℝ) : ℝ × ℝ :=
  let yh := y - h / 2 * x
  let x' := x + h * yh
  (x', yh - h / 2 * x')

/-- In units of `σ` and of the square root of the mass, coordinate `i` makes a step of the
unit oscillator of length `eps / (σ i * sqrt (mass i))`. -/
theorem leapfrog_gauss (σ mass : Pt d) (hσ : ∀ i, 0 < σ i) (hm : ∀ i, 0 < mass i) (z : Z d)
    (hz : z.g = (gauss σ).g z.q) (eps : ℝ) (i : Fin d) :
    let z' := leapfrog (gauss σ) z eps fun i => 1 / mass i
    (z'.q i / σ i, z'.p i / Real.sqrt (mass i))
      = unitStep (eps / (σ i * Real.sqrt (mass i))) (z.q i / σ i) (z.p i / Real.sqrt (mass i)) := by
  have h1 := (hσ i).ne'
  have h2 : Real.sqrt (mass i) ≠ 0 := (Real.sqrt_pos.mpr (hm i)).ne'
  have h3 : Real.sqrt (mass i) ^ 2 = mass i := Real.sq_sqrt (hm i).le
  have h4 := (hm i).ne'
  have hq : (leapfrog (gauss σ) z eps fun i => 1 / mass i).q i
      = z.q i + eps * ((z.p i - 0.5 * eps * (z.q i / σ i ^ 2)) * (1 / mass i)) := by
    simp only [leapfrog, hz]; rfl
  have hp : (leapfrog (gauss σ) z eps fun i => 1 / mass i).p i
      = z.p i - 0.5 * eps * (z.q i / σ i ^ 2)
        - 0.5 * eps * ((leapfrog (gauss σ) z eps fun i => 1 / mass i).q i / σ i ^ 2) := by
    simp only [leapfrog, hz]; rfl
  dsimp only
  rw [hp, hq]
  generalize Real.sqrt (mass i) = r at *
  rw [← h3]
  unfold unitStep
  refine Prod.ext ?_ ?_
  · dsimp only
    field_simp
    ring
  · dsimp only
    field_simp
    ring

/-- **C108** The mass after a window whose running variances are the exact variances is
the variance, not its inverse (when the jitter is below it). -/
theorem mass_is_variance (σ : Pt d) (lo hi jitter muFactor : ℝ) {m : ℕ} (s : WState m d)
    (hv : ∀ i, s.rv.var i = σ i ^ 2) (hj : ∀ i, jitter ≤ σ i ^ 2) (i : Fin d) :
    (massUpdate lo hi jitter muFactor s).mass i = σ i ^ 2 := by
  simp only [massUpdate, clipMin, hv i]
  exact max_eq_left (hj i)

/-- **C108** False: after adaptation to exact variances the coordinates of a Gaussian
target still make steps of different length, `eps / σ i ^ 2` each; without adaptation the
lengths are `eps / σ i`, which are less spread. -/
theorem mass_adapt_false (σ : Pt d) (hσ : ∀ i, 0 < σ i) (lo hi jitter muFactor : ℝ) {m : ℕ}
    (s : WState m d) (hv : ∀ i, s.rv.var i = σ i ^ 2) (hj : ∀ i, jitter ≤ σ i ^ 2) (eps : ℝ)
    (he : eps ≠ 0) (i j : Fin d) :
    let mass := (massUpdate lo hi jitter muFactor s).mass
    (eps / (σ i * Real.sqrt (mass i)) = eps / σ i ^ 2) ∧
      (eps / (σ i * Real.sqrt (mass i)) = eps / (σ j * Real.sqrt (mass j)) ↔ σ i = σ j) := by
  have e : ∀ i, eps / (σ i * Real.sqrt ((massUpdate lo hi jitter muFactor s).mass i)) = eps / σ i ^ 2 := by
    intro i
    rw [mass_is_variance σ lo hi jitter muFactor s hv hj i, Real.sqrt_sq (hσ i).le, sq]
  refine ⟨e i, ?_⟩
  rw [e i, e j]
  constructor
  · intro h
    have h1 : 0 < σ i ^ 2 := by have := hσ i; positivity
    have h2 : 0 < σ j ^ 2 := by have := hσ j; positivity
    rw [div_eq_div_iff h1.ne' h2.ne'] at h
    have := mul_left_cancel₀ he h
    exact (pow_left_inj₀ (hσ i).le (hσ j).le two_ne_zero).mp this.symm
  · intro h; rw [h]

/-- **C108** Masses equal to the inverse variances would give all coordinates the same
step `eps`. -/
theorem mass_inverse_partial (σ : Pt d) (hσ : ∀ i, 0 < σ i) (eps : ℝ) (i : Fin d) :
    eps / (σ i * Real.sqrt (1 / σ i ^ 2)) = eps := by
  rw [Real.sqrt_div zero_le_one, Real.sqrt_one, Real.sqrt_sq (hσ i).le]
  have := (hσ i).ne'
  field_simp

/-- A window with variances 1 and 4: the hypotheses are met. -/
example : ∃ s : WState 3 2, s.rv.var 0 = 1 ^ 2 ∧ s.rv.var 1 = 2 ^ 2 := by
  refine ⟨{ q := fun _ _ => 0, step := 1, mass := fun _ => 1, da := ⟨0, 0, 0, 0, 0⟩
            rv := (RunVar.init : RunVar 2).updates [![-1, -2], ![0, 0], ![1, 2]] }, ?_, ?_⟩
  · rw [runVar_spec]; norm_num [listVar, listMean]
  · rw [runVar_spec]; norm_num [listVar, listMean]

/-! ## C113: moving average of the trace plots -/

/-- **C113** (partial) For a window not longer than the series each entry is the mean of
`w` consecutive values, so it lies in every interval that contains the series. Missing:
longer windows, see `movingAverage_false`. -/
theorem movingAverage_partial (y : List ℝ) (w : ℕ) (hw : 1 ≤ w) (hy : w ≤ y.length) :
    (movingAverage y w).length = y.length - w + 1 ∧
      (∀ i < y.length - w + 1, (movingAverage y w)[i]? = some (((y.drop i).take w).sum / w)) ∧
      ∀ lo hi : ℝ, (∀ x ∈ y, lo ≤ x ∧ x ≤ hi) → ∀ x ∈ movingAverage y w, lo ≤ x ∧ x ≤ hi := by
  unfold movingAverage
  rcases Nat.lt_or_ge 1 w with h | h
  · rw [if_neg (by omega), if_pos hy]
    refine ⟨by simp, fun i hi => ?_, fun lo hi hb x hx => ?_⟩
    · rw [List.getElem?_map, List.getElem?_range hi]; rfl
    · obtain ⟨i, hi', rfl⟩ := List.mem_map.mp hx
      rw [List.mem_range] at hi'
      have hlen : ((y.drop i).take w).length = w := by
        rw [List.length_take, List.length_drop]; omega
      have hm : ∀ x ∈ (y.drop i).take w, lo ≤ x ∧ x ≤ hi := fun x hx =>
        hb x (List.mem_of_mem_drop (List.mem_of_mem_take hx))
      have h1 := List.card_nsmul_le_sum _ lo fun x hx => (hm x hx).1
      have h2 := List.sum_le_card_nsmul _ hi fun x hx => (hm x hx).2
      rw [hlen, nsmul_eq_mul] at h1 h2
      have hp : (0 : ℝ) < w := by exact_mod_cast (by omega : 0 < w)
      rw [le_div_iff₀ hp, div_le_iff₀ hp]
      constructor <;> linarith
  · obtain rfl : w = 1 := by omega
    rw [if_pos (le_refl 1)]
    refine ⟨by omega, fun i hi => ?_, fun lo hi hb x hx => hb x hx⟩
    have hil : i < y.length := by omega
    have e : List.take 1 (List.drop i y) = [y[i]] := by
      rw [List.drop_eq_getElem_cons hil, List.take_succ_cons, List.take_zero]
    rw [List.getElem?_eq_getElem hil, e]
    simp

/-- **C113** False for a window longer than the series: the sum of the two values of a
constant series is divided by the window length, so the average of ones is one half. -/
theorem movingAverage_false : movingAverage [1, 1] 4 = [1 / 2, 1 / 2, 1 / 2] := by
  simp [movingAverage, List.range_succ]; norm_num

end Verif.Nuts
