import Verif.Mcmc.PropsNutsTree
import Verif.Mcmc.PropsNutsNormal
import Verif.Mcmc.PropsNutsAdapt
import Mathlib.Analysis.Calculus.MeanValue
import Mathlib.Analysis.SpecialFunctions.Trigonometric.Deriv
import Mathlib.Analysis.SpecialFunctions.Trigonometric.Bounds

/-!
# C284: the energy error of leapfrog trajectories is of second order in the step
-/

set_option autoImplicit false

namespace Verif.Nuts

open Verif
open Verif.SMC (Pt)

variable {d : ℕ}

/-- A finite potential `V` with gradient `tg.g`, second directional derivatives `H q v`, a gradient that is Lipschitz and
second derivatives that are Lipschitz along each line.  (The norm of a point is its largest coordinate.) -/
structure Smooth (tg : Target d) (V : Pt d → ℝ) (H : Pt d → Pt d → ℝ) (L C : ℝ) : Prop where
  fin : ∀ q, tg.U q = .fin (V q)
  grad : ∀ q v : Pt d, ∀ t : ℝ, HasDerivAt (fun s : ℝ => V (q + s • v)) (∑ i, tg.g (q + t • v) i * v i) t
  hess : ∀ q v : Pt d, ∀ t : ℝ, HasDerivAt (fun s : ℝ => ∑ i, tg.g (q + s • v) i * v i) (H (q + t • v) v) t
  lip : ∀ x y, ‖tg.g x - tg.g y‖ ≤ L * ‖x - y‖
  lip2 : ∀ q v : Pt d, ∀ s t : ℝ, |H (q + s • v) v - H (q + t • v) v| ≤ C * |s - t| * ‖v‖ ^ 3
  posL : 0 ≤ L
  posC : 0 ≤ C

/-- Error of the trapezoidal rule for a function whose second derivative is Lipschitz. -/
theorem trapezoid {f f' f'' : ℝ → ℝ} {K : ℝ} (h1 : ∀ t, HasDerivAt f (f' t) t) (h2 : ∀ t, HasDerivAt f' (f'' t) t)
    (hK : ∀ s t, |f'' s - f'' t| ≤ K * |s - t|) :
    |f 1 - f 0 - 1 / 2 * (f' 0 + f' 1)| ≤ K / 2 := by
  have hK0 : 0 ≤ K := by simpa using (abs_nonneg _).trans (hK 1 0)
  have hin : ∀ t ∈ Set.Icc (0 : ℝ) 1, |f' t - f' 0 - t * f'' t| ≤ K := fun t ht => by
    have hd : ∀ s ∈ Set.Icc (0 : ℝ) t, HasDerivWithinAt (fun s => f' s - s * f'' t) (f'' s - f'' t) (Set.Icc 0 t) s := fun s _ => by
      have := (h2 s).sub ((hasDerivAt_id s).mul_const (f'' t))
      exact (this.congr_deriv (by simp)).hasDerivWithinAt
    have hb : ∀ s ∈ Set.Ico (0 : ℝ) t, ‖f'' s - f'' t‖ ≤ K := fun s hs => by
      refine (hK s t).trans ?_
      have : |s - t| ≤ 1 := abs_le.mpr ⟨by linarith [hs.1, ht.2], by linarith [hs.2]⟩
      nlinarith
    have := norm_image_sub_le_of_norm_deriv_le_segment' hd hb t ⟨ht.1, le_refl t⟩
    rw [Real.norm_eq_abs] at this
    have e : f' t - f' 0 - t * f'' t = f' t - t * f'' t - (f' 0 - 0 * f'' t) := by ring
    rw [e]
    refine this.trans ?_
    nlinarith [ht.1, ht.2]
  have hd : ∀ t ∈ Set.Icc (0 : ℝ) 1, HasDerivWithinAt (fun t => f t - f 0 - t / 2 * (f' 0 + f' t))
      (-(1 / 2) * (f' 0 - f' t + t * f'' t)) (Set.Icc 0 1) t := fun t _ => by
    have := ((h1 t).sub_const (f 0)).sub (((hasDerivAt_id t).div_const 2).mul ((h2 t).const_add (f' 0)))
    refine (this.congr_deriv ?_).hasDerivWithinAt
    simp only [id]
    ring
  have hb : ∀ t ∈ Set.Ico (0 : ℝ) 1, ‖-(1 / 2) * (f' 0 - f' t + t * f'' t)‖ ≤ K / 2 := fun t ht => by
    have := hin t ⟨ht.1, ht.2.le⟩
    have e : -(1 / 2) * (f' 0 - f' t + t * f'' t) = 1 / 2 * (f' t - f' 0 - t * f'' t) := by ring
    rw [e, norm_mul, Real.norm_eq_abs, Real.norm_eq_abs, abs_of_pos (by norm_num)]
    linarith
  have := norm_image_sub_le_of_norm_deriv_le_segment' hd hb 1 ⟨zero_le_one, le_refl 1⟩
  rw [Real.norm_eq_abs] at this
  have e : f 1 - f 0 - 1 / 2 * (f' 0 + f' 1) =
      f 1 - f 0 - 1 / 2 * (f' 0 + f' 1) - (f 0 - f 0 - 0 / 2 * (f' 0 + f' 0)) := by ring
  rw [e]
  linarith

/-- **C284** The change of energy in one step is a difference of squared gradients plus the error of the trapezoidal rule
for the potential: all the terms of first order cancel. -/
theorem leapfrog_energy_change (tg : Target d) (z : Z d) (eps : ℝ) (im : Pt d) (V : Pt d → ℝ) :
    let z' := leapfrog tg z eps im
    (V z'.q + kinetic z'.p im) - (V z.q + kinetic z.p im) =
      eps ^ 2 / 8 * ∑ i, im i * (tg.g z'.q i ^ 2 - z.g i ^ 2) +
      (V z'.q - V z.q - 1 / 2 * ∑ i, (z.g i + tg.g z'.q i) * (z'.q i - z.q i)) := by
  intro z'
  have hk : kinetic z'.p im - kinetic z.p im + 1 / 2 * ∑ i, (z.g i + tg.g z'.q i) * (z'.q i - z.q i) =
      eps ^ 2 / 8 * ∑ i, im i * (tg.g z'.q i ^ 2 - z.g i ^ 2) := by
    simp only [kinetic, Finset.mul_sum, ← Finset.sum_sub_distrib, ← Finset.sum_add_distrib]
    refine Finset.sum_congr rfl fun i _ => ?_
    have hq : z'.q i = z.q i + eps * ((z.p i - 0.5 * eps * z.g i) * im i) := rfl
    have hp : z'.p i = z.p i - 0.5 * eps * z.g i - 0.5 * eps * tg.g z'.q i := rfl
    rw [hp, hq]
    ring
  linarith

namespace Smooth

variable {tg : Target d} {V : Pt d → ℝ} {H : Pt d → Pt d → ℝ} {L C : ℝ} (h : Smooth tg V H L C)
include h

theorem energy_eq (im : Pt d) (z : Z d) : energy tg im z = .fin (V z.q + kinetic z.p im) := by
  rw [energy, h.fin, Flt.add_fin]

theorem trap (q v : Pt d) :
    |V (q + v) - V q - 1 / 2 * ∑ i, (tg.g q i + tg.g (q + v) i) * v i| ≤ C / 2 * ‖v‖ ^ 3 := by
  have := trapezoid (K := C * ‖v‖ ^ 3) (h.grad q v) (h.hess q v) (fun s t => (h.lip2 q v s t).trans_eq (by ring))
  simp only [one_smul, zero_smul, add_zero, ← Finset.sum_add_distrib, ← add_mul] at this
  exact this.trans_eq (by ring)

/-- Linear growth of the gradient. -/
theorem growth (q : Pt d) : ‖tg.g q‖ ≤ (‖tg.g 0‖ + L) * (1 + ‖q‖) := by
  have h1 := h.lip q 0
  rw [sub_zero] at h1
  have h2 : ‖tg.g q‖ ≤ ‖tg.g q - tg.g 0‖ + ‖tg.g 0‖ := by
    simpa using norm_add_le (tg.g q - tg.g 0) (tg.g 0)
  nlinarith [norm_nonneg q, norm_nonneg (tg.g 0), h.posL]

end Smooth

/-- Size of a state. -/
noncomputable def size (z : Z d) : ℝ := 1 + ‖z.q‖ + ‖z.p‖

/-- The energy without the difference of squared gradients. -/
noncomputable def shadowEnergy (V : Pt d → ℝ) (im : Pt d) (eps : ℝ) (z : Z d) : ℝ :=
  V z.q + kinetic z.p im - eps ^ 2 / 8 * ∑ i, im i * z.g i ^ 2

theorem norm_mul_le_pi (a b : Pt d) : ‖fun i => a i * b i‖ ≤ ‖a‖ * ‖b‖ := norm_mul_le a b

theorem weighted_le (im g : Pt d) {B : ℝ} (hB : ‖g‖ ≤ B) : |∑ i, im i * g i ^ 2| ≤ d * (‖im‖ * B ^ 2) := by
  refine (Finset.abs_sum_le_sum_abs _ _).trans ?_
  refine (Finset.sum_le_card_nsmul _ _ (‖im‖ * B ^ 2) fun i _ => ?_).trans_eq (by simp)
  rw [abs_mul, abs_pow]
  have h1 : |im i| ≤ ‖im‖ := norm_le_pi_norm im i
  have h2 : |g i| ≤ B := (norm_le_pi_norm g i).trans hB
  have := abs_nonneg (g i)
  gcongr

/-- One step, forwards or backwards, of length at most one. -/
theorem Smooth.step {tg : Target d} {V : Pt d → ℝ} {H : Pt d → Pt d → ℝ} {L C : ℝ} (h : Smooth tg V H L C) (im : Pt d)
    {e eps : ℝ} (he : |e| = eps) (h1 : eps ≤ 1) {z : Z d} (hz : z.g = tg.g z.q) :
    let A := ‖tg.g 0‖ + L
    let m := ‖im‖
    let z' := leapfrog tg z e im
    z'.g = tg.g z'.q ∧ ‖z'.q - z.q‖ ≤ eps * (m * (1 + A) * size z) ∧
    size z' ≤ size z * (1 + eps * (m * (1 + A) + A * (2 + m * (1 + A)))) ∧
    |shadowEnergy V im eps z' - shadowEnergy V im eps z| ≤ C / 2 * (m * (1 + A) * size z) ^ 3 * eps ^ 3 := by
  intro A m z'
  have hA : 0 ≤ A := add_nonneg (norm_nonneg _) h.posL
  have hm : 0 ≤ m := norm_nonneg _
  have heps : 0 ≤ eps := he ▸ abs_nonneg e
  have hR : 1 ≤ size z := by
    unfold size
    linarith [norm_nonneg z.q, norm_nonneg z.p]
  have hq0 := norm_nonneg z.q
  have hp0 := norm_nonneg z.p
  have hg : ‖z.g‖ ≤ A * size z := by
    rw [hz]
    refine (h.growth z.q).trans (mul_le_mul_of_nonneg_left ?_ hA)
    unfold size
    linarith
  set ph : Pt d := z.p - (0.5 * e) • z.g with hph
  have hphn : ‖ph‖ ≤ ‖z.p‖ + eps * (A * size z) := by
    refine (norm_sub_le _ _).trans ?_
    rw [norm_smul, Real.norm_eq_abs, abs_mul, he]
    have : |(0.5 : ℝ)| ≤ 1 := by norm_num
    have h3 : |(0.5 : ℝ)| * eps * ‖z.g‖ ≤ 1 * eps * (A * size z) := by gcongr
    linarith
  have hpn : ‖ph‖ ≤ (1 + A) * size z := by
    have h3 : eps * (A * size z) ≤ 1 * (A * size z) := by gcongr
    have h4 : ‖z.p‖ ≤ size z := by
      unfold size
      linarith
    linarith
  have hqe : z'.q = z.q + e • (fun i => ph i * im i) := by
    funext i
    simp [z', leapfrog, hph]
  have hpe : z'.p = ph - (0.5 * e) • tg.g z'.q := by
    funext i
    simp [z', leapfrog, hph]
  have hdq : ‖z'.q - z.q‖ ≤ eps * (m * (1 + A) * size z) := by
    rw [hqe, add_sub_cancel_left, norm_smul, Real.norm_eq_abs, he]
    refine mul_le_mul_of_nonneg_left ?_ heps
    refine (norm_mul_le_pi _ _).trans ?_
    calc ‖ph‖ * ‖im‖ ≤ ((1 + A) * size z) * m := by gcongr
      _ = m * (1 + A) * size z := by ring
  have hq' : ‖z'.q‖ ≤ ‖z.q‖ + eps * (m * (1 + A) * size z) := by
    have := norm_add_le z.q (z'.q - z.q)
    rw [add_sub_cancel] at this
    linarith
  have hg' : ‖tg.g z'.q‖ ≤ A * ((1 + m * (1 + A)) * size z) := by
    refine (h.growth z'.q).trans (mul_le_mul_of_nonneg_left ?_ hA)
    have h3 : eps * (m * (1 + A) * size z) ≤ 1 * (m * (1 + A) * size z) := by gcongr
    have h4 : 1 + ‖z.q‖ ≤ size z := by
      unfold size
      linarith
    linarith
  have hp' : ‖z'.p‖ ≤ ‖ph‖ + eps * (A * ((1 + m * (1 + A)) * size z)) := by
    rw [hpe]
    refine (norm_sub_le _ _).trans ?_
    rw [norm_smul, Real.norm_eq_abs, abs_mul, he]
    have : |(0.5 : ℝ)| ≤ 1 := by norm_num
    have h3 : |(0.5 : ℝ)| * eps * ‖tg.g z'.q‖ ≤ 1 * eps * (A * ((1 + m * (1 + A)) * size z)) := by gcongr
    linarith
  refine ⟨rfl, hdq, ?_, ?_⟩
  · have : size z' = 1 + ‖z'.q‖ + ‖z'.p‖ := rfl
    have h2 : size z = 1 + ‖z.q‖ + ‖z.p‖ := rfl
    have h3 : size z * (1 + eps * (m * (1 + A) + A * (2 + m * (1 + A)))) =
      size z + eps * (m * (1 + A) * size z) + eps * (A * size z) + eps * (A * ((1 + m * (1 + A)) * size z)) := by ring
    linarith
  · have hch := leapfrog_energy_change tg z e im V
    have hee : e ^ 2 = eps ^ 2 := by rw [← he, sq_abs]
    have hs : shadowEnergy V im eps z' - shadowEnergy V im eps z =
        V z'.q - V z.q - 1 / 2 * ∑ i, (z.g i + tg.g z'.q i) * (z'.q i - z.q i) := by
      have hsum : ∑ i, im i * (tg.g z'.q i ^ 2 - z.g i ^ 2) = ∑ i, im i * z'.g i ^ 2 - ∑ i, im i * z.g i ^ 2 := by
        rw [← Finset.sum_sub_distrib]
        exact Finset.sum_congr rfl fun i _ => mul_sub _ _ _
      dsimp only at hch
      rw [hee] at hch
      unfold shadowEnergy
      rw [show leapfrog tg z e im = z' from rfl, hsum] at hch
      linarith
    rw [hs]
    have ht := h.trap z.q (z'.q - z.q)
    rw [add_sub_cancel, ← hz] at ht
    refine ht.trans ?_
    calc C / 2 * ‖z'.q - z.q‖ ^ 3 ≤ C / 2 * (eps * (m * (1 + A) * size z)) ^ 3 := by
          have := h.posC
          gcongr
      _ = _ := by ring

/-- What holds after at most `n` steps, forwards or backwards, from `z0`; `c` and `kap` are the growth rate and the rate of
the modified energy. -/
structure Near (tg : Target d) (V : Pt d → ℝ) (im : Pt d) (eps c kap : ℝ) (z0 : Z d) (n : ℕ) (z : Z d) : Prop where
  own : z.g = tg.g z.q
  bound : size z ≤ size z0 * (1 + eps * c) ^ n
  energy : |shadowEnergy V im eps z - shadowEnergy V im eps z0| ≤ n * (kap * eps ^ 3)

section

variable {tg : Target d} {V : Pt d → ℝ} {H : Pt d → Pt d → ℝ} {L C : ℝ} (h : Smooth tg V H L C) (im : Pt d)
include h

/-- The growth rate. -/
theorem Smooth.near_step {e eps : ℝ} (he : |e| = eps) (h1 : eps ≤ 1) {z0 z : Z d} {n : ℕ} {c B kap : ℝ}
    (hc : c = ‖im‖ * (1 + (‖tg.g 0‖ + L)) + (‖tg.g 0‖ + L) * (2 + ‖im‖ * (1 + (‖tg.g 0‖ + L))))
    (hB : size z0 * (1 + eps * c) ^ n ≤ B) (hk : kap = C / 2 * (‖im‖ * (1 + (‖tg.g 0‖ + L)) * B) ^ 3)
    (hz : Near tg V im eps c kap z0 n z) : Near tg V im eps c kap z0 (n + 1) (leapfrog tg z e im) := by
  obtain ⟨a1, -, a3, a4⟩ := h.step im he h1 hz.own
  have hA : 0 ≤ ‖tg.g 0‖ + L := add_nonneg (norm_nonneg _) h.posL
  have hm : 0 ≤ ‖im‖ := norm_nonneg _
  have heps : 0 ≤ eps := he ▸ abs_nonneg e
  have hs : 0 ≤ size z := by unfold size; positivity
  have hzB := hz.bound.trans hB
  have hC := h.posC
  refine ⟨a1, ?_, ?_⟩
  · rw [← hc] at a3
    have hc0 : 0 ≤ c := by rw [hc]; positivity
    calc _ ≤ size z * (1 + eps * c) := a3
      _ ≤ size z0 * (1 + eps * c) ^ n * (1 + eps * c) := mul_le_mul_of_nonneg_right hz.bound (by positivity)
      _ = _ := by rw [pow_succ, mul_assoc]
  · have h4 : C / 2 * (‖im‖ * (1 + (‖tg.g 0‖ + L)) * size z) ^ 3 * eps ^ 3 ≤ kap * eps ^ 3 := by
      rw [hk]
      gcongr
    have := abs_sub_le (shadowEnergy V im eps (leapfrog tg z e im)) (shadowEnergy V im eps z) (shadowEnergy V im eps z0)
    have := hz.energy
    push_cast
    linarith

omit h in
theorem Near.start (eps c kap : ℝ) {z0 : Z d} (hz : z0.g = tg.g z0.q) : Near tg V im eps c kap z0 0 z0 :=
  ⟨hz, by simp, by simp⟩

omit h in
theorem Near.mono {eps c kap : ℝ} (hc : 0 ≤ eps * c) (hk : 0 ≤ kap * eps ^ 3) {z0 z : Z d} {n m : ℕ} (hnm : n ≤ m)
    (hz : Near tg V im eps c kap z0 n z) : Near tg V im eps c kap z0 m z := by
  have h0 : 0 ≤ size z0 := by unfold size; positivity
  refine ⟨hz.own, hz.bound.trans ?_, hz.energy.trans ?_⟩
  · have : (1 + eps * c) ^ n ≤ (1 + eps * c) ^ m := pow_le_pow_right₀ (by linarith) hnm
    gcongr
  · have : (n : ℝ) ≤ m := by exact_mod_cast hnm
    gcongr

/-- The energy error of a state reached in at most `n` steps. -/
theorem Smooth.near_energy {eps c kap B : ℝ} {z0 z : Z d} {n : ℕ} (hz0 : z0.g = tg.g z0.q) (h0 : size z0 ≤ B)
    (hB : size z0 * (1 + eps * c) ^ n ≤ B) (hz : Near tg V im eps c kap z0 n z) :
    |(V z.q + kinetic z.p im) - (V z0.q + kinetic z0.p im)| ≤
      n * (kap * eps ^ 3) + d * (‖im‖ * ((‖tg.g 0‖ + L) * B) ^ 2) / 4 * eps ^ 2 := by
  have hA : 0 ≤ ‖tg.g 0‖ + L := add_nonneg (norm_nonneg _) h.posL
  have hg : ∀ y : Z d, y.g = tg.g y.q → size y ≤ B → ‖y.g‖ ≤ (‖tg.g 0‖ + L) * B := fun y hy hb => by
    rw [hy]
    refine (h.growth y.q).trans (mul_le_mul_of_nonneg_left ?_ hA)
    have := norm_nonneg y.p
    unfold size at hb
    linarith
  have w1 := weighted_le im z.g (hg z hz.own (hz.bound.trans hB))
  have w0 := weighted_le im z0.g (hg z0 hz0 h0)
  have e := hz.energy
  unfold shadowEnergy at e
  set G := d * (‖im‖ * ((‖tg.g 0‖ + L) * B) ^ 2) with hG
  rw [abs_le] at e w1 w0 ⊢
  have h8 : 0 ≤ eps ^ 2 / 8 := by positivity
  have u1 := mul_le_mul_of_nonneg_left w1.2 h8
  have u2 := mul_le_mul_of_nonneg_left w1.1 h8
  have u3 := mul_le_mul_of_nonneg_left w0.2 h8
  have u4 := mul_le_mul_of_nonneg_left w0.1 h8
  constructor <;> nlinarith

/-- **C284** Over a trajectory of given duration the energy error is of second order in the step: for every starting
state and every duration `T` there is a constant `K` such that all trajectories with steps `eps ≤ 1`, of any number `n` of
steps with `n eps ≤ T`, forwards or backwards in time, change the energy by at most `K eps²`. -/
theorem trajectory_energy (z0 : Z d) (hz0 : z0.g = tg.g z0.q) (T : ℝ) :
    ∃ K, 0 ≤ K ∧ ∀ e : ℝ, |e| ≤ 1 → ∀ n : ℕ, n * |e| ≤ T →
      ∃ a b, energy tg im z0 = .fin a ∧ energy tg im ((fun z => leapfrog tg z e im)^[n] z0) = .fin b ∧
        |b - a| ≤ K * e ^ 2 := by
  set A := ‖tg.g 0‖ + L with hAd
  have hA : 0 ≤ A := add_nonneg (norm_nonneg _) h.posL
  have hm : 0 ≤ ‖im‖ := norm_nonneg _
  have hC := h.posC
  set c := ‖im‖ * (1 + A) + A * (2 + ‖im‖ * (1 + A)) with hc
  have hc0 : 0 ≤ c := by positivity
  have hs0 : 0 ≤ size z0 := by unfold size; positivity
  set B := size z0 * Real.exp (c * max T 0) with hBd
  have hB0 : 0 ≤ B := by positivity
  set kap := C / 2 * (‖im‖ * (1 + A) * B) ^ 3 with hk
  have hk0 : 0 ≤ kap := by positivity
  refine ⟨max T 0 * kap + d * (‖im‖ * (A * B) ^ 2) / 4, by positivity, fun e he n hn => ?_⟩
  have hpow : ∀ k : ℕ, k ≤ n → size z0 * (1 + |e| * c) ^ k ≤ B := fun k hkn => by
    refine mul_le_mul_of_nonneg_left ?_ hs0
    have h1 : 1 + |e| * c ≤ Real.exp (|e| * c) := by linarith [Real.add_one_le_exp (|e| * c)]
    calc (1 + |e| * c) ^ k ≤ Real.exp (|e| * c) ^ k := pow_le_pow_left₀ (by positivity) h1 k
      _ = Real.exp (k * (|e| * c)) := (Real.exp_nat_mul _ _).symm
      _ ≤ _ := by
        refine Real.exp_le_exp.mpr ?_
        have h2 : (k : ℝ) * |e| ≤ max T 0 := by
          refine le_trans ?_ (hn.trans (le_max_left _ _))
          have : (k : ℝ) ≤ n := by exact_mod_cast hkn
          gcongr
        calc (k : ℝ) * (|e| * c) = c * (k * |e|) := by ring
          _ ≤ _ := by gcongr
  have hnear : ∀ k : ℕ, k ≤ n → Near tg V im |e| c kap z0 k ((fun z => leapfrog tg z e im)^[k] z0) := by
    intro k
    induction k with
    | zero => exact fun _ => Near.start im _ _ _ hz0
    | succ k ih =>
      intro hk'
      rw [Function.iterate_succ_apply']
      exact h.near_step im rfl he hc (hpow k (by omega)) hk (ih (by omega))
  refine ⟨_, _, h.energy_eq im z0, h.energy_eq im _, ?_⟩
  refine (h.near_energy im hz0 (by simpa using hpow 0 (Nat.zero_le _)) (hpow n le_rfl) (hnear n le_rfl)).trans ?_
  have h3 : (n : ℝ) * (kap * |e| ^ 3) ≤ max T 0 * kap * |e| ^ 2 := by
    have h5 : (n : ℝ) * |e| ≤ max T 0 := hn.trans (le_max_left _ _)
    calc (n : ℝ) * (kap * |e| ^ 3) = (n * |e|) * (kap * |e| ^ 2) := by ring
      _ ≤ max T 0 * (kap * |e| ^ 2) := by gcongr
      _ = _ := by ring
  rw [sq_abs] at h3
  rw [sq_abs]
  linarith

/-- **C284** In a single step it is of third order, which is what the search for a first step size sees: its
statistic tends to one with the step. -/
theorem stepAlpha_small (z0 : Z d) (hz0 : z0.g = tg.g z0.q) :
    ∃ K, 0 ≤ K ∧ ∀ e : ℝ, |e| ≤ 1 → ∃ a, stepAlpha tg im z0 e = .fin a ∧ Real.exp (-(K * |e| ^ 3)) ≤ a ∧ a ≤ 1 := by
  set A := ‖tg.g 0‖ + L with hAd
  have hA : 0 ≤ A := add_nonneg (norm_nonneg _) h.posL
  have hm : 0 ≤ ‖im‖ := norm_nonneg _
  have hC := h.posC
  have hL := h.posL
  have hs0 : 0 ≤ size z0 := by unfold size; positivity
  set v := ‖im‖ * (1 + A) * size z0 with hv
  have hv0 : 0 ≤ v := by positivity
  set g0 := ‖z0.g‖ with hg0
  have hg00 : 0 ≤ g0 := norm_nonneg _
  refine ⟨C / 2 * v ^ 3 + d * (‖im‖ * (L * v * (2 * g0 + L * v))) / 8, by positivity, fun e he => ?_⟩
  obtain ⟨-, a2, -, a4⟩ := h.step im (e := e) rfl he hz0
  set z' := leapfrog tg z0 e im with hz'
  have hd : ‖z'.g - z0.g‖ ≤ L * (|e| * v) := by
    rw [hz0]
    exact (h.lip z'.q z0.q).trans (mul_le_mul_of_nonneg_left a2 hL)
  have hsum : |∑ i, im i * z'.g i ^ 2 - ∑ i, im i * z0.g i ^ 2| ≤ d * (‖im‖ * (L * v * (2 * g0 + L * v))) * |e| := by
    rw [← Finset.sum_sub_distrib]
    refine (Finset.abs_sum_le_sum_abs _ _).trans ?_
    refine (Finset.sum_le_card_nsmul _ _ (‖im‖ * (L * v * (2 * g0 + L * v)) * |e|) fun i _ => ?_).trans_eq (by simp; ring)
    have e1 : im i * z'.g i ^ 2 - im i * z0.g i ^ 2 = im i * ((z'.g i - z0.g i) * (2 * z0.g i + (z'.g i - z0.g i))) := by ring
    rw [e1, abs_mul, abs_mul]
    have b1 : |im i| ≤ ‖im‖ := norm_le_pi_norm im i
    have b2 : |z'.g i - z0.g i| ≤ L * (|e| * v) := (norm_le_pi_norm (z'.g - z0.g) i).trans hd
    have b3 : |z0.g i| ≤ g0 := norm_le_pi_norm z0.g i
    have b4 : |2 * z0.g i + (z'.g i - z0.g i)| ≤ 2 * g0 + L * v := by
      refine (abs_add_le _ _).trans ?_
      rw [abs_mul, abs_of_pos (by norm_num : (0 : ℝ) < 2)]
      have : L * (|e| * v) ≤ L * (1 * v) := by gcongr
      linarith
    calc |im i| * (|z'.g i - z0.g i| * |2 * z0.g i + (z'.g i - z0.g i)|) ≤
        ‖im‖ * (L * (|e| * v) * (2 * g0 + L * v)) := by gcongr
      _ = _ := by ring
  have hE : |(V z'.q + kinetic z'.p im) - (V z0.q + kinetic z0.p im)| ≤
      (C / 2 * v ^ 3 + d * (‖im‖ * (L * v * (2 * g0 + L * v))) / 8) * |e| ^ 3 := by
    have a4' : |shadowEnergy V im |e| z' - shadowEnergy V im |e| z0| ≤ C / 2 * v ^ 3 * |e| ^ 3 := a4
    have e1 : (V z'.q + kinetic z'.p im) - (V z0.q + kinetic z0.p im) =
        (shadowEnergy V im |e| z' - shadowEnergy V im |e| z0) +
        |e| ^ 2 / 8 * (∑ i, im i * z'.g i ^ 2 - ∑ i, im i * z0.g i ^ 2) := by
      unfold shadowEnergy
      ring
    rw [e1]
    refine (abs_add_le _ _).trans ?_
    rw [abs_mul, abs_of_nonneg (show (0 : ℝ) ≤ |e| ^ 2 / 8 by positivity)]
    have := mul_le_mul_of_nonneg_left hsum (show (0 : ℝ) ≤ |e| ^ 2 / 8 by positivity)
    have e2 : |e| ^ 2 / 8 * (d * (‖im‖ * (L * v * (2 * g0 + L * v))) * |e|) =
      d * (‖im‖ * (L * v * (2 * g0 + L * v))) / 8 * |e| ^ 3 := by ring
    rw [e2] at this
    linarith
  refine ⟨_, stepAlpha_spec tg im z0 e _ _ (h.energy_eq im z0) (h.energy_eq im z'), le_min ?_ ?_, min_le_left _ _⟩
  · have := (abs_nonneg _).trans hE
    exact Real.exp_le_one_iff.mpr (by linarith)
  · refine Real.exp_le_exp.mpr ?_
    linarith [(abs_le.mp hE).2]

end

/-! ## Trees -/

section

variable (C : Ctx d) (P : ℕ → Z d → Prop) (N : ℕ) (kap : ℝ)

/-- Conditions on a property of the states reached in at most `n` steps. -/
structure Kept : Prop where
  step : ∀ n z v, n < N → P n z → P (n + 1) (leapfrog C.tg z (C.step v) C.im)
  mono : ∀ n m z, n ≤ m → P n z → P m z
  energy : ∀ n z, n ≤ N → P n z → ∃ e, energy C.tg C.im z = .fin e ∧ e - C.H0 ≤ kap
  pos : 0 ≤ kap
  le : kap ≤ C.dmax

variable {C P N kap}

theorem Kept.leaf (h : Kept C P N kap) (v : Bool) {n : ℕ} {z : Z d} (hn : n < N) (hz : P n z) :
    let t := leaf C v z
    TreeOk (P (n + 1)) (Real.exp (-kap)) t.minus t.plus t.alphaSum t.nAlpha t.div ∧ 1 ≤ t.nAlpha := by
  intro t
  have o1 := h.step n z v hn hz
  obtain ⟨e, he, hle⟩ := h.energy (n + 1) _ hn o1
  have hfin : finite? (Verif.Nuts.energy C.tg C.im (leapfrog C.tg z (C.step v) C.im)) = some e := by
    rw [he, finite?_fin]
  have hpos := h.pos
  have hdm := h.le
  simp only [t, Nuts.leaf, hfin]
  refine ⟨⟨o1, o1, ?_, ?_⟩, le_refl _⟩
  · rw [Nat.cast_one, mul_one]
    exact Real.exp_le_exp.mpr (le_min (by linarith) (by linarith))
  · simp only [decide_eq_false_iff_not, not_lt]
    linarith

theorem Kept.buildTree (h : Kept C P N kap) (v : Bool) (k : ℕ) (w : Draws k) {n : ℕ} {z : Z d} (hn : n + 2 ^ k ≤ N)
    (hz : P n z) :
    let t := buildTree C v k w z
    TreeOk (P (n + 2 ^ k)) (Real.exp (-kap)) t.minus t.plus t.alphaSum t.nAlpha t.div ∧ 1 ≤ t.nAlpha := by
  induction k generalizing n z with
  | zero => exact h.leaf v (by simpa using hn) hz
  | succ k ih =>
    have e2 : n + 2 ^ (k + 1) = n + 2 ^ k + 2 ^ k := by rw [pow_succ]; ring
    rw [e2] at hn ⊢
    have h1 := ih w.2.1 ((Nat.le_add_right _ _).trans hn) hz
    intro t
    change TreeOk _ _ (Nuts.buildTree C v (k + 1) w z).minus (Nuts.buildTree C v (k + 1) w z).plus
      (Nuts.buildTree C v (k + 1) w z).alphaSum (Nuts.buildTree C v (k + 1) w z).nAlpha
      (Nuts.buildTree C v (k + 1) w z).div ∧ 1 ≤ (Nuts.buildTree C v (k + 1) w z).nAlpha
    unfold Nuts.buildTree
    dsimp only
    dsimp only at h1
    set a := Nuts.buildTree C v k w.2.1 z with ha
    have hmon : ∀ y, P (n + 2 ^ k) y → P (n + 2 ^ k + 2 ^ k) y := fun y => h.mono _ _ y (Nat.le_add_right _ _)
    split_ifs with hcont hv
    · have h2 := ih w.2.2 hn h1.1.hp
      dsimp only at h2
      subst hv
      set b := Nuts.buildTree C true k w.2.2 a.plus with hb
      refine ⟨⟨hmon _ h1.1.hm, h2.1.hp, ?_, ?_⟩, ?_⟩
      · have e1 := h1.1.acc
        have e2 := h2.1.acc
        simp only [join]
        push_cast
        linarith
      · simp only [join, Bool.or_eq_false_iff]; exact ⟨h1.1.nodiv, h2.1.nodiv⟩
      · simp only [join]; have := h1.2; omega
    · have hv' : v = false := by simpa using hv
      subst hv'
      have h2 := ih w.2.2 hn h1.1.hm
      dsimp only at h2
      set b := Nuts.buildTree C false k w.2.2 a.minus with hb
      refine ⟨⟨h2.1.hm, hmon _ h1.1.hp, ?_, ?_⟩, ?_⟩
      · have e1 := h1.1.acc
        have e2 := h2.1.acc
        simp only [join]
        push_cast
        linarith
      · simp only [join, Bool.or_eq_false_iff]; exact ⟨h1.1.nodiv, h2.1.nodiv⟩
      · simp only [join]; have := h1.2; omega
    · exact ⟨⟨hmon _ h1.1.hm, hmon _ h1.1.hp, h1.1.acc, h1.1.nodiv⟩, h1.2⟩

theorem Kept.double (h : Kept C P N kap) (j : ℕ) (w : ℝ × Draws j × ℝ) (st : TState d) (hj : 2 ^ j + 2 ^ j ≤ N)
    (hst : TreeOk (P (2 ^ j)) (Real.exp (-kap)) st.minus st.plus st.alphaSum st.nAlpha st.div) :
    let t := double C j w st
    TreeOk (P (2 ^ j + 2 ^ j)) (Real.exp (-kap)) t.minus t.plus t.alphaSum t.nAlpha t.div ∧ 1 ≤ t.nAlpha := by
  intro t
  change TreeOk _ _ (Nuts.double C j w st).minus (Nuts.double C j w st).plus (Nuts.double C j w st).alphaSum
    (Nuts.double C j w st).nAlpha (Nuts.double C j w st).div ∧ 1 ≤ (Nuts.double C j w st).nAlpha
  unfold Nuts.double
  dsimp only
  generalize hv : (!decide (w.1 < 0.5)) = v
  have h2 := h.buildTree v j w.2.1 hj (z := if v then st.plus else st.minus) (by cases v; exacts [hst.hm, hst.hp])
  dsimp only at h2
  have hmon : ∀ y, P (2 ^ j) y → P (2 ^ j + 2 ^ j) y := fun y => h.mono _ _ y (Nat.le_add_right _ _)
  set b := Nuts.buildTree C v j w.2.1 (if v then st.plus else st.minus) with hb
  refine ⟨⟨?_, ?_, ?_, ?_⟩, ?_⟩
  · cases v; exacts [h2.1.hm, hmon _ hst.hm]
  · cases v; exacts [hmon _ hst.hp, h2.1.hp]
  · have e1 := hst.acc
    have e2 := h2.1.acc
    push_cast
    linarith
  · simp only [Bool.or_eq_false_iff]; exact ⟨hst.nodiv, h2.1.nodiv⟩
  · have := h2.2; omega

theorem Kept.doubles (h : Kept C P N kap) (n j : ℕ) (w : TDraws n j) (st : TState d) (hj : 2 ^ (j + n) ≤ N)
    (hst : TreeOk (P (2 ^ j)) (Real.exp (-kap)) st.minus st.plus st.alphaSum st.nAlpha st.div) :
    let t := doubles C n j w st
    Real.exp (-kap) * t.nAlpha ≤ t.alphaSum ∧ t.div = false ∧ (1 ≤ st.nAlpha → 1 ≤ t.nAlpha) ∧
      (0 < n → st.cont = true → 1 ≤ t.nAlpha) := by
  induction n generalizing j st with
  | zero => exact ⟨hst.acc, hst.nodiv, id, fun h => absurd h (lt_irrefl _)⟩
  | succ n ih =>
    intro t
    have e2 : 2 ^ (j + 1) = 2 ^ j + 2 ^ j := by rw [pow_succ]; ring
    have e3 : 2 ^ (j + 1) ≤ 2 ^ (j + (n + 1)) := Nat.pow_le_pow_right (by norm_num) (by omega)
    have h1 := h.double j w.1 st (by omega) hst
    dsimp only at h1
    rw [← e2] at h1
    have h2 := ih (j + 1) w.2 (Nuts.double C j w.1 st) (by rwa [show j + 1 + n = j + (n + 1) by ring]) h1.1
    dsimp only at h2
    change _ ≤ (Nuts.doubles C (n + 1) j w st).alphaSum ∧ (Nuts.doubles C (n + 1) j w st).div = false ∧
      (_ → 1 ≤ (Nuts.doubles C (n + 1) j w st).nAlpha) ∧ (_ → _ → 1 ≤ (Nuts.doubles C (n + 1) j w st).nAlpha)
    simp only [t]
    unfold Nuts.doubles
    split_ifs with hc
    · exact ⟨h2.1, h2.2.1, fun _ => h2.2.2.1 h1.2, fun _ _ => h2.2.2.1 h1.2⟩
    · exact ⟨hst.acc, hst.nodiv, id, fun _ h => absurd h hc⟩

end

/-- **C284** A transition with a small step: for every start and depth there is a constant `K` such that with a step
`eps ≤ 1`, whatever the draws, no divergence is reported when `K eps² ≤ delta_max`, and then the mean acceptance is at
least `exp (-K eps²)`. -/
theorem transition_small {tg : Target d} {V : Pt d → ℝ} {H : Pt d → Pt d → ℝ} {L C : ℝ} (h : Smooth tg V H L C)
    (im q0 noise : Pt d) (k : ℕ) :
    ∃ K, 0 ≤ K ∧ ∀ eps : ℝ, 0 ≤ eps → eps ≤ 1 → ∀ dmax, K * eps ^ 2 ≤ dmax → ∀ (r : ℝ) (w : TDraws k 0),
      (transition tg im eps k dmax noise r w q0).div = false ∧
      (0 < k → Real.exp (-(K * eps ^ 2)) ≤ (transition tg im eps k dmax noise r w q0).accept) := by
  set z0 : Z d := ⟨q0, momentum im noise, tg.g q0⟩ with hz0
  set A := ‖tg.g 0‖ + L with hAd
  have hA : 0 ≤ A := add_nonneg (norm_nonneg _) h.posL
  have hm : 0 ≤ ‖im‖ := norm_nonneg _
  have hC := h.posC
  set c := ‖im‖ * (1 + A) + A * (2 + ‖im‖ * (1 + A)) with hc
  have hc0 : 0 ≤ c := by positivity
  have hs0 : 0 ≤ size z0 := by unfold size; positivity
  set N := 2 ^ k with hN
  set B := size z0 * (1 + c) ^ N with hBd
  have hB0 : 0 ≤ B := by positivity
  set kap := C / 2 * (‖im‖ * (1 + A) * B) ^ 3 with hk
  have hk0 : 0 ≤ kap := by positivity
  refine ⟨N * kap + d * (‖im‖ * (A * B) ^ 2) / 4, by positivity, fun eps h0 h1 dmax hdm r w => ?_⟩
  set h0' := V q0 + kinetic (momentum im noise) im with hh0
  set K := N * kap + d * (‖im‖ * (A * B) ^ 2) / 4 with hK
  have hpow : ∀ n : ℕ, n ≤ N → size z0 * (1 + eps * c) ^ n ≤ B := fun n hn => by
    refine mul_le_mul_of_nonneg_left ?_ hs0
    have : 1 + eps * c ≤ 1 + c := by nlinarith
    calc (1 + eps * c) ^ n ≤ (1 + c) ^ n := pow_le_pow_left₀ (by positivity) this n
      _ ≤ _ := pow_le_pow_right₀ (by linarith) hn
  set Cx : Ctx d := { tg := tg, im := im, eps := eps, logu := (Flt.fin (-h0')).add (Flt.logU r), H0 := h0', dmax := dmax }
    with hCx
  have hkept : Kept Cx (Near tg V im eps c kap z0) N (K * eps ^ 2) := by
    refine ⟨fun n z v hn hz => ?_, fun n m z hnm hz => ?_, fun n z hn hz => ?_, by positivity, hdm⟩
    · have he : |Cx.step v| = eps := by
        cases v
        · simp [Ctx.step, hCx, abs_of_nonneg h0]
        · simp [Ctx.step, hCx, abs_of_nonneg h0]
      exact h.near_step im he h1 hc (hpow n hn.le) hk hz
    · exact Near.mono im (by positivity) (by positivity) hnm hz
    · refine ⟨_, h.energy_eq im z, ?_⟩
      have := h.near_energy im (z0 := z0) rfl (by simpa using hpow 0 (Nat.zero_le _)) (hpow n hn) hz
      have h3 : (n : ℝ) * (kap * eps ^ 3) ≤ N * kap * eps ^ 2 := by
        have h4 : eps ^ 3 ≤ eps ^ 2 := pow_le_pow_of_le_one h0 h1 (by norm_num)
        have h5 : (n : ℝ) ≤ N := by exact_mod_cast hn
        calc (n : ℝ) * (kap * eps ^ 3) ≤ N * (kap * eps ^ 2) := by gcongr
          _ = _ := by ring
      have h6 := (abs_le.mp this).2
      have h7 : K * eps ^ 2 = N * kap * eps ^ 2 + d * (‖im‖ * (A * B) ^ 2) / 4 * eps ^ 2 := by rw [hK]; ring
      rw [h7]
      exact h6.trans (by linarith)
  have hfin : finite? (energy tg im ⟨q0, momentum im noise, tg.g q0⟩) = some h0' := by
    rw [h.energy_eq, finite?_fin]
  have hst := hkept.mono 0 (2 ^ 0) z0 (by norm_num) (Near.start im eps c kap rfl)
  have hD := hkept.doubles k 0 w (TState.start z0) (by simp [hN]) ⟨hst, hst, by simp [TState.start], rfl⟩
  dsimp only at hD
  have hout : transition tg im eps k dmax noise r w q0 =
      { q := (doubles Cx k 0 w (TState.start z0)).prop
        accept := (doubles Cx k 0 w (TState.start z0)).alphaSum / ((max 1 (doubles Cx k 0 w (TState.start z0)).nAlpha : ℕ) : ℝ)
        nLeap := (doubles Cx k 0 w (TState.start z0)).nLeap, depth := (doubles Cx k 0 w (TState.start z0)).depth
        div := (doubles Cx k 0 w (TState.start z0)).div } := by
    unfold transition
    dsimp only
    rw [hfin]
  rw [hout]
  refine ⟨hD.2.1, fun hk => ?_⟩
  have hn := hD.2.2.2 hk rfl
  dsimp only
  rw [max_eq_right hn, le_div_iff₀ (by exact_mod_cast hn)]
  exact hD.1

/-! ## Example -/

/-- The potential `q²/2 + cos q`: not normal, with a flat minimum. -/
noncomputable def wavy : Target 1 where
  U := fun q => .fin (q 0 ^ 2 / 2 + Real.cos (q 0))
  g := fun q _ => q 0 - Real.sin (q 0)

/-- Admissible case: the potential `q²/2 + cos q` is smooth in this sense. -/
theorem wavy_smooth : Smooth wavy (fun q => q 0 ^ 2 / 2 + Real.cos (q 0)) (fun q v => (1 - Real.cos (q 0)) * v 0 ^ 2) 2 1 where
  fin := fun q => rfl
  grad := fun q v t => by
    have h1 : HasDerivAt (fun s : ℝ => q 0 + s * v 0) (v 0) t := by
      simpa using ((hasDerivAt_id t).mul_const (v 0)).const_add (q 0)
    have := ((h1.pow 2).div_const 2).add h1.cos
    refine (this.congr_deriv ?_)
    simp [wavy]
    ring
  hess := fun q v t => by
    have h1 : HasDerivAt (fun s : ℝ => q 0 + s * v 0) (v 0) t := by
      simpa using ((hasDerivAt_id t).mul_const (v 0)).const_add (q 0)
    have := (h1.sub h1.sin).mul_const (v 0)
    simp only [wavy, Finset.univ_unique, Fin.default_eq_zero, Finset.sum_singleton, Pi.add_apply, Pi.smul_apply, smul_eq_mul]
    refine (this.congr_deriv ?_)
    ring
  lip := fun x y => by
    refine (pi_norm_le_iff_of_nonneg (by positivity)).mpr fun i => ?_
    simp only [wavy, Pi.sub_apply, Real.norm_eq_abs]
    have h1 : |x 0 - y 0| ≤ ‖x - y‖ := norm_le_pi_norm (x - y) 0
    have h2 : |Real.sin (x 0) - Real.sin (y 0)| ≤ |x 0 - y 0| := Real.abs_sin_sub_sin_le _ _
    have e : x 0 - Real.sin (x 0) - (y 0 - Real.sin (y 0)) = (x 0 - y 0) - (Real.sin (x 0) - Real.sin (y 0)) := by ring
    rw [e]
    refine (abs_sub _ _).trans ?_
    linarith
  lip2 := fun q v s t => by
    simp only [Pi.add_apply, Pi.smul_apply, smul_eq_mul]
    have h1 : |v 0| ≤ ‖v‖ := norm_le_pi_norm v 0
    have h2 := Real.abs_cos_sub_cos_le (q 0 + t * v 0) (q 0 + s * v 0)
    have e : (1 - Real.cos (q 0 + s * v 0)) * v 0 ^ 2 - (1 - Real.cos (q 0 + t * v 0)) * v 0 ^ 2 =
      (Real.cos (q 0 + t * v 0) - Real.cos (q 0 + s * v 0)) * v 0 ^ 2 := by ring
    rw [e, abs_mul, abs_pow]
    have e2 : |q 0 + t * v 0 - (q 0 + s * v 0)| = |s - t| * |v 0| := by
      rw [← abs_mul, abs_sub_comm]
      congr 1
      ring
    rw [e2] at h2
    calc _ ≤ |s - t| * |v 0| * |v 0| ^ 2 := by gcongr
      _ = 1 * |s - t| * |v 0| ^ 3 := by ring
      _ ≤ _ := by gcongr
  posL := by norm_num
  posC := by norm_num

example (q0 noise : Pt 1) : ∃ K, 0 ≤ K ∧ ∀ eps : ℝ, 0 ≤ eps → eps ≤ 1 → ∀ dmax, K * eps ^ 2 ≤ dmax → ∀ (r : ℝ) (w : TDraws 10 0),
    (transition wavy (fun _ => 1) eps 10 dmax noise r w q0).div = false ∧
    (0 < 10 → Real.exp (-(K * eps ^ 2)) ≤ (transition wavy (fun _ => 1) eps 10 dmax noise r w q0).accept) :=
  transition_small wavy_smooth _ q0 noise 10

/-! ## The step search -/

open Classical in
theorem stepLoop_succ (alpha : ℝ → Flt) (target base lo hi : ℝ) (up : Bool) (k : ℕ) (eps e : ℝ)
    (he : e = if up then eps * base else eps * base⁻¹) :
    stepLoop alpha target base lo hi up (k + 1) eps =
      if ((Flt.fin target).lt (alpha e) ∧ up = false) ∨ ((alpha e).lt (.fin target) ∧ up = true) then some e
      else if e < lo ∨ hi < e then some e else stepLoop alpha target base lo hi up k e := by
  subst he
  rfl

/-- The search when all steps up to `c` are accepted: what it returns is not much below `c`, and on the way down it is
accepted. -/
theorem stepLoop_lower {alpha : ℝ → Flt} {target base lo hi c : ℝ} (hb : 1 < base)
    (hc : ∀ e, 0 < e → e ≤ c → (Flt.fin target).lt (alpha e)) (up : Bool) :
    ∀ (k : ℕ) (eps r : ℝ), 0 < eps → (up = false → c < eps) → stepLoop alpha target base lo hi up k eps = some r →
      (up = true → eps * base ≤ r) ∧ (up = false → c / base < r) ∧
      (up = false → eps ≤ hi → lo ≤ c / base → (Flt.fin target).lt (alpha r))
  | 0, _, _, _, _, h => by simp [stepLoop] at h
  | k + 1, eps, r, he, hd, h => by
    have hb0 : 0 < base := by linarith
    cases up with
    | true =>
      refine ⟨fun _ => ?_, by simp, by simp⟩
      rw [stepLoop_succ _ _ _ _ _ _ _ _ (eps * base) rfl] at h
      split_ifs at h with h1 h2
      · injection h with h
        exact h.le
      · injection h with h
        exact h.le
      · have := (stepLoop_lower hb hc true k _ r (by positivity) (by simp) h).1 rfl
        nlinarith [mul_pos he hb0]
    | false =>
      have hd := hd rfl
      have hd' : c / base < eps * base⁻¹ := by
        rw [← div_eq_mul_inv]
        exact div_lt_div_of_pos_right hd hb0
      rw [stepLoop_succ _ _ _ _ _ _ _ _ (eps * base⁻¹) rfl] at h
      refine ⟨by simp, fun _ => ?_, fun _ hhi hlo => ?_⟩
      · split_ifs at h with h1 h2
        · injection h with h
          rwa [← h]
        · injection h with h
          rwa [← h]
        · refine (stepLoop_lower hb hc false k _ r (by positivity) (fun _ => ?_) h).2.1 rfl
          by_contra hle
          exact h1 (Or.inl ⟨hc _ (by positivity) (not_lt.mp hle), rfl⟩)
      · have hlt : eps * base⁻¹ ≤ eps := by
          rw [← div_eq_mul_inv, div_le_iff₀ hb0]
          nlinarith
        split_ifs at h with h1 h2
        · injection h with h
          rw [← h]
          rcases h1 with h1 | h1
          · exact h1.1
          · simp at h1
        · rcases h2 with h2 | h2 <;> linarith
        · refine (stepLoop_lower hb hc false k _ r (by positivity) (fun _ => ?_) h).2.2 rfl (hlt.trans hhi) hlo
          by_contra hle
          exact h1 (Or.inl ⟨hc _ (by positivity) (not_lt.mp hle), rfl⟩)

/-- **C284** For a smooth target and a wanted acceptance below one, the step found is not small: there is a bound
`c > 0`, given by target, point, momentum and mass, such that whatever the first trial and the limits, the step
returned is at least the first trial or `c / scale_base`; and when the first trial is refused, it is at most `max_eps`
and `min_eps` is at most `c / scale_base`, the step returned is accepted. -/
theorem findStep_lower {tg : Target d} {V : Pt d → ℝ} {H : Pt d → Pt d → ℝ} {L C : ℝ} (h : Smooth tg V H L C)
    (im q noise : Pt d) {target : ℝ} (ht : target < 1) :
    ∃ c, 0 < c ∧ ∀ (eps0 base lo hi : ℝ) (k : ℕ) (r : ℝ), 0 < eps0 → 1 < base →
      findStep tg im q noise eps0 target base lo hi k = some r →
      min eps0 (c / base) ≤ r ∧
      (¬ (Flt.fin target).lt (stepAlpha tg im ⟨q, momentum im noise, tg.g q⟩ eps0) → eps0 ≤ hi → lo ≤ c / base →
        (Flt.fin target).lt (stepAlpha tg im ⟨q, momentum im noise, tg.g q⟩ r)) := by
  obtain ⟨K, hK, hA⟩ := stepAlpha_small h im ⟨q, momentum im noise, tg.g q⟩ rfl
  obtain ⟨c, hc, hc1, hcK⟩ : ∃ c : ℝ, 0 < c ∧ c ≤ 1 ∧ target < Real.exp (-(K * c)) := by
    have hcont : Filter.Tendsto (fun c : ℝ => Real.exp (-(K * c))) (nhdsWithin 0 (Set.Ioi 0)) (nhds 1) := by
      have : Continuous fun c : ℝ => Real.exp (-(K * c)) := by fun_prop
      have h0 := this.tendsto 0
      simp only [mul_zero, neg_zero, Real.exp_zero] at h0
      exact h0.mono_left nhdsWithin_le_nhds
    have h1 := hcont.eventually_const_lt ht
    have h2 : ∀ᶠ c : ℝ in nhdsWithin 0 (Set.Ioi 0), 0 < c := eventually_mem_nhdsWithin
    have h3 : ∀ᶠ c : ℝ in nhdsWithin 0 (Set.Ioi 0), c ≤ 1 :=
      Filter.Eventually.filter_mono nhdsWithin_le_nhds (eventually_le_nhds one_pos)
    obtain ⟨c, a, b, e⟩ := (h2.and (h3.and h1)).exists
    exact ⟨c, a, b, e⟩
  have hgood : ∀ e, 0 < e → e ≤ c → (Flt.fin target).lt (stepAlpha tg im ⟨q, momentum im noise, tg.g q⟩ e) := by
    intro e he hec
    obtain ⟨a, ha, hl, -⟩ := hA e (by rw [abs_of_pos he]; linarith)
    rw [ha, Flt.fin_lt]
    refine hcK.trans_le (le_trans ?_ hl)
    rw [abs_of_pos he]
    refine Real.exp_le_exp.mpr (neg_le_neg (mul_le_mul_of_nonneg_left ?_ hK))
    nlinarith [pow_le_one₀ (n := 2) he.le (hec.trans hc1), sq_nonneg e]
  refine ⟨c, hc, fun eps0 base lo hi k r h0 hb hr => ?_⟩
  classical
  rw [findStep] at hr
  by_cases hup : (Flt.fin target).lt (stepAlpha tg im ⟨q, momentum im noise, tg.g q⟩ eps0)
  · rw [decide_eq_true hup] at hr
    have := (stepLoop_lower hb hgood true k eps0 r h0 (by simp) hr).1 rfl
    exact ⟨(min_le_left _ _).trans (by nlinarith), fun hn => absurd hup hn⟩
  · rw [decide_eq_false hup] at hr
    have hce : c < eps0 := by
      by_contra hle
      exact hup (hgood _ h0 (not_lt.mp hle))
    have := stepLoop_lower hb hgood false k eps0 r h0 (fun _ => hce) hr
    exact ⟨(min_le_right _ _).trans (this.2.1 rfl).le, fun _ => this.2.2 rfl⟩

/-- The step found for the wavy target with the defaults of the search. -/
example (q noise : Pt 1) : ∃ c, 0 < c ∧ ∀ (k : ℕ) (r : ℝ),
    findStep wavy (fun _ => 1) q noise 1 0.5 2 1e-6 1e2 k = some r → min 1 (c / 2) ≤ r := by
  obtain ⟨c, hc, h⟩ := findStep_lower wavy_smooth (fun _ => 1) q noise (target := 0.5) (by norm_num)
  exact ⟨c, hc, fun k r hr => (h 1 2 _ _ k r one_pos (by norm_num) hr).1⟩

end Verif.Nuts
