import Verif.Mcmc.PropsNutsTree
import Mathlib.Data.Matrix.Mul
import Mathlib.LinearAlgebra.Matrix.Symmetric
import Mathlib.Analysis.SpecificLimits.Basic

/-!
# C272: leapfrog trajectories on normal targets

For a normal target with precision matrix `A` the potential is a quadratic form.  The
integrator then conserves a modified quadratic energy exactly, whatever the number of steps.
-/

set_option autoImplicit false

namespace Verif.Nuts

open Verif
open Verif.SMC (Pt)
open Matrix

variable {d : ℕ}

/-- The potential of a normal density with precision `A` and mean `mu`: minus its logarithm up
to the constant `u0`, and the gradient of the quadratic form. -/
noncomputable def normalTarget (A : Matrix (Fin d) (Fin d) ℝ) (mu : Pt d) (u0 : ℝ) : Target d where
  U := fun q => .fin (u0 + (1 / 2) * ∑ i, (q i - mu i) * (A *ᵥ (fun j => q j - mu j)) i)
  g := fun q => A *ᵥ (fun j => q j - mu j)

/-- Energy above the minimum of the potential. -/
noncomputable def above (A : Matrix (Fin d) (Fin d) ℝ) (mu im : Pt d) (z : Z d) : ℝ :=
  (1 / 2) * ∑ i, (z.q i - mu i) * (A *ᵥ (fun j => z.q j - mu j)) i + kinetic z.p im

theorem energy_normal (A : Matrix (Fin d) (Fin d) ℝ) (mu im : Pt d) (u0 : ℝ) (z : Z d) :
    energy (normalTarget A mu u0) im z = .fin (u0 + above A mu im z) := by
  unfold energy normalTarget above
  dsimp only
  rw [Flt.add_fin]
  congr 1
  ring

/-- The modified energy (twice) that the integrator conserves. -/
noncomputable def shadow (A : Matrix (Fin d) (Fin d) ℝ) (mu im : Pt d) (eps : ℝ) (z : Z d) : ℝ :=
  ∑ i, (im i * z.p i ^ 2 + (z.q i - mu i) * (A *ᵥ (fun j => z.q j - mu j)) i -
    eps ^ 2 / 4 * (im i * (A *ᵥ (fun j => z.q j - mu j)) i ^ 2))

theorem sym_swap {A : Matrix (Fin d) (Fin d) ℝ} (hA : A.IsSymm) (x y : Pt d) :
    ∑ i, x i * (A *ᵥ y) i = ∑ i, y i * (A *ᵥ x) i := by
  change x ⬝ᵥ (A *ᵥ y) = y ⬝ᵥ (A *ᵥ x)
  rw [dotProduct_mulVec, ← mulVec_transpose, hA.eq, dotProduct_comm]

/-- The state after one step carries its own gradient. -/
theorem leapfrog_grad (tg : Target d) (z : Z d) (eps : ℝ) (im : Pt d) :
    (leapfrog tg z eps im).g = tg.g (leapfrog tg z eps im).q := rfl

/-- One step, forwards or backwards, conserves the modified energy. -/
theorem shadow_step {A : Matrix (Fin d) (Fin d) ℝ} (hA : A.IsSymm) (mu im : Pt d) (u0 e eps : ℝ)
    (he : e ^ 2 = eps ^ 2) (z : Z d) (hz : z.g = (normalTarget A mu u0).g z.q) :
    shadow A mu im eps (leapfrog (normalTarget A mu u0) z e im) = shadow A mu im eps z := by
  set z1 := leapfrog (normalTarget A mu u0) z e im with hz1
  set x : Pt d := fun j => z.q j - mu j with hx
  set x1 : Pt d := fun j => z1.q j - mu j with hx1
  have hg : ∀ i, z.g i = (A *ᵥ x) i := fun i => by rw [hz]; rfl
  have hq : ∀ i, x1 i = x i + e * ((z.p i - 0.5 * e * (A *ᵥ x) i) * im i) := by
    intro i
    simp only [hx1, hz1, leapfrog, hx, hg]
    ring
  have hp : ∀ i, z1.p i = z.p i - 0.5 * e * (A *ᵥ x) i - 0.5 * e * (A *ᵥ x1) i := by
    intro i
    have : z1.p i = z.p i - 0.5 * e * z.g i - 0.5 * e * (normalTarget A mu u0).g z1.q i := rfl
    rw [this, hg]; rfl
  have key : shadow A mu im eps z1 - shadow A mu im eps z =
      ∑ i, x i * (A *ᵥ x1) i - ∑ i, x1 i * (A *ᵥ x) i := by
    unfold shadow
    rw [← Finset.sum_sub_distrib, ← Finset.sum_sub_distrib]
    refine Finset.sum_congr rfl fun i _ => ?_
    change (im i * z1.p i ^ 2 + x1 i * (A *ᵥ x1) i - eps ^ 2 / 4 * (im i * (A *ᵥ x1) i ^ 2)) -
      (im i * z.p i ^ 2 + x i * (A *ᵥ x) i - eps ^ 2 / 4 * (im i * (A *ᵥ x) i ^ 2)) = _
    rw [← he, hp, hq]
    ring
  rw [sym_swap hA x x1, sub_self] at key
  linarith

/-- Any number of steps conserves the modified energy. -/
theorem shadow_iterate {A : Matrix (Fin d) (Fin d) ℝ} (hA : A.IsSymm) (mu im : Pt d) (u0 eps : ℝ)
    (z : Z d) (hz : z.g = (normalTarget A mu u0).g z.q) (n : ℕ) :
    shadow A mu im eps ((fun z => leapfrog (normalTarget A mu u0) z eps im)^[n] z) =
        shadow A mu im eps z ∧
      ((fun z => leapfrog (normalTarget A mu u0) z eps im)^[n] z).g =
        (normalTarget A mu u0).g ((fun z => leapfrog (normalTarget A mu u0) z eps im)^[n] z).q := by
  induction n with
  | zero => exact ⟨rfl, hz⟩
  | succ n ih =>
    rw [Function.iterate_succ_apply']
    exact ⟨(shadow_step hA mu im u0 eps eps rfl _ ih.2).trans ih.1, rfl⟩

/-- The step is stable with margin `c`: `(eps^2/4) * (A x)ᵀ M⁻¹ (A x) <= (1 - c) xᵀ A x`. -/
def Stable (A : Matrix (Fin d) (Fin d) ℝ) (im : Pt d) (eps c : ℝ) : Prop :=
  ∀ x : Pt d, eps ^ 2 / 4 * ∑ i, im i * (A *ᵥ x) i ^ 2 ≤ (1 - c) * ∑ i, x i * (A *ᵥ x) i

theorem shadow_bounds {A : Matrix (Fin d) (Fin d) ℝ} (mu im : Pt d) (eps c : ℝ)
    (him : ∀ i, 0 ≤ im i) (hc1 : c ≤ 1) (hs : Stable A im eps c) (z : Z d) :
    2 * c * above A mu im z ≤ shadow A mu im eps z ∧
      shadow A mu im eps z ≤ 2 * above A mu im z := by
  set x : Pt d := fun j => z.q j - mu j with hx
  have e1 : shadow A mu im eps z = ∑ i, im i * z.p i ^ 2 + ∑ i, x i * (A *ᵥ x) i -
      eps ^ 2 / 4 * ∑ i, im i * (A *ᵥ x) i ^ 2 := by
    unfold shadow
    rw [Finset.sum_sub_distrib, Finset.sum_add_distrib, Finset.mul_sum]
  have e2 : 2 * above A mu im z = ∑ i, im i * z.p i ^ 2 + ∑ i, x i * (A *ᵥ x) i := by
    have : ∑ i, z.p i * z.p i * im i = ∑ i, im i * z.p i ^ 2 :=
      Finset.sum_congr rfl fun i _ => by ring
    unfold above kinetic
    rw [this]
    change 2 * (1 / 2 * ∑ i, x i * (A *ᵥ x) i + 0.5 * _) = _
    ring
  have k0 : 0 ≤ ∑ i, im i * z.p i ^ 2 :=
    Finset.sum_nonneg fun i _ => mul_nonneg (him i) (sq_nonneg _)
  have g0 : 0 ≤ eps ^ 2 / 4 * ∑ i, im i * (A *ᵥ x) i ^ 2 :=
    mul_nonneg (by positivity) (Finset.sum_nonneg fun i _ => mul_nonneg (him i) (sq_nonneg _))
  have h := hs x
  refine ⟨?_, by rw [e1, e2]; linarith⟩
  have : 2 * c * above A mu im z = c * (2 * above A mu im z) := by ring
  rw [this, e1, e2]
  nlinarith

/-- **C272** Below the stability limit of the step the energy does not drift: however many
steps are made, the energy above the minimum stays within the factor `c`. -/
theorem leapfrog_no_drift {A : Matrix (Fin d) (Fin d) ℝ} (hA : A.IsSymm) (mu im : Pt d)
    (u0 eps c : ℝ) (him : ∀ i, 0 ≤ im i) (hc0 : 0 < c) (hc1 : c ≤ 1) (hs : Stable A im eps c)
    (q p : Pt d) (n : ℕ) :
    let tg := normalTarget A mu u0
    let z : Z d := ⟨q, p, tg.g q⟩
    let zn := (fun z => leapfrog tg z eps im)^[n] z
    c * above A mu im z ≤ above A mu im zn ∧ above A mu im zn ≤ above A mu im z / c := by
  intro tg z zn
  have h1 := shadow_bounds (A := A) mu im eps c him hc1 hs z
  have h2 := shadow_bounds (A := A) mu im eps c him hc1 hs zn
  have h3 : shadow A mu im eps zn = shadow A mu im eps z :=
    (shadow_iterate hA mu im u0 eps z rfl n).1
  rw [h3] at h2
  constructor
  · linarith
  · rw [le_div_iff₀ hc0]; nlinarith

/-! ## A transition -/

/-- The states met by a transition. -/
structure OnOrbit (A : Matrix (Fin d) (Fin d) ℝ) (mu im : Pt d) (u0 eps s : ℝ) (z : Z d) : Prop where
  grad : z.g = (normalTarget A mu u0).g z.q
  shad : shadow A mu im eps z = s

/-- What is kept for a tree. -/
structure TreeOk (P : Z d → Prop) (a : ℝ) (minus plus : Z d) (alphaSum : ℝ) (nAlpha : ℕ)
    (div : Bool) : Prop where
  hm : P minus
  hp : P plus
  acc : a * nAlpha ≤ alphaSum
  nodiv : div = false

section
variable {A : Matrix (Fin d) (Fin d) ℝ} {mu im : Pt d} {u0 eps : ℝ}

theorem leaf_ok (hA : A.IsSymm) (c : ℝ) (him : ∀ i, 0 ≤ im i) (hc0 : 0 < c) (hc1 : c ≤ 1)
    (hs : Stable A im eps c) (s H0 dmax : ℝ) (logu : Flt) (e0 : ℝ) (hH : H0 = u0 + e0)
    (he00 : 0 ≤ e0)
    (hse : s ≤ 2 * e0) (hd : (1 / c - 1) * e0 ≤ dmax) (v : Bool) (z : Z d)
    (hz : OnOrbit A mu im u0 eps s z) :
    let t := leaf ⟨normalTarget A mu u0, im, eps, logu, H0, dmax⟩ v z
    TreeOk (OnOrbit A mu im u0 eps s) (Real.exp (-((1 / c - 1) * e0))) t.minus t.plus t.alphaSum
      t.nAlpha t.div ∧ t.nAlpha = 1 := by
  intro t
  set e : ℝ := Ctx.step ⟨normalTarget A mu u0, im, eps, logu, H0, dmax⟩ v with he
  have he2 : e ^ 2 = eps ^ 2 := by
    rw [he]; unfold Ctx.step; cases v <;> simp
  set z1 := leapfrog (normalTarget A mu u0) z e im with hz1
  have o1 : OnOrbit A mu im u0 eps s z1 :=
    ⟨rfl, (shadow_step hA mu im u0 e eps he2 z hz.grad).trans hz.shad⟩
  have hfin : finite? (energy (normalTarget A mu u0) im z1) = some (u0 + above A mu im z1) := by
    rw [energy_normal, finite?_fin]
  have hb : above A mu im z1 - e0 ≤ (1 / c - 1) * e0 := by
    have h2 := (shadow_bounds (A := A) mu im eps c him hc1 hs z1).1
    rw [o1.shad] at h2
    have : above A mu im z1 ≤ e0 / c := by rw [le_div_iff₀ hc0]; nlinarith
    have e : e0 / c = (1 / c - 1) * e0 + e0 := by ring
    linarith
  have ht : t = { minus := z1, plus := z1, prop := z1.q
                  nValid := open Classical in if logu.le (.fin (-(u0 + above A mu im z1))) then 1 else 0
                  cont := open Classical in
                    decide (logu.lt (.fin (dmax - (u0 + above A mu im z1)))) &&
                      !decide (dmax < u0 + above A mu im z1 - H0)
                  alphaSum := Real.exp (min (-(u0 + above A mu im z1 - H0)) 0)
                  nAlpha := 1, nLeap := 1
                  div := open Classical in decide (dmax < u0 + above A mu im z1 - H0) } := by
    change leaf _ v z = _
    unfold leaf
    dsimp only
    rw [show finite? (energy (normalTarget A mu u0) im (leapfrog (normalTarget A mu u0) z
      (Ctx.step ⟨normalTarget A mu u0, im, eps, logu, H0, dmax⟩ v) im)) =
        some (u0 + above A mu im z1) from hfin]
  have hlt : u0 + above A mu im z1 - H0 ≤ (1 / c - 1) * e0 := by rw [hH]; linarith
  have hk : 0 ≤ (1 / c - 1) * e0 :=
    mul_nonneg (sub_nonneg.mpr ((one_le_div hc0).mpr hc1)) he00
  rw [ht]
  refine ⟨⟨o1, o1, ?_, ?_⟩, rfl⟩
  · dsimp only
    rw [Nat.cast_one, mul_one]
    exact Real.exp_le_exp.mpr (le_min (by linarith) (by linarith))
  · simp only [decide_eq_false_iff_not, not_lt]; linarith

theorem buildTree_ok (hA : A.IsSymm) (c : ℝ) (him : ∀ i, 0 ≤ im i) (hc0 : 0 < c) (hc1 : c ≤ 1)
    (hs : Stable A im eps c) (s H0 dmax : ℝ) (logu : Flt) (e0 : ℝ) (hH : H0 = u0 + e0)
    (he00 : 0 ≤ e0) (hse : s ≤ 2 * e0) (hd : (1 / c - 1) * e0 ≤ dmax) (v : Bool) (k : ℕ)
    (w : Draws k) (z : Z d) (hz : OnOrbit A mu im u0 eps s z) :
    let t := buildTree ⟨normalTarget A mu u0, im, eps, logu, H0, dmax⟩ v k w z
    TreeOk (OnOrbit A mu im u0 eps s) (Real.exp (-((1 / c - 1) * e0))) t.minus t.plus t.alphaSum
      t.nAlpha t.div ∧ 1 ≤ t.nAlpha := by
  induction k generalizing z with
  | zero =>
    have := leaf_ok hA c him hc0 hc1 hs s H0 dmax logu e0 hH he00 hse hd v z hz
    exact ⟨this.1, this.2.ge⟩
  | succ k ih =>
    intro t
    set C : Ctx d := ⟨normalTarget A mu u0, im, eps, logu, H0, dmax⟩ with hC
    have h1 := ih w.2.1 z hz
    change TreeOk _ _ (buildTree C v (k + 1) w z).minus (buildTree C v (k + 1) w z).plus
      (buildTree C v (k + 1) w z).alphaSum (buildTree C v (k + 1) w z).nAlpha
      (buildTree C v (k + 1) w z).div ∧ 1 ≤ (buildTree C v (k + 1) w z).nAlpha
    unfold buildTree
    dsimp only
    set a := buildTree C v k w.2.1 z with ha
    split_ifs with hcont hv
    · have h2 := ih w.2.2 a.plus h1.1.hp
      subst hv
      set b := buildTree C true k w.2.2 a.plus with hb
      refine ⟨⟨h1.1.hm, h2.1.hp, ?_, ?_⟩, ?_⟩
      · have e1 := h1.1.acc
        have e2 := h2.1.acc
        simp only [join]
        push_cast
        linarith
      · simp only [join, Bool.or_eq_false_iff]; exact ⟨h1.1.nodiv, h2.1.nodiv⟩
      · simp only [join]; have := h1.2; omega
    · have hv' : v = false := by simpa using hv
      subst hv'
      have h2 := ih w.2.2 a.minus h1.1.hm
      set b := buildTree C false k w.2.2 a.minus with hb
      refine ⟨⟨h2.1.hm, h1.1.hp, ?_, ?_⟩, ?_⟩
      · have e1 := h1.1.acc
        have e2 := h2.1.acc
        simp only [join]
        push_cast
        linarith
      · simp only [join, Bool.or_eq_false_iff]; exact ⟨h1.1.nodiv, h2.1.nodiv⟩
      · simp only [join]; have := h1.2; omega
    · exact h1

theorem double_ok (hA : A.IsSymm) (c : ℝ) (him : ∀ i, 0 ≤ im i) (hc0 : 0 < c) (hc1 : c ≤ 1)
    (hs : Stable A im eps c) (s H0 dmax : ℝ) (logu : Flt) (e0 : ℝ) (hH : H0 = u0 + e0)
    (he00 : 0 ≤ e0) (hse : s ≤ 2 * e0) (hd : (1 / c - 1) * e0 ≤ dmax) (j : ℕ)
    (w : ℝ × Draws j × ℝ) (st : TState d)
    (hst : TreeOk (OnOrbit A mu im u0 eps s) (Real.exp (-((1 / c - 1) * e0))) st.minus st.plus
      st.alphaSum st.nAlpha st.div) :
    let t := double ⟨normalTarget A mu u0, im, eps, logu, H0, dmax⟩ j w st
    TreeOk (OnOrbit A mu im u0 eps s) (Real.exp (-((1 / c - 1) * e0))) t.minus t.plus t.alphaSum
      t.nAlpha t.div ∧ 1 ≤ t.nAlpha := by
  intro t
  set C : Ctx d := ⟨normalTarget A mu u0, im, eps, logu, H0, dmax⟩ with hC
  change TreeOk _ _ (double C j w st).minus (double C j w st).plus (double C j w st).alphaSum
    (double C j w st).nAlpha (double C j w st).div ∧ 1 ≤ (double C j w st).nAlpha
  unfold double
  dsimp only
  generalize hv : (!decide (w.1 < 0.5)) = v
  have h2 := buildTree_ok hA c him hc0 hc1 hs s H0 dmax logu e0 hH he00 hse hd v j w.2.1
    (if v then st.plus else st.minus) (by cases v; exacts [hst.hm, hst.hp])
  dsimp only at h2
  rw [← hC] at h2
  set b := buildTree C v j w.2.1 (if v then st.plus else st.minus) with hb
  refine ⟨⟨?_, ?_, ?_, ?_⟩, ?_⟩
  · cases v; exacts [h2.1.hm, hst.hm]
  · cases v; exacts [hst.hp, h2.1.hp]
  · have e1 := hst.acc
    have e2 := h2.1.acc
    push_cast
    linarith
  · simp only [Bool.or_eq_false_iff]; exact ⟨hst.nodiv, h2.1.nodiv⟩
  · have := h2.2; omega

theorem doubles_ok (hA : A.IsSymm) (c : ℝ) (him : ∀ i, 0 ≤ im i) (hc0 : 0 < c) (hc1 : c ≤ 1)
    (hs : Stable A im eps c) (s H0 dmax : ℝ) (logu : Flt) (e0 : ℝ) (hH : H0 = u0 + e0)
    (he00 : 0 ≤ e0) (hse : s ≤ 2 * e0) (hd : (1 / c - 1) * e0 ≤ dmax) (n j : ℕ)
    (w : TDraws n j) (st : TState d)
    (hst : TreeOk (OnOrbit A mu im u0 eps s) (Real.exp (-((1 / c - 1) * e0))) st.minus st.plus
      st.alphaSum st.nAlpha st.div) :
    let t := doubles ⟨normalTarget A mu u0, im, eps, logu, H0, dmax⟩ n j w st
    TreeOk (OnOrbit A mu im u0 eps s) (Real.exp (-((1 / c - 1) * e0))) t.minus t.plus t.alphaSum
      t.nAlpha t.div ∧ (1 ≤ st.nAlpha → 1 ≤ t.nAlpha) ∧
      (0 < n → st.cont = true → 1 ≤ t.nAlpha) := by
  induction n generalizing j st with
  | zero => exact ⟨hst, id, fun h => absurd h (lt_irrefl _)⟩
  | succ n ih =>
    intro t
    set C : Ctx d := ⟨normalTarget A mu u0, im, eps, logu, H0, dmax⟩ with hC
    change TreeOk _ _ (doubles C (n + 1) j w st).minus (doubles C (n + 1) j w st).plus
      (doubles C (n + 1) j w st).alphaSum (doubles C (n + 1) j w st).nAlpha
      (doubles C (n + 1) j w st).div ∧ (_ → 1 ≤ (doubles C (n + 1) j w st).nAlpha) ∧
      (_ → _ → 1 ≤ (doubles C (n + 1) j w st).nAlpha)
    unfold doubles
    have h1 := double_ok hA c him hc0 hc1 hs s H0 dmax logu e0 hH he00 hse hd j w.1 st hst
    have h2 := ih (j + 1) w.2 (double C j w.1 st) h1.1
    split_ifs with hc
    · exact ⟨h2.1, fun _ => h2.2.1 h1.2, fun _ _ => h2.2.1 h1.2⟩
    · exact ⟨hst, id, fun _ h => absurd h hc⟩

end

/-- **C272** A transition with a normal target and a step below the stability limit, whatever
the depth and the draws: no divergence is reported if `delta_max` is at least
`(1/c - 1) (H0 - min U)`, and the mean acceptance is at least
`exp (-(1/c - 1) (H0 - min U))`, where `c` is the margin of the step and tends to one with
small steps. -/
theorem transition_normal {A : Matrix (Fin d) (Fin d) ℝ} (hA : A.IsSymm)
    (hpos : ∀ x : Pt d, 0 ≤ ∑ i, x i * (A *ᵥ x) i) (mu im : Pt d) (u0 eps c dmax : ℝ)
    (him : ∀ i, 0 ≤ im i) (hc0 : 0 < c) (hc1 : c ≤ 1) (hs : Stable A im eps c)
    (noise q0 : Pt d) (r : ℝ) (k : ℕ) (w : TDraws k 0)
    (hd : (1 / c - 1) *
      (1 / 2 * ∑ i, (q0 i - mu i) * (A *ᵥ (fun j => q0 j - mu j)) i +
        kinetic (momentum im noise) im) ≤ dmax) :
    let out := transition (normalTarget A mu u0) im eps k dmax noise r w q0
    out.div = false ∧ (0 < k → Real.exp (-((1 / c - 1) *
      (1 / 2 * ∑ i, (q0 i - mu i) * (A *ᵥ (fun j => q0 j - mu j)) i +
        kinetic (momentum im noise) im))) ≤ out.accept) := by
  intro out
  set z0 : Z d := ⟨q0, momentum im noise, (normalTarget A mu u0).g q0⟩ with hz0
  set e0 := above A mu im z0 with he0
  have he : e0 = 1 / 2 * ∑ i, (q0 i - mu i) * (A *ᵥ (fun j => q0 j - mu j)) i +
      kinetic (momentum im noise) im := rfl
  rw [← he] at hd ⊢
  have he00 : 0 ≤ e0 := by
    rw [he]
    have h1 := hpos fun j => q0 j - mu j
    have h2 : 0 ≤ kinetic (momentum im noise) im :=
      mul_nonneg (by norm_num) (Finset.sum_nonneg fun i _ =>
        mul_nonneg (mul_self_nonneg _) (him i))
    linarith
  have hfin : finite? (energy (normalTarget A mu u0) im z0) = some (u0 + e0) := by
    rw [energy_normal, finite?_fin]
  have hsb := (shadow_bounds (A := A) mu im eps c him hc1 hs z0).2
  have h := doubles_ok (A := A) (mu := mu) (u0 := u0) hA c him hc0 hc1 hs
    (shadow A mu im eps z0) (u0 + e0) dmax ((Flt.fin (-(u0 + e0))).add (Flt.logU r)) e0 rfl he00
    hsb hd k 0 w (TState.start z0) ⟨⟨rfl, rfl⟩, ⟨rfl, rfl⟩, by simp [TState.start], rfl⟩
  set D := doubles ⟨normalTarget A mu u0, im, eps, (Flt.fin (-(u0 + e0))).add (Flt.logU r),
    u0 + e0, dmax⟩ k 0 w (TState.start z0) with hD
  have hout : out = { q := D.prop, accept := D.alphaSum / ((max 1 D.nAlpha : ℕ) : ℝ)
                      nLeap := D.nLeap, depth := D.depth, div := D.div } := by
    change transition _ _ _ _ _ _ _ _ _ = _
    unfold transition
    dsimp only
    rw [show finite? (energy (normalTarget A mu u0) im
      ⟨q0, momentum im noise, (normalTarget A mu u0).g q0⟩) = some (u0 + e0) from hfin]
  rw [hout]
  refine ⟨h.1.nodiv, fun hk => ?_⟩
  have hn := h.2.2 hk rfl
  have ha := h.1.acc
  dsimp only
  rw [max_eq_right hn, le_div_iff₀ (by exact_mod_cast hn)]
  exact ha

/-! ## The stability limit -/

/-- **C272** The gradient of `normalTarget` is the gradient of its potential. -/
theorem normalTarget_grad {A : Matrix (Fin d) (Fin d) ℝ} (hA : A.IsSymm) (mu : Pt d) (u0 : ℝ)
    (q v : Pt d) (t : ℝ) :
    (normalTarget A mu u0).U (fun i => q i + t * v i) =
      ((normalTarget A mu u0).U q).add (.fin (t * ∑ i, v i * (normalTarget A mu u0).g q i +
        t ^ 2 / 2 * ∑ i, v i * (A *ᵥ v) i)) := by
  set x : Pt d := fun j => q j - mu j with hx
  have hm : A *ᵥ (fun j => q j + t * v j - mu j) = fun i => (A *ᵥ x) i + t * (A *ᵥ v) i := by
    have : (fun j => q j + t * v j - mu j) = x + t • v := by
      funext j; simp [hx]; ring
    rw [this, mulVec_add, mulVec_smul]; rfl
  have hsw := sym_swap hA x v
  have e1 : ∑ i, (q i + t * v i - mu i) * (A *ᵥ (fun j => q j + t * v j - mu j)) i =
      ∑ i, x i * (A *ᵥ x) i + t * ∑ i, x i * (A *ᵥ v) i + t * ∑ i, v i * (A *ᵥ x) i +
        t ^ 2 * ∑ i, v i * (A *ᵥ v) i := by
    rw [hm, Finset.mul_sum, Finset.mul_sum, Finset.mul_sum, ← Finset.sum_add_distrib,
      ← Finset.sum_add_distrib, ← Finset.sum_add_distrib]
    refine Finset.sum_congr rfl fun i _ => ?_
    simp only [hx]; ring
  unfold normalTarget
  dsimp only
  rw [Flt.add_fin, e1, hsw]
  congr 1
  change _ = u0 + 1 / 2 * ∑ i, x i * (A *ᵥ x) i + (t * ∑ i, v i * (A *ᵥ x) i + _)
  ring

/-- **C272** Independent components: the step is stable when `eps` is below twice the scale of
every coordinate in units of the mass, `eps^2 a_i M_i⁻¹ < 4`. -/
theorem stable_diagonal (a im : Pt d) (eps c : ℝ) (ha : ∀ i, 0 ≤ a i)
    (h : ∀ i, eps ^ 2 * (a i * im i) ≤ 4 * (1 - c)) : Stable (Matrix.diagonal a) im eps c := by
  intro x
  simp only [mulVec_diagonal, Finset.mul_sum]
  refine Finset.sum_le_sum fun i _ => ?_
  have := mul_le_mul_of_nonneg_right (h i) (mul_nonneg (ha i) (sq_nonneg (x i)))
  nlinarith

/-- Coordinate along `v`. -/
noncomputable def along (A : Matrix (Fin d) (Fin d) ℝ) (mu v : Pt d) (z : Z d) : ℝ :=
  ∑ i, (z.q i - mu i) * (A *ᵥ v) i

/-- Velocity along `v`. -/
noncomputable def speed (A : Matrix (Fin d) (Fin d) ℝ) (im v : Pt d) (z : Z d) : ℝ :=
  ∑ i, im i * z.p i * (A *ᵥ v) i

theorem along_step {A : Matrix (Fin d) (Fin d) ℝ} (hA : A.IsSymm) (mu im v : Pt d)
    (u0 e lam : ℝ) (hv : ∀ i, im i * (A *ᵥ v) i = lam * v i) (z : Z d)
    (hz : z.g = (normalTarget A mu u0).g z.q) :
    along A mu v (leapfrog (normalTarget A mu u0) z e im) =
      (1 - e ^ 2 * lam / 2) * along A mu v z + e * speed A im v z := by
  set x : Pt d := fun j => z.q j - mu j with hx
  have hg : ∀ i, z.g i = (A *ᵥ x) i := fun i => by rw [hz]; rfl
  have h1 : ∑ i, v i * (A *ᵥ x) i = along A mu v z := sym_swap hA v x
  have h2 : ∑ i, im i * (A *ᵥ x) i * (A *ᵥ v) i = lam * along A mu v z := by
    rw [← h1, Finset.mul_sum]
    refine Finset.sum_congr rfl fun i _ => ?_
    have := hv i
    calc _ = (im i * (A *ᵥ v) i) * (A *ᵥ x) i := by ring
      _ = _ := by rw [this]; ring
  have h3 : along A mu v (leapfrog (normalTarget A mu u0) z e im) =
      along A mu v z + e * speed A im v z - e ^ 2 / 2 * ∑ i, im i * (A *ᵥ x) i * (A *ᵥ v) i := by
    unfold along speed
    rw [Finset.mul_sum, Finset.mul_sum, ← Finset.sum_add_distrib, ← Finset.sum_sub_distrib]
    refine Finset.sum_congr rfl fun i _ => ?_
    simp only [leapfrog, hg]
    ring
  rw [h3, h2]; ring

theorem speed_step {A : Matrix (Fin d) (Fin d) ℝ} (hA : A.IsSymm) (mu im v : Pt d)
    (u0 e lam : ℝ) (hv : ∀ i, im i * (A *ᵥ v) i = lam * v i) (z : Z d)
    (hz : z.g = (normalTarget A mu u0).g z.q) :
    speed A im v (leapfrog (normalTarget A mu u0) z e im) = speed A im v z -
      e / 2 * lam * along A mu v z -
      e / 2 * lam * along A mu v (leapfrog (normalTarget A mu u0) z e im) := by
  set z1 := leapfrog (normalTarget A mu u0) z e im with hz1
  have h : ∀ y : Z d, ∑ i, im i * (A *ᵥ (fun j => y.q j - mu j)) i * (A *ᵥ v) i =
      lam * along A mu v y := by
    intro y
    have h1 : ∑ i, v i * (A *ᵥ (fun j => y.q j - mu j)) i = along A mu v y :=
      sym_swap hA v (fun j => y.q j - mu j)
    rw [← h1, Finset.mul_sum]
    refine Finset.sum_congr rfl fun i _ => ?_
    have := hv i
    calc _ = (im i * (A *ᵥ v) i) * (A *ᵥ (fun j => y.q j - mu j)) i := by ring
      _ = _ := by rw [this]; ring
  have hg : ∀ i, z.g i = (A *ᵥ (fun j => z.q j - mu j)) i := fun i => by rw [hz]; rfl
  have hp : ∀ i, z1.p i = z.p i - 0.5 * e * (A *ᵥ (fun j => z.q j - mu j)) i -
      0.5 * e * (A *ᵥ (fun j => z1.q j - mu j)) i := by
    intro i
    have : z1.p i = z.p i - 0.5 * e * z.g i - 0.5 * e * (normalTarget A mu u0).g z1.q i := rfl
    rw [this, hg]; rfl
  have : speed A im v z1 = speed A im v z -
      e / 2 * ∑ i, im i * (A *ᵥ (fun j => z.q j - mu j)) i * (A *ᵥ v) i -
      e / 2 * ∑ i, im i * (A *ᵥ (fun j => z1.q j - mu j)) i * (A *ᵥ v) i := by
    unfold speed
    rw [Finset.mul_sum, Finset.mul_sum, ← Finset.sum_sub_distrib, ← Finset.sum_sub_distrib]
    refine Finset.sum_congr rfl fun i _ => ?_
    rw [hp]; ring
  rw [this, h z, h z1]; ring

/-- Successive positions satisfy a three-term recurrence. -/
theorem along_three {A : Matrix (Fin d) (Fin d) ℝ} (hA : A.IsSymm) (mu im v : Pt d)
    (u0 e lam : ℝ) (hv : ∀ i, im i * (A *ᵥ v) i = lam * v i) (z : Z d)
    (hz : z.g = (normalTarget A mu u0).g z.q) :
    let z1 := leapfrog (normalTarget A mu u0) z e im
    along A mu v (leapfrog (normalTarget A mu u0) z1 e im) =
      (2 - e ^ 2 * lam) * along A mu v z1 - along A mu v z := by
  intro z1
  have h1 := along_step hA mu im v u0 e lam hv z hz
  have h2 := along_step hA mu im v u0 e lam hv z1 rfl
  have h3 := speed_step hA mu im v u0 e lam hv z hz
  change along A mu v z1 = _ at h1
  change speed A im v z1 = _ - e / 2 * lam * along A mu v z1 at h3
  rw [h2, h3]
  linear_combination (1 : ℝ) * (-h1)

/-- Cauchy-Schwarz for a positive semidefinite form. -/
theorem psd_cauchy {A : Matrix (Fin d) (Fin d) ℝ} (hA : A.IsSymm)
    (hpos : ∀ x : Pt d, 0 ≤ ∑ i, x i * (A *ᵥ x) i) (x v : Pt d) :
    (∑ i, x i * (A *ᵥ v) i) ^ 2 ≤ (∑ i, x i * (A *ᵥ x) i) * ∑ i, v i * (A *ᵥ v) i := by
  have key : ∀ s : ℝ, 0 ≤ (∑ i, v i * (A *ᵥ v) i) * (s * s) + (2 * ∑ i, x i * (A *ᵥ v) i) * s +
      ∑ i, x i * (A *ᵥ x) i := by
    intro s
    have h := hpos (x + s • v)
    have e : ∑ i, (x + s • v) i * (A *ᵥ (x + s • v)) i = ∑ i, x i * (A *ᵥ x) i +
        s * ∑ i, x i * (A *ᵥ v) i + s * ∑ i, v i * (A *ᵥ x) i + s ^ 2 * ∑ i, v i * (A *ᵥ v) i := by
      rw [mulVec_add, mulVec_smul, Finset.mul_sum, Finset.mul_sum, Finset.mul_sum,
        ← Finset.sum_add_distrib, ← Finset.sum_add_distrib, ← Finset.sum_add_distrib]
      refine Finset.sum_congr rfl fun i _ => ?_
      simp only [Pi.add_apply, Pi.smul_apply, smul_eq_mul]
      ring
    rw [e, sym_swap hA v x] at h
    linarith
  have := discrim_le_zero key
  unfold discrim at this
  nlinarith

/-- **C272** Above the stability limit, `eps^2 lam > 4` for the curvature `lam` of some
direction in units of the mass, trajectories blow up: from every starting point off the mean in
that direction, the energy grows geometrically with the number of steps, forwards or
backwards. -/
theorem leapfrog_unstable {A : Matrix (Fin d) (Fin d) ℝ} (hA : A.IsSymm)
    (hpos : ∀ x : Pt d, 0 ≤ ∑ i, x i * (A *ᵥ x) i) (mu im v : Pt d) (u0 eps lam : ℝ)
    (him : ∀ i, 0 ≤ im i) (hv : ∀ i, im i * (A *ᵥ v) i = lam * v i) (hl : 4 < eps ^ 2 * lam)
    (q p : Pt d) (hq : ∑ i, (q i - mu i) * (A *ᵥ v) i ≠ 0) :
    let tg := normalTarget A mu u0
    0 < ∑ i, v i * (A *ᵥ v) i ∧ ∃ e, (e = eps ∨ e = -eps) ∧ ∀ n : ℕ,
      (eps ^ 2 * lam - 3) ^ (2 * n) * (∑ i, (q i - mu i) * (A *ᵥ v) i) ^ 2 ≤
        2 * (∑ i, v i * (A *ᵥ v) i) *
          above A mu im ((fun z => leapfrog tg z e im)^[n + 1] ⟨q, p, tg.g q⟩) := by
  intro tg
  set z : Z d := ⟨q, p, tg.g q⟩ with hzdef
  set y0 : ℝ := ∑ i, (q i - mu i) * (A *ᵥ v) i with hy0
  have hyz : along A mu v z = y0 := rfl
  have hvv : 0 < ∑ i, v i * (A *ᵥ v) i := by
    refine lt_of_le_of_ne (hpos v) fun h0 => hq ?_
    have h := psd_cauchy hA hpos (fun j => q j - mu j) v
    rw [← h0, mul_zero] at h
    exact pow_eq_zero_iff two_ne_zero |>.mp (le_antisymm h (sq_nonneg _))
  refine ⟨hvv, ?_⟩
  set rho : ℝ := eps ^ 2 * lam - 3 with hrho
  have hr1 : 1 < rho := by rw [hrho]; linarith
  -- energy from the coordinate
  have hen : ∀ y : Z d, along A mu v y ^ 2 ≤ 2 * (∑ i, v i * (A *ᵥ v) i) * above A mu im y := by
    intro y
    have h := psd_cauchy hA hpos (fun j => y.q j - mu j) v
    have hk : 0 ≤ kinetic y.p im :=
      mul_nonneg (by norm_num) (Finset.sum_nonneg fun i _ =>
        mul_nonneg (mul_self_nonneg _) (him i))
    have hab : ∑ i, (y.q i - mu i) * (A *ᵥ (fun j => y.q j - mu j)) i ≤ 2 * above A mu im y := by
      unfold above; linarith
    change (along A mu v y) ^ 2 ≤ _ at h
    have := mul_le_mul_of_nonneg_right hab hvv.le
    linarith
  -- one of the two directions goes outwards
  have hdir : ∃ e, (e = eps ∨ e = -eps) ∧ |y0| ≤ |along A mu v (leapfrog tg z e im)| := by
    by_contra hno
    push Not at hno
    have h1 := hno eps (Or.inl rfl)
    have h2 := hno (-eps) (Or.inr rfl)
    have e1 := along_step hA mu im v u0 eps lam hv z rfl
    have e2 := along_step hA mu im v u0 (-eps) lam hv z rfl
    have hs : along A mu v (leapfrog tg z eps im) + along A mu v (leapfrog tg z (-eps) im) =
        (2 - eps ^ 2 * lam) * y0 := by
      rw [← hyz]
      change along A mu v (leapfrog (normalTarget A mu u0) z eps im) +
        along A mu v (leapfrog (normalTarget A mu u0) z (-eps) im) = _
      rw [e1, e2]; ring
    have h3 := abs_add_le (along A mu v (leapfrog tg z eps im))
      (along A mu v (leapfrog tg z (-eps) im))
    rw [hs, abs_mul, abs_of_neg (by linarith : 2 - eps ^ 2 * lam < 0)] at h3
    have : 0 ≤ |y0| := abs_nonneg _
    nlinarith
  obtain ⟨e, he, hout⟩ := hdir
  have he2 : e ^ 2 = eps ^ 2 := by rcases he with rfl | rfl <;> ring
  refine ⟨e, he, ?_⟩
  set F : Z d → Z d := fun z => leapfrog tg z e im with hF
  have hgrad : ∀ n, (F^[n] z).g = tg.g (F^[n] z).q := by
    intro n
    cases n with
    | zero => rfl
    | succ n => rw [Function.iterate_succ_apply']; rfl
  have hgrow : ∀ n, rho ^ n * |y0| ≤ |along A mu v (F^[n + 1] z)| ∧
      |along A mu v (F^[n] z)| ≤ |along A mu v (F^[n + 1] z)| := by
    intro n
    induction n with
    | zero =>
      simp only [pow_zero, one_mul, zero_add, Function.iterate_one, Function.iterate_zero, id]
      exact ⟨hout, hout⟩
    | succ n ih =>
      have h3 := along_three hA mu im v u0 e lam hv (F^[n] z) (hgrad n)
      have e1 : F^[n + 1] z = leapfrog (normalTarget A mu u0) (F^[n] z) e im := by
        rw [Function.iterate_succ_apply']
      have e2 : F^[n + 1 + 1] z = leapfrog (normalTarget A mu u0) (F^[n + 1] z) e im := by
        rw [Function.iterate_succ_apply']
      dsimp only at h3
      rw [← e1, ← e2, he2] at h3
      have h4 : rho * |along A mu v (F^[n + 1] z)| ≤ |along A mu v (F^[n + 1 + 1] z)| := by
        rw [h3]
        have h5 := abs_sub_abs_le_abs_sub ((2 - eps ^ 2 * lam) * along A mu v (F^[n + 1] z))
          (along A mu v (F^[n] z))
        rw [abs_mul, abs_of_neg (by linarith : 2 - eps ^ 2 * lam < 0)] at h5
        have := ih.2
        rw [hrho]
        nlinarith
      have h0 : 0 ≤ |along A mu v (F^[n + 1] z)| := abs_nonneg _
      refine ⟨?_, by nlinarith⟩
      calc rho ^ (n + 1) * |y0| = rho * (rho ^ n * |y0|) := by ring
        _ ≤ rho * |along A mu v (F^[n + 1] z)| := mul_le_mul_of_nonneg_left ih.1 (by linarith)
        _ ≤ _ := h4
  intro n
  refine le_trans ?_ (hen (F^[n + 1] z))
  have h := (hgrow n).1
  have hp : 0 ≤ rho ^ n * |y0| := mul_nonneg (pow_nonneg (by linarith) _) (abs_nonneg _)
  calc rho ^ (2 * n) * y0 ^ 2 = (rho ^ n * |y0|) ^ 2 := by
        rw [mul_pow, sq_abs, ← pow_mul, mul_comm n 2]
    _ ≤ |along A mu v (F^[n + 1] z)| ^ 2 := pow_le_pow_left₀ hp h 2
    _ = _ := sq_abs _

/-- A standard normal coordinate and one of standard deviation `1/2`, unit masses: the step
`1/2` has margin `3/4`, and with the step `3` the energy is multiplied by more than `1000` every
step in one direction. -/
example : Stable (Matrix.diagonal ![1, 4]) (fun _ => 1) (1 / 2) (3 / 4) ∧
    (∀ i : Fin 2, (fun _ => (1 : ℝ)) i * (Matrix.diagonal ![1, 4] *ᵥ ![0, 1]) i = 4 * ![0, 1] i) ∧
    (4 : ℝ) < 3 ^ 2 * 4 ∧ (1000 : ℝ) < (3 ^ 2 * 4 - 3) ^ 2 := by
  refine ⟨stable_diagonal _ _ _ _ ?_ ?_, ?_, by norm_num, by norm_num⟩
  · intro i; fin_cases i <;> norm_num
  · intro i; fin_cases i <;> norm_num
  · intro i; fin_cases i <;> simp [mulVec_diagonal]

end Verif.Nuts
