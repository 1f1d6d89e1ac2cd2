import Verif.Core.PropsVague
import Verif.Core.PropsChain
import Mathlib.Topology.Sequences

/-!
# C261: small errors of the linear-algebra routines

The external routines need not be exact: along any sequence of routines whose backward errors tend
to zero, every result tends to the exact one.
-/

set_option autoImplicit false

namespace Verif.Core

open Verif Verif.Data Matrix Filter Topology

variable {n m q r : ℕ} {be : Backend} {la : ℕ → LA} {la0 : LA}

/-- Routines that become accurate: the Cholesky factor is exact for a nearby matrix (near every
positive definite matrix), the solver and the inverse leave small residuals on every invertible system,
and QR nearly reproduces its input with nearly orthonormal columns. -/
structure LA.Near (la : ℕ → LA) : Prop where
  chol : ∀ {n : ℕ} (B : Mat n n), B.PosDef → ∀ ε : ℝ, 0 < ε → ∀ᶠ p : ℕ × Mat n n in atTop ×ˢ 𝓝 B,
    p.2ᵀ = p.2 → ∃ S C, (la p.1).chol p.2 = .ok C ∧ IsChol S C ∧ ∀ i j, |S i j - p.2 i j| ≤ ε
  solve : ∀ {ι κ : Type} [Fintype ι] [DecidableEq ι] [Fintype κ] (A : Matrix ι ι ℝ) (B : Matrix ι κ ℝ), IsUnit A →
    ∀ ε : ℝ, 0 < ε → ∀ᶠ k in atTop, ∃ X, (la k).solve A B = .ok X ∧ ∀ i j, |(A * X) i j - B i j| ≤ ε
  qr : ∀ {n q : ℕ} (P : Mat n q), q ≤ n → ∀ ε : ℝ, 0 < ε → ∀ᶠ k in atTop,
    (∀ i j, |(((la k).qr P).1ᵀ * ((la k).qr P).1) i j - (1 : Mat n n) i j| ≤ ε) ∧
    (∀ (i : Fin n) (j : Fin q), (j : ℕ) < (i : ℕ) → ((la k).qr P).2 i j = 0) ∧
    ∀ i j, |(((la k).qr P).1 * ((la k).qr P).2) i j - P i j| ≤ ε
  inv : ∀ {n : ℕ} (A : Mat n n), IsUnit A → ∀ ε : ℝ, 0 < ε → ∀ᶠ k in atTop,
    ∃ X, (la k).inv A = .ok X ∧ ∀ i j, |(A * X) i j - (1 : Mat n n) i j| ≤ ε

/-! ## Neighbourhoods of matrices -/

theorem mat_ball {ι κ : Type} [Fintype ι] [Fintype κ] {B : Matrix ι κ ℝ} {U : Set (Matrix ι κ ℝ)} (hU : U ∈ 𝓝 B) :
    ∃ e, 0 < e ∧ ∀ S : Matrix ι κ ℝ, (∀ i j, |S i j - B i j| < e) → S ∈ U := by
  obtain ⟨e, e0, he⟩ := (@Metric.mem_nhds_iff (ι → κ → ℝ) _ _ _).mp hU
  refine ⟨e, e0, fun S hS => he ?_⟩
  have h1 : @dist (ι → κ → ℝ) _ S B < e := by
    refine (dist_pi_lt_iff e0).mpr fun i => (dist_pi_lt_iff e0).mpr fun j => ?_
    rw [Real.dist_eq]
    exact hS i j
  exact h1

theorem mat_near {ι κ : Type} [Fintype ι] [Fintype κ] (B : Matrix ι κ ℝ) {e : ℝ} (he : 0 < e) :
    ∀ᶠ S in 𝓝 B, ∀ i j, |S i j - B i j| < e := by
  rw [eventually_all]
  intro i
  rw [eventually_all]
  intro j
  have h : Continuous fun S : Matrix ι κ ℝ => |S i j - B i j| := by fun_prop
  exact (h.tendsto B).eventually (gt_mem_nhds (by simpa using he))

theorem entry_near {α : Type} {l : Filter α} {f : α → ℝ} {a : ℝ} (h : Tendsto f l (𝓝 a)) {e : ℝ} (he : 0 < e) :
    ∀ᶠ p in l, |f p - a| < e := by
  have := (Metric.tendsto_nhds.mp h) e he
  simpa [Real.dist_eq] using this

/-- The factor is exact for a matrix in any given neighbourhood. -/
theorem LA.Near.chol_mem (h : LA.Near la) {B : Mat n n} (hB : B.PosDef) {U : Set (Mat n n)} (hU : U ∈ 𝓝 B) :
    ∀ᶠ p : ℕ × Mat n n in atTop ×ˢ 𝓝 B, p.2ᵀ = p.2 → ∃ S C, S ∈ U ∧ (la p.1).chol p.2 = .ok C ∧ IsChol S C := by
  obtain ⟨e, e0, he⟩ := mat_ball hU
  have h2 : ∀ᶠ p : ℕ × Mat n n in atTop ×ˢ 𝓝 B, ∀ i j, |p.2 i j - B i j| < e / 2 :=
    tendsto_snd.eventually (mat_near B (half_pos e0))
  filter_upwards [h.chol B hB (e / 2) (half_pos e0), h2] with p hp hp2 hs
  obtain ⟨S, C, h1, h3, h4⟩ := hp hs
  refine ⟨S, C, he S fun i j => ?_, h1, h3⟩
  have a := h4 i j
  have b := hp2 i j
  have : S i j - B i j = (S i j - p.2 i j) + (p.2 i j - B i j) := by ring
  rw [this]
  exact (abs_add_le _ _).trans_lt (by linarith)

theorem LA.Near.chol_fixed (h : LA.Near la) {B : Mat n n} (hB : B.PosDef) {U : Set (Mat n n)} (hU : U ∈ 𝓝 B) :
    ∀ᶠ k in atTop, ∃ S C, S ∈ U ∧ (la k).chol B = .ok C ∧ IsChol S C := by
  have ht : Tendsto (fun k : ℕ => (k, B)) atTop (atTop ×ˢ 𝓝 B) := tendsto_id.prodMk tendsto_const_nhds
  filter_upwards [ht.eventually (h.chol_mem hB hU)] with k hk
  exact hk (PosDef.symm hB)

theorem chol_solve_of {l : LA} {A S C : Mat n n} (h1 : l.chol A = .ok C) (h2 : IsChol S C) (b : Mat n m) :
    choleskySolve l A b = .ok (S⁻¹ * b, C) := by
  simp only [choleskySolve, h1]
  rw [← Matrix.mul_assoc, h2.inv]

/-- Entries of `f S` where `f` is continuous at an invertible matrix. -/
theorem inv_mul_lim {α κ : Type} {B : Mat n n} (hB : B.det ≠ 0) {l : Filter α} {S : α → Mat n n} (hS : Tendsto S l (𝓝 B))
    {b : α → Matrix (Fin n) κ ℝ} {b0 : Matrix (Fin n) κ ℝ} (hb : ∀ i j, Tendsto (fun p => b p i j) l (𝓝 (b0 i j)))
    (i : Fin n) (t : κ) : Tendsto (fun p => ((S p)⁻¹ * b p) i t) l (𝓝 ((B⁻¹ * b0) i t)) := by
  simp only [Matrix.mul_apply]
  have hS' : ∀ i j, Tendsto (fun p => S p i j) l (𝓝 (B i j)) := fun i j =>
    (tendsto_pi_nhds.mp ((tendsto_pi_nhds.mp hS) i)) j
  exact tendsto_finsetSum _ fun j _ => (inv_lim hS' hB i j).mul (hb j t)

/-! ## Predictions -/

/-- Two predictions differ by less than `ε`. -/
def PredClose (ε : ℝ) (u v : (Fin m → ℝ) × (Fin m → ℝ) × Mat n m) : Prop :=
  (∀ t, |u.1 t - v.1 t| < ε) ∧ (∀ t, |u.2.1 t - v.2.1 t| < ε) ∧ ∀ i t, |u.2.2 i t - v.2.2 i t| < ε

theorem max_close {x y ε : ℝ} (h : |x - y| < ε) : |max x 0 - max y 0| < ε :=
  (abs_max_sub_max_le_abs x y 0).trans_lt h

theorem predClose_of_tendsto {α : Type} {l : Filter α} {lam : α → Mat n m} {lam0 : Mat n m} {v : α → Fin m → ℝ}
    {v0 : Fin m → ℝ} (zc : Fin n → ℝ) (zm : Fin m → ℝ) (zn : Bool)
    (hl : ∀ i t, Tendsto (fun p => lam p i t) l (𝓝 (lam0 i t))) (hv : ∀ t, Tendsto (fun p => v p t) l (𝓝 (v0 t)))
    {ε : ℝ} (hε : 0 < ε) :
    ∀ᶠ p in l, PredClose ε (fun t => ∑ i, lam p i t * zc i + zm t, (if zn then fun t => max (v p t) 0 else v p), lam p)
      (fun t => ∑ i, lam0 i t * zc i + zm t, (if zn then fun t => max (v0 t) 0 else v0), lam0) := by
  have h1 : ∀ t, Tendsto (fun p => ∑ i, lam p i t * zc i + zm t) l (𝓝 (∑ i, lam0 i t * zc i + zm t)) := fun t =>
    (tendsto_finsetSum _ fun i _ => (hl i t).mul_const _).add_const _
  have e1 : ∀ᶠ p in l, ∀ t, |(∑ i, lam p i t * zc i + zm t) - (∑ i, lam0 i t * zc i + zm t)| < ε :=
    eventually_all.mpr fun t => entry_near (h1 t) hε
  have e2 : ∀ᶠ p in l, ∀ t, |v p t - v0 t| < ε := eventually_all.mpr fun t => entry_near (hv t) hε
  have e3 : ∀ᶠ p in l, ∀ i t, |lam p i t - lam0 i t| < ε :=
    eventually_all.mpr fun i => eventually_all.mpr fun t => entry_near (hl i t) hε
  filter_upwards [e1, e2, e3] with p a b c
  refine ⟨a, fun t => ?_, c⟩
  cases zn
  · exact b t
  · exact max_close (b t)

/-- **C261** Zero and given means: predictions tend to the exact ones. -/
theorem predict_near_zero (h : LA.Near la) (h0 : la0.Contract be) (a : Arrays (q + r) m q) (hK : a.Kii.PosDef)
    (mt : MeanType (q + r) m) (hmt : mt = .zero ∨ ∃ mi mz, mt = .parameterized mi mz) (zi : Fin (q + r) → ℝ) (zn : Bool)
    {ε : ℝ} (hε : 0 < ε) :
    ∃ out, predict la0 mt a zi zn = .ok out ∧
      ∀ᶠ k in atTop, ∃ out', predict (la k) mt a zi zn = .ok out' ∧ PredClose ε out' out := by
  have hB := (PosDef.det_unit hK).ne_zero
  have hl : ∀ i t, Tendsto (fun S : Mat (q + r) (q + r) => (S⁻¹ * a.Kit) i t) (𝓝 a.Kii) (𝓝 ((a.Kii⁻¹ * a.Kit) i t)) :=
    fun i t => inv_mul_lim hB (S := fun S => S) tendsto_id (b := fun _ => a.Kit) (b0 := a.Kit) (fun _ _ => tendsto_const_nhds) i t
  have hv : ∀ t, Tendsto (fun S : Mat (q + r) (q + r) => a.vt t - ∑ i, (S⁻¹ * a.Kit) i t * a.Kit i t) (𝓝 a.Kii)
      (𝓝 (a.vt t - ∑ i, (a.Kii⁻¹ * a.Kit) i t * a.Kit i t)) := fun t =>
    tendsto_const_nhds.sub (tendsto_finsetSum _ fun i _ => (hl i t).mul_const _)
  have key : ∀ (zc : Fin (q + r) → ℝ) (zm : Fin m → ℝ), ∀ᶠ k in atTop, ∃ S C,
      (la k).chol a.Kii = .ok C ∧ IsChol S C ∧
      PredClose ε (fun t => ∑ i, (S⁻¹ * a.Kit) i t * zc i + zm t,
        (if zn then fun t => max (a.vt t - ∑ i, (S⁻¹ * a.Kit) i t * a.Kit i t) 0 else fun t => a.vt t - ∑ i, (S⁻¹ * a.Kit) i t * a.Kit i t),
        S⁻¹ * a.Kit)
      (fun t => ∑ i, (a.Kii⁻¹ * a.Kit) i t * zc i + zm t,
        (if zn then fun t => max (a.vt t - ∑ i, (a.Kii⁻¹ * a.Kit) i t * a.Kit i t) 0 else fun t => a.vt t - ∑ i, (a.Kii⁻¹ * a.Kit) i t * a.Kit i t),
        a.Kii⁻¹ * a.Kit) := by
    intro zc zm
    have e := predClose_of_tendsto zc zm zn hl hv hε
    filter_upwards [h.chol_fixed hK e] with k hk
    obtain ⟨S, C, hS, h1, h2⟩ := hk
    exact ⟨S, C, h1, h2, hS⟩
  rcases hmt with rfl | ⟨mi, mz, rfl⟩
  · refine ⟨_, predict_zero h0 a hK zi zn, ?_⟩
    filter_upwards [key zi 0] with k hk
    obtain ⟨S, C, h1, h2, h3⟩ := hk
    refine ⟨_, ?_, h3⟩
    simp only [predict, selectPredictor, krigingZeroMean, chol_solve_of h1 h2, posteriorVariance, Bind.bind, Except.bind, Pure.pure,
      Except.pure, PostVar.toVar, Pi.zero_apply]
    norm_num
  · refine ⟨_, predict_param h0 a hK mi mz zi zn, ?_⟩
    filter_upwards [key (zi - mi) mz] with k hk
    obtain ⟨S, C, h1, h2, h3⟩ := hk
    refine ⟨_, ?_, h3⟩
    simp only [predict, selectPredictor, krigingZeroMean, chol_solve_of h1 h2, posteriorVariance, Bind.bind, Except.bind, Pure.pure,
      Except.pure, PostVar.toVar]
    norm_num

/-- **C261** Linear predictor means: the same. -/
theorem predict_near_linear (h : LA.Near la) (h0 : la0.Contract be) (a : Arrays (q + r) m q) (hK : CPD a.Kii a.Pi)
    (hP : FullRank a.Pi) (zi : Fin (q + r) → ℝ) (zn : Bool) {ε : ℝ} (hε : 0 < ε) :
    ∃ out, predict la0 .linearPredictor a zi zn = .ok out ∧
      ∀ᶠ k in atTop, ∃ out', predict (la k) .linearPredictor a zi zn = .ok out' ∧ PredClose ε out' out := by
  obtain ⟨X0, hX0, h1⟩ := predict_linear h0 a hK hP zi zn
  refine ⟨_, h1, ?_⟩
  have hu := ukLHS_unit a hK hP
  have hd : IsUnit (ukLHS a).det := (Matrix.isUnit_iff_isUnit_det _).mp hu
  have hX0' : X0 = (ukLHS a)⁻¹ * ukRHS a := by
    rw [← hX0, Matrix.nonsing_inv_mul_cancel_left _ _ hd]
  -- as a function of the right-hand side actually solved for
  have hl : ∀ i t, Tendsto (fun R : Matrix (Fin (q + r) ⊕ Fin q) (Fin m) ℝ => ((ukLHS a)⁻¹ * R) i t) (𝓝 (ukRHS a))
      (𝓝 (X0 i t)) := by
    intro i t
    rw [hX0']
    have : Continuous fun R : Matrix (Fin (q + r) ⊕ Fin q) (Fin m) ℝ => ((ukLHS a)⁻¹ * R) i t := by
      simp only [Matrix.mul_apply]
      fun_prop
    exact this.tendsto _
  have hv : ∀ t, Tendsto (fun R : Matrix (Fin (q + r) ⊕ Fin q) (Fin m) ℝ =>
      a.vt t - ∑ i, ((ukLHS a)⁻¹ * R) i t * ukRHS a i t) (𝓝 (ukRHS a)) (𝓝 (a.vt t - ∑ i, X0 i t * ukRHS a i t)) := fun t =>
    tendsto_const_nhds.sub (tendsto_finsetSum _ fun i _ => (hl i t).mul_const _)
  have e := predClose_of_tendsto (lam := fun R => ((ukLHS a)⁻¹ * R).toRows₁) (lam0 := X0.toRows₁) zi 0 zn
    (fun i t => hl (Sum.inl i) t) hv hε
  obtain ⟨δ, δ0, hδ⟩ := mat_ball e
  filter_upwards [h.solve (ukLHS a) (ukRHS a) hu (δ / 2) (half_pos δ0)] with k hk
  obtain ⟨X, hX, hr⟩ := hk
  have h3 := hδ (ukLHS a * X) fun i j => (hr i j).trans_lt (half_lt_self δ0)
  have h4 : (ukLHS a)⁻¹ * (ukLHS a * X) = X := Matrix.nonsing_inv_mul_cancel_left _ _ hd
  simp only [Set.mem_ofPred_eq, h4] at h3
  refine ⟨_, ?_, h3⟩
  simp only [predict, selectPredictor, krigingUniversal, ukDirect, hX, posteriorVariance, Bind.bind, Except.bind, Pure.pure,
    Except.pure, PostVar.toVar, Pi.zero_apply]
  norm_num

/-! ## Likelihood -/

theorem nll_fun_lim {α : Type} {l : Filter α} {B : Mat n n} (hB : B.PosDef) {S : α → Mat n n} (hS : Tendsto S l (𝓝 B))
    {w : α → Fin n → ℝ} {w0 : Fin n → ℝ} (hw : Tendsto w l (𝓝 w0)) :
    Tendsto (fun p => 0.5 * (n * Real.log (2 * Real.pi) + Real.log (S p).det + ∑ i, w p i * ((S p)⁻¹ * colVec (w p)) i 0)) l
      (𝓝 (0.5 * (n * Real.log (2 * Real.pi) + Real.log B.det + ∑ i, w0 i * (B⁻¹ * colVec w0) i 0))) := by
  have hd : Tendsto (fun p => (S p).det) l (𝓝 B.det) := ((continuous_id.matrix_det).tendsto B).comp hS
  have hw' : ∀ i, Tendsto (fun p => w p i) l (𝓝 (w0 i)) := fun i => (tendsto_pi_nhds.mp hw) i
  have hq : Tendsto (fun p => ∑ i, w p i * ((S p)⁻¹ * colVec (w p)) i 0) l (𝓝 (∑ i, w0 i * (B⁻¹ * colVec w0) i 0)) :=
    tendsto_finsetSum _ fun i _ => (hw' i).mul (inv_mul_lim (PosDef.det_unit hB).ne_zero hS (fun i _ => hw' i) i 0)
  exact ((tendsto_const_nhds.add (hd.log hB.det_pos.ne')).add hq).const_mul _

/-- **C261** The likelihood criteria tend to the exact ones. -/
theorem nll_near (h : LA.Near la) (h0 : la0.Sound be) {K : Mat n n} (hK : K.PosDef) (mi zi : Fin n → ℝ) {ε : ℝ} (hε : 0 < ε) :
    ∃ v, nll be la0 K mi zi = .ok (.finite v) ∧
      ∀ᶠ k in atTop, ∃ v', nll be (la k) K mi zi = .ok (.finite v') ∧ |v' - v| < ε := by
  obtain ⟨C0, hC0, hc0⟩ := choleskySolve_ok h0 hK (colVec (zi - mi))
  refine ⟨0.5 * (n * Real.log (2 * Real.pi) + Real.log K.det + ∑ i, (zi - mi) i * (K⁻¹ * colVec (zi - mi)) i 0), ?_, ?_⟩
  · simp only [nll, nllZeroMean, hc0, hC0.logdet]
  have e := entry_near (nll_fun_lim hK (S := fun S => S) tendsto_id (w := fun _ => zi - mi) tendsto_const_nhds) hε
  filter_upwards [h.chol_fixed hK e] with k hk
  obtain ⟨S, C, hS, h1, h2⟩ := hk
  refine ⟨_, ?_, hS⟩
  simp only [nll, nllZeroMean, chol_solve_of h1 h2, h2.logdet]

/-! ## Contrasts -/

theorem orth_bounded {Q : Mat n n} (hQ : ∀ i j, |(Qᵀ * Q) i j - (1 : Mat n n) i j| ≤ 1) (i j : Fin n) :
    Q i j ∈ Set.Icc (-2 : ℝ) 2 := by
  have h1 := hQ j j
  rw [Matrix.mul_apply, Matrix.one_apply_eq] at h1
  have h2 : Q i j * Q i j ≤ ∑ k, Qᵀ j k * Q k j :=
    Finset.single_le_sum (f := fun k => Q k j * Q k j) (fun k _ => mul_self_nonneg _) (Finset.mem_univ i)
  have h3 := abs_le.mp h1
  constructor <;> nlinarith

/-- Whatever holds near every exact contrast matrix holds, eventually, for the computed ones. -/
theorem contrast_eventually (h : LA.Near la) {P : Mat (q + r) q} (hP : FullRank P) {Q : ℕ → Mat (q + r) r → Prop}
    (hQ : ∀ W, IsContrast P W → ∀ᶠ p : ℕ × Mat (q + r) r in atTop ×ˢ 𝓝 W, Q p.1 p.2) :
    ∀ᶠ k in atTop, Q k (contrastMatrix (la k) P) := by
  by_contra hcon
  obtain ⟨φ, hφ, hbad⟩ := extraction_of_frequently_atTop (not_eventually.mp hcon)
  have hle : q ≤ q + r := Nat.le_add_right q r
  -- a convergent subsequence of orthonormal factors
  let A : ℕ → (Fin (q + r) → Fin (q + r) → ℝ) := fun k => ((la (φ k)).qr P).1
  have hcomp : IsCompact (Set.univ.pi fun _ : Fin (q + r) => Set.univ.pi fun _ : Fin (q + r) => Set.Icc (-2 : ℝ) 2) :=
    isCompact_univ_pi fun _ => isCompact_univ_pi fun _ => isCompact_Icc
  have hev : ∀ᶠ k in atTop, A k ∈ (Set.univ.pi fun _ : Fin (q + r) => Set.univ.pi fun _ : Fin (q + r) => Set.Icc (-2 : ℝ) 2) := by
    filter_upwards [hφ.tendsto_atTop.eventually (h.qr P hle 1 one_pos)] with k hk
    exact fun i _ j _ => orth_bounded hk.1 i j
  obtain ⟨Q0, -, ψ, hψ, hlim⟩ := hcomp.tendsto_subseq' hev.frequently
  have hlim' : ∀ i j, Tendsto (fun k => ((la (φ (ψ k))).qr P).1 i j) atTop (𝓝 (Q0 i j)) := fun i j =>
    (tendsto_pi_nhds.mp ((tendsto_pi_nhds.mp hlim) i)) j
  have hφψ : Tendsto (fun k => φ (ψ k)) atTop atTop := hφ.tendsto_atTop.comp hψ.tendsto_atTop
  have small : ∀ {f : ℕ → ℝ} {a : ℝ}, (∀ ε : ℝ, 0 < ε → ∀ᶠ k in atTop, |f k - a| ≤ ε) → Tendsto f atTop (𝓝 a) := by
    intro f a hf
    rw [Metric.tendsto_nhds]
    intro ε hε
    filter_upwards [hf (ε / 2) (half_pos hε)] with k hk
    rw [Real.dist_eq]
    linarith
  have hQQ : (Matrix.of Q0 : Mat (q + r) (q + r))ᵀ * (Matrix.of Q0 : Mat (q + r) (q + r)) = 1 := by
    ext i j
    have h1 : Tendsto (fun k => (((la (φ (ψ k))).qr P).1ᵀ * ((la (φ (ψ k))).qr P).1) i j) atTop (𝓝 ((1 : Mat (q + r) (q + r)) i j)) :=
      small fun ε hε => (hφψ.eventually (h.qr P hle ε hε)).mono fun k hk => hk.1 i j
    have h2 : Tendsto (fun k => (((la (φ (ψ k))).qr P).1ᵀ * ((la (φ (ψ k))).qr P).1) i j) atTop
        (𝓝 (((Matrix.of Q0 : Mat (q + r) (q + r))ᵀ * (Matrix.of Q0 : Mat (q + r) (q + r))) i j)) := by
      simp only [Matrix.mul_apply, Matrix.transpose_apply]
      exact tendsto_finsetSum _ fun k _ => (hlim' k i).mul (hlim' k j)
    exact tendsto_nhds_unique h2 h1
  have hdet : (Matrix.of Q0 : Mat (q + r) (q + r)).det ≠ 0 := by
    intro h0
    have := congrArg Matrix.det hQQ
    rw [Matrix.det_mul, h0, mul_zero, Matrix.det_one] at this
    exact zero_ne_one this
  -- the triangular factors converge as well
  have hPR : ∀ i j, Tendsto (fun k => (((la (φ (ψ k))).qr P).1 * ((la (φ (ψ k))).qr P).2) i j) atTop (𝓝 (P i j)) := fun i j =>
    small fun ε hε => (hφψ.eventually (h.qr P hle ε hε)).mono fun k hk => hk.2.2 i j
  have hinvl : ∀ i j, Tendsto (fun k => (((la (φ (ψ k))).qr P).1)⁻¹ i j) atTop (𝓝 ((Matrix.of Q0 : Mat (q + r) (q + r))⁻¹ i j)) := fun i j =>
    inv_lim (B := (Matrix.of Q0 : Mat (q + r) (q + r))) hlim' hdet i j
  have hR : ∀ i j, Tendsto (fun k => ((la (φ (ψ k))).qr P).2 i j) atTop (𝓝 (((Matrix.of Q0 : Mat (q + r) (q + r))⁻¹ * P) i j)) := by
    intro i j
    have h1 : Tendsto (fun k => ((((la (φ (ψ k))).qr P).1)⁻¹ * (((la (φ (ψ k))).qr P).1 * ((la (φ (ψ k))).qr P).2)) i j) atTop
        (𝓝 (((Matrix.of Q0 : Mat (q + r) (q + r))⁻¹ * P) i j)) := by
      have e : ∀ (X : Mat (q + r) (q + r)) (Y : Mat (q + r) q), (X * Y) i j = ∑ k, X i k * Y k j := fun X Y => Matrix.mul_apply
      simp only [e _ (_ * _), e _ P]
      exact tendsto_finsetSum _ fun k _ => (hinvl i k).mul (hPR k j)
    refine h1.congr' ?_
    have hd : Tendsto (fun k => (((la (φ (ψ k))).qr P).1).det) atTop (𝓝 (Matrix.of Q0 : Mat (q + r) (q + r)).det) := by
      have hA : Tendsto (fun k => ((la (φ (ψ k))).qr P).1) atTop (𝓝 (Matrix.of Q0 : Mat (q + r) (q + r))) :=
        tendsto_pi_nhds.mpr fun i => tendsto_pi_nhds.mpr fun j => hlim' i j
      exact ((continuous_id.matrix_det).tendsto (Matrix.of Q0 : Mat (q + r) (q + r))).comp hA
    filter_upwards [hd.eventually_ne hdet] with k hk
    rw [Matrix.nonsing_inv_mul_cancel_left _ _ (isUnit_iff_ne_zero.mpr hk)]
  have hqr : IsQR P (Matrix.of Q0) ((Matrix.of Q0 : Mat (q + r) (q + r))⁻¹ * P) := by
    refine ⟨hQQ, fun i j hij => ?_, ?_⟩
    · refine tendsto_nhds_unique (hR i j) (tendsto_const_nhds.congr' ?_)
      filter_upwards [hφψ.eventually (h.qr P hle 1 one_pos)] with k hk
      exact (hk.2.1 i j hij).symm
    · exact Matrix.mul_nonsing_inv_cancel_left _ _ (isUnit_iff_ne_zero.mpr hdet)
  have hW := hqr.contrast hP
  have hWl : Tendsto (fun k => contrastMatrix (la (φ (ψ k))) P) atTop (𝓝 (Wof (Matrix.of Q0))) :=
    tendsto_pi_nhds.mpr fun i => tendsto_pi_nhds.mpr fun j => hlim' i (Fin.natAdd q j)
  have hgood := (hφψ.prodMk hWl).eventually (hQ _ hW)
  obtain ⟨k, hk⟩ := hgood.exists
  exact hbad (ψ k) hk

theorem contrastCov_lim {K : Mat (q + r) (q + r)} (W : Mat (q + r) r) :
    Tendsto (fun V : Mat (q + r) r => contrastCov V K) (𝓝 W) (𝓝 (contrastCov W K)) := by
  have : Continuous fun V : Mat (q + r) r => contrastCov V K := by
    unfold contrastCov
    fun_prop
  exact this.tendsto W

/-- Near an exact contrast matrix, the covariance of the contrasts is factored almost exactly. -/
theorem LA.Near.chol_contrast (h : LA.Near la) {K : Mat (q + r) (q + r)} {P : Mat (q + r) q} (hK : CPD K P)
    {W : Mat (q + r) r} (hW : IsContrast P W) {U : Set (Mat r r × Mat (q + r) r)}
    (hU : U ∈ 𝓝 (contrastCov W K) ×ˢ 𝓝 W) :
    ∀ᶠ p : ℕ × Mat (q + r) r in atTop ×ˢ 𝓝 W, ∃ S C, (S, p.2) ∈ U ∧ (la p.1).chol (contrastCov p.2 K) = .ok C ∧ IsChol S C := by
  obtain ⟨U1, hU1, U2, hU2, hsub⟩ := mem_prod_iff.mp hU
  have hG : (contrastCov W K).PosDef := contrast_posDef hW.orth hW.null hK
  have ht : Tendsto (fun p : ℕ × Mat (q + r) r => (p.1, contrastCov p.2 K)) (atTop ×ˢ 𝓝 W) (atTop ×ˢ 𝓝 (contrastCov W K)) :=
    tendsto_fst.prodMk ((contrastCov_lim W).comp tendsto_snd)
  filter_upwards [ht.eventually (h.chol_mem hG hU1), tendsto_snd.eventually hU2] with p hp hp2
  obtain ⟨S, C, h1, h2, h3⟩ := hp (by
    simp only [contrastCov, Matrix.transpose_mul, Matrix.transpose_transpose, hK.symm, Matrix.mul_assoc])
  exact ⟨S, C, hsub ⟨h1, hp2⟩, h2, h3⟩

/-- The restricted likelihood through any contrast matrix. -/
theorem reml_value (h0 : la0.Sound be) {K : Mat (q + r) (q + r)} {P : Mat (q + r) q} (hK : CPD K P)
    (hP : FullRank P) (zi : Fin (q + r) → ℝ) :
    ∃ v, reml be la0 K P zi = .ok (.finite v) ∧ ∀ W, IsContrast P W →
      v = 0.5 * (r * Real.log (2 * Real.pi) + Real.log (contrastCov W K).det +
        ∑ i, (Wᵀ *ᵥ zi) i * ((contrastCov W K)⁻¹ * colVec (Wᵀ *ᵥ zi)) i 0) := by
  obtain ⟨v, hv⟩ := (reml_invariant h0 h0 hK hP zi 0).2
  refine ⟨v, hv, fun W hW => ?_⟩
  have h1 := reml_ok h0 hK hP zi hW (Qinv_spec hK hW)
  rw [hv] at h1
  have h2 : v = _ := Crit.finite.inj (Except.ok.inj h1)
  have h3 : zi ⬝ᵥ (Qinv K W *ᵥ zi) = (Wᵀ *ᵥ zi) ⬝ᵥ ((contrastCov W K)⁻¹ *ᵥ (Wᵀ *ᵥ zi)) := by
    unfold Qinv contrastCov
    rw [← Matrix.mulVec_mulVec, ← Matrix.mulVec_mulVec, dot_mulVec_transpose]
  rw [h2, sum_mul_colVec, h3]
  unfold contrastCov
  norm_num

/-- **C261** The restricted likelihood tends to the exact one. -/
theorem reml_near (h : LA.Near la) (h0 : la0.Sound be) {K : Mat (q + r) (q + r)} {P : Mat (q + r) q} (hK : CPD K P)
    (hP : FullRank P) (zi : Fin (q + r) → ℝ) {ε : ℝ} (hε : 0 < ε) :
    ∃ v, reml be la0 K P zi = .ok (.finite v) ∧
      ∀ᶠ k in atTop, ∃ v', reml be (la k) K P zi = .ok (.finite v') ∧ |v' - v| < ε := by
  obtain ⟨v, hv⟩ := reml_value h0 hK hP zi
  refine ⟨v, hv.1, ?_⟩
  refine contrast_eventually h hP (Q := fun k V => ∃ v', (match choleskySolve (la k) (contrastCov V K) (colVec (Vᵀ *ᵥ zi)) with
    | .error e => onChol be e
    | .ok (x, C) => .ok (.finite (0.5 * (r * Real.log (2 * Real.pi) + 2 * ∑ i, Real.log (C i i) + ∑ i, (Vᵀ *ᵥ zi) i * x i 0)))) =
      .ok (.finite v') ∧ |v' - v| < ε) fun W hW => ?_
  have hG : (contrastCov W K).PosDef := contrast_posDef hW.orth hW.null hK
  have hwl : Tendsto (fun p : Mat r r × Mat (q + r) r => p.2ᵀ *ᵥ zi) (𝓝 (contrastCov W K) ×ˢ 𝓝 W) (𝓝 (Wᵀ *ᵥ zi)) := by
    have hc : Continuous fun V : Mat (q + r) r => Vᵀ *ᵥ zi := by fun_prop
    exact (hc.tendsto W).comp tendsto_snd
  have e := entry_near (nll_fun_lim hG (S := fun p : Mat r r × Mat (q + r) r => p.1) tendsto_fst hwl) hε
  filter_upwards [h.chol_contrast hK hW e] with p hp
  obtain ⟨S, C, hS, h1, h2⟩ := hp
  refine ⟨0.5 * (r * Real.log (2 * Real.pi) + Real.log S.det + ∑ i, (p.2ᵀ *ᵥ zi) i * (S⁻¹ * colVec (p.2ᵀ *ᵥ zi)) i 0), ?_, ?_⟩
  · simp only [chol_solve_of h1 h2, h2.logdet]
  · rw [hv.2 W hW]
    exact hS

/-! ## Leave-one-out -/

/-- Two leave-one-out outputs differ by less than `ε` at the point `i`. -/
def LooClose (ε : ℝ) (i : Fin n) (u v : (Fin n → ℝ) × (Fin n → ℝ) × (Fin n → ℝ)) : Prop :=
  |u.1 i - v.1 i| < ε ∧ |u.2.1 i - v.2.1 i| < ε ∧ |u.2.2 i - v.2.2 i| < ε

theorem looClose_of_tendsto {α : Type} {l : Filter α} (z : Fin n → ℝ) {b d : α → Fin n → ℝ} {b0 d0 : Fin n → ℝ} {i : Fin n}
    (hb : Tendsto (fun p => b p i) l (𝓝 (b0 i))) (hd : Tendsto (fun p => d p i) l (𝓝 (d0 i))) (h0 : d0 i ≠ 0) (y : Fin n → ℝ)
    {ε : ℝ} (hε : 0 < ε) :
    ∀ᶠ p in l, LooClose ε i (fun j => z j - b p j / d p j + y j, fun j => 1 / d p j, fun j => b p j / d p j)
      (fun j => z j - b0 j / d0 j + y j, fun j => 1 / d0 j, fun j => b0 j / d0 j) := by
  have h1 : Tendsto (fun p => b p i / d p i) l (𝓝 (b0 i / d0 i)) := hb.div hd h0
  have h2 : Tendsto (fun p => 1 / d p i) l (𝓝 (1 / d0 i)) := tendsto_const_nhds.div hd h0
  filter_upwards [entry_near ((tendsto_const_nhds (x := z i)).sub h1 |>.add_const (y i)) hε, entry_near h2 hε, entry_near h1 hε]
    with p a1 a2 a3
  exact ⟨a1, a2, a3⟩

/-- **C261** Leave-one-out residuals with a zero mean tend to the exact ones. -/
theorem looZeroMean_near (h : LA.Near la) (h0 : la0.Sound be) {K : Mat n n} (hK : K.PosDef) (zi : Fin n → ℝ) {ε : ℝ} (hε : 0 < ε) :
    ∃ out, looZeroMean la0 K zi = .ok out ∧
      ∀ᶠ k in atTop, ∃ out', looZeroMean (la k) K zi = .ok out' ∧ ∀ i, LooClose ε i out' out := by
  have hdet := (PosDef.det_unit hK).ne_zero
  refine ⟨_, looZeroMean_ok h0 hK zi, ?_⟩
  have hinv : ∀ i j, Tendsto (fun S : Mat n n => S⁻¹ i j) (𝓝 K) (𝓝 (K⁻¹ i j)) := fun i j => by
    refine inv_lim (A := fun S : Mat n n => S) (fun i j => ?_) hdet i j
    have hc : Continuous fun S : Mat n n => S i j := by fun_prop
    exact hc.tendsto K
  have e : ∀ᶠ S in 𝓝 K, ∀ i, LooClose ε i
      (fun j => zi j - (S⁻¹ *ᵥ zi) j / S⁻¹ j j + (0 : Fin n → ℝ) j, fun j => 1 / S⁻¹ j j, fun j => (S⁻¹ *ᵥ zi) j / S⁻¹ j j)
      (fun j => zi j - (K⁻¹ *ᵥ zi) j / K⁻¹ j j + (0 : Fin n → ℝ) j, fun j => 1 / K⁻¹ j j, fun j => (K⁻¹ *ᵥ zi) j / K⁻¹ j j) := by
    rw [eventually_all]
    intro i
    refine looClose_of_tendsto zi (b := fun S j => (S⁻¹ *ᵥ zi) j) (b0 := fun j => (K⁻¹ *ᵥ zi) j) (d := fun S j => S⁻¹ j j)
      (d0 := fun j => K⁻¹ j j) ?_ (hinv i i) hK.inv.diag_pos.ne' 0 hε
    simp only [mulVec, dotProduct]
    exact tendsto_finsetSum _ fun j _ => (hinv i j).mul_const _
  simp only [Pi.zero_apply, add_zero] at e
  filter_upwards [h.chol_fixed hK e] with k hk
  obtain ⟨S, C, hS, h1, h2⟩ := hk
  refine ⟨_, ?_, hS⟩
  simp only [looZeroMean, chol_solve_of h1 h2, Bind.bind, Except.bind, Pure.pure, Except.pure, colVec_mul, diagKinvFromChol_spec h2]

/-- **C261** The same with an unknown linear mean, at every point whose exact variance is defined. -/
theorem looCpd_near (h : LA.Near la) (h0 : la0.Sound be) {K : Mat (q + r) (q + r)} {P : Mat (q + r) q} (hK : CPD K P)
    (hP : FullRank P) (zi : Fin (q + r) → ℝ) {ε : ℝ} (hε : 0 < ε) :
    ∃ out, looCpd la0 K P zi = .ok out ∧
      ∀ᶠ k in atTop, ∃ out', looCpd (la k) K P zi = .ok out' ∧ ∀ i, out.2.1 i ≠ 0 → LooClose ε i out' out := by
  obtain ⟨M, hM, h1⟩ := looCpd_ok h0 hK hP zi
  refine ⟨_, h1, ?_⟩
  refine contrast_eventually h hP (Q := fun k V => ∃ out', (do
    let (S, _) ← choleskySolve (la k) (contrastCov V K) Vᵀ
    let Qz := V *ᵥ (S *ᵥ zi)
    let Qd : Fin (q + r) → ℝ := fun i => ∑ j, V i j * S j i
    let eloo : Fin (q + r) → ℝ := fun i => Qz i / Qd i
    return (fun i => zi i - eloo i, fun i => 1 / Qd i, eloo) : Py _) = .ok out' ∧
      ∀ i, 1 / M i i ≠ 0 → LooClose ε i out' (fun i => zi i - (M *ᵥ zi) i / M i i, fun i => 1 / M i i, fun i => (M *ᵥ zi) i / M i i)) fun W hW => ?_
  have hG : (contrastCov W K).PosDef := contrast_posDef hW.orth hW.null hK
  have hMe : M = W * ((contrastCov W K)⁻¹ * Wᵀ) := IsQinv.unique hK hM (by
    have := Qinv_spec hK hW
    simpa only [Qinv, contrastCov, Matrix.mul_assoc] using this)
  have hV : ∀ i j, Tendsto (fun p : Mat r r × Mat (q + r) r => p.2 i j) (𝓝 (contrastCov W K) ×ˢ 𝓝 W) (𝓝 (W i j)) := fun i j => by
    have hc : Continuous fun S : Mat (q + r) r => S i j := by fun_prop
    exact (hc.tendsto W).comp tendsto_snd
  have hS : ∀ i j, Tendsto (fun p : Mat r r × Mat (q + r) r => (p.1⁻¹ * p.2ᵀ) i j) (𝓝 (contrastCov W K) ×ˢ 𝓝 W)
      (𝓝 (((contrastCov W K)⁻¹ * Wᵀ) i j)) := fun i j =>
    inv_mul_lim (PosDef.det_unit hG).ne_zero tendsto_fst (b := fun p : Mat r r × Mat (q + r) r => p.2ᵀ) (b0 := Wᵀ)
      (fun i j => hV j i) i j
  have hMij : ∀ i j, Tendsto (fun p : Mat r r × Mat (q + r) r => ∑ k, p.2 i k * (p.1⁻¹ * p.2ᵀ) k j) (𝓝 (contrastCov W K) ×ˢ 𝓝 W)
      (𝓝 (M i j)) := fun i j => by
    rw [hMe, Matrix.mul_apply]
    exact tendsto_finsetSum _ fun k _ => (hV i k).mul (hS k j)
  have hmz : ∀ i, Tendsto (fun p : Mat r r × Mat (q + r) r => (p.2 *ᵥ ((p.1⁻¹ * p.2ᵀ) *ᵥ zi)) i) (𝓝 (contrastCov W K) ×ˢ 𝓝 W)
      (𝓝 ((M *ᵥ zi) i)) := fun i => by
    have h3 : ∀ p : Mat r r × Mat (q + r) r, (p.2 *ᵥ ((p.1⁻¹ * p.2ᵀ) *ᵥ zi)) i = ∑ j, (∑ k, p.2 i k * (p.1⁻¹ * p.2ᵀ) k j) * zi j := by
      intro p
      rw [Matrix.mulVec_mulVec]
      simp only [mulVec, dotProduct]
      exact Finset.sum_congr rfl fun j _ => by rw [Matrix.mul_apply]
    simp only [h3]
    simp only [mulVec, dotProduct]
    exact tendsto_finsetSum _ fun j _ => (hMij i j).mul_const _
  have e : ∀ᶠ p : Mat r r × Mat (q + r) r in 𝓝 (contrastCov W K) ×ˢ 𝓝 W, ∀ i, 1 / M i i ≠ 0 → LooClose ε i
      (fun j => zi j - (p.2 *ᵥ ((p.1⁻¹ * p.2ᵀ) *ᵥ zi)) j / (∑ k, p.2 j k * (p.1⁻¹ * p.2ᵀ) k j) + (0 : Fin (q + r) → ℝ) j,
        fun j => 1 / ∑ k, p.2 j k * (p.1⁻¹ * p.2ᵀ) k j, fun j => (p.2 *ᵥ ((p.1⁻¹ * p.2ᵀ) *ᵥ zi)) j / ∑ k, p.2 j k * (p.1⁻¹ * p.2ᵀ) k j)
      (fun j => zi j - (M *ᵥ zi) j / M j j + (0 : Fin (q + r) → ℝ) j, fun j => 1 / M j j, fun j => (M *ᵥ zi) j / M j j) := by
    rw [eventually_all]
    intro i
    by_cases hi : M i i = 0
    · simp [hi]
    · refine (looClose_of_tendsto zi (b := fun (p : Mat r r × Mat (q + r) r) j => (p.2 *ᵥ ((p.1⁻¹ * p.2ᵀ) *ᵥ zi)) j)
        (b0 := fun j => (M *ᵥ zi) j) (d := fun p j => ∑ k, p.2 j k * (p.1⁻¹ * p.2ᵀ) k j)
        (d0 := fun j => M j j) (hmz i) (hMij i i) hi 0 hε).mono fun p hp _ => hp
  simp only [Pi.zero_apply, add_zero] at e
  filter_upwards [h.chol_contrast hK hW e] with p hp
  obtain ⟨S, C, hS, h2, h3⟩ := hp
  refine ⟨_, ?_, hS⟩
  simp only [chol_solve_of h2 h3, Bind.bind, Except.bind, Pure.pure, Except.pure]

/-- **C261** The information matrix tends to the one computed exactly. -/
theorem fisher_near (h : LA.Near la) (h0 : la0.Sound be) {p : ℕ} {cov : (Fin p → ℝ) → Mat n n} {theta : Fin p → ℝ}
    (hK : IsUnit (cov theta)) (eps : ℝ) {ε : ℝ} (hε : 0 < ε) :
    ∃ F, fisher la0 cov theta eps = .ok F ∧
      ∀ᶠ k in atTop, ∃ F', fisher (la k) cov theta eps = .ok F' ∧ ∀ i j, |F' i j - F i j| < ε := by
  have hd : IsUnit (cov theta).det := (Matrix.isUnit_iff_isUnit_det _).mp hK
  refine ⟨symFill fun i j => 0.5 * Matrix.trace ((cov theta)⁻¹ * dCov cov theta eps i * (cov theta)⁻¹ * dCov cov theta eps j),
    by simp only [fisher, h0.inv_ok _ hK], ?_⟩
  let T : Mat n n → Mat p p := fun R => symFill fun i j =>
    0.5 * Matrix.trace (((cov theta)⁻¹ * R) * dCov cov theta eps i * ((cov theta)⁻¹ * R) * dCov cov theta eps j)
  have e : ∀ᶠ R in 𝓝 (1 : Mat n n), ∀ i j, |T R i j - T 1 i j| < ε := by
    rw [eventually_all]
    intro i
    rw [eventually_all]
    intro j
    have hc : Continuous fun R => T R i j := by
      simp only [T, symFill, Matrix.of_apply]
      split
      · fun_prop
      · fun_prop
    exact entry_near (hc.tendsto 1) hε
  obtain ⟨δ, δ0, hδ⟩ := mat_ball e
  filter_upwards [h.inv (cov theta) hK (δ / 2) (half_pos δ0)] with k hk
  obtain ⟨X, hX, hr⟩ := hk
  have h3 := hδ (cov theta * X) fun i j => (hr i j).trans_lt (half_lt_self δ0)
  have h4 : (cov theta)⁻¹ * (cov theta * X) = X := Matrix.nonsing_inv_mul_cancel_left _ _ hd
  refine ⟨T (cov theta * X), ?_, ?_⟩
  · simp only [fisher, hX, T, h4]
  · intro i j
    have := h3 i j
    simpa only [T, Matrix.mul_one] using this

/-! ## The hypothesis is satisfied -/

theorem posDef_open {B : Mat n n} (hB : B.PosDef) : ∀ᶠ A in 𝓝 B, Aᵀ = A → A.PosDef := by
  have hc : IsCompact (Metric.sphere (0 : Fin n → ℝ) 1) := isCompact_sphere 0 1
  have h1 : ∀ᶠ A in 𝓝 B, ∀ x ∈ Metric.sphere (0 : Fin n → ℝ) 1, 0 < x ⬝ᵥ (A *ᵥ x) := by
    refine hc.eventually_forall_of_forall_eventually fun x hx => ?_
    have hx0 : x ≠ 0 := by
      rintro rfl
      simp at hx
    have hcont : Continuous fun p : Mat n n × (Fin n → ℝ) => p.2 ⬝ᵥ (p.1 *ᵥ p.2) := by
      simp only [mulVec, dotProduct]
      fun_prop
    exact (hcont.tendsto (B, x)).eventually (lt_mem_nhds (PosDef.quad_pos hB hx0))
  filter_upwards [h1] with A hA hs
  refine posDef_of_quad hs fun x hx => ?_
  have hn : 0 < ‖x‖ := norm_pos_iff.mpr hx
  have h2 := hA (‖x‖⁻¹ • x) (by simp [norm_smul, hn.ne'])
  rw [Matrix.mulVec_smul, dotProduct_smul, smul_dotProduct, smul_eq_mul, smul_eq_mul] at h2
  have : 0 < ‖x‖⁻¹ := inv_pos.mpr hn
  by_contra hneg
  push Not at hneg
  have : ‖x‖⁻¹ * (‖x‖⁻¹ * x ⬝ᵥ A *ᵥ x) ≤ 0 := by
    have := mul_nonpos_of_nonneg_of_nonpos (mul_self_nonneg ‖x‖⁻¹) hneg
    linarith [mul_assoc ‖x‖⁻¹ ‖x‖⁻¹ (x ⬝ᵥ A *ᵥ x)]
  linarith

/-- Routines with errors of order `e`: the factor is the one of `A + e`, the solutions have residual `e`,
and the orthonormal factor is scaled by `1 + e`. -/
noncomputable def jitterLA (be : Backend) (e : ℝ) : LA where
  chol A := (exactLA be).chol (A + e • 1)
  solve A B := (exactLA be).solve A (B + Matrix.of fun _ _ => e)
  solveSym := (exactLA be).solveSym
  qr P := ((1 + e) • ((exactLA be).qr P).1, ((exactLA be).qr P).2)
  inv A := (exactLA be).solve A ((1 + e) • 1)

theorem jitter_posDef {A : Mat n n} (hA : A.PosDef) {e : ℝ} (he : 0 ≤ e) : (A + e • (1 : Mat n n)).PosDef :=
  hA.add_posSemidef (PosSemidef.one.smul he)

theorem one_entry_le (i j : Fin n) : |(1 : Mat n n) i j| ≤ 1 := by
  rw [Matrix.one_apply]
  split <;> simp

/-- **C261** Routines that are exact, or have errors of order `1 / (k + 1)`, meet the hypothesis. -/
theorem jitter_near (be : Backend) : LA.Near (fun k => jitterLA be (1 / ((k : ℝ) + 1))) := by
  have hl := tendsto_one_div_add_atTop_nhds_zero_nat (𝕜 := ℝ)
  have hpos : ∀ k : ℕ, (0 : ℝ) < 1 / ((k : ℝ) + 1) := fun k => Nat.one_div_pos_of_nat
  have hc := exactLA_contract be
  refine ⟨?_, ?_, ?_, ?_⟩
  · intro n B hB ε hε
    have h1 : ∀ᶠ p : ℕ × Mat n n in atTop ×ˢ 𝓝 B, 1 / ((p.1 : ℝ) + 1) < ε :=
      tendsto_fst.eventually (hl.eventually (gt_mem_nhds hε))
    have h2 : ∀ᶠ p : ℕ × Mat n n in atTop ×ˢ 𝓝 B, p.2ᵀ = p.2 → p.2.PosDef := tendsto_snd.eventually (posDef_open hB)
    filter_upwards [h1, h2] with p hp hp2 hs
    obtain ⟨C, hC, hch⟩ := hc.chol_ok _ (jitter_posDef (hp2 hs) (hpos p.1).le)
    refine ⟨_, C, hC, hch, fun i j => ?_⟩
    rw [Matrix.add_apply, add_sub_cancel_left, Matrix.smul_apply, smul_eq_mul, abs_mul, abs_of_pos (hpos p.1)]
    exact (mul_le_of_le_one_right (hpos p.1).le (one_entry_le i j)).trans hp.le
  · intro ι κ _ _ _ A B hA ε hε
    filter_upwards [hl.eventually (gt_mem_nhds hε)] with k hk
    obtain ⟨X, hX⟩ := hc.solve_total A (B + Matrix.of fun _ _ => 1 / ((k : ℝ) + 1)) hA
    refine ⟨X, hX, fun i j => ?_⟩
    rw [hc.solve_ok _ _ _ hX, Matrix.add_apply, add_sub_cancel_left, Matrix.of_apply, abs_of_pos (hpos k)]
    exact hk.le
  · intro n q P hq ε hε
    have hQR := hc.qr_ok P hq
    have l1 : Tendsto (fun k : ℕ => (1 + 1 / ((k : ℝ) + 1)) * (1 + 1 / ((k : ℝ) + 1)) - 1) atTop (𝓝 0) := by
      have := ((hl.const_add 1).mul (hl.const_add 1)).sub_const 1
      simpa using this
    have e1 : ∀ᶠ k : ℕ in atTop, |(1 + 1 / ((k : ℝ) + 1)) * (1 + 1 / ((k : ℝ) + 1)) - 1 - 0| < ε := entry_near l1 hε
    have e2 : ∀ᶠ k : ℕ in atTop, ∀ i j, |1 / ((k : ℝ) + 1) * P i j - 0| < ε := by
      rw [eventually_all]
      intro i
      rw [eventually_all]
      intro j
      have := hl.mul_const (P i j)
      rw [zero_mul] at this
      exact entry_near this hε
    filter_upwards [e1, e2] with k h1 h2
    refine ⟨fun i j => ?_, fun i j hij => hQR.upper i j hij, fun i j => ?_⟩
    · have : (((1 + 1 / ((k : ℝ) + 1)) • ((exactLA be).qr P).1)ᵀ * ((1 + 1 / ((k : ℝ) + 1)) • ((exactLA be).qr P).1)) =
          ((1 + 1 / ((k : ℝ) + 1)) * (1 + 1 / ((k : ℝ) + 1))) • (1 : Mat n n) := by
        rw [Matrix.transpose_smul, Matrix.smul_mul, Matrix.mul_smul, hQR.orth, smul_smul]
      simp only [jitterLA]
      rw [this, Matrix.smul_apply, smul_eq_mul, ← sub_one_mul, abs_mul]
      rw [sub_zero] at h1
      exact (mul_le_of_le_one_right (abs_nonneg _) (one_entry_le i j)).trans h1.le
    · simp only [jitterLA]
      rw [Matrix.smul_mul, hQR.mul, Matrix.smul_apply, smul_eq_mul]
      have := h2 i j
      rw [sub_zero] at this
      have e : (1 + 1 / ((k : ℝ) + 1)) * P i j - P i j = 1 / ((k : ℝ) + 1) * P i j := by ring
      rw [e]
      exact this.le
  · intro n A hA ε hε
    filter_upwards [hl.eventually (gt_mem_nhds hε)] with k hk
    obtain ⟨X, hX⟩ := hc.solve_total A ((1 + 1 / ((k : ℝ) + 1)) • (1 : Mat n n)) hA
    refine ⟨X, hX, fun i j => ?_⟩
    rw [hc.solve_ok _ _ _ hX, Matrix.smul_apply, smul_eq_mul]
    have e : (1 + 1 / ((k : ℝ) + 1)) * (1 : Mat n n) i j - (1 : Mat n n) i j = 1 / ((k : ℝ) + 1) * (1 : Mat n n) i j := by ring
    rw [e, abs_mul, abs_of_pos (hpos k)]
    exact (mul_le_of_le_one_right (hpos k).le (one_entry_le i j)).trans hk.le

/-! ## No uniform accuracy -/

/-- A covariance of size `δ` observed and predicted at the same point. -/
noncomputable def tinyArrays (δ : ℝ) : Arrays (0 + 1) 1 0 where
  Kii := Matrix.of fun _ _ => δ
  Kit := Matrix.of fun _ _ => δ
  vt := fun _ => δ
  Ktt := Matrix.of fun _ _ => δ
  Pi := 0
  Pt := 0

theorem fin01 (i j : Fin (0 + 1)) : i = j := Fin.ext (by omega)

theorem const_posDef {δ : ℝ} (h : 0 < δ) : (Matrix.of fun _ _ => δ : Mat (0 + 1) (0 + 1)).PosDef := by
  refine posDef_of_quad (by ext; rfl) fun x hx => ?_
  have h0 : x 0 ≠ 0 := fun h0 => hx (funext fun i => by rw [fin01 i 0]; exact h0)
  have : x ⬝ᵥ ((Matrix.of fun _ _ => δ : Mat (0 + 1) (0 + 1)) *ᵥ x) = x 0 * (δ * x 0) := by
    simp [dotProduct, mulVec]
  rw [this]
  have := mul_self_pos.mpr h0
  nlinarith

theorem const_inv {δ : ℝ} (h : 0 < δ) : (Matrix.of fun _ _ => δ : Mat (0 + 1) (0 + 1))⁻¹ = Matrix.of fun _ _ => δ⁻¹ := by
  apply Matrix.inv_eq_right_inv
  ext i j
  rw [fin01 i j]
  simp [Matrix.mul_apply, h.ne']

/-- **C261** No accuracy of the factorisation is enough for all covariances: however small the error, the
prediction at an observed point can be half the observed value. -/
theorem near_uniform_false : ¬ ∀ ε : ℝ, 0 < ε → ∃ δ : ℝ, 0 < δ ∧ ∀ l : LA,
    (∀ {n : ℕ} (A : Mat n n), A.PosDef → ∃ S C, l.chol A = .ok C ∧ IsChol S C ∧ ∀ i j, |S i j - A i j| ≤ δ) →
    ∀ (a : Arrays (0 + 1) 1 0) (z : Fin (0 + 1) → ℝ) out out', a.Kii.PosDef → predict (exactLA .numpy) .zero a z false = .ok out →
      predict l .zero a z false = .ok out' → |out'.1 0 - out.1 0| < ε * |out.1 0| := by
  intro hcon
  obtain ⟨δ, δ0, h⟩ := hcon (1 / 4) (by norm_num)
  have hp := const_posDef δ0
  have hacc : ∀ {n : ℕ} (A : Mat n n), A.PosDef →
      ∃ S C, (jitterLA .numpy δ).chol A = .ok C ∧ IsChol S C ∧ ∀ i j, |S i j - A i j| ≤ δ := by
    intro n A hA
    obtain ⟨C, hC, hch⟩ := (exactLA_contract .numpy).chol_ok _ (jitter_posDef hA δ0.le)
    refine ⟨_, C, hC, hch, fun i j => ?_⟩
    rw [Matrix.add_apply, add_sub_cancel_left, Matrix.smul_apply, smul_eq_mul, abs_mul, abs_of_pos δ0]
    exact mul_le_of_le_one_right δ0.le (one_entry_le i j)
  have h1 := predict_zero (exactLA_contract .numpy) (tinyArrays δ) hp (fun _ => 1) false
  obtain ⟨C, hC, hch⟩ := (exactLA_contract .numpy).chol_ok _ (jitter_posDef hp δ0.le)
  have h2 : predict (jitterLA .numpy δ) .zero (tinyArrays δ) (fun _ => 1) false = .ok
      (fun t => ∑ i, (((tinyArrays δ).Kii + δ • 1)⁻¹ * (tinyArrays δ).Kit) i t * 1 + 0,
       fun t => δ - ∑ i, (((tinyArrays δ).Kii + δ • 1)⁻¹ * (tinyArrays δ).Kit) i t * δ,
       ((tinyArrays δ).Kii + δ • 1)⁻¹ * (tinyArrays δ).Kit) := by
    have hC' : (jitterLA .numpy δ).chol (tinyArrays δ).Kii = .ok C := hC
    simp only [predict, selectPredictor, krigingZeroMean, chol_solve_of hC' hch, posteriorVariance, Bind.bind, Except.bind, Pure.pure,
      Except.pure, PostVar.toVar]
    rfl
  have h3 := h _ hacc _ _ _ _ hp h1 h2
  have e1 : ((tinyArrays δ).Kii + δ • (1 : Mat (0 + 1) (0 + 1))) = Matrix.of fun _ _ => 2 * δ := by
    ext i j
    rw [fin01 i j]
    simp [tinyArrays]
    ring
  have e2 : (tinyArrays δ).Kii⁻¹ = Matrix.of fun _ _ => δ⁻¹ := const_inv δ0
  rw [e1, const_inv (by positivity), e2] at h3
  simp [Matrix.mul_apply, tinyArrays, δ0.ne'] at h3
  have : (2 * δ)⁻¹ * δ = 1 / 2 := by field_simp
  norm_num at h3
  rw [abs_lt] at h3
  have h4 : δ⁻¹ * 2⁻¹ * δ = 1 / 2 := by field_simp
  nlinarith [h3.1, h3.2]

/-! ## Examples -/

theorem ones_fullRank : FullRank (Matrix.of fun _ _ => 1 : Mat (1 + 2) 1) := by
  intro b hb
  have := congrFun hb 0
  ext i
  rw [Subsingleton.elim i 0]
  simpa [mulVec, dotProduct] using this

/-- Three observations with covariance `δᵢⱼ + 1`, one unknown constant: the restricted likelihood computed with
errors of order `1 / (k + 1)` tends to the exact one. -/
example (z : Fin (1 + 2) → ℝ) : ∃ v, reml .torch (exactLA .torch) (firstCov exK 3) (Matrix.of fun _ _ => 1 : Mat (1 + 2) 1) z = .ok (.finite v) ∧
    ∀ᶠ k : ℕ in atTop, ∃ v', reml .torch (jitterLA .torch (1 / ((k : ℝ) + 1))) (firstCov exK 3) (Matrix.of fun _ _ => 1 : Mat (1 + 2) 1) z =
      .ok (.finite v') ∧ |v' - v| < 1 / 1000 :=
  reml_near (jitter_near .torch) (exactLA_contract .torch).toSound (CPD.of_posDef (exK_posDef 3) _) ones_fullRank z (by norm_num)

example (z : Fin 3 → ℝ) : ∃ v, nll .numpy (exactLA .numpy) (firstCov exK 3) 0 z = .ok (.finite v) ∧
    ∀ᶠ k : ℕ in atTop, ∃ v', nll .numpy (jitterLA .numpy (1 / ((k : ℝ) + 1))) (firstCov exK 3) 0 z = .ok (.finite v') ∧ |v' - v| < 1 / 1000 :=
  nll_near (jitter_near .numpy) (exactLA_contract .numpy).toSound (exK_posDef 3) 0 z (by norm_num)

end Verif.Core
