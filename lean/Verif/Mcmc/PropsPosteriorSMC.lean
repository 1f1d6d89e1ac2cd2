import Verif.Mcmc.PropsPosterior
import Verif.Mcmc.PropsSMC
import Verif.Mcmc.PropsSMCRun
import Verif.Mcmc.PropsSVGDEdge

/-!
# Posterior sampling with SMC

The tempered target of `sample_from_selection_criterion_smc`, and where the sampler differs
from its documentation.
-/

set_option autoImplicit false

namespace Verif.Posterior

open Verif
open Verif.MH (bind_ok)
open Verif.SVGD (Bound)

variable {n d : ℕ}

/-- The criterion is evaluated at all particles, or raises. -/
theorem critAll_ok {f : Crit} {x : Fin n → Pt d} {v : Fin n → Flt} :
    critAll f x = .ok v ↔ ∀ i, f d (x i) = .ok (v i) := SVGD.forFin_ok

open Classical in
/-- **C124** The tempered log-density of a set of particles: minus the criterion divided by the
temperature for the particles in the box, `-inf` for the others.  It succeeds exactly when the
criterion has a value at every particle, inside of the box or not. -/
theorem smcTarget_spec (f : Crit) (box : Option (Pt d × Pt d)) (x : Fin n → Pt d) (T : ℝ)
    (l : Fin n → Flt) :
    smcTarget f box x T = .ok l ↔ ∃ v : Fin n → Flt, (∀ i, f d (x i) = .ok (v i)) ∧
      ∀ i, l i = if Outside box (x i) then .num ⊥ else (v i).neg.div (.fin T) := by
  have hb : bcast d d = true := by simp [bcast]
  have hin : ∀ lo hi : Pt d, ∀ p : Pt d,
      (∀ k < max d d, ∃ (hd : (if d = 1 then 0 else k) < d) (he : (if d = 1 then 0 else k) < d),
        lo ⟨_, he⟩ ≤ p ⟨_, hd⟩ ∧ p ⟨_, hd⟩ ≤ hi ⟨_, he⟩) ↔ ¬ Outside (some (lo, hi)) p := by
    intro lo hi p
    constructor
    · rintro h ⟨lo', hi', e, j, hj⟩
      injection e with e
      obtain ⟨rfl, rfl⟩ := Prod.mk.inj e
      obtain ⟨h1, h2, h3, h4⟩ := h j (by rw [max_self]; exact j.2)
      have hj' : (⟨if d = 1 then 0 else (j : ℕ), h1⟩ : Fin d) = j := by
        apply Fin.ext
        dsimp only
        split_ifs with h
        · have := j.2; omega
        · rfl
      rw [hj'] at h3 h4
      rcases hj with hj | hj
      · linarith
      · linarith
    · intro h k hk
      rw [max_self] at hk
      have hk' : (if d = 1 then 0 else k) < d := by split_ifs <;> omega
      refine ⟨hk', hk', ?_⟩
      constructor
      · by_contra hc
        exact h ⟨lo, hi, rfl, _, Or.inl (not_le.mp hc)⟩
      · by_contra hc
        exact h ⟨lo, hi, rfl, _, Or.inr (not_le.mp hc)⟩
  unfold smcTarget
  constructor
  · intro h
    obtain ⟨v, hv, h⟩ := bind_ok h
    refine ⟨v, critAll_ok.mp hv, ?_⟩
    cases box with
    | none =>
      injection h with h
      subst h
      intro i
      rw [if_neg]
      rintro ⟨_, _, h, _⟩
      cases h
    | some b =>
      simp only [hb, Bool.true_eq_false, if_false] at h
      injection h with h
      subst h
      intro i
      beta_reduce
      by_cases ho : Outside (some b) (x i)
      · rw [if_pos ho, if_neg fun hc => (hin b.1 b.2 (x i)).mp hc ho]
      · rw [if_neg ho, if_pos ((hin b.1 b.2 (x i)).mpr ho)]
  · rintro ⟨v, hv, hl⟩
    have hv' := critAll_ok.mpr hv
    simp only [hv', bind, Except.bind]
    cases box with
    | none =>
      refine congrArg Except.ok (funext fun i => ?_)
      rw [hl i, if_neg]
      rintro ⟨_, _, h, _⟩
      cases h
    | some b =>
      simp only [hb, Bool.true_eq_false, if_false]
      refine congrArg Except.ok (funext fun i => ?_)
      rw [hl i]
      by_cases ho : Outside (some b) (x i)
      · rw [if_pos ho, if_neg fun hc => (hin b.1 b.2 (x i)).mp hc ho]
      · rw [if_neg ho, if_pos ((hin b.1 b.2 (x i)).mpr ho)]

/-- Two particles, a criterion `θ²`, the box `[0, 1]` and temperature 2. -/
example : smcTarget (n := 2) (d := 1) (fun _ p => .ok (.fin (∑ j, p j ^ 2))) (some (fun _ : Fin 1 => 0, fun _ => 1))
    (fun i _ => if i = 0 then 1 / 2 else 3) 2 = .ok fun i => if i = 0 then .fin (-1 / 8) else .num ⊥ := by
  classical
  refine (smcTarget_spec _ _ _ _ _).mpr ⟨_, fun i => rfl, fun i => ?_⟩
  fin_cases i
  · change Flt.fin (-1 / 8) = _
    rw [if_neg]
    · change _ = (Flt.fin _).div (.fin 2)
      rw [Flt.div_fin (by norm_num)]
      congr 1
      norm_num
    · rintro ⟨lo, hi, h, j, hj⟩
      injection h with h
      obtain ⟨rfl, rfl⟩ := Prod.mk.inj h
      norm_num at hj
  · change Flt.num ⊥ = _
    rw [if_pos]
    exact ⟨_, _, rfl, 0, Or.inr (by norm_num)⟩

/-- One particle at which the criterion raises makes the log-density of the whole set raise,
even if it is outside of the box. -/
theorem smcTarget_raises {e : ℕ} (f : Crit) (box : Option (Pt e × Pt e)) (x : Fin n → Pt d) (T : ℝ) (i : Fin n)
    {er : PyErr} (h : f d (x i) = .error er) : ∃ er', smcTarget f box x T = .error er' := by
  cases hc : critAll f x with
  | error e' => exact ⟨e', by unfold smcTarget; simp only [hc, bind, Except.bind]⟩
  | ok v =>
    have := critAll_ok.mp hc i
    rw [h] at this
    cases this

/-- **C124** A criterion that raises at one of the initial particles makes the SMC sampler raise;
the MH and NUTS samplers give such points zero density. -/
theorem smc_raises {e : ℕ} (k : SMCArgs) (cfg : SMC.PConfig) (sc : SMC.SConfig)
    (brentq : (ℝ → Py Flt) → ℝ → ℝ → Py ℝ) (env : ∀ d, SMC.Env k.n d) (f : Crit)
    (ib : List Bound) (box : Option (Pt e × Pt e)) (fuel : ℕ) (hcfg : cfg.randunif = true)
    {d : ℕ} {lo hi : Pt d} (hb : smcBox ib = .ok ⟨d, lo, hi⟩)
    {x : Fin k.n → Pt d} (hx : SMC.scaleBox ((env d).init 0) lo hi = .ok x) (i : Fin k.n)
    {er : PyErr} (h : f d (x i) = .error er) :
    ∃ er', runSMC k cfg sc brentq env f ib box fuel = .error er' := by
  obtain ⟨er', her⟩ := smcTarget_raises f box x k.final i h
  refine ⟨er', ?_⟩
  unfold runSMC SMC.newParts SMC.particlesInit SMC.stepRestart SMC.reweight
  simp only [hb, hcfg, hx, SMC.setLogpdfParam, SMC.setLogpdf, her, bind, Except.bind, pure, Except.pure,
    Bool.not_true, Bool.false_eq_true, if_false]

/-- **C124** Concretely: a criterion with values on `sampling_box = [0, 1]` that raises outside,
and `init_box = [-1, 1]` with a particle at `-1`. -/
theorem smc_raises_false (brentq : (ℝ → Py Flt) → ℝ → ℝ → Py ℝ) (env : ∀ d, SMC.Env 2 d)
    (h0 : (env 1).init 0 0 0 = 0) (fuel : ℕ) :
    let f : Crit := fun d p => open Classical in
      if ∃ j, p j < 0 ∨ 1 < p j then .error .linAlgError else .ok (.fin 0)
    (∀ p : Pt 1, ¬ Outside (some (fun _ => 0, fun _ => 1)) p → f 1 p = .ok (.fin 0)) ∧
    ∃ er, sampleSMC none (some f) (some [.vec [-1], .vec [1]]) (some [.vec [0], .vec [1]])
      ⟨2, 1000000, 1, 0.5, 20⟩ brentq env fuel = .error er := by
  classical
  intro f
  constructor
  · intro p hp
    simp only [f]
    rw [if_neg]
    rintro ⟨j, hj⟩
    exact hp ⟨_, _, rfl, j, hj⟩
  · obtain ⟨er, her⟩ := smc_raises (d := 1) (lo := fun _ => -1) (hi := fun _ => 1)
      ⟨2, 1000000, 1, 0.5, 20⟩ { scheme := .residual, cov := .normal }
      { useEss := true, mhSteps := 20 } brentq env f [.vec [-1], .vec [1]]
      (some ((fun _ => 0, fun _ => 1) : Pt 1 × Pt 1)) fuel rfl
      (by
        simp only [smcBox, smcDim, scaleBound, SVGD.tile1, Bound.flat, List.length_cons, List.length_nil,
          List.replicate, bind, Except.bind, pure, Except.pure, zero_add, if_true]
        congr 1
        congr 1
        refine Prod.ext (funext fun i => ?_) (funext fun i => ?_) <;> fin_cases i <;> rfl)
      (x := fun i j => -1 + (env 1).init 0 i j * (1 - -1))
      (by unfold SMC.scaleBox; rw [if_pos (by intro j; norm_num)]) 0
      (er := .linAlgError) (by
        simp only [f]
        rw [if_pos]
        exact ⟨0, Or.inl (by rw [h0]; norm_num)⟩)
    refine ⟨er, ?_⟩
    have hn1 : SVGD.normBounds [.vec [-1], .vec [1]] 1 = .ok (fun _ => -1, fun _ => 1) :=
      (SVGD.normBounds_spec _ _ _ _).mpr ⟨_, _, rfl, Or.inl rfl, Or.inl rfl, fun c => ⟨rfl, rfl⟩⟩
    have hn2 : SVGD.normBounds [.vec [0], .vec [1]] 1 = .ok (fun _ => 0, fun _ => 1) :=
      (SVGD.normBounds_spec _ _ _ _).mpr ⟨_, _, rfl, Or.inl rfl, Or.inl rfl, fun c => ⟨rfl, rfl⟩⟩
    unfold sampleSMC
    simp only [resolve, inferDim, List.length_cons, List.length_nil, zero_add, bind, Except.bind,
      SVGD.normBox, hn1, hn2, pure, Except.pure]
    exact her

/-- **C124** A box of two numbers is accepted as `init_box` by the preparation but the sampler
then raises `TypeError`. -/
theorem smc_scalar_box_false (i : Info) (f : Crit) (hc : i.pick false = .fn f) {d : ℕ} {x : ℕ → ℝ}
    (hd : i.covparam = .one d x) (a b : ℝ) (k : SMCArgs)
    (brentq : (ℝ → Py Flt) → ℝ → ℝ → Py ℝ) (env : ∀ d, SMC.Env k.n d) (fuel : ℕ) :
    SVGD.normBounds [.scalar a, .scalar b] d = .ok (fun _ => a, fun _ => b) ∧
    sampleSMC (some i) none (some [.scalar a, .scalar b]) none k brentq env fuel = .error .typeError := by
  refine ⟨rfl, ?_⟩
  unfold sampleSMC runSMC
  simp only [resolve, hc, inferDim, hd, bind, Except.bind, SVGD.normBounds, SVGD.normBox, smcBox, smcDim]

/-- **C124** The particles have the dimension of `init_box[0]`, not that of the parameters of
`info`: every result has that dimension. -/
theorem smc_dimension {info : Option Info} {sel : Option Crit} {l h : List ℝ} {sb : Option (List Bound)}
    {k : SMCArgs} {brentq : (ℝ → Py Flt) → ℝ → ℝ → Py ℝ} {env : ∀ d, SMC.Env k.n d} {fuel : ℕ}
    {r : SMCResult k.n}
    (hr : sampleSMC info sel (some [.vec l, .vec h]) sb k brentq env fuel = .ok (some r)) :
    r.d = l.length := by
  unfold sampleSMC at hr
  obtain ⟨f, _, hr⟩ := bind_ok hr
  obtain ⟨dim, _, hr⟩ := bind_ok hr
  obtain ⟨_, _, hr⟩ := bind_ok hr
  obtain ⟨b, _, hr⟩ := bind_ok hr
  unfold runSMC at hr
  obtain ⟨bb, hbb, hr⟩ := bind_ok hr
  obtain ⟨p, _, hr⟩ := bind_ok hr
  obtain ⟨q, _, hr⟩ := bind_ok hr
  injection hr with hr
  obtain ⟨q', _, rfl⟩ := Option.map_eq_some_iff.mp hr
  unfold smcBox at hbb
  obtain ⟨d, hd, hbb⟩ := bind_ok hbb
  obtain ⟨lo, _, hbb⟩ := bind_ok hbb
  obtain ⟨hi, _, hbb⟩ := bind_ok hbb
  injection hbb with hbb
  injection hd with hd
  change bb.1 = _
  rw [← hbb]
  exact hd.symm

end Verif.Posterior
