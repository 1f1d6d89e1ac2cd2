import Verif.Mcmc.MHHelpers
import Verif.Mcmc.PropsMHTune
import Mathlib.Tactic.Linarith
import Mathlib.Tactic.NormNum

/-!
# C193 – C196: proposals, initial parameters, whole-chain statistics, uninitialised memory
-/

set_option autoImplicit false

namespace Verif.MH

open Verif Matrix

variable {d m : ℕ} {W : Type} {o : Opts d} {env : Env d m W}

/-! ## C193: the Hastings correction -/

/-- **C193** The proposal density used is symmetric in the two states. -/
theorem gaussLogProp_symm (p : PropPar d) (x y : Pt d) : gaussLogProp p x y = gaussLogProp p y x := by
  unfold gaussLogProp gaussLogpdf
  cases p.cov with
  | none => rfl
  | some M =>
    simp only
    split
    · have e : dotProduct (y - x) (M⁻¹.mulVec (y - x)) = dotProduct (x - y) (M⁻¹.mulVec (x - y)) := by
        rw [← neg_sub x y, Matrix.mulVec_neg, neg_dotProduct_neg]
      rw [e]
    · rfl

/-- **C193** Hence `symmetric=False` decides exactly as `symmetric=True`, whatever `prop_rnd` is: no
proposal is ever corrected (or, for a covariance that is not positive definite, the step raises). -/
theorem asymmetric_same (lt : Pt d → Py Flt) (p : PropPar d) (x : Pt d) (cached : Option Flt)
    (propose : Py (Pt d)) (u : ℝ) :
    (p.Good → mhStep lt false (gaussLogProp p) x cached propose u =
      mhStep lt true (gaussLogProp p) x cached propose u) ∧
    (¬ p.Good → ∀ y, propose = .ok y →
      mhStep lt false (gaussLogProp p) x cached propose u = .error .valueError) := by
  constructor
  · rintro ⟨M, hM, hp⟩
    cases propose with
    | error e => rfl
    | ok y =>
      have h1 : ∀ a b : Pt d, ∃ v : ℝ, gaussLogProp p a b = .ok (.fin v) := by
        intro a b
        refine ⟨-(1 / 2) * (d * Real.log (2 * Real.pi) + Real.log M.det +
          dotProduct (b - a) (M⁻¹.mulVec (b - a))), ?_⟩
        unfold gaussLogProp gaussLogpdf
        rw [hM]
        exact if_pos hp
      obtain ⟨v, hv⟩ := h1 x y
      have hv' : gaussLogProp p y x = .ok (.fin v) := by rw [gaussLogProp_symm, hv]
      have e : ∀ lx ly : Flt, logA false (gaussLogProp p) x y lx ly = logA true (gaussLogProp p) x y lx ly := by
        intro lx ly
        simp only [logA, Bool.false_eq_true, if_false, if_true, hv, hv', bind, Except.bind, pure, Except.pure]
        congr 1
        cases h : ly.sub lx with
        | nan => rfl
        | num w =>
          rw [show (Flt.fin v).sub (Flt.fin v) = .fin 0 by simp]
          change Flt.add (.num w) (.num ((0 : ℝ) : EReal)) = _
          induction w with
          | bot => simp [Flt.add]
          | top => simp [Flt.add]
          | coe r =>
            change Flt.add (.fin r) (.fin 0) = .fin r
            simp
      unfold mhStep
      simp only [bind, Except.bind, e]
  · rintro h y rfl
    have e : gaussLogProp p y x = .error .valueError := by
      unfold gaussLogProp gaussLogpdf
      cases hc : p.cov with
      | none => rfl
      | some M => exact if_neg fun hp => h ⟨M, hc, hp⟩
    unfold mhStep logA
    simp only [Bool.false_eq_true, if_false, e, bind, Except.bind]

/-- **C193** is false: with `symmetric=False`, a proposal that always adds one and the standard normal
target, the chain moves up with certainty below -1/2 and never moves down, so the target is not
stationary. -/
theorem asymmetric_false :
    ∃ (lt : Pt 1 → Py Flt) (prop : Pt 1 → Py (Pt 1)), (∀ x, lt x = .ok (.fin (-(x 0) ^ 2 / 2))) ∧
      (∀ x u r, mhStep lt false (gaussLogProp (.diag 1)) x none (prop x) u = .ok r → x 0 ≤ r.1 0) ∧
      ∀ (x : Pt 1) (u : ℝ), x 0 < -1 / 2 → u < 1 →
        ∃ r, mhStep lt false (gaussLogProp (.diag 1)) x none (prop x) u = .ok r ∧ r.1 0 = x 0 + 1 := by
  classical
  refine ⟨fun x => .ok (.fin (-(x 0) ^ 2 / 2)), fun x => .ok (x + 1), fun _ => rfl, ?_, ?_⟩
  · intro x u r hr
    rcases mhStep_out hr with ⟨_, h, _⟩ | ⟨_, h, _⟩
    · rw [← Except.ok.inj h]; simp
    · rw [h]
  · intro x u hx hu
    have hg : (PropPar.diag (1 : Pt 1)).Good := by
      refine ⟨_, rfl, ?_⟩
      rw [show (Matrix.diagonal (1 : Pt 1) : Matrix (Fin 1) (Fin 1) ℝ) = 1 from Matrix.diagonal_one]
      exact Matrix.PosDef.one
    rw [(asymmetric_same _ _ _ _ _ _).1 hg]
    have h5 := mhStep_accept_iff (fun x : Pt 1 => .ok (.fin (-(x 0) ^ 2 / 2))) (gaussLogProp (.diag 1)) x (x + 1)
      (-(x 0) ^ 2 / 2) (-((x + 1) 0) ^ 2 / 2) u rfl rfl none (Or.inl rfl)
    have hl : Real.log (max u uFloor) < -((x + 1) 0) ^ 2 / 2 - -(x 0) ^ 2 / 2 := by
      have hf : uFloor < 1 := by
        unfold uFloor
        exact pow_lt_one₀ (by norm_num) (by norm_num) (by norm_num)
      have h1 : Real.log (max u uFloor) < 0 :=
        Real.log_neg (lt_of_lt_of_le uFloor_pos (le_max_right _ _)) (max_lt hu hf)
      have h2 : (x + 1) 0 = x 0 + 1 := rfl
      rw [h2]
      nlinarith
    rw [if_pos hl] at h5
    exact ⟨_, h5, rfl⟩

/-! ## C194: default proposals, initial parameters, modes -/

/-- **C194** The default proposal adds to the state the first draw that succeeds, of the covariance of
the chain with jitter 0, 1e-8, 1e-7, …, 1e-4, and so commutes with translations; it raises RuntimeError
when every attempt fails. -/
theorem defaultProp_spec (rvs : Matrix (Fin d) (Fin d) ℝ → ℕ → Py (Pt d)) (p : PropPar d) (x v : Pt d) :
    defaultProp rvs p (x + v) = (defaultProp rvs p x).map (fun y => y + v) ∧
    (p.cov = none → defaultProp rvs p x = .error .runtimeError) ∧
    ∀ M, p.cov = some M →
      (∀ y, defaultProp rvs p x = .ok y ↔ ∃ k ≤ 5, ∃ s, y = x + s ∧ rvs (M + jitterAt 1e-8 k • 1) k = .ok s ∧
        ∀ j < k, ∃ e, rvs (M + jitterAt 1e-8 j • 1) j = .error e) ∧
      (∀ e, defaultProp rvs p x = .error e → e = .runtimeError ∧
        ∀ k ≤ 5, ∃ e, rvs (M + jitterAt 1e-8 k • 1) k = .error e) := by
  refine ⟨?_, ?_, ?_⟩
  · unfold defaultProp
    cases p.cov with
    | none => rfl
    | some M =>
      simp only
      cases sampleJitter rvs M 1e-8 5 with
      | error e => rfl
      | ok s => simp only [Except.map]; rw [add_right_comm]
  · intro h; unfold defaultProp; rw [h]
  · intro M hM
    obtain ⟨h1, h2, h3⟩ := sampleJitter_spec rvs M 1e-8 (by norm_num) 5
    have e : defaultProp rvs p x = (sampleJitter rvs M 1e-8 5).map fun s => x + s := by
      unfold defaultProp; rw [hM]
    rw [e]
    constructor
    · intro y
      constructor
      · intro h
        cases hs : sampleJitter rvs M 1e-8 5 with
        | error e => rw [hs] at h; cases h
        | ok s =>
          rw [hs] at h
          obtain ⟨k, hk, g1, g2⟩ := (h1 s).mp hs
          exact ⟨k, hk, s, (Except.ok.inj h).symm, g1, g2⟩
      · rintro ⟨k, hk, s, rfl, g1, g2⟩
        rw [(h1 s).mpr ⟨k, hk, g1, g2⟩]
        rfl
    · intro e h
      cases hs : sampleJitter rvs M 1e-8 5 with
      | ok s => rw [hs] at h; cases h
      | error e' =>
        rw [hs] at h
        obtain rfl := Except.error.inj h
        exact ⟨h2 _ hs, h3.mp ⟨_, hs⟩⟩

/-- **C194** The initial parameters are accepted exactly as a vector of `dim`, a `dim` by `dim` matrix,
or an array of three axes with one entry per chain. -/
theorem initParams_spec (m d : ℕ) (p : PArr) :
    ((∃ f, initParams m d p = .ok f) ↔ p.shape = [d] ∨ p.shape = [d, d] ∨ ∃ a b, p.shape = [m, a, b]) ∧
    (∀ f, initParams m d p = .ok f → (p.shape = [d] ∨ p.shape = [d, d] → ∀ i, f i = p) ∧
      (∀ a b, p.shape = [m, a, b] → ∀ i, (f i).shape = [a, b] ∧ ∀ k, (f i).val k = p.val ((i : ℕ) :: k))) ∧
    (∀ e, initParams m d p = .error e → e = .valueError) := by
  have l3 : ∀ l : List ℕ, (l.length = 3 ∧ l.head? = some m) ↔ ∃ a b, l = [m, a, b] := by
    intro l
    rcases l with _ | ⟨a, _ | ⟨b, _ | ⟨c, _ | ⟨e, l⟩⟩⟩⟩ <;> simp
  unfold initParams
  by_cases h1 : p.shape = [d]
  · rw [if_pos h1]
    refine ⟨⟨fun _ => Or.inl h1, fun _ => ⟨_, rfl⟩⟩, ?_, by intro e h; cases h⟩
    intro f hf
    obtain rfl := Except.ok.inj hf
    exact ⟨fun _ _ => rfl, by intro a b h; rw [h1] at h; simp at h⟩
  · by_cases h2 : p.shape = [d, d]
    · rw [if_neg h1, if_pos h2]
      refine ⟨⟨fun _ => Or.inr (Or.inl h2), fun _ => ⟨_, rfl⟩⟩, ?_, by intro e h; cases h⟩
      intro f hf
      obtain rfl := Except.ok.inj hf
      exact ⟨fun _ _ => rfl, by intro a b h; rw [h2] at h; simp at h⟩
    · rw [if_neg h1, if_neg h2]
      by_cases h3 : p.shape.length = 3 ∧ p.shape.head? = some m
      · rw [if_pos h3]
        refine ⟨⟨fun _ => Or.inr (Or.inr ((l3 _).mp h3)), fun _ => ⟨_, rfl⟩⟩, ?_, by intro e h; cases h⟩
        intro f hf
        obtain rfl := Except.ok.inj hf
        refine ⟨fun h => ?_, ?_⟩
        · rcases h with h | h
          · exact absurd h h1
          · exact absurd h h2
        · intro a b h i
          exact ⟨by simp [PArr.get, h], fun _ => rfl⟩
      · rw [if_neg h3]
        refine ⟨⟨fun ⟨f, hf⟩ => (by cases hf), ?_⟩, fun f hf => (by cases hf), fun e h => (Except.error.inj h).symm⟩
        rintro (h | h | h)
        · exact absurd h h1
        · exact absurd h h2
        · exact absurd ((l3 _).mpr h) h3

/-- **C194** With a vector or a matrix of the right size every chain has a `dim` by `dim` covariance. -/
theorem initParams_cov (m d : ℕ) (p : PArr) (h : p.shape = [d] ∨ p.shape = [d, d]) :
    ∃ f, initParams m d p = .ok f ∧ ∀ i, covShape (f i) = .ok [d, d] := by
  refine ⟨fun _ => p, ?_, fun i => ?_⟩
  · rcases h with h | h <;> simp [initParams, h]
  · rcases h with h | h <;> simp [covShape, h]

/-- **C194** is false in two ways: an array of three axes is accepted although its matrices do not have
the dimension of the states, and one diagonal per chain is taken for a single covariance matrix when
there are as many chains as coordinates. -/
theorem initParams_shape_false :
    (∃ f, initParams 2 3 ⟨[2, 5, 7], fun _ => 0⟩ = .ok f ∧ covShape (f 0) = .ok [5, 7]) ∧
    (∀ p : PArr, p.shape = [2, 2] → initParams 2 2 p = .ok (fun _ => p)) ∧
    (∀ p : PArr, p.shape = [3, 2] → initParams 3 2 p = .error .valueError) := by
  refine ⟨⟨_, rfl, rfl⟩, ?_, ?_⟩
  · intro p h; simp [initParams, h]
  · intro p h; simp [initParams, h]

/-- **C194** After any modes, the adaptation factor is that of the last of the two modes that set one. -/
theorem setMode_spec (o : Opts d) (s : String × Option ℝ) (l : List String) (hl : l ≠ []) :
    (l.foldl (setMode o) s).1 = l.getLast hl ∧
    ((l.foldl (setMode o) s).2 =
      match (l.filter fun x => x = "burnin" ∨ x = "sampling_adaptation").getLast? with
      | none => s.2
      | some x => if x = "burnin" then some o.hBurnin else some o.hSampling) := by
  induction l using List.reverseRecOn with
  | nil => exact absurd rfl hl
  | append_singleton l a ih =>
    rw [List.foldl_append]
    simp only [List.foldl_cons, List.foldl_nil]
    refine ⟨by simp [setMode], ?_⟩
    by_cases h1 : a = "burnin"
    · simp [setMode, h1, List.filter_append]
    · by_cases h2 : a = "sampling_adaptation"
      · subst h2
        simp [setMode, List.filter_append]
      · have e : (l ++ [a]).filter (fun x => x = "burnin" ∨ x = "sampling_adaptation") =
            l.filter fun x => x = "burnin" ∨ x = "sampling_adaptation" := by
          simp [List.filter_append, h1, h2]
        rw [e]
        simp only [setMode, h1, h2, if_false]
        rcases List.eq_nil_or_concat l with rfl | ⟨l', b, rfl⟩
        · simp
        · rw [List.concat_eq_append] at ih ⊢
          exact (ih (by simp)).2

theorem validateSteps_spec (n b : ℤ) : validateSteps n b = .ok () ↔ b ≤ n := by
  unfold validateSteps
  split <;> simp_all

/-- A scaled identity for three chains in dimension 2, and the mode after two calls. -/
example : ∃ f, initParams 3 2 ⟨[2, 2], fun k => if k = [0, 0] ∨ k = [1, 1] then 0.1 else 0⟩ = .ok f ∧
    ∀ i, covShape (f i) = .ok [2, 2] :=
  initParams_cov 3 2 _ (Or.inr rfl)

example (o : Opts d) : (["burnin", "sampling_adaptation", "sampling"].foldl (setMode o) ("", none)) =
    ("sampling", some o.hSampling) := by
  obtain ⟨h1, h2⟩ := setMode_spec o ("", none) ["burnin", "sampling_adaptation", "sampling"] (by simp)
  exact Prod.ext h1 (by rw [h2]; simp)

end Verif.MH
