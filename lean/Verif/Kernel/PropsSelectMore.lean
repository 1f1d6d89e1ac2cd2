import Verif.Kernel.SelectMore
import Verif.Kernel.PropsRemap

/-!
# C183 updates never make the criterion worse
-/

set_option autoImplicit false

namespace Verif.Kernel

open Verif

/-- An honest optimiser which evaluates its starting point and answers with a number. -/
structure Sane (solver : List ℝ → Solver (List ℝ)) : Prop where
  honest : Honest solver
  starts : ∀ p, ∃ k, solver p = .ask p k
  number : ∀ crit p t y f, Plays crit (solver p) t y f → (∀ q ∈ t, q.2 ≠ .nan) → f ≠ .nan

/-- A criterion without NaN. -/
def NoNan (crit : List ℝ → Py Flt) : Prop := ∀ p, crit p ≠ .ok .nan

theorem evals_ne_nan {crit : List ℝ → Py Flt} (h : NoNan crit) {p : List ℝ} {J : Flt} (hJ : EvalsTo crit p J) :
    J ≠ .nan := by
  rintro rfl
  rcases hJ with hJ | ⟨_, hJ⟩
  · exact h p hJ
  · cases hJ

/-- A search returns a vector of the same length whose value is at most that of the start. -/
theorem autoselect_le {crit : List ℝ → Py Flt} (hc : NoNan crit) {solver : List ℝ → Solver (List ℝ)}
    (hs : Sane solver) {p : List ℝ} {m : Method} {r : OptResult (List ℝ)}
    (h : autoselect crit (solver p) m = .ok r) :
    ∃ y v w, r.x = some y ∧ y.length = p.length ∧ r.f = .num v ∧ EvalsTo crit y (.num v) ∧
      EvalsTo crit p (.num w) ∧ v ≤ w := by
  have hm : m ≠ .unknown := by rintro rfl; cases h
  obtain ⟨y, hy, hyf, hyl⟩ := autoselect_honest hs.honest h
  rcases runSolver_cases crit (solver p) .init with ⟨t, x, f, h1, _⟩ | ⟨e, _, h1, _⟩
  · obtain ⟨r', y', k1, _, _, _, _, _, k7⟩ := autoselect_best_partial crit _ m hm t x f h1
    rw [h] at k1
    obtain rfl := Except.ok.inj k1
    have hev := plays_evals h1
    have hf : f ≠ .nan := hs.number crit p t x f h1 fun q hq => evals_ne_nan hc (hev q hq)
    obtain ⟨k, hk⟩ := hs.starts p
    rw [hk] at h1
    cases h1 with
    | ask _ _ J t x f hJ hp =>
      rcases f with _ | v0
      · exact absurd rfl hf
      rcases hJn : J with _ | w
      · exact absurd hJn (evals_ne_nan hc hJ)
      rcases hrf : r.f with _ | v
      · rw [hrf] at hyf
        exact absurd rfl (evals_ne_nan hc hyf)
      refine ⟨y, v, w, hy, hyl, rfl, hrf ▸ hyf, hJn ▸ hJ, ?_⟩
      have := k7 v0 rfl (p, J) (by simp) w hJn
      rw [hrf] at this
      exact this
  · rw [(autoselect_error crit _ m hm e).2 h1] at h
    cases h

/-- One update of the covariance parameters: the mean is kept, and the value of the criterion at
the parameters stored is at most that at the parameters before. -/
theorem updateWith_le {crit : List ℝ → Py Flt} (hc : NoNan crit) {solver : List ℝ → Solver (List ℝ)}
    (hs : Sane solver) {guess : Py (List ℝ)} {a : SelArgs} (ha : a.parameterized = false) {m m' : MParams}
    {c : List ℝ} (hm : m.cov = some c) {r : OptResult (List ℝ)}
    (h : updateWith (fun _ => crit) guess solver a m = .ok (m', r)) :
    ∃ c' v w, m'.cov = some c' ∧ m'.mean = m.mean ∧ c'.length = c.length ∧ EvalsTo crit c (.num w) ∧
      EvalsTo crit c' (.num v) ∧ v ≤ w := by
  unfold updateWith at h
  obtain ⟨src, cov0, p0, x, _, h1, h2, h3, h4, h5⟩ := selectWith_ok h
  rcases h1 with h1 | ⟨h1, _⟩
  swap
  · rw [hm] at h1; cases h1
  have e1 : cov0 = c := Option.some.inj (h1.symm.trans hm)
  rcases h2 with ⟨h2, _⟩ | ⟨_, h2⟩
  · rw [ha] at h2; cases h2
  subst h2
  subst e1
  have e2 : critAdapter (fun _ => crit) a.parameterized a.meanLen = crit := by
    rw [ha]; rfl
  simp only [e2] at h3
  obtain ⟨y, v, w, g1, g2, _, g4, g5, g6⟩ := autoselect_le hc hs h3
  rw [g1] at h4
  obtain rfl := Option.some.inj h4
  refine ⟨y, v, w, ?_, ?_, g2, g5, g4, g6⟩
  · rw [h5]; simp [ha]
  · rw [h5]; simp [ha]

/-- **C183** After any sequence of successful updates with the power-law criterion, the value of
the criterion at the parameters of the model is at most the initial one; mean parameters and the
number of covariance parameters are unchanged. -/
theorem updatePowerLaw_chain {post : List ℝ → Py Flt} (hc : NoNan post) {guess : Py (List ℝ)} :
    ∀ (ops : List ((List ℝ → Solver (List ℝ)) × SelArgs)) (m m' : MParams) (c : List ℝ) (w : EReal),
      (∀ o ∈ ops, Sane o.1) → m.cov = some c → EvalsTo post c (.num w) →
      runUpdates (updatePowerLaw post guess) ops m = .ok m' →
      ∃ c' v, m'.cov = some c' ∧ m'.mean = m.mean ∧ c'.length = c.length ∧ EvalsTo post c' (.num v) ∧ v ≤ w := by
  intro ops
  induction ops with
  | nil =>
    intro m m' c w _ hm hw h
    obtain rfl := Except.ok.inj h
    exact ⟨c, w, hm, rfl, rfl, hw, le_rfl⟩
  | cons o ops ih =>
    intro m m' c w ho hm hw h
    obtain ⟨sv, a⟩ := o
    simp only [runUpdates] at h
    rcases h1 : updatePowerLaw post guess sv a m with e | ⟨m1, r⟩
    · rw [h1] at h; cases h
    rw [h1] at h
    obtain ⟨c1, v1, w1, g1, g2, g3, g4, g5, g6⟩ := updateWith_le hc (ho _ List.mem_cons_self) rfl hm h1
    have : w1 = w := by
      have := evalsTo_unique g4 hw
      injection this
    subst this
    obtain ⟨c', v, k1, k2, k3, k4, k5⟩ := ih m1 m' c1 v1 (fun o ho' => ho o (List.mem_cons_of_mem _ ho')) g1 g5 h
    exact ⟨c', v, k1, k2.trans g2, k3.trans g3, k4, k5.trans g6⟩

/-- **C183** The same for maximum likelihood with a constant mean: the model keeps one mean
parameter. -/
theorem updateMlConstant_chain {nll : Option (List ℝ) → List ℝ → Py Flt} {isParam : Bool}
    (hc : ∀ μ c, nll μ c ≠ .ok .nan) {guess : Py (List ℝ × List ℝ)} {guessCov : Py (List ℝ)} :
    ∀ (ops : List ((List ℝ → Solver (List ℝ)) × SelArgs)) (m m' : MParams) (μ : ℝ) (c : List ℝ) (w : EReal),
      (∀ o ∈ ops, Sane o.1) → m = ⟨some [μ], some c⟩ → EvalsTo (nll (some [μ])) c (.num w) →
      runUpdates (updateMlConstant isParam nll guess guessCov) ops m = .ok m' →
      ∃ μ' c' v, m' = ⟨some [μ'], some c'⟩ ∧ c'.length = c.length ∧ EvalsTo (nll (some [μ'])) c' (.num v) ∧ v ≤ w := by
  intro ops
  induction ops with
  | nil =>
    intro m m' μ c w _ hm hw h
    obtain rfl := Except.ok.inj h
    exact ⟨μ, c, w, hm, rfl, hw, le_rfl⟩
  | cons o ops ih =>
    intro m m' μ c w ho hm hw h
    obtain ⟨sv, a⟩ := o
    simp only [runUpdates] at h
    rcases h1 : updateMlConstant isParam nll guess guessCov sv a m with e | ⟨m1, r⟩
    · rw [h1] at h; cases h
    rw [h1] at h
    obtain ⟨_, m0, c0, _, q1, q2, _, _, q3⟩ := selectMlConstant_spec _ _ _ _ _ _ _ _ _ h1
    have e1 : m0 = [μ] := q1 [μ] (by rw [hm])
    have e2 : c0 = c := q2 c (by rw [hm])
    subst e1 e2
    obtain ⟨src, cov0, p0, x, _, g1, g2, g3, g4, g5⟩ := selectWith_ok q3
    simp only [reduceCtorEq, false_and, or_false, Option.some.injEq, true_and] at g1 g2
    obtain ⟨m0', rfl, g2⟩ := g2
    subst g1
    have hna : NoNan (critAdapter nll true 1) := by
      intro p
      simp only [critAdapter, if_true]
      exact hc _ _
    obtain ⟨y, v, w1, k1, k2, _, k4, k5, k6⟩ := autoselect_le hna (ho _ List.mem_cons_self) g3
    rw [k1] at g4
    obtain rfl := Option.some.inj g4
    rw [g2] at k2 k5
    obtain ⟨μ1, c1, rfl⟩ : ∃ μ1 c1, y = μ1 :: c1 := by
      rcases y with _ | ⟨u, l⟩
      · simp at k2
      · exact ⟨u, l, rfl⟩
    have ad : ∀ u l, critAdapter nll true 1 (u :: l) = nll (some [u]) l := by
      intro u l
      simp [critAdapter, pyTo, pyFrom]
    have hev : ∀ u l J, EvalsTo (critAdapter nll true 1) (u :: l) J ↔ EvalsTo (nll (some [u])) l J := by
      intro u l J
      unfold EvalsTo
      rw [ad]
    have : w1 = w := by
      have := evalsTo_unique ((hev _ _ _).mp k5) hw
      injection this
    subst this
    have hm1 : m1 = ⟨some [μ1], some c1⟩ := by
      rw [g5]; simp [pyTo, pyFrom]
    obtain ⟨μ', c', v', j1, j2, j3, j4⟩ := ih m1 m' μ1 c1 v (fun o ho' => ho o (List.mem_cons_of_mem _ ho')) hm1
      ((hev _ _ _).mp k4) h
    refine ⟨μ', c', v', j1, j2.trans ?_, j3, j4.trans k6⟩
    simpa using k2

/-- **C183** An update of a model without parameters is a selection from the initial guess. -/
theorem update_unset (post : List ℝ → Py Flt) (guess : Py (List ℝ)) (solver : List ℝ → Solver (List ℝ))
    (a : SelArgs) (m : MParams) (hm : m.cov = none) :
    updatePowerLaw post guess solver a m = selectPowerLaw post guess solver { a with cov0 := none } m := by
  unfold updatePowerLaw selectPowerLaw updateWith
  rw [hm]
  rfl

/-- An optimiser which stays where it is. -/
example : Sane fun p => .ask p fun J => .stop p J where
  honest := by
    intro crit p t y f h
    cases h with
    | ask p k J t x f hJ h =>
      cases h with
      | stop => exact ⟨hJ, rfl, by simp⟩
  starts p := ⟨_, rfl⟩
  number := by
    intro crit p t y f h hn
    cases h with
    | ask p k J t x f hJ h =>
      cases h with
      | stop => exact hn (p, f) (by simp)

/-- **C183** is false when the criterion takes the value NaN: an honest optimiser which evaluates
its start first, and a model at a finite value, can be left at NaN by an update. -/
theorem update_nan_false :
    ∃ (post : List ℝ → Py Flt) (solver : List ℝ → Solver (List ℝ)) (a : SelArgs) (m' : MParams)
      (r : OptResult (List ℝ)), Honest solver ∧ (∀ p, ∃ k, solver p = .ask p k) ∧
      EvalsTo post [1] (.fin 0) ∧
      updatePowerLaw post (.error .valueError) solver a ⟨none, some [1]⟩ = .ok (m', r) ∧
      ∃ c', m'.cov = some c' ∧ EvalsTo post c' .nan := by
  classical
  let post : List ℝ → Py Flt := fun p => .ok (if p = [1] then Flt.fin 0 else .nan)
  let solver : List ℝ → Solver (List ℝ) := fun p =>
    .ask p fun _ => .ask (p.map (· + 1)) fun J => .stop (p.map (· + 1)) J
  have hp : Plays post (solver [1]) [([1], .fin 0), ([1].map (· + 1), .nan)] ([1].map (· + 1)) .nan := by
    refine .ask _ _ _ _ _ _ (Or.inl (by simp [post])) (.ask _ _ _ _ _ _ (Or.inl ?_) (.stop _ _))
    norm_num [post]
  obtain ⟨r, y, h1, h2, _, _, h3, h4, _⟩ := autoselect_best_partial _ _ .slsqp (by simp) _ _ _ hp
  have hb : r.bestReturned = true := by
    cases hb : r.bestReturned with
    | true => rfl
    | false => simpa using (h4 hb).2
  obtain ⟨rfl, h5⟩ := h3 hb
  refine ⟨post, solver, ⟨some (), some (), none, none, none, false, 1, .slsqp⟩, ⟨none, some ([1].map (· + 1))⟩, r, ?_, fun p => ⟨_, rfl⟩,
    Or.inl (by simp [post]), ?_, _, rfl, Or.inl ?_⟩
  · intro crit p t y f h
    cases h with
    | ask p k J t x f hJ h =>
      cases h with
      | ask p k J t x f hJ h =>
        cases h with
        | stop => exact ⟨hJ, by simp, by simp⟩
  · have e : critAdapter (fun _ => post) false 1 = post := rfl
    simp only [updatePowerLaw, updateWith, selectWith, checkSource, bind, Except.bind, pure, Except.pure, e, h1, h2]
    rfl
  · norm_num [post]

end Verif.Kernel
