import Verif.Kernel.Model
import Mathlib.Analysis.SpecialFunctions.Gamma.Basic
import Mathlib.Analysis.Calculus.Deriv.MeanValue
import Mathlib.Analysis.Calculus.Deriv.Pow
import Mathlib.Analysis.SpecialFunctions.ExpDeriv
import Mathlib.Data.Nat.Factorial.BigOperators
import Mathlib.Tactic

/-!
# C22–C24: the log-gamma table and the half-integer Matérn kernel
-/

set_option autoImplicit false

namespace Verif.Kernel

open Verif Finset

/-! ## C22: the cache -/

/-- A table is right when it is a prefix of `g 0, g 1, …`. -/
def GoodCache (g : ℕ → ℝ) (c : Cache) : Prop :=
  ∀ t, c = some t → t = (List.range t.length).map g

theorem gammalnRange_zero (g : ℕ → ℝ) (n : ℕ) : gammalnRange g 0 n = (List.range n).map g := by
  simp [gammalnRange]

theorem growTable_good (g : ℕ → ℝ) (n : ℕ) (c : Cache) (h : GoodCache g c) :
    ∃ m, n ≤ m ∧ growTable g n c = (List.range m).map g := by
  cases c with
  | none => exact ⟨n, le_refl _, gammalnRange_zero g n⟩
  | some t =>
    have ht := h t rfl
    simp only [growTable]
    split
    · rename_i hlt
      refine ⟨n, le_refl _, ?_⟩
      have : n = t.length + (n - t.length) := by omega
      rw [this, List.range_add, List.map_append, List.map_map, ← ht, gammalnRange]
      congr 1
      simp
    · exact ⟨t.length, by omega, ht⟩

theorem computeGammaln_of_good (g : ℕ → ℝ) (p : ℕ) (c : Cache) (h : GoodCache g c) :
    (computeGammaln g p c).1 = (List.range (2 * p + 2)).map g ∧
      GoodCache g (computeGammaln g p c).2 := by
  obtain ⟨m, hm, he⟩ := growTable_good g (2 * p + 2) c h
  refine ⟨?_, ?_⟩
  · simp only [computeGammaln, he]
    rw [← List.map_take, List.take_range, min_eq_left hm]
  · intro t ht
    simp only [computeGammaln, he, Option.some.injEq] at ht
    subst ht
    simp

theorem cacheRun_good (g : ℕ → ℝ) (ops : List CacheOp) (c : Cache) (h : GoodCache g c) :
    GoodCache g (ops.foldl (cacheStep g) c) := by
  induction ops generalizing c with
  | nil => exact h
  | cons op ops ih =>
    apply ih
    cases op with
    | request p => exact (computeGammaln_of_good g p c h).2
    | clear => intro t ht; cases ht

/-- **C22** After any history of requests and clears, a request for order `p`
returns exactly `gammaln 0, …, gammaln (2p+1)`. -/
theorem computeGammaln_spec (g : ℕ → ℝ) (ops : List CacheOp) (p : ℕ) :
    (computeGammaln g p (ops.foldl (cacheStep g) none)).1 = (List.range (2 * p + 2)).map g :=
  (computeGammaln_of_good g p _ (cacheRun_good g ops none (fun t ht => by cases ht))).1

/-- The requests may shrink, grow and be interrupted by a clear. -/
example (g : ℕ → ℝ) : (computeGammaln g 0 ([.request 1, .request 0, .clear, .request 2].foldl
    (cacheStep g) none)).1 = [g 0, g 1] := computeGammaln_spec g _ 0

/-- **C22** Each evaluation of a Matérn kernel leaves a table with the values it used, and no
entry is lost. -/
theorem maternp_stores (g : ℕ → ℝ) (bigf : ℝ) (p : ℕ) (h : WithTop ℝ) {c : Cache} (hc : GoodCache g c) :
    ∃ t, (maternp g bigf p h c).2 = some t ∧ 2 * p + 2 ≤ t.length ∧ t = (List.range t.length).map g ∧
      ∀ t', c = some t' → t'.length ≤ t.length := by
  obtain ⟨m, hm, he⟩ := growTable_good g (2 * p + 2) c hc
  refine ⟨growTable g (2 * p + 2) c, rfl, by simpa [he] using hm, by simp [he], fun t' ht' => ?_⟩
  subst ht'
  simp only [growTable]
  split
  · simp
  · exact le_rfl

example (g : ℕ → ℝ) : ∃ t, (maternp g 1 1 0 none).2 = some t ∧ 4 ≤ t.length ∧ t = (List.range t.length).map g ∧
    ∀ t', (none : Cache) = some t' → t'.length ≤ t.length :=
  maternp_stores g 1 1 0 (fun t ht => by cases ht)

/-! ## C23: closed formula -/

/-- The documented formula:
`exp(-c h) Γ(p+1)/Γ(2p+1) Σ_{i=0}^p (p+i)!/(i!(p-i)!) (2 c h)^{p-i}`, `c = 2√(p+1/2)`. -/
noncomputable def maternFormula (p : ℕ) (h : ℝ) : ℝ :=
  Real.exp (-(2 * Real.sqrt (p + 1 / 2)) * h) * ((p.factorial : ℝ) / (2 * p).factorial) *
    ∑ i ∈ range (p + 1), ((p + i).factorial : ℝ) / (i.factorial * (p - i).factorial) *
      (2 * (2 * Real.sqrt (p + 1 / 2)) * h) ^ (p - i)

theorem pyGet_range (g : ℕ → ℝ) (n k : ℕ) (h : k < n) :
    pyGet ((List.range n).map g) (k : ℤ) = .ok (g k) := by
  rw [pyGet_nat _ _ (by simpa using h)]
  simp

/-- The contract of `gammaln` on positive integers. -/
def IsGammaln (g : ℕ → ℝ) : Prop := ∀ k, 1 ≤ k → g k = Real.log (Real.Gamma k)

example : ∃ g, IsGammaln g := ⟨fun k => Real.log (Real.Gamma k), fun _ _ => rfl⟩

theorem exp_gammaln {g : ℕ → ℝ} (hg : IsGammaln g) (k : ℕ) :
    Real.exp (g (k + 1)) = (k.factorial : ℝ) := by
  rw [hg (k + 1) (by omega)]
  push_cast
  rw [Real.Gamma_nat_eq_factorial, Real.exp_log (by exact_mod_cast k.factorial_pos)]

theorem maternTerm_eq {g : ℕ → ℝ} (hg : IsGammaln g) (p i : ℕ) (hi : i < p) (t : ℝ) :
    maternTerm ((List.range (2 * p + 2)).map g) p t i =
      .ok (((p.factorial : ℝ) / (2 * p).factorial) *
        (((p + i).factorial : ℝ) / (i.factorial * (p - i).factorial)) * t ^ (p - i)) := by
  unfold maternTerm
  have he : ((p : ℤ) - i + 1) = ((p - i + 1 : ℕ) : ℤ) := by omega
  rw [he, pyGet_range g _ _ (by omega), pyGet_range g _ _ (by omega),
    pyGet_range g _ _ (by omega), pyGet_range g _ _ (by omega), pyGet_range g _ _ (by omega)]
  simp only [bind, Except.bind, pure, Except.pure]
  congr 2
  rw [Real.exp_sub, Real.exp_sub, Real.exp_add, Real.exp_sub, exp_gammaln hg, exp_gammaln hg,
    exp_gammaln hg, exp_gammaln hg, exp_gammaln hg]
  field_simp

theorem maternPoly_eq {g : ℕ → ℝ} (hg : IsGammaln g) (p : ℕ) (t : ℝ) (is : List ℕ)
    (his : ∀ i ∈ is, i < p) (acc : ℝ) :
    maternPoly ((List.range (2 * p + 2)).map g) p t is acc =
      .ok (acc + (is.map fun i => ((p.factorial : ℝ) / (2 * p).factorial) *
        (((p + i).factorial : ℝ) / (i.factorial * (p - i).factorial)) * t ^ (p - i)).sum) := by
  induction is generalizing acc with
  | nil => simp [maternPoly]
  | cons i is ih =>
    simp only [maternPoly, maternTerm_eq hg p i (his i (by simp)) t]
    rw [ih (fun j hj => his j (by simp [hj]))]
    simp [add_assoc]

/-- **C23** With a correct `gammaln` and after any cache history, `maternp_kernel`
never reads out of range and equals the documented formula. -/
theorem maternp_formula {g : ℕ → ℝ} (hg : IsGammaln g) (bigf : ℝ) (ops : List CacheOp)
    (p : ℕ) (h : ℝ) :
    (maternp g bigf p (h : WithTop ℝ) (ops.foldl (cacheStep g) none)).1 = .ok (maternFormula p h) := by
  simp only [maternp]
  rw [computeGammaln_spec]
  simp only [maternpOf]
  rw [maternPoly_eq hg p _ _ (fun i hi => by simpa using hi)]
  simp only [inftobigf]
  congr 1
  unfold maternFormula
  have h5 : (0.5 : ℝ) = 1 / 2 := by norm_num
  rw [h5, mul_assoc (Real.exp _) ((p.factorial : ℝ) / _) _]
  congr 1
  rw [sum_range_succ, mul_add, add_comm]
  congr 1
  · rw [Finset.mul_sum, ← List.sum_toFinset _ List.nodup_range, List.toFinset_range]
    exact Finset.sum_congr rfl fun i _ => by ring
  · have h1 : ((2 * p).factorial : ℝ) ≠ 0 := by exact_mod_cast (Nat.factorial_pos _).ne'
    have h2 : (p.factorial : ℝ) ≠ 0 := by exact_mod_cast (Nat.factorial_pos _).ne'
    rw [← two_mul p]
    simp only [Nat.sub_self, Nat.factorial_zero, pow_zero, Nat.cast_one, mul_one]
    field_simp

/-- An infinite distance is treated as the large finite `bigf`. -/
theorem maternp_inf {g : ℕ → ℝ} (hg : IsGammaln g) (bigf : ℝ) (ops : List CacheOp) (p : ℕ) :
    (maternp g bigf p ⊤ (ops.foldl (cacheStep g) none)).1 = .ok (maternFormula p bigf) :=
  maternp_formula hg bigf ops p bigf

/-! ## C23: shape -/

/-- Coefficient of `(2 c h)^k`. -/
noncomputable def coef (p k : ℕ) : ℝ :=
  ((p.factorial : ℝ) / (2 * p).factorial) *
    (((2 * p - k).factorial : ℝ) / ((p - k).factorial * k.factorial))

/-- The kernel as a function of `t = c h`. -/
noncomputable def shape (p : ℕ) (t : ℝ) : ℝ :=
  Real.exp (-t) * ∑ k ∈ range (p + 1), coef p k * (2 * t) ^ k

theorem maternFormula_shape (p : ℕ) (h : ℝ) :
    maternFormula p h = shape p (2 * Real.sqrt (p + 1 / 2) * h) := by
  unfold maternFormula shape
  rw [mul_assoc, neg_mul]
  congr 1
  rw [← sum_range_reflect, Finset.mul_sum]
  refine Finset.sum_congr rfl fun i hi => ?_
  have hi' : i ≤ p := by simpa [Nat.lt_succ_iff] using hi
  have e1 : p + 1 - 1 - i = p - i := by omega
  have e2 : p + (p - i) = 2 * p - i := by omega
  have e3 : p - (p - i) = i := by omega
  rw [e1, e2, e3, coef]
  ring

theorem coef_pos (p k : ℕ) : 0 < coef p k := by
  unfold coef
  positivity

theorem coef_zero (p : ℕ) : coef p 0 = 1 := by
  unfold coef
  simp only [Nat.sub_zero, Nat.factorial_zero, Nat.cast_one, mul_one]
  have h1 : ((2 * p).factorial : ℝ) ≠ 0 := by exact_mod_cast (Nat.factorial_pos _).ne'
  have h2 : (p.factorial : ℝ) ≠ 0 := by exact_mod_cast (Nat.factorial_pos _).ne'
  field_simp

theorem coef_succ_eq (p k : ℕ) (h : k < p) :
    coef p (k + 1) * ((2 * p - k : ℕ) * (k + 1)) = coef p k * (p - k : ℕ) := by
  unfold coef
  have e1 : 2 * p - k = (2 * p - (k + 1)) + 1 := by omega
  have e2 : p - k = (p - (k + 1)) + 1 := by omega
  rw [e1, e2]
  simp only [Nat.factorial_succ]
  push_cast
  have h1 : ((2 * p).factorial : ℝ) ≠ 0 := by exact_mod_cast (Nat.factorial_pos _).ne'
  have h2 : ((p - (k + 1)).factorial : ℝ) ≠ 0 := by exact_mod_cast (Nat.factorial_pos _).ne'
  have h3 : (k.factorial : ℝ) ≠ 0 := by exact_mod_cast (Nat.factorial_pos _).ne'
  have h4 : ((k : ℝ) + 1) ≠ 0 := by positivity
  have h5 : (((p - (k + 1) : ℕ) : ℝ) + 1) ≠ 0 := by positivity
  field_simp

theorem coef_succ_le (p k : ℕ) (h : k < p) : 2 * ((k : ℝ) + 1) * coef p (k + 1) ≤ coef p k := by
  have h1 := coef_succ_eq p k h
  have h2 : (0 : ℝ) < ((2 * p - k : ℕ) : ℝ) := by exact_mod_cast (by omega : 0 < 2 * p - k)
  have h3 : 2 * ((p - k : ℕ) : ℝ) ≤ ((2 * p - k : ℕ) : ℝ) := by
    exact_mod_cast (by omega : 2 * (p - k) ≤ 2 * p - k)
  have h4 := coef_pos p k
  have h5 : 2 * ((k : ℝ) + 1) * coef p (k + 1) * ((2 * p - k : ℕ) : ℝ) =
      coef p k * (2 * ((p - k : ℕ) : ℝ)) := by linarith
  by_contra hc
  push Not at hc
  have := mul_lt_mul_of_pos_right hc h2
  nlinarith

theorem coef_succ_lt (p k : ℕ) (h : k < p) (hk : 0 < k) :
    2 * ((k : ℝ) + 1) * coef p (k + 1) < coef p k := by
  have h1 := coef_succ_eq p k h
  have h2 : (0 : ℝ) < ((2 * p - k : ℕ) : ℝ) := by exact_mod_cast (by omega : 0 < 2 * p - k)
  have h3 : 2 * ((p - k : ℕ) : ℝ) < ((2 * p - k : ℕ) : ℝ) := by
    exact_mod_cast (by omega : 2 * (p - k) < 2 * p - k)
  have h4 := coef_pos p k
  have h5 : 2 * ((k : ℝ) + 1) * coef p (k + 1) * ((2 * p - k : ℕ) : ℝ) =
      coef p k * (2 * ((p - k : ℕ) : ℝ)) := by linarith
  by_contra hc
  push Not at hc
  have := mul_le_mul_of_nonneg_right hc h2.le
  nlinarith

theorem shape_hasDeriv (p : ℕ) (t : ℝ) :
    HasDerivAt (shape p)
      (Real.exp (-t) * ((∑ k ∈ range p, (2 * ((k : ℝ) + 1) * coef p (k + 1) - coef p k) * (2 * t) ^ k)
        - coef p p * (2 * t) ^ p)) t := by
  have h1 : HasDerivAt (fun t : ℝ => Real.exp (-t)) (-Real.exp (-t)) t := by
    simpa using (hasDerivAt_id t).neg.exp
  have h2 : HasDerivAt (fun t : ℝ => ∑ k ∈ range (p + 1), coef p k * (2 * t) ^ k)
      (∑ k ∈ range (p + 1), coef p k * ((k : ℝ) * (2 * t) ^ (k - 1) * 2)) t := by
    apply HasDerivAt.fun_sum
    intro k _
    have h3 : HasDerivAt (fun t : ℝ => 2 * t) 2 t := by
      simpa using (hasDerivAt_id t).const_mul (2 : ℝ)
    simpa using (h3.pow k).const_mul (coef p k)
  have h4 := h1.mul h2
  refine h4.congr_deriv ?_
  have h5 : (∑ k ∈ range (p + 1), coef p k * ((k : ℝ) * (2 * t) ^ (k - 1) * 2)) =
      ∑ k ∈ range p, 2 * ((k : ℝ) + 1) * coef p (k + 1) * (2 * t) ^ k := by
    rw [sum_range_succ']
    simp only [Nat.cast_zero, zero_mul, mul_zero, add_zero]
    refine Finset.sum_congr rfl fun k _ => ?_
    simp only [Nat.cast_add, Nat.cast_one, Nat.add_sub_cancel]
    ring
  rw [h5, sum_range_succ]
  simp only [sub_mul, Finset.sum_sub_distrib]
  ring

theorem shape_deriv_neg (p : ℕ) (t : ℝ) (ht : 0 < t) :
    Real.exp (-t) * ((∑ k ∈ range p, (2 * ((k : ℝ) + 1) * coef p (k + 1) - coef p k) * (2 * t) ^ k)
        - coef p p * (2 * t) ^ p) < 0 := by
  apply mul_neg_of_pos_of_neg (Real.exp_pos _)
  have h1 : (∑ k ∈ range p, (2 * ((k : ℝ) + 1) * coef p (k + 1) - coef p k) * (2 * t) ^ k) ≤ 0 := by
    apply Finset.sum_nonpos
    intro k hk
    have := coef_succ_le p k (by simpa using hk)
    exact mul_nonpos_of_nonpos_of_nonneg (by linarith) (by positivity)
  have h2 : 0 < coef p p * (2 * t) ^ p := mul_pos (coef_pos p p) (by positivity)
  linarith

theorem shape_strictAnti (p : ℕ) : StrictAntiOn (shape p) (Set.Ici 0) := by
  apply strictAntiOn_of_deriv_neg (convex_Ici 0)
  · exact fun t _ => (shape_hasDeriv p t).continuousAt.continuousWithinAt
  · intro t ht
    rw [interior_Ici] at ht
    rw [(shape_hasDeriv p t).deriv]
    exact shape_deriv_neg p t ht

/-- **C23** The Matérn formula is 1 at 0, positive, and strictly decreasing on
`h ≥ 0` (hence below 1 away from 0). -/
theorem maternFormula_shape_props (p : ℕ) :
    maternFormula p 0 = 1 ∧ (∀ h, 0 ≤ h → 0 < maternFormula p h) ∧
    StrictAntiOn (maternFormula p) (Set.Ici 0) ∧ (∀ h, 0 < h → maternFormula p h < 1) := by
  have h0 : maternFormula p 0 = 1 := by
    rw [maternFormula_shape, mul_zero]
    unfold shape
    rw [sum_range_succ']
    simp [coef_zero]
  have hc : (0 : ℝ) < 2 * Real.sqrt (p + 1 / 2) := by positivity
  have ha : StrictAntiOn (maternFormula p) (Set.Ici 0) := by
    intro a ha b hb hab
    rw [maternFormula_shape, maternFormula_shape]
    exact shape_strictAnti p (mul_nonneg hc.le ha) (mul_nonneg hc.le hb)
      (mul_lt_mul_of_pos_left hab hc)
  refine ⟨h0, fun h hh => ?_, ha, fun h hh => ?_⟩
  · rw [maternFormula_shape]
    unfold shape
    refine mul_pos (Real.exp_pos _) ?_
    rw [sum_range_succ']
    have : 0 ≤ ∑ k ∈ range p, coef p (k + 1) * (2 * (2 * Real.sqrt (p + 1 / 2) * h)) ^ (k + 1) :=
      Finset.sum_nonneg fun k _ => mul_nonneg (coef_pos _ _).le (by positivity)
    have h2 := coef_zero p
    simp only [pow_zero, mul_one]
    linarith
  · rw [← h0]
    exact ha (Set.mem_Ici.mpr le_rfl) (Set.mem_Ici.mpr hh.le) hh

/-! ## C24: special cases -/

/-- **C24** Order 0 is the exponential kernel of `√2 h`. -/
theorem matern_zero (h : ℝ) : maternFormula 0 h = exponentialKernel (Real.sqrt 2 * h) := by
  have h1 : (2 : ℝ) * Real.sqrt ((0 : ℕ) + 1 / 2) = Real.sqrt 2 := by
    have h2 : (2 : ℝ) = Real.sqrt 4 := by
      rw [show (4 : ℝ) = 2 ^ 2 by norm_num, Real.sqrt_sq (by norm_num)]
    nth_rewrite 1 [h2]
    rw [← Real.sqrt_mul (by norm_num)]
    norm_num
  rw [maternFormula_shape, h1]
  simp [shape, coef_zero, exponentialKernel]

/-- **C24** Order 1 is `matern32_kernel`. -/
theorem matern_one (h : ℝ) : maternFormula 1 h = matern32 h := by
  have e : ((1 : ℕ) : ℝ) + 1 / 2 = 3 / 2 := by norm_num
  rw [maternFormula_shape, e]
  simp only [shape, matern32, sum_range_succ, coef_zero, sum_range_zero]
  simp [coef, Nat.factorial]
  ring

/-- Order 2: the usual `(1 + t + t²/3) e^{-t}`. -/
theorem matern_two (h : ℝ) : maternFormula 2 h =
    (1 + (2 * Real.sqrt (5 / 2) * h) + (2 * Real.sqrt (5 / 2) * h) ^ 2 / 3) *
      Real.exp (-(2 * Real.sqrt (5 / 2) * h)) := by
  have e : ((2 : ℕ) : ℝ) + 1 / 2 = 5 / 2 := by norm_num
  rw [maternFormula_shape, e]
  simp only [shape, sum_range_succ, coef_zero, sum_range_zero]
  simp [coef, Nat.factorial]
  ring

end Verif.Kernel
