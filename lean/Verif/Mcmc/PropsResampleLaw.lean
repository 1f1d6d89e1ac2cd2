import Verif.Mcmc.PropsSMC
import Mathlib.Algebra.BigOperators.Ring.Finset
import Mathlib.Algebra.BigOperators.Field

/-!
# C231: resampling is unbiased, and the residual scheme reduces variance

The external multinomial sampler is the number of occurrences of each particle in
`N` independent draws; expectations are finite sums over all outcomes of the draws.
-/

set_option autoImplicit false

namespace Verif.SMC

open Verif

variable {n d : ℕ}

/-- Number of occurrences of each particle in `N` draws. -/
def tally {N : ℕ} (g : Fin N → Fin n) (j : Fin n) : ℕ := (Finset.univ.filter fun k => g k = j).card

/-- Expectation of `F` over `N` independent draws with probabilities `q`. -/
def expect (N : ℕ) (q : Fin n → ℝ) (F : (Fin N → Fin n) → ℝ) : ℝ :=
  ∑ g : Fin N → Fin n, (∏ k, q (g k)) * F g

/-- Variance. -/
def variance (N : ℕ) (q : Fin n → ℝ) (F : (Fin N → Fin n) → ℝ) : ℝ :=
  expect N q fun g => (F g - expect N q F) ^ 2

/-! ## Independent draws -/

theorem expect_prod (N : ℕ) (q : Fin n → ℝ) (a : Fin N → Fin n → ℝ) :
    expect N q (fun g => ∏ k, a k (g k)) = ∏ k, ∑ j, q j * a k j := by
  unfold expect
  simp only [← Finset.prod_mul_distrib]
  exact (Fintype.prod_sum fun k j => q j * a k j).symm

theorem expect_one (N : ℕ) (q : Fin n → ℝ) (hq : ∑ j, q j = 1) :
    expect N q (fun _ => 1) = 1 := by
  have := expect_prod N q fun _ _ => 1
  simpa [hq] using this

theorem expect_add (N : ℕ) (q : Fin n → ℝ) (F G : (Fin N → Fin n) → ℝ) :
    expect N q (fun g => F g + G g) = expect N q F + expect N q G := by
  simp only [expect, mul_add, Finset.sum_add_distrib]

theorem expect_mul (N : ℕ) (q : Fin n → ℝ) (c : ℝ) (F : (Fin N → Fin n) → ℝ) :
    expect N q (fun g => c * F g) = c * expect N q F := by
  simp only [expect, Finset.mul_sum]
  exact Finset.sum_congr rfl fun g _ => by ring

theorem expect_sum {ι : Type*} (s : Finset ι) (N : ℕ) (q : Fin n → ℝ)
    (F : ι → (Fin N → Fin n) → ℝ) :
    expect N q (fun g => ∑ i ∈ s, F i g) = ∑ i ∈ s, expect N q (F i) := by
  simp only [expect, Finset.mul_sum]
  exact Finset.sum_comm

theorem expect_single (N : ℕ) (q : Fin n → ℝ) (hq : ∑ j, q j = 1) (phi : Fin n → ℝ) (k : Fin N) :
    expect N q (fun g => phi (g k)) = ∑ j, q j * phi j := by
  have h := expect_prod N q fun l j => if l = k then phi j else 1
  have e : ∀ g : Fin N → Fin n, (∏ l, if l = k then phi (g l) else 1) = phi (g k) := by
    intro g
    rw [Finset.prod_ite_eq' Finset.univ k]
    simp
  simp only [e] at h
  rw [h, Finset.prod_eq_single k]
  · simp
  · intro l _ hl
    simp [hl, hq]
  · simp

theorem expect_pair (N : ℕ) (q : Fin n → ℝ) (hq : ∑ j, q j = 1) (phi : Fin n → ℝ) (k l : Fin N)
    (hkl : k ≠ l) :
    expect N q (fun g => phi (g k) * phi (g l)) = (∑ j, q j * phi j) ^ 2 := by
  have h := expect_prod N q fun i j => (if i = k then phi j else 1) * (if i = l then phi j else 1)
  have e : ∀ g : Fin N → Fin n, (∏ i, (if i = k then phi (g i) else 1) *
      (if i = l then phi (g i) else 1)) = phi (g k) * phi (g l) := by
    intro g
    rw [Finset.prod_mul_distrib, Finset.prod_ite_eq' Finset.univ k,
      Finset.prod_ite_eq' Finset.univ l]
    simp
  simp only [e] at h
  have hlk := hkl.symm
  rw [h, ← Finset.prod_subset (Finset.subset_univ {k, l}), Finset.prod_pair hkl]
  · simp [hkl, hlk, sq]
  · intro i _ hi
    simp only [Finset.mem_insert, Finset.mem_singleton, not_or] at hi
    simp [hi.1, hi.2, hq]

/-- Sums of independent draws: mean. -/
theorem expect_total (N : ℕ) (q : Fin n → ℝ) (hq : ∑ j, q j = 1) (phi : Fin n → ℝ) (c : ℝ) :
    expect N q (fun g => c + ∑ k, phi (g k)) = c + N * ∑ j, q j * phi j := by
  have h1 := expect_add N q (fun _ => c * 1) (fun g => ∑ k, phi (g k))
  rw [expect_mul, expect_one N q hq, expect_sum] at h1
  simp only [mul_one] at h1
  rw [h1]
  simp [expect_single N q hq]

/-- Sums of independent draws: variance. -/
theorem variance_total (N : ℕ) (q : Fin n → ℝ) (hq : ∑ j, q j = 1) (phi : Fin n → ℝ) (c : ℝ) :
    variance N q (fun g => c + ∑ k, phi (g k)) =
      N * (∑ j, q j * phi j ^ 2 - (∑ j, q j * phi j) ^ 2) := by
  unfold variance
  rw [expect_total N q hq]
  set m := ∑ j, q j * phi j with hm
  set psi : Fin n → ℝ := fun j => phi j - m with hpsi
  have hpm : ∑ j, q j * psi j = 0 := by
    simp only [hpsi, mul_sub, Finset.sum_sub_distrib, ← Finset.sum_mul, hq]
    rw [← hm]; ring
  have e : ∀ g : Fin N → Fin n, (c + ∑ k, phi (g k) - (c + N * m)) ^ 2 =
      ∑ k, ∑ l, psi (g k) * psi (g l) := by
    intro g
    rw [← Finset.sum_mul_sum, ← sq]
    congr 1
    simp only [hpsi, Finset.sum_sub_distrib, Finset.sum_const, Finset.card_univ, Fintype.card_fin,
      nsmul_eq_mul]
    ring
  simp only [e]
  rw [expect_sum]
  have h1 : ∀ k l : Fin N, expect N q (fun g => psi (g k) * psi (g l)) =
      if k = l then ∑ j, q j * psi j ^ 2 else 0 := by
    intro k l
    split
    · rename_i h
      subst h
      have := expect_single N q hq (fun j => psi j ^ 2) k
      simpa only [sq] using this
    · rename_i h
      rw [expect_pair N q hq psi k l h, hpm]
      simp
  simp only [expect_sum, h1]
  simp only [Finset.sum_ite_eq, Finset.mem_univ, if_true, Finset.sum_const, Finset.card_univ,
    Fintype.card_fin, nsmul_eq_mul]
  congr 1
  have : ∀ j, q j * psi j ^ 2 = q j * phi j ^ 2 - 2 * m * (q j * phi j) + m ^ 2 * q j := by
    intro j; simp only [hpsi]; ring
  simp only [this, Finset.sum_add_distrib, Finset.sum_sub_distrib, ← Finset.mul_sum, hq]
  rw [← hm]; ring

theorem tally_sum {N : ℕ} (g : Fin N → Fin n) (phi : Fin n → ℝ) :
    ∑ j, (tally g j : ℝ) * phi j = ∑ k, phi (g k) := by
  unfold tally
  have : ∀ j, ((Finset.univ.filter fun k => g k = j).card : ℝ) * phi j =
      ∑ k ∈ Finset.univ.filter (fun k => g k = j), phi (g k) := by
    intro j
    rw [Finset.sum_congr rfl fun k hk => by rw [(Finset.mem_filter.mp hk).2], Finset.sum_const,
      nsmul_eq_mul]
  simp only [this]
  exact Finset.sum_fiberwise _ _ _

theorem tally_total {N : ℕ} (g : Fin N → Fin n) : ∑ j, tally g j = N := by
  have := tally_sum g fun _ => 1
  simp only [mul_one, Finset.sum_const, Finset.card_univ, Fintype.card_fin, nsmul_eq_mul] at this
  exact_mod_cast this

/-- The sum of a function over the particles after copying. -/
theorem copies_sum {counts : Fin n → ℕ} {x x' : Fin n → Pt d} {l l' : Fin n → Flt}
    (h : Copies counts x l x' l') (f : Pt d → ℝ) :
    ∑ i, f (x' i) = ∑ j, (counts j : ℝ) * f (x j) := by
  obtain ⟨σ, h1, h2⟩ := h
  have e : ∀ i, f (x' i) = f (x (σ i)) := fun i => by rw [(h1 i).1]
  simp only [e]
  have h3 := tally_sum σ fun j => f (x j)
  rw [← h3]
  refine Finset.sum_congr rfl fun j _ => ?_
  rw [tally, h2 j]

/-- Normalised weights. -/
noncomputable def nw (w : Fin n → ℝ) (i : Fin n) : ℝ := w i / ∑ j, w j

theorem nw_sum {w : Fin n → ℝ} (h : 0 < ∑ i, w i) : ∑ i, nw w i = 1 := by
  simp only [nw]
  rw [← Finset.sum_div, div_self h.ne']

/-- The environment whose multinomial draw for the current clock is the tally of the
independent draws `g`, when asked for `N` draws with probabilities `q`. -/
def Draws (env : Env n d) (clock N : ℕ) (q : Fin n → ℝ) (g : Fin N → Fin n) : Prop :=
  env.mult clock N (fun i => .fin (q i)) = .ok (tally g)

/-- **C231** Multinomial resampling with independent draws: it succeeds, and the sum of
any function over the new particles has the expectation `n Σ qᵢ f(xᵢ)` and the variance
`n (Σ qᵢ f(xᵢ)² - (Σ qᵢ f(xᵢ))²)`, where `q` are the normalised weights. -/
theorem multinomial_law (cfg : PConfig) (hs : cfg.scheme = .multinomial) (p : Parts n d)
    (w : Fin n → ℝ) (hw : p.wtmp = fun i => .fin (w i)) (hsum : 0 < ∑ i, w i)
    (env : (Fin n → Fin n) → Env n d) (hd : ∀ g, Draws (env g) p.clock n (nw w) g) :
    ∃ p' : (Fin n → Fin n) → Parts n d, (∀ g, resample (env g) cfg p = .ok (p' g)) ∧
      ∀ f : Pt d → ℝ,
        expect n (nw w) (fun g => ∑ i, f ((p' g).x i)) = n * ∑ j, nw w j * f (p.x j) ∧
        variance n (nw w) (fun g => ∑ i, f ((p' g).x i)) =
          n * (∑ j, nw w j * f (p.x j) ^ 2 - (∑ j, nw w j * f (p.x j)) ^ 2) := by
  have hpr : probs p.wtmp = fun i => .fin (nw w i) := by rw [hw, probs_fin w hsum.ne']; rfl
  have hc : ∀ g, multinomialCounts (env g) p = .ok (tally g) := by
    intro g
    unfold multinomialCounts
    rw [hpr, hd g]
  choose p' hp' hcop _ using fun g => copyParts_ok (env g) (tally g) (tally_total g) p
  refine ⟨p', fun g => ?_, fun f => ?_⟩
  · unfold resample
    rw [hs]
    simp only [hc, bind, Except.bind]
    exact hp' g
  · have e : ∀ g, ∑ i, f ((p' g).x i) = 0 + ∑ k, f (p.x (g k)) := by
      intro g
      rw [copies_sum (hcop g) f, tally_sum g fun j => f (p.x j), zero_add]
    simp only [e]
    rw [expect_total n _ (nw_sum hsum) fun j => f (p.x j),
      variance_total n _ (nw_sum hsum) fun j => f (p.x j)]
    exact ⟨by ring, rfl⟩

/-- Number of copies that are not deterministic. -/
noncomputable def rest (w : Fin n → ℝ) : ℕ := n - ∑ i, ⌊(n : ℝ) * nw w i⌋₊

/-- Their probabilities: proportional to the fractional parts. -/
noncomputable def fracs (w : Fin n → ℝ) (i : Fin n) : ℝ :=
  ((n : ℝ) * nw w i - ⌊(n : ℝ) * nw w i⌋₊) / rest w

theorem rest_cast {w : Fin n → ℝ} (hw0 : ∀ i, 0 ≤ w i) (hsum : 0 < ∑ i, w i) :
    (∑ i, ⌊(n : ℝ) * nw w i⌋₊) + rest w = n ∧
    ∑ i, ((n : ℝ) * nw w i - ⌊(n : ℝ) * nw w i⌋₊) = rest w := by
  have hdl : ∀ i, (⌊(n : ℝ) * nw w i⌋₊ : ℝ) ≤ n * nw w i := fun i =>
    Nat.floor_le (mul_nonneg (Nat.cast_nonneg n) (div_nonneg (hw0 i) hsum.le))
  have hsumR : (∑ i, (⌊(n : ℝ) * nw w i⌋₊ : ℝ)) ≤ n := by
    calc ∑ i, (⌊(n : ℝ) * nw w i⌋₊ : ℝ) ≤ ∑ i, n * nw w i := Finset.sum_le_sum fun i _ => hdl i
      _ = n := by rw [← Finset.mul_sum, nw_sum hsum, mul_one]
  have hN : ∑ i, ⌊(n : ℝ) * nw w i⌋₊ ≤ n := by exact_mod_cast hsumR
  refine ⟨by unfold rest; omega, ?_⟩
  unfold rest
  rw [Finset.sum_sub_distrib, ← Finset.mul_sum, nw_sum hsum, mul_one, Nat.cast_sub hN]
  push_cast
  rfl

theorem expect_empty {N : ℕ} (h : N = 0) (q : Fin n → ℝ) (F : (Fin N → Fin n) → ℝ)
    (g : Fin N → Fin n) : expect N q F = F g := by
  subst h
  simp only [expect, Finset.univ_unique, Finset.sum_singleton, Finset.univ_eq_empty,
    Finset.prod_empty, one_mul]
  congr 1
  exact Subsingleton.elim _ _

/-- The counts of residual resampling. -/
theorem residualCounts_draws (env : Env n d) (p : Parts n d) (w : Fin n → ℝ)
    (hw : p.wtmp = fun i => .fin (w i)) (hw0 : ∀ i, 0 ≤ w i) (hsum : 0 < ∑ i, w i)
    (g : Fin (rest w) → Fin n)
    (hd : rest w ≠ 0 → Draws env p.clock (rest w) (fracs w) g) :
    residualCounts env p = .ok fun i => ⌊(n : ℝ) * nw w i⌋₊ + tally g i := by
  classical
  have hpr : probs p.wtmp = fun i => .fin (nw w i) := by rw [hw, probs_fin w hsum.ne']; rfl
  obtain ⟨hr1, hr2⟩ := rest_cast hw0 hsum
  have hdl : ∀ i, (⌊(n : ℝ) * nw w i⌋₊ : ℝ) ≤ n * nw w i := fun i =>
    Nat.floor_le (mul_nonneg (Nat.cast_nonneg n) (div_nonneg (hw0 i) hsum.le))
  have hres : ∀ i, max ((n : ℝ) * nw w i - ⌊(n : ℝ) * nw w i⌋₊) 0 =
      n * nw w i - ⌊(n : ℝ) * nw w i⌋₊ := fun i => max_eq_left (by linarith [hdl i])
  have hq : ∀ i, toReal (probs p.wtmp i) = nw w i := by
    intro i; rw [hpr]; exact EReal.toReal_coe _
  unfold residualCounts
  rw [if_pos fun i => by rw [hpr]; exact ⟨_, rfl⟩]
  simp only [hq, hres, hr2]
  change (if 0 < rest w then _ else _) = _
  by_cases h : rest w = 0
  · have h0 : ¬ 0 < rest w := by omega
    rw [if_neg h0]
    have ht : ∀ i, tally g i = 0 := by
      intro i
      have h1 := tally_total g
      have h2 := Finset.single_le_sum (f := tally g) (fun _ _ => Nat.zero_le _) (Finset.mem_univ i)
      omega
    simp only [ht, add_zero]
    rfl
  · have h0 : 0 < rest w := Nat.pos_of_ne_zero h
    have hne : (rest w : ℝ) ≠ 0 := by exact_mod_cast h
    rw [if_pos h0]
    simp only [if_neg hne]
    have := hd h
    unfold Draws fracs at this
    change (do
      let c ← env.mult p.clock (rest w) fun i =>
        .fin (((n : ℝ) * nw w i - ⌊(n : ℝ) * nw w i⌋₊) / rest w)
      pure fun i => ⌊(n : ℝ) * nw w i⌋₊ + c i) = _
    rw [this]
    rfl

/-- Splitting off deterministic copies cannot increase the variance. -/
theorem split_variance {A m S R T : ℝ} (hA : 0 ≤ A) (hm : 0 < m) (hT : 0 ≤ T)
    (hS : S ^ 2 ≤ A * T) : (S + R) ^ 2 / (A + m) ≤ T + R ^ 2 / m := by
  rw [div_le_iff₀ (by linarith)]
  rcases hA.eq_or_lt with rfl | hA
  · have : S = 0 := by nlinarith [sq_nonneg S]
    subst this
    have h1 : (T + R ^ 2 / m) * (0 + m) = T * m + R ^ 2 := by field_simp; ring
    rw [h1]
    nlinarith [mul_nonneg hT hm.le]
  · have h1 : (T + R ^ 2 / m) * (A + m) - (S + R) ^ 2 =
        (A * T - S ^ 2) + ((m ^ 2 * (A * T) + A ^ 2 * R ^ 2 - 2 * A * m * S * R) / (A * m)) := by
      field_simp; ring
    have h2 : 0 ≤ m ^ 2 * (A * T) + A ^ 2 * R ^ 2 - 2 * A * m * S * R := by
      nlinarith [sq_nonneg (m * S - A * R), mul_le_mul_of_nonneg_left hS (sq_nonneg m)]
    have h3 : 0 ≤ (m ^ 2 * (A * T) + A ^ 2 * R ^ 2 - 2 * A * m * S * R) / (A * m) :=
      div_nonneg h2 (by positivity)
    linarith

/-- Cauchy–Schwarz with weights. -/
theorem weighted_cs (a phi : Fin n → ℝ) (ha : ∀ i, 0 ≤ a i) :
    (∑ i, a i * phi i) ^ 2 ≤ (∑ i, a i) * ∑ i, a i * phi i ^ 2 := by
  have h := Finset.sum_mul_sq_le_sq_mul_sq Finset.univ (fun i => Real.sqrt (a i))
    fun i => Real.sqrt (a i) * phi i
  have e1 : ∀ i, Real.sqrt (a i) * (Real.sqrt (a i) * phi i) = a i * phi i := by
    intro i; rw [← mul_assoc, Real.mul_self_sqrt (ha i)]
  have e2 : ∀ i, Real.sqrt (a i) ^ 2 = a i := fun i => Real.sq_sqrt (ha i)
  simp only [mul_pow, e1, e2] at h
  exact h

/-- The moments of a sum when the integer parts are copied and the fractional parts drawn. -/
theorem residual_moments {w : Fin n → ℝ} (hw0 : ∀ i, 0 ≤ w i) (hsum : 0 < ∑ i, w i) (phi : Fin n → ℝ) :
    expect (rest w) (fracs w) (fun g => (∑ j, (⌊(n : ℝ) * nw w j⌋₊ : ℝ) * phi j) + ∑ k, phi (g k)) =
      n * ∑ j, nw w j * phi j ∧
    variance (rest w) (fracs w) (fun g => (∑ j, (⌊(n : ℝ) * nw w j⌋₊ : ℝ) * phi j) + ∑ k, phi (g k)) ≤
      n * (∑ j, nw w j * phi j ^ 2 - (∑ j, nw w j * phi j) ^ 2) := by
  obtain ⟨hr1, hr2⟩ := rest_cast hw0 hsum
  have hdl : ∀ i, (⌊(n : ℝ) * nw w i⌋₊ : ℝ) ≤ n * nw w i := fun i =>
    Nat.floor_le (mul_nonneg (Nat.cast_nonneg n) (div_nonneg (hw0 i) hsum.le))
  have hfr : rest w ≠ 0 → ∑ i, fracs w i = 1 := by
    intro h
    simp only [fracs]
    rw [← Finset.sum_div, hr2, div_self (by exact_mod_cast h)]
  set a : Fin n → ℝ := fun j => (⌊(n : ℝ) * nw w j⌋₊ : ℝ) with ha
  change expect (rest w) (fracs w) (fun g => (∑ j, a j * phi j) + ∑ k, phi (g k)) = _ ∧
    variance (rest w) (fracs w) (fun g => (∑ j, a j * phi j) + ∑ k, phi (g k)) ≤ _
  have ha0 : ∀ i, 0 ≤ a i := fun i => Nat.cast_nonneg _
  have hA : (∑ i, a i) + rest w = n := by
    have : ((∑ i, ⌊(n : ℝ) * nw w i⌋₊ : ℕ) : ℝ) + rest w = n := by exact_mod_cast hr1
    simpa only [Nat.cast_sum] using this
  have hcs := weighted_cs a phi ha0
  have hT : 0 ≤ ∑ i, a i * phi i ^ 2 :=
    Finset.sum_nonneg fun i _ => mul_nonneg (ha0 i) (sq_nonneg _)
  have hn : (0 : ℝ) < n := by
    have : n ≠ 0 := by
      rintro rfl
      simp at hsum
    exact_mod_cast Nat.pos_of_ne_zero this
  by_cases h : rest w = 0
  · have hz : ∀ i, (n : ℝ) * nw w i = a i := by
      intro i
      rw [h, Nat.cast_zero] at hr2
      have := (Finset.sum_eq_zero_iff_of_nonneg fun i _ => by linarith [hdl i]).mp hr2 i
        (Finset.mem_univ _)
      linarith
    have g0 : Fin (rest w) → Fin n := fun k => absurd k.2 (by omega)
    have hk : ∀ g : Fin (rest w) → Fin n, ∑ k, phi (g k) = 0 := fun g =>
      Finset.sum_eq_zero fun k _ => absurd k.2 (by omega)
    simp only [hk, add_zero, variance]
    rw [expect_empty h _ _ g0, expect_empty h _ _ g0, sub_self]
    have h1 : ∑ j, nw w j * phi j = (∑ j, a j * phi j) / n := by
      rw [Finset.sum_div]
      refine Finset.sum_congr rfl fun j _ => ?_
      rw [← hz]; field_simp
    have h2 : ∑ j, nw w j * phi j ^ 2 = (∑ j, a j * phi j ^ 2) / n := by
      rw [Finset.sum_div]
      refine Finset.sum_congr rfl fun j _ => ?_
      rw [← hz]; field_simp
    rw [h1, h2]
    refine ⟨by field_simp, ?_⟩
    rw [h, Nat.cast_zero, add_zero] at hA
    rw [hA] at hcs
    have : (n : ℝ) * ((∑ j, a j * phi j ^ 2) / n - ((∑ j, a j * phi j) / n) ^ 2) =
        (n * (∑ j, a j * phi j ^ 2) - (∑ j, a j * phi j) ^ 2) / n := by
      field_simp
    rw [this]
    have := div_nonneg (sub_nonneg.mpr hcs) hn.le
    simpa using this
  · have hm : (0 : ℝ) < rest w := by exact_mod_cast Nat.pos_of_ne_zero h
    have hf1 := hfr h
    rw [expect_total _ _ hf1, variance_total _ _ hf1]
    have hmf : ∀ i, (rest w : ℝ) * fracs w i = n * nw w i - a i := by
      intro i
      simp only [fracs]
      rw [mul_div_cancel₀ _ hm.ne']
    have hR : ∀ psi : Fin n → ℝ, (rest w : ℝ) * ∑ j, fracs w j * psi j =
        n * (∑ j, nw w j * psi j) - ∑ j, a j * psi j := by
      intro psi
      rw [Finset.mul_sum, Finset.mul_sum, ← Finset.sum_sub_distrib]
      refine Finset.sum_congr rfl fun j _ => ?_
      rw [← mul_assoc, hmf]; ring
    refine ⟨by rw [hR]; ring, ?_⟩
    set M := ∑ j, fracs w j * phi j with hM
    have h1 := hR phi
    have h2 := hR fun j => phi j ^ 2
    set S := ∑ j, a j * phi j
    set T := ∑ j, a j * phi j ^ 2
    set Q := ∑ j, nw w j * phi j
    have h3 := split_variance (R := rest w * M) (Finset.sum_nonneg fun i _ => ha0 i) hm hT hcs
    rw [hA, show S + rest w * M = n * Q by linarith] at h3
    have h4 : (n * Q) ^ 2 / (n : ℝ) = n * Q ^ 2 := by field_simp
    have h5 : ((rest w : ℝ) * M) ^ 2 / rest w = rest w * M ^ 2 := by field_simp
    rw [h4, h5] at h3
    rw [mul_sub, mul_sub]
    have h6 : (rest w : ℝ) * ∑ j, fracs w j * phi j ^ 2 =
        n * (∑ j, nw w j * phi j ^ 2) - T := h2
    rw [h6]
    linarith

/-- **C231** Residual resampling with independent draws for the fractional parts: it
succeeds, every sum has the same expectation as with the multinomial scheme, and its
variance is at most that of the multinomial scheme. -/
theorem residual_law (cfg : PConfig) (hs : cfg.scheme = .residual) (p : Parts n d)
    (w : Fin n → ℝ) (hw : p.wtmp = fun i => .fin (w i)) (hw0 : ∀ i, 0 ≤ w i)
    (hsum : 0 < ∑ i, w i) (env : (Fin (rest w) → Fin n) → Env n d)
    (hd : rest w ≠ 0 → ∀ g, Draws (env g) p.clock (rest w) (fracs w) g) :
    ∃ p' : (Fin (rest w) → Fin n) → Parts n d, (∀ g, resample (env g) cfg p = .ok (p' g)) ∧
      (rest w ≠ 0 → (∀ i, 0 ≤ fracs w i) ∧ ∑ i, fracs w i = 1) ∧
      ∀ f : Pt d → ℝ,
        expect (rest w) (fracs w) (fun g => ∑ i, f ((p' g).x i)) =
          n * ∑ j, nw w j * f (p.x j) ∧
        variance (rest w) (fracs w) (fun g => ∑ i, f ((p' g).x i)) ≤
          n * (∑ j, nw w j * f (p.x j) ^ 2 - (∑ j, nw w j * f (p.x j)) ^ 2) := by
  obtain ⟨hr1, hr2⟩ := rest_cast hw0 hsum
  have hc : ∀ g, residualCounts (env g) p = .ok fun i => ⌊(n : ℝ) * nw w i⌋₊ + tally g i :=
    fun g => residualCounts_draws (env g) p w hw hw0 hsum g fun h => hd h g
  have htot : ∀ g : Fin (rest w) → Fin n, ∑ i, (⌊(n : ℝ) * nw w i⌋₊ + tally g i) = n := by
    intro g
    rw [Finset.sum_add_distrib, tally_total, hr1]
  have hdl : ∀ i, (⌊(n : ℝ) * nw w i⌋₊ : ℝ) ≤ n * nw w i := fun i =>
    Nat.floor_le (mul_nonneg (Nat.cast_nonneg n) (div_nonneg (hw0 i) hsum.le))
  choose p' hp' hcop _ using fun g => copyParts_ok (env g) _ (htot g) p
  have hfr : rest w ≠ 0 → (∀ i, 0 ≤ fracs w i) ∧ ∑ i, fracs w i = 1 := by
    intro h
    refine ⟨fun i => div_nonneg (by linarith [hdl i]) (Nat.cast_nonneg _), ?_⟩
    simp only [fracs]
    rw [← Finset.sum_div, hr2, div_self (by exact_mod_cast h)]
  refine ⟨p', fun g => ?_, hfr, fun f => ?_⟩
  · unfold resample
    rw [hs]
    simp only [hc, bind, Except.bind]
    exact hp' g
  · have e : ∀ g, ∑ i, f ((p' g).x i) =
        (∑ j, (⌊(n : ℝ) * nw w j⌋₊ : ℝ) * f (p.x j)) + ∑ k, f (p.x (g k)) := by
      intro g
      rw [copies_sum (hcop g) f, ← tally_sum g fun j => f (p.x j), ← Finset.sum_add_distrib]
      refine Finset.sum_congr rfl fun j _ => ?_
      push_cast
      ring
    simp only [e]
    exact residual_moments hw0 hsum fun j => f (p.x j)

/-! ## Concrete case -/

/-- Weights 3, 1, 2 for three particles: one copy of the first and of the third for
sure, and one draw with probabilities 1/2, 1/2, 0. -/
example : rest (n := 3) ![3, 1, 2] = 1 ∧ fracs (n := 3) ![3, 1, 2] = ![1 / 2, 1 / 2, 0] := by
  have hs : ∑ i, (![3, 1, 2] : Fin 3 → ℝ) i = 6 := by simp [Fin.sum_univ_three]; norm_num
  have h0 : ((3 : ℕ) : ℝ) * nw (n := 3) ![3, 1, 2] 0 = 3 / 2 := by simp only [nw, hs]; norm_num
  have h1 : ((3 : ℕ) : ℝ) * nw (n := 3) ![3, 1, 2] 1 = 1 / 2 := by simp only [nw, hs]; norm_num
  have h2 : ((3 : ℕ) : ℝ) * nw (n := 3) ![3, 1, 2] 2 = 1 := by
    simp only [nw, hs]
    change ((3 : ℕ) : ℝ) * (2 / 6) = 1
    norm_num
  have f0 : ⌊(3 / 2 : ℝ)⌋₊ = 1 := by rw [Nat.floor_eq_iff (by norm_num)]; norm_num
  have f1 : ⌊(1 / 2 : ℝ)⌋₊ = 0 := by rw [Nat.floor_eq_iff (by norm_num)]; norm_num
  have hr : rest (n := 3) ![3, 1, 2] = 1 := by
    simp only [rest, Fin.sum_univ_three, h0, h1, h2, f0, f1, Nat.floor_one]
    norm_num
  refine ⟨hr, ?_⟩
  funext i
  fin_cases i
  · simp only [fracs, hr, h0, f0, Fin.zero_eta]; norm_num
  · simp only [fracs, hr, h1, f1, Fin.mk_one]; norm_num
  · simp only [fracs, hr, Fin.reduceFinMk, h2, Nat.floor_one]; norm_num; rfl

end Verif.SMC
