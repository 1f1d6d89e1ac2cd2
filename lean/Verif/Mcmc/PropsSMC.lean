import Verif.Mcmc.SMC
import Verif.Mcmc.PropsMHRun
import Mathlib.Algebra.Order.Chebyshev
import Mathlib.Algebra.BigOperators.Field
import Mathlib.Data.Fintype.Fin
import Mathlib.Topology.UniformSpace.HeineCantor
import Mathlib.Topology.Order.IntermediateValue

/-!
# C51-C53, C101-C107: particles: effective sample size, resampling, cached densities
-/

set_option autoImplicit false

namespace Verif.SMC

open Verif
open Verif.MH (bind_ok)

variable {n d : ℕ}

/-! ## C51 -/

theorem ess_fin (w : Fin n → ℝ) (h : ∑ i, w i ^ 2 ≠ 0) :
    ess (fun i => .fin (w i)) = .fin ((∑ i, w i) ^ 2 / ∑ i, w i ^ 2) := by
  unfold ess
  have e : (Flt.sum fun i => (Flt.fin (w i)).mul (.fin (w i))) = .fin (∑ i, w i ^ 2) := by
    simp only [Flt.mul_fin, Flt.sum_fin, sq]
  dsimp only
  rw [e, if_neg (by rw [Flt.fin_inj]; exact h), Flt.sum_fin, Flt.mul_fin, Flt.div_fin h, ← sq]

/-- **C51** For nonnegative weights, not all zero: `1 ≤ ESS ≤ n`, with `ESS = n` exactly
for equal weights and `ESS = 1` exactly when one particle carries all the weight. -/
theorem ess_bounds (w : Fin n → ℝ) (hw : ∀ i, 0 ≤ w i) (h0 : ∃ i, w i ≠ 0) :
    ∃ r, ess (fun i => .fin (w i)) = .fin r ∧ 1 ≤ r ∧ r ≤ n ∧ (r = n ↔ ∀ i j, w i = w j) ∧
      (r = 1 ↔ ∃ i, ∀ j, j ≠ i → w j = 0) := by
  obtain ⟨i0, hi0⟩ := h0
  have h2 : 0 < ∑ i, w i ^ 2 :=
    Finset.sum_pos' (fun i _ => sq_nonneg _) ⟨i0, Finset.mem_univ _, by positivity⟩
  have hn : 0 < n := Nat.lt_of_le_of_lt (Nat.zero_le _) i0.2
  have hnR : (0 : ℝ) < n := by exact_mod_cast hn
  have hle : ∀ i, w i ≤ ∑ j, w j := fun i =>
    Finset.single_le_sum (fun j _ => hw j) (Finset.mem_univ i)
  have hS : (∑ i, w i) ^ 2 = ∑ i, w i * ∑ j, w j := by rw [← Finset.sum_mul, sq]
  have hge : ∑ i, w i ^ 2 ≤ (∑ i, w i) ^ 2 := by
    rw [hS]
    refine Finset.sum_le_sum fun i _ => ?_
    rw [sq]
    exact mul_le_mul_of_nonneg_left (hle i) (hw i)
  refine ⟨_, ess_fin w h2.ne', ?_, ?_, ?_, ?_⟩
  · rwa [le_div_iff₀ h2, one_mul]
  · rw [div_le_iff₀ h2]
    have := sq_sum_le_card_mul_sum_sq (s := Finset.univ) (f := w)
    simpa using this
  · rw [div_eq_iff h2.ne']
    have hvar : ∑ i, (w i - (∑ j, w j) / n) ^ 2 = ∑ i, w i ^ 2 - (∑ j, w j) ^ 2 / n := by
      have : ∀ i, (w i - (∑ j, w j) / n) ^ 2 =
          w i ^ 2 - 2 * ((∑ j, w j) / n) * w i + ((∑ j, w j) / n) ^ 2 := fun i => by ring
      rw [Finset.sum_congr rfl fun i _ => this i, Finset.sum_add_distrib, Finset.sum_sub_distrib,
        ← Finset.mul_sum, Finset.sum_const, Finset.card_univ, Fintype.card_fin, nsmul_eq_mul]
      field_simp
      ring
    constructor
    · intro h
      have hz : ∑ i, (w i - (∑ j, w j) / n) ^ 2 = 0 := by
        rw [hvar, h]; field_simp; ring
      rw [Finset.sum_eq_zero_iff_of_nonneg fun _ _ => sq_nonneg _] at hz
      intro i j
      have hi := pow_eq_zero_iff two_ne_zero |>.mp (hz i (Finset.mem_univ _))
      have hj := pow_eq_zero_iff two_ne_zero |>.mp (hz j (Finset.mem_univ _))
      linarith
    · intro h
      have h1 : ∀ i, w i = w i0 := fun i => h i i0
      simp only [h1, Finset.sum_const, Finset.card_univ, Fintype.card_fin, nsmul_eq_mul]
      ring
  · rw [div_eq_one_iff_eq h2.ne']
    constructor
    · intro h
      have hz : ∑ i, (w i * ∑ j, w j - w i ^ 2) = 0 := by
        rw [Finset.sum_sub_distrib, ← hS, h, sub_self]
      rw [Finset.sum_eq_zero_iff_of_nonneg fun i _ => by nlinarith [hle i, hw i]] at hz
      have hzi := hz i0 (Finset.mem_univ _)
      have e0 : w i0 = ∑ j, w j := by
        have : w i0 * (∑ j, w j - w i0) = 0 := by linarith [hzi, sq (w i0), mul_sub (w i0) (∑ j, w j) (w i0)]
        rcases mul_eq_zero.mp this with h | h
        · exact absurd h hi0
        · linarith
      refine ⟨i0, fun j hj => ?_⟩
      have := Finset.add_sum_erase Finset.univ w (Finset.mem_univ i0)
      have hz0 : ∑ k ∈ Finset.univ.erase i0, w k = 0 := by linarith
      exact (Finset.sum_eq_zero_iff_of_nonneg fun k _ => hw k).mp hz0 j
        (Finset.mem_erase.mpr ⟨hj, Finset.mem_univ _⟩)
    · rintro ⟨i, hi⟩
      rw [Finset.sum_eq_single i (fun j _ hj => hi j hj) (by simp),
        Finset.sum_eq_single i (fun j _ hj => by rw [hi j hj]; ring) (by simp)]

/-- **C51** Rescaling the weights does not change the effective sample size. -/
theorem ess_scale (w : Fin n → ℝ) (c : ℝ) (hc : c ≠ 0) :
    ess (fun i => .fin (c * w i)) = ess (fun i => .fin (w i)) := by
  by_cases h : ∑ i, w i ^ 2 = 0
  · have hz : ∀ i, w i = 0 := fun i =>
      pow_eq_zero_iff two_ne_zero |>.mp
        ((Finset.sum_eq_zero_iff_of_nonneg fun _ _ => sq_nonneg _).mp h i (Finset.mem_univ _))
    simp [hz]
  · have e1 : ∑ i, (c * w i) ^ 2 = c ^ 2 * ∑ i, w i ^ 2 := by
      rw [Finset.mul_sum]; exact Finset.sum_congr rfl fun i _ => by ring
    rw [ess_fin w h, ess_fin _ (by rw [e1]; exact mul_ne_zero (pow_ne_zero 2 hc) h), e1,
      ← Finset.mul_sum, mul_pow, mul_div_mul_left _ _ (pow_ne_zero 2 hc)]

/-- **C51** All weights zero: 0; a NaN weight: NaN. -/
theorem ess_degenerate (w : Fin n → Flt) :
    ((∀ i, w i = .fin 0) → ess w = .fin 0) ∧ ((∃ i, w i = .nan) → ess w = .nan) := by
  constructor
  · intro h
    have : w = fun _ => .fin 0 := funext h
    subst this
    unfold ess
    simp [Flt.sum_fin]
  · rintro ⟨i, hi⟩
    unfold ess
    have h1 : (Flt.sum fun i => (w i).mul (w i)) = .nan := Flt.sum_nan _ i (by simp [hi])
    dsimp only
    rw [h1, if_neg (by intro h; cases h)]
    cases (Flt.sum w).mul (Flt.sum w) <;> rfl

example : ∃ r, ess (fun i : Fin 2 => .fin (if i = 0 then 1 else 3)) = .fin r ∧ 1 ≤ r ∧ r ≤ 2 := by
  obtain ⟨r, h, h1, h2, _⟩ := ess_bounds (fun i : Fin 2 => if i = 0 then (1 : ℝ) else 3)
    (fun i => by split <;> norm_num) ⟨0, by norm_num⟩
  refine ⟨r, ?_, h1, by exact_mod_cast h2⟩
  exact h

/-! ## C52 -/

theorem copyOne_ok (x : Fin n → Pt d) (l : Fin n → Flt) (j : Fin n) (c : ℕ) (b : Buf n d)
    (h : b.i + c ≤ n) : ∃ b', copyOne x l j c b = .ok b' ∧ b'.i = b.i + c ∧
      (∀ q : Fin n, (q < b.i ∨ b.i + c ≤ q) → b'.x q = b.x q ∧ b'.l q = b.l q) ∧
      (∀ q : Fin n, b.i ≤ q → q < b.i + c → b'.x q = x j ∧ b'.l q = l j) := by
  induction c generalizing b with
  | zero => exact ⟨b, rfl, rfl, fun _ _ => ⟨rfl, rfl⟩, fun q h1 h2 => by omega⟩
  | succ c ih =>
    have hi : b.i < n := by omega
    obtain ⟨b', h1, h2, h3, h4⟩ := ih ⟨b.i + 1, Function.update b.x ⟨b.i, hi⟩ (x j),
      Function.update b.l ⟨b.i, hi⟩ (l j)⟩ (by simp only; omega)
    refine ⟨b', by unfold copyOne; rw [dif_pos hi]; exact h1, by simp only at h2; omega, ?_, ?_⟩
    · intro q hq
      obtain ⟨e1, e2⟩ := h3 q (by simp only; omega)
      have hne : q ≠ ⟨b.i, hi⟩ := by
        intro h; rw [h] at hq; simp only at hq; omega
      simp only at e1 e2
      rw [Function.update_of_ne hne] at e1 e2
      exact ⟨e1, e2⟩
    · intro q h5 h6
      by_cases hq : q = ⟨b.i, hi⟩
      · subst hq
        obtain ⟨e1, e2⟩ := h3 ⟨b.i, hi⟩ (by simp only; omega)
        simp only [Function.update_self] at e1 e2
        exact ⟨e1, e2⟩
      · have : (q : ℕ) ≠ b.i := fun h => hq (Fin.ext h)
        exact h4 q (by simp only; omega) (by simp only; omega)

/-- The sources of the copies, in order. -/
def slots (counts : Fin n → ℕ) (L : List (Fin n)) : List (Fin n) :=
  L.flatMap fun j => List.replicate (counts j) j

theorem copyLoop_ok (x : Fin n → Pt d) (l : Fin n → Flt) (counts : Fin n → ℕ) (L : List (Fin n))
    (b : Buf n d) (h : b.i + (slots counts L).length ≤ n) :
    ∃ b', L.foldlM (fun b j => copyOne x l j (counts j) b) b = .ok b' ∧
      b'.i = b.i + (slots counts L).length ∧
      (∀ q : Fin n, q < b.i → b'.x q = b.x q ∧ b'.l q = b.l q) ∧
      (∀ (q : Fin n) (j : Fin n), b.i ≤ q → (slots counts L)[(q : ℕ) - b.i]? = some j →
        b'.x q = x j ∧ b'.l q = l j) := by
  induction L generalizing b with
  | nil => exact ⟨b, rfl, rfl, fun _ _ => ⟨rfl, rfl⟩, fun q j _ h => by simp [slots] at h⟩
  | cons k L ih =>
    have hs : slots counts (k :: L) = List.replicate (counts k) k ++ slots counts L := by
      simp [slots]
    rw [hs, List.length_append, List.length_replicate] at h
    obtain ⟨b1, h1, h2, h3, h4⟩ := copyOne_ok x l k (counts k) b (by omega)
    obtain ⟨b2, g1, g2, g3, g4⟩ := ih b1 (by omega)
    refine ⟨b2, by rw [List.foldlM_cons, h1]; exact g1, ?_, ?_, ?_⟩
    · rw [hs, List.length_append, List.length_replicate]; omega
    · intro q hq
      obtain ⟨e1, e2⟩ := g3 q (by omega)
      obtain ⟨f1, f2⟩ := h3 q (Or.inl hq)
      exact ⟨e1.trans f1, e2.trans f2⟩
    · intro q j hq hj
      rw [hs] at hj
      by_cases hlt : (q : ℕ) - b.i < counts k
      · rw [List.getElem?_append_left (by simpa using hlt), List.getElem?_replicate,
          if_pos hlt] at hj
        obtain rfl := Option.some.inj hj
        obtain ⟨e1, e2⟩ := g3 q (by omega)
        obtain ⟨f1, f2⟩ := h4 q hq (by omega)
        exact ⟨e1.trans f1, e2.trans f2⟩
      · rw [List.getElem?_append_right (by simpa using hlt), List.length_replicate] at hj
        refine g4 q j (by omega) ?_
        rw [← hj]
        congr 1
        omega

theorem slots_length (counts : Fin n → ℕ) :
    (slots counts (List.finRange n)).length = ∑ j, counts j := by
  unfold slots
  rw [List.length_flatMap, Fin.sum_univ_def]
  simp

theorem slots_count (counts : Fin n → ℕ) (j : Fin n) :
    (slots counts (List.finRange n)).count j = counts j := by
  unfold slots
  rw [List.count_flatMap, show List.map (List.count j ∘ fun i => List.replicate (counts i) i)
    (List.finRange n) = (List.finRange n).map fun i => if i = j then counts j else 0 from ?_,
    ← Fin.sum_univ_def]
  · simp
  · refine List.map_congr_left fun i _ => ?_
    simp only [Function.comp, List.count_replicate]
    by_cases h : i = j
    · subst h; simp
    · simp [h]

/-- Copies: an assignment of old particles to new ones in which particle `j` appears
`counts j` times. -/
def Copies (counts : Fin n → ℕ) (x : Fin n → Pt d) (l : Fin n → Flt) (x' : Fin n → Pt d)
    (l' : Fin n → Flt) : Prop :=
  ∃ σ : Fin n → Fin n, (∀ i, x' i = x (σ i) ∧ l' i = l (σ i)) ∧
    ∀ j, (Finset.univ.filter fun i => σ i = j).card = counts j

theorem copyParts_ok (env : Env n d) (counts : Fin n → ℕ) (hc : ∑ j, counts j = n)
    (p : Parts n d) : ∃ p', copyParts env counts p = .ok p' ∧
      Copies counts p.x p.logpx p'.x p'.logpx ∧ p'.w = uniformW n ∧ p'.wtmp = uniformW n ∧
      p'.logpdf = p.logpdf ∧ p'.s = p.s := by
  have hlen : (slots counts (List.finRange n)).length = n := (slots_length counts).trans hc
  obtain ⟨b, h1, _, _, h4⟩ := copyLoop_ok p.x p.logpx counts (List.finRange n)
    ⟨0, env.junkX p.clock, env.junkL p.clock⟩ (by simp only; omega)
  refine ⟨{ p with
    x := b.x
    logpx := b.l
    wtmp := uniformW n
    w := uniformW n
    clock := p.clock + 1 }, by unfold copyParts copyLoop; rw [h1]; rfl, ?_, rfl, rfl, rfl, rfl⟩
  let v : List.Vector (Fin n) n := ⟨slots counts (List.finRange n), hlen⟩
  refine ⟨v.get, fun i => ?_, fun j => ?_⟩
  · refine h4 i (v.get i) (Nat.zero_le _) ?_
    simp only [Nat.sub_zero]
    rw [List.getElem?_eq_getElem (by rw [hlen]; exact i.2)]
    rfl
  · have := Fin.card_filter_univ_eq_vector_get_eq_count j v
    simp only [eq_comm] at this ⊢
    rw [← this]
    exact (slots_count counts j).symm

/-- The draws of the external multinomial sampler sum to the number of trials. -/
def MultContract (env : Env n d) : Prop :=
  ∀ k N q c, env.mult k N q = .ok c → ∑ j, c j = N

/-- **C52** Multinomial resampling. -/
theorem multinomial_resample (env : Env n d) (hm : MultContract env) (cfg : PConfig)
    (hs : cfg.scheme = .multinomial) (p p' : Parts n d) (h : resample env cfg p = .ok p') :
    ∃ counts, env.mult p.clock n (probs p.wtmp) = .ok counts ∧
      Copies counts p.x p.logpx p'.x p'.logpx ∧
      p'.w = uniformW n ∧ p'.wtmp = uniformW n ∧ p'.logpdf = p.logpdf ∧ p'.s = p.s := by
  unfold resample at h
  rw [hs] at h
  obtain ⟨c, h1, h2⟩ := bind_ok h
  unfold multinomialCounts at h1
  cases hd : env.mult p.clock n (probs p.wtmp) with
  | error e => rw [hd] at h1; cases h1
  | ok c' =>
    rw [hd] at h1
    obtain rfl := Except.ok.inj h1
    obtain ⟨p1, g1, g⟩ := copyParts_ok env c' (hm _ _ _ _ hd) p
    rw [g1] at h2
    obtain rfl := Except.ok.inj h2
    exact ⟨c', rfl, g⟩

theorem probs_fin (w : Fin n → ℝ) (h : ∑ i, w i ≠ 0) :
    probs (fun i => .fin (w i)) = fun i => .fin (w i / ∑ j, w j) := by
  unfold probs
  rw [Flt.sum_fin, if_neg (by rw [Flt.fin_inj]; exact h)]
  funext i
  exact Flt.div_fin h

/-- Residual resampling with probabilities `q`. -/
theorem residual_core (env : Env n d) (hm : MultContract env) (p : Parts n d) (q : Fin n → ℝ)
    (hpr : probs p.wtmp = fun i => .fin (q i)) (hq0 : ∀ i, 0 ≤ q i)
    (hq1 : (n : ℝ) * ∑ i, q i = n) (counts : Fin n → ℕ)
    (h1 : residualCounts env p = .ok counts) :
    ∑ i, counts i = n ∧ (∀ i, ⌊(n : ℝ) * q i⌋₊ ≤ counts i) ∧
      ∃ (m : ℕ) (pv : Fin n → ℝ) (extra : Fin n → ℕ), (∀ i, 0 ≤ pv i) ∧
        (m ≠ 0 → ∑ i, pv i = 1 ∧ env.mult p.clock m (fun i => .fin (pv i)) = .ok extra) ∧
        (∀ i, counts i = ⌊(n : ℝ) * q i⌋₊ + extra i) ∧
        (∀ i, (⌊(n : ℝ) * q i⌋₊ : ℝ) + m * pv i = n * q i) := by
  classical
  unfold residualCounts at h1
  have hfin : ∀ i, (probs p.wtmp i).IsFin := fun i => by rw [hpr]; exact ⟨_, rfl⟩
  rw [if_pos hfin] at h1
  have hqr : (fun i => toReal (probs p.wtmp i)) = q := by
    funext i; rw [hpr]; exact EReal.toReal_coe _
  dsimp only at h1
  simp only [show ∀ i, toReal (probs p.wtmp i) = q i from congrFun hqr] at h1
  set det : Fin n → ℕ := fun i => ⌊(n : ℝ) * q i⌋₊ with hdet
  have hdl : ∀ i, (det i : ℝ) ≤ n * q i := fun i =>
    Nat.floor_le (mul_nonneg (Nat.cast_nonneg n) (hq0 i))
  have hsumR : (∑ i, (det i : ℝ)) ≤ n := by
    calc ∑ i, (det i : ℝ) ≤ ∑ i, n * q i := Finset.sum_le_sum fun i _ => hdl i
      _ = n := by rw [← Finset.mul_sum, hq1]
  have hsumN : ∑ i, det i ≤ n := by exact_mod_cast hsumR
  have hres : ∀ i, max ((n : ℝ) * q i - det i) 0 = n * q i - det i := fun i =>
    max_eq_left (by linarith [hdl i])
  have htot : ∑ i, ((n : ℝ) * q i - det i) = ((n - ∑ i, det i : ℕ) : ℝ) := by
    rw [Finset.sum_sub_distrib, ← Finset.mul_sum, hq1, Nat.cast_sub hsumN]
    push_cast
    rfl
  by_cases hz : 0 < n - ∑ i, det i
  · rw [if_pos hz] at h1
    have hne : ((n - ∑ i, det i : ℕ) : ℝ) ≠ 0 := by exact_mod_cast hz.ne'
    simp only [show ∀ i, ⌊(n : ℝ) * q i⌋₊ = det i from fun _ => rfl, hres, htot, if_neg hne] at h1
    obtain ⟨extra, h3, h4⟩ := bind_ok h1
    obtain rfl := Except.ok.inj h4
    have hc : ∑ i, (det i + extra i) = n := by
      rw [Finset.sum_add_distrib, hm _ _ _ _ h3]; exact Nat.add_sub_cancel' hsumN
    refine ⟨hc, fun i => Nat.le_add_right _ _, n - ∑ i, det i, _, extra, ?_, fun _ => ⟨?_, h3⟩,
      fun i => rfl, ?_⟩
    · intro i
      exact div_nonneg (by linarith [hdl i]) (Nat.cast_nonneg _)
    · rw [← Finset.sum_div, htot, div_self hne]
    · intro i
      rw [mul_div_cancel₀ _ hne]
      change (det i : ℝ) + _ = _
      ring
  · rw [if_neg hz] at h1
    obtain rfl := Except.ok.inj h1
    have hc : ∑ i, det i = n := by omega
    refine ⟨hc, fun i => le_rfl, 0, fun _ => 0, fun _ => 0, fun _ => le_rfl,
      fun h => absurd rfl h, fun i => rfl, ?_⟩
    intro i
    have hzero : ∑ i, ((n : ℝ) * q i - det i) = 0 := by
      rw [htot, hc]; simp
    have := (Finset.sum_eq_zero_iff_of_nonneg fun i _ => by linarith [hdl i]).mp hzero i
      (Finset.mem_univ _)
    simp only [Nat.cast_zero, zero_mul, add_zero]
    change (det i : ℝ) = _
    linarith

/-- **C52** Residual resampling: with nonnegative weights of positive sum every particle
is kept at least `⌊n wᵢ / Σw⌋` times, and the rest of the copies is drawn with
probabilities that make the expected number of copies exactly `n wᵢ / Σw`. -/
theorem residual_resample (env : Env n d) (hm : MultContract env) (cfg : PConfig)
    (hs : cfg.scheme = .residual) (p p' : Parts n d) (h : resample env cfg p = .ok p')
    (w : Fin n → ℝ) (hw : p.wtmp = fun i => .fin (w i)) (hw0 : ∀ i, 0 ≤ w i)
    (hsum : 0 < ∑ i, w i) :
    ∃ counts : Fin n → ℕ, Copies counts p.x p.logpx p'.x p'.logpx ∧
      (∀ i, ⌊(n : ℝ) * (w i / ∑ j, w j)⌋₊ ≤ counts i) ∧
      (∃ (m : ℕ) (pv : Fin n → ℝ) (extra : Fin n → ℕ), (∀ i, 0 ≤ pv i) ∧
        (m ≠ 0 → ∑ i, pv i = 1 ∧ env.mult p.clock m (fun i => .fin (pv i)) = .ok extra) ∧
        (∀ i, counts i = ⌊(n : ℝ) * (w i / ∑ j, w j)⌋₊ + extra i) ∧
        (∀ i, (⌊(n : ℝ) * (w i / ∑ j, w j)⌋₊ : ℝ) + m * pv i = n * (w i / ∑ j, w j))) ∧
      p'.w = uniformW n ∧ p'.wtmp = uniformW n ∧ p'.logpdf = p.logpdf ∧ p'.s = p.s := by
  unfold resample at h
  rw [hs] at h
  obtain ⟨counts, h1, h2⟩ := bind_ok h
  have hq1 : (n : ℝ) * ∑ i, w i / ∑ j, w j = n := by
    rw [← Finset.sum_div, div_self hsum.ne', mul_one]
  obtain ⟨hc, g⟩ := residual_core env hm p (fun i => w i / ∑ j, w j)
    (by rw [hw, probs_fin w hsum.ne']) (fun i => div_nonneg (hw0 i) hsum.le) hq1 counts h1
  obtain ⟨p1, g1, g2, g3⟩ := copyParts_ok env counts hc p
  rw [g1] at h2
  obtain rfl := Except.ok.inj h2
  exact ⟨counts, g2, g.1, g.2, g3⟩

/-- **C52** A particle of zero weight may only survive through the external draw: the
probability passed for it is zero. -/
theorem probs_zero (w : Fin n → ℝ) (hsum : ∑ i, w i ≠ 0) (i : Fin n) (hi : w i = 0) :
    probs (fun i => .fin (w i)) i = .fin 0 := by
  rw [probs_fin w hsum]; simp [hi]

/-- **C106** False: an unknown scheme should be refused with `ValueError`; building the
message raises `AttributeError` instead. -/
theorem unknown_scheme_false (env : Env n d) (cfg : PConfig) (hs : cfg.scheme = .other)
    (p : Parts n d) : resample env cfg p = .error .attributeError := by
  unfold resample; rw [hs]

/-- **C106** It is refused, and the two documented schemes are not refused on these
grounds. -/
theorem unknown_scheme_partial (env : Env n d) (cfg : PConfig) (p : Parts n d)
    (h : ∃ p', resample env cfg p = .ok p') :
    cfg.scheme = .multinomial ∨ cfg.scheme = .residual := by
  cases hs : cfg.scheme with
  | multinomial => exact Or.inl rfl
  | residual => exact Or.inr rfl
  | other =>
    obtain ⟨p', h⟩ := h
    rw [unknown_scheme_false env cfg hs] at h
    cases h

/-! ## C53 -/

/-- `ell` gives the log-density row by row. -/
def Rowwise (l : LogPdf n d) (ell : Pt d → Flt) : Prop := ∀ x v, l x = .ok v → ∀ i, v i = ell (x i)

/-- Cached values are the log-density in force at the particle positions. -/
def Cached (ell : Pt d → Flt) (p : Parts n d) : Prop :=
  Rowwise p.logpdf ell ∧ ∀ i, p.logpx i = ell (p.x i)

theorem reweight_cached {ell : Pt d → Flt} {p p' : Parts n d} (hl : Rowwise p.logpdf ell)
    (h : reweight true p = .ok p') : Cached ell p' ∧ p'.x = p.x ∧ p'.logpdf = p.logpdf := by
  obtain ⟨v, h1, h2⟩ := bind_ok h
  obtain rfl := Except.ok.inj h2
  exact ⟨⟨hl, hl _ _ h1⟩, rfl, rfl⟩

theorem reweight_false {p p' : Parts n d} (h : reweight false p = .ok p') :
    p'.x = p.x ∧ p'.logpx = p.logpx ∧ p'.w = p.w ∧ p'.logpdf = p.logpdf ∧ p'.s = p.s ∧
      p'.clock = p.clock := by
  obtain ⟨v, h1, h2⟩ := bind_ok h
  obtain rfl := Except.ok.inj h2
  exact ⟨rfl, rfl, rfl, rfl, rfl, rfl⟩

theorem copies_cached {counts : Fin n → ℕ} {ell : Pt d → Flt} {p p' : Parts n d}
    (hc : Cached ell p) (h : Copies counts p.x p.logpx p'.x p'.logpx)
    (hl : p'.logpdf = p.logpdf) : Cached ell p' := by
  obtain ⟨σ, hσ, _⟩ := h
  refine ⟨by rw [hl]; exact hc.1, fun i => ?_⟩
  rw [(hσ i).1, (hσ i).2]
  exact hc.2 _

/-- What a successful `resample` gives, for finite nonnegative weights or the
multinomial scheme. -/
theorem resample_copies (env : Env n d) (hm : MultContract env) (cfg : PConfig) (p p' : Parts n d)
    (h : resample env cfg p = .ok p') (hw : cfg.scheme = .residual →
      ∃ w : Fin n → ℝ, (p.wtmp = fun i => .fin (w i)) ∧ (∀ i, 0 ≤ w i)) :
    (∃ counts, Copies counts p.x p.logpx p'.x p'.logpx) ∧ p'.logpdf = p.logpdf ∧
      p'.w = uniformW n ∧ p'.wtmp = uniformW n ∧ p'.s = p.s := by
  cases hs : cfg.scheme with
  | multinomial =>
    obtain ⟨c, _, h1, h2, h3, h4, h5⟩ := multinomial_resample env hm cfg hs p p' h
    exact ⟨⟨c, h1⟩, h4, h2, h3, h5⟩
  | other => rw [unknown_scheme_false env cfg hs] at h; cases h
  | residual =>
    obtain ⟨w, hw1, hw2⟩ := hw hs
    by_cases hsum : 0 < ∑ i, w i
    · obtain ⟨c, h1, _, _, h2, h3, h4, h5⟩ :=
        residual_resample env hm cfg hs p p' h w hw1 hw2 hsum
      exact ⟨⟨c, h1⟩, h4, h2, h3, h5⟩
    · have hz : ∑ i, w i = 0 := le_antisymm (not_lt.mp hsum) (Finset.sum_nonneg fun i _ => hw2 i)
      have hp : probs p.wtmp = fun _ => .fin (1 / n : ℝ) := by
        unfold probs; rw [hw1, Flt.sum_fin, hz, if_pos rfl]; rfl
      unfold resample at h
      rw [hs] at h
      obtain ⟨counts, h1, h2⟩ := bind_ok h
      obtain ⟨hc, _⟩ := residual_core env hm p (fun _ => 1 / n) hp (fun i => by positivity)
        (by
          rw [Finset.sum_const, Finset.card_univ, Fintype.card_fin, nsmul_eq_mul]
          by_cases hn : (n : ℝ) = 0
          · simp [hn]
          · field_simp) counts h1
      obtain ⟨p1, g1, g2, g3, g4, g5, g6⟩ := copyParts_ok env counts hc p
      rw [g1] at h2
      obtain rfl := Except.ok.inj h2
      exact ⟨⟨counts, g2⟩, g5, g3, g4, g6⟩

/-- **C53** `move` keeps cached values right: accepted particles take the new position
and its log-density, the others keep both. -/
theorem move_cached (env : Env n d) (cfg : PConfig) {ell : Pt d → Flt} {p p' : Parts n d} {r : ℝ}
    (hc : Cached ell p) (h : move env cfg p = .ok (p', r)) :
    Cached ell p' ∧ p'.logpdf = p.logpdf ∧ p'.w = p.w ∧ p'.wtmp = p.wtmp ∧ 0 ≤ r ∧ r ≤ 1 := by
  classical
  obtain ⟨y, h1, h2⟩ := bind_ok h
  obtain ⟨v, h3, h4⟩ := bind_ok h2
  obtain ⟨rfl, rfl⟩ := Prod.mk.inj (Except.ok.inj h4)
  refine ⟨⟨hc.1, fun i => ?_⟩, rfl, rfl, rfl, by positivity, ?_⟩
  · dsimp only
    split
    · exact hc.1 _ _ h3 i
    · exact hc.2 i
  · have : ((Finset.univ.filter fun i => accepts env p v i).card : ℝ) ≤ n := by
      have := Finset.card_filter_le Finset.univ fun i => accepts env p v i
      rw [Finset.card_univ, Fintype.card_fin] at this
      exact_mod_cast this
    exact div_le_one_of_le₀ this (Nat.cast_nonneg n)

/-- Nonnegative finite weights (before resampling). -/
def GoodW (p : Parts n d) : Prop :=
  ∃ w : Fin n → ℝ, (p.wtmp = fun i => .fin (w i)) ∧ ∀ i, 0 ≤ w i

theorem controlledMove_cached (env : Env n d) (cfg : PConfig) (sc : SConfig) {ell : Pt d → Flt}
    (k : ℕ) {p p' : Parts n d} (hc : Cached ell p)
    (h : controlledMove env cfg sc k p = .ok p') :
    Cached ell p' ∧ p'.logpdf = p.logpdf ∧ p'.w = p.w ∧ p'.wtmp = p.wtmp := by
  induction k generalizing p with
  | zero => obtain rfl := Except.ok.inj h; exact ⟨hc, rfl, rfl, rfl⟩
  | succ k ih =>
    unfold controlledMove at h
    cases hmv : move env cfg p with
    | error e => rw [hmv] at h; cases h
    | ok r =>
      obtain ⟨p1, r⟩ := r
      obtain ⟨c1, l1, w1, t1, _⟩ := move_cached env cfg hc hmv
      rw [hmv] at h
      dsimp only at h
      split at h
      · obtain ⟨a, b, c, e⟩ := ih (p := { p1 with s := p1.s / sc.factor }) c1 h
        exact ⟨a, b.trans l1, c.trans w1, e.trans t1⟩
      · split at h
        · obtain ⟨a, b, c, e⟩ := ih (p := { p1 with s := p1.s * sc.factor }) c1 h
          exact ⟨a, b.trans l1, c.trans w1, e.trans t1⟩
        · obtain rfl := Except.ok.inj h
          exact ⟨c1, l1, w1, t1⟩

theorem moves_cached (env : Env n d) (cfg : PConfig) {ell : Pt d → Flt}
    (k : ℕ) {p p' : Parts n d} (hc : Cached ell p) (h : moves env cfg k p = .ok p') :
    Cached ell p' ∧ p'.logpdf = p.logpdf ∧ p'.w = p.w ∧ p'.wtmp = p.wtmp := by
  induction k generalizing p with
  | zero => obtain rfl := Except.ok.inj h; exact ⟨hc, rfl, rfl, rfl⟩
  | succ k ih =>
    obtain ⟨⟨p1, r⟩, h1, h2⟩ := bind_ok h
    obtain ⟨c1, l1, w1, t1, _⟩ := move_cached env cfg hc h1
    obtain ⟨a, b, c, e⟩ := ih c1 h2
    exact ⟨a, b.trans l1, c.trans w1, e.trans t1⟩

theorem mutate_cached (env : Env n d) (hm : MultContract env) (cfg : PConfig) (sc : SConfig)
    {ell : Pt d → Flt} {p p' : Parts n d} (hc : Cached ell p)
    (hw : cfg.scheme = .residual → GoodW p) (h : mutate env cfg sc p = .ok p') :
    Cached ell p' ∧ p'.logpdf = p.logpdf ∧ p'.w = uniformW n ∧ p'.wtmp = uniformW n := by
  obtain ⟨p1, h1, h2⟩ := bind_ok h
  obtain ⟨p2, h3, h4⟩ := bind_ok h2
  obtain ⟨⟨c, hcp⟩, l1, w1, t1, _⟩ := resample_copies env hm cfg p p1 h1 hw
  have c1 := copies_cached hc hcp l1
  obtain ⟨c2, l2, w2, t2⟩ := controlledMove_cached env cfg sc sc.maxIter c1 h3
  obtain ⟨c3, l3, w3, t3⟩ := moves_cached env cfg _ c2 h4
  exact ⟨c3, l3.trans (l2.trans l1), w3.trans (w2.trans w1), t3.trans (t2.trans t1)⟩

/-- A history of method calls on a particle set. -/
inductive Op where
  | reweight (update : Bool)
  | resample
  | move

/-- Effect of one call. -/
noncomputable def Op.run (env : Env n d) (cfg : PConfig) : Op → Parts n d → Py (Parts n d)
  | .reweight b, p => SMC.reweight b p
  | .resample, p => SMC.resample env cfg p
  | .move, p => (SMC.move env cfg p).map Prod.fst

/-- **C53** Every successful history of calls of `reweight`, `resample` and `move`, with
the multinomial scheme, keeps the cached values right once they are. -/
theorem cached_history (env : Env n d) (hm : MultContract env) (cfg : PConfig)
    (hs : cfg.scheme = .multinomial) {ell : Pt d → Flt} (ops : List Op) {p p' : Parts n d}
    (hc : Cached ell p) (h : ops.foldlM (fun p o => Op.run env cfg o p) p = .ok p') :
    Cached ell p' := by
  induction ops generalizing p with
  | nil => obtain rfl := Except.ok.inj h; exact hc
  | cons o os ih =>
    rw [List.foldlM_cons] at h
    obtain ⟨p1, h1, h2⟩ := bind_ok h
    refine ih ?_ h2
    cases o with
    | reweight b =>
      cases b with
      | true => exact (reweight_cached hc.1 h1).1
      | false =>
        obtain ⟨e1, e2, _, e3, _⟩ := reweight_false h1
        exact ⟨by rw [e3]; exact hc.1, fun i => by rw [e1, e2]; exact hc.2 i⟩
    | resample =>
      obtain ⟨⟨c, hcp⟩, l1, _⟩ := resample_copies env hm cfg p p1 h1
        (fun h => by rw [hs] at h; cases h)
      exact copies_cached hc hcp l1
    | move =>
      change Except.map Prod.fst (SMC.move env cfg p) = .ok p1 at h1
      cases hmv : SMC.move env cfg p with
      | error e => rw [hmv] at h1; cases h1
      | ok r =>
        rw [hmv] at h1
        obtain rfl := Except.ok.inj h1
        exact (move_cached env cfg (r := r.2) hc hmv).1

/-- Weights after a reweighting of finite values are finite and nonnegative. -/
theorem reweight_good {p p' : Parts n d} (h : reweight true p = .ok p')
    (hw : ∃ w : Fin n → ℝ, (p.w = fun i => .fin (w i)) ∧ ∀ i, 0 ≤ w i)
    (hl : ∀ i, (p.logpx i).IsFin)
    (hn : ∀ v, p.logpdf p.x = .ok v → ∀ i, (v i).IsFin ∨ v i = .num ⊥) : GoodW p' := by
  obtain ⟨v, h1, h2⟩ := bind_ok h
  obtain rfl := Except.ok.inj h2
  obtain ⟨w, hw1, hw2⟩ := hw
  have : ∀ i, ∃ r : ℝ, 0 ≤ r ∧ (p.w i).mul ((v i).sub (p.logpx i)).exp = .fin r := by
    intro i
    obtain ⟨a, ha⟩ := hl i
    rw [hw1, ha]
    rcases hn v h1 i with ⟨b, hb⟩ | hb
    · rw [hb, Flt.sub_fin, Flt.exp_fin, Flt.mul_fin]
      exact ⟨_, mul_nonneg (hw2 i) (Real.exp_pos _).le, rfl⟩
    · have : (v i).sub (.fin a) = .num ⊥ := by
        rw [hb]; simp [Flt.sub, Flt.add, Flt.neg, Flt.fin]
      rw [this, Flt.exp_bot, Flt.mul_fin]
      exact ⟨_, by simp, rfl⟩
  choose r hr1 hr2 using this
  exact ⟨r, funext hr2, hr1⟩

/-- **C53** After `SMC.step` the cached values are the new log-density at the final
positions, and the weights are uniform. -/
theorem step_cached (env : Env n d) (hm : MultContract env) (cfg : PConfig) (sc : SConfig)
    (hs : cfg.scheme = .multinomial) (l : LogPdfP n d) (ell : ℝ → Pt d → Flt)
    (hl : ∀ t, Rowwise (fun x => l x t) (ell t)) (t : ℝ) (p p' : Parts n d)
    (h : step env cfg sc l t p = .ok p') :
    Cached (ell t) p' ∧ p'.w = uniformW n ∧ p'.wtmp = uniformW n := by
  obtain ⟨p1, h1, h2⟩ := bind_ok h
  obtain ⟨c1, _⟩ := reweight_cached (p := setLogpdfParam l t p) (hl t) h1
  obtain ⟨c2, _, w2, t2⟩ := mutate_cached env hm cfg sc c1 (fun h => by rw [hs] at h; cases h) h2
  exact ⟨c2, w2, t2⟩

/-- **C53** The same with the residual scheme, for finite cached values and weights and
log-densities that are never NaN or `+inf`. -/
theorem step_cached_residual (env : Env n d) (hm : MultContract env) (cfg : PConfig) (sc : SConfig)
    (l : LogPdfP n d) (ell : ℝ → Pt d → Flt)
    (hl : ∀ t, Rowwise (fun x => l x t) (ell t)) (t : ℝ) (p p' : Parts n d)
    (hw : ∃ w : Fin n → ℝ, (p.w = fun i => .fin (w i)) ∧ ∀ i, 0 ≤ w i)
    (hlp : ∀ i, (p.logpx i).IsFin) (hn : ∀ y, (ell t y).IsFin ∨ ell t y = .num ⊥)
    (h : step env cfg sc l t p = .ok p') :
    Cached (ell t) p' ∧ p'.w = uniformW n ∧ p'.wtmp = uniformW n := by
  obtain ⟨p1, h1, h2⟩ := bind_ok h
  obtain ⟨c1, _⟩ := reweight_cached (p := setLogpdfParam l t p) (hl t) h1
  have g : GoodW p1 := reweight_good (p := setLogpdfParam l t p) h1 hw hlp (fun v hv i => by
    rw [hl t _ v hv i]; exact hn _)
  obtain ⟨c2, _, w2, t2⟩ := mutate_cached env hm cfg sc c1 (fun _ => g) h2
  exact ⟨c2, w2, t2⟩

/-- **C53** False in general: after `set_logpdf` and `move` without `reweight` the cached
values mix two log-densities. -/
theorem cached_after_set_false : ∃ (env : Env 2 1) (p p' : Parts 2 1) (r : ℝ) (ell : Pt 1 → Flt),
    MultContract env ∧ Rowwise p.logpdf ell ∧
      move env {} p = .ok (p', r) ∧ p'.logpx 0 = ell (p'.x 0) ∧ p'.logpx 1 ≠ ell (p'.x 1) := by
  classical
  let env : Env 2 1 :=
    { init := fun _ _ _ => 0
      mult := fun _ N _ => .ok fun i => if i = 0 then N else 0
      rvs := fun _ _ => .ok fun _ => 0
      unif := fun _ i => if i = 0 then 1 / 2 else 1
      cov := fun _ _ => .ok 1
      junkX := fun _ _ _ => 0
      junkL := fun _ _ => .nan }
  let p : Parts 2 1 :=
    { x := fun _ _ => 0
      logpx := fun i => if i = 0 then .fin 0 else .fin 1
      w := uniformW 2
      wtmp := uniformW 2
      s := 1 / 2
      logpdf := fun _ => .ok fun _ => .fin 0
      clock := 0 }
  have hp : perturb env {} p = .ok p.x := by
    have h1 : ¬ ((({} : PConfig).sUpper < p.s) ∨ p.s < ({} : PConfig).sLower) := by
      simp only [p]; norm_num
    unfold perturb
    simp only [if_neg h1, baseCov, drawEps, env, bind, Except.bind, pure, Except.pure]
    congr 1
    funext i
    simp [p]
  have a0 : accepts env p (fun _ => .fin 0) 0 := by
    have : Real.log (1 / 2) < 0 := Real.log_neg (by norm_num) (by norm_num)
    simp only [accepts, env, p, if_true, Flt.sub_fin, sub_zero]
    rw [Flt.logU_pos (by norm_num), Flt.fin_lt]
    exact this
  have a1 : ¬ accepts env p (fun _ => .fin 0) 1 := by
    simp only [accepts, env, p]
    rw [if_neg (by decide), if_neg (by decide), Flt.logU_pos one_ne_zero, Flt.sub_fin, Flt.fin_lt,
      Real.log_one]
    norm_num
  let p' : Parts 2 1 :=
    { p with
      x := fun i => if accepts env p (fun _ => .fin 0) i then p.x i else p.x i
      logpx := fun i => if accepts env p (fun _ => .fin 0) i then .fin 0 else p.logpx i
      clock := p.clock + 1 }
  have hmv : ∃ r, move env {} p = .ok (p', r) := by
    unfold move
    rw [hp]
    exact ⟨_, by simp only [p']; rfl⟩
  obtain ⟨r, hmv⟩ := hmv
  refine ⟨env, p, p', r, fun _ => .fin 0, ?_, ?_, hmv, ?_, ?_⟩
  rotate_left 2
  · simp only [p', if_pos a0]
  · simp only [p', if_neg a1]
    simp only [p]
    rw [if_neg (by decide), ne_eq, Flt.fin_inj]
    exact one_ne_zero
  · intro k N q c h
    obtain rfl := Except.ok.inj h
    simp
  · intro x v h i
    obtain rfl := Except.ok.inj h
    rfl

end Verif.SMC
