import Verif.Mcmc.PropsNutsTree
import Mathlib.MeasureTheory.Integral.IntervalIntegral.Basic
import Mathlib.Analysis.SpecialFunctions.Trigonometric.Deriv

/-!
# C109: the NUTS transition on a leapfrog orbit: uniform choice and detailed balance
-/

set_option autoImplicit false

namespace Verif.Nuts

open Verif
open Verif.SMC (Pt)

variable {d : ℕ}

/-! ## Expectations over independent uniform draws -/

/-- Expectation over the draws of a tree. -/
noncomputable def Draws.E : (k : ℕ) → (Draws k → ℝ) → ℝ
  | 0, f => f ()
  | k + 1, f => Draws.E k fun w1 => Draws.E k fun w2 => ∫ u in (0 : ℝ)..1, f (u, w1, w2)

/-- Expectation over the draws of the doublings. -/
noncomputable def TDraws.E : (n j : ℕ) → (TDraws n j → ℝ) → ℝ
  | 0, _, f => f ()
  | n + 1, j, f => ∫ v in (0 : ℝ)..1, Draws.E j fun tr => ∫ u in (0 : ℝ)..1,
      TDraws.E n (j + 1) fun w => f ((v, tr, u), w)

theorem unit_const (x : ℝ) : ∫ _ in (0 : ℝ)..1, x = x := by simp

theorem Draws.E_const (k : ℕ) (x : ℝ) : Draws.E k (fun _ => x) = x := by
  induction k with
  | zero => rfl
  | succ k ih => simp only [Draws.E, unit_const, ih]

theorem TDraws.E_const (n j : ℕ) (x : ℝ) : TDraws.E n j (fun _ => x) = x := by
  induction n generalizing j with
  | zero => rfl
  | succ n ih => simp only [TDraws.E, unit_const, ih, Draws.E_const]

open Classical in
/-- A uniform draw is below `t` with probability `t`. -/
theorem unit_ite (t x y : ℝ) (h0 : 0 ≤ t) (h1 : t ≤ 1) :
    ∫ u in (0 : ℝ)..1, (if u < t then x else y) = t * x + (1 - t) * y := by
  have e1 : Set.EqOn (fun u => if u < t then x else y) (fun _ => x) (Set.Ioo 0 t) :=
    fun u hu => if_pos hu.2
  have e2 : Set.EqOn (fun u => if u < t then x else y) (fun _ => y) (Set.Ioo t 1) :=
    fun u hu => if_neg (not_lt.mpr hu.1.le)
  have i1 : IntervalIntegrable (fun u => if u < t then x else y) MeasureTheory.volume 0 t := by
    refine (intervalIntegrable_const (c := x)).congr_uIoo ?_
    rw [Set.uIoo_of_le h0]; exact e1.symm
  have i2 : IntervalIntegrable (fun u => if u < t then x else y) MeasureTheory.volume t 1 := by
    refine (intervalIntegrable_const (c := y)).congr_uIoo ?_
    rw [Set.uIoo_of_le h1]; exact e2.symm
  rw [← intervalIntegral.integral_add_adjacent_intervals i1 i2,
    intervalIntegral.integral_congr_Ioo_of_le h0 e1, intervalIntegral.integral_congr_Ioo_of_le h1 e2]
  simp

/-- The expected choice. -/
theorem choose_mean (φ : Pt d → ℝ) (n1 n2 : ℕ) (q1 q2 : Pt d) (α β : ℝ) :
    ∫ u in (0 : ℝ)..1, (α * (((n1 + n2 : ℕ) : ℝ) * φ (choose u n1 n2 q1 q2)) + β)
      = α * (n1 * φ q1 + n2 * φ q2) + β := by
  classical
  by_cases h : 0 < n1 + n2
  · have hp : (0 : ℝ) < ((n1 + n2 : ℕ) : ℝ) := by exact_mod_cast h
    have e : ∀ u : ℝ, α * (((n1 + n2 : ℕ) : ℝ) * φ (choose u n1 n2 q1 q2)) + β
        = if u < (n2 : ℝ) / ((n1 + n2 : ℕ) : ℝ) then α * (((n1 + n2 : ℕ) : ℝ) * φ q2) + β
          else α * (((n1 + n2 : ℕ) : ℝ) * φ q1) + β := by
      intro u
      unfold choose
      rw [if_pos h]
      split <;> rfl
    simp only [e]
    rw [unit_ite _ _ _ (by positivity) (by
      rw [div_le_one hp]; push_cast; linarith [Nat.cast_nonneg (α := ℝ) n1])]
    push_cast at hp ⊢
    field_simp
    ring
  · have h1 : n1 = 0 := by omega
    have h2 : n2 = 0 := by omega
    subst h1 h2
    simp

/-! ## The proposal of a complete tree is uniform over its slice points -/

/-- Sum of a function over the slice points of a segment. -/
noncomputable def segSum (c : Ctx d) (O : ℤ → Z d) (φ : Pt d → ℝ) (k : ℕ) (a : ℤ) : ℝ :=
  ∑ i ∈ seg c O k a, φ (O i).q

theorem seg_succ (c : Ctx d) (O : ℤ → Z d) (k : ℕ) (a : ℤ) :
    seg c O (k + 1) a = seg c O k a ∪ seg c O k (a + 2 ^ k) ∧
      Disjoint (seg c O k a) (seg c O k (a + 2 ^ k)) := by
  classical
  have hp : (0 : ℤ) < 2 ^ k := by positivity
  have ep : (2 : ℤ) ^ (k + 1) = 2 ^ k + 2 ^ k := by ring
  constructor
  · unfold seg
    rw [← Finset.filter_union]
    congr 1
    ext i
    simp only [Finset.mem_union, Finset.mem_Ico]
    omega
  · unfold seg
    refine Finset.disjoint_filter_filter ?_
    rw [Finset.disjoint_left]
    intro i h1 h2
    rw [Finset.mem_Ico] at h1 h2
    omega

theorem seg_card_succ (c : Ctx d) (O : ℤ → Z d) (k : ℕ) (a : ℤ) :
    (seg c O (k + 1) a).card = (seg c O k a).card + (seg c O k (a + 2 ^ k)).card := by
  obtain ⟨h1, h2⟩ := seg_succ c O k a
  rw [h1, Finset.card_union_of_disjoint h2]

theorem segSum_succ (c : Ctx d) (O : ℤ → Z d) (φ : Pt d → ℝ) (k : ℕ) (a : ℤ) :
    segSum c O φ (k + 1) a = segSum c O φ k a + segSum c O φ k (a + 2 ^ k) := by
  obtain ⟨h1, h2⟩ := seg_succ c O k a
  unfold segSum
  rw [h1, Finset.sum_union h2]

theorem seg_zero (c : Ctx d) (O : ℤ → Z d) (a : ℤ) :
    (Slice c (O a) → seg c O 0 a = {a}) ∧ (¬Slice c (O a) → seg c O 0 a = ∅) := by
  classical
  have e : Finset.Ico a (a + 2 ^ 0) = {a} := by
    ext i; simp only [Finset.mem_Ico, Finset.mem_singleton]; omega
  unfold seg
  rw [e]
  constructor
  · intro h; rw [Finset.filter_singleton, if_pos h]
  · intro h; rw [Finset.filter_singleton, if_neg h]

/-- The two halves of the segment built from `x`, in the order they are built. -/
theorem lowEnd_halves (v : Bool) (k : ℕ) (x : ℤ) :
    (v = true ∧ lowEnd v (k + 1) x = lowEnd v k x ∧
      lowEnd v k (lowEnd v k x + 2 ^ k - 1) = lowEnd v k x + 2 ^ k) ∨
    (v = false ∧ lowEnd v (k + 1) x + 2 ^ k = lowEnd v k x ∧
      lowEnd v k (lowEnd v k x) = lowEnd v (k + 1) x) := by
  have ep : (2 : ℤ) ^ (k + 1) = 2 ^ k + 2 ^ k := by ring
  cases v
  · refine Or.inr ⟨rfl, ?_, ?_⟩
    · change x - 2 ^ (k + 1) + 2 ^ k = x - 2 ^ k; rw [ep]; ring
    · change x - 2 ^ k - 2 ^ k = x - 2 ^ (k + 1); rw [ep]; ring
  · refine Or.inl ⟨rfl, rfl, ?_⟩
    change x + 1 + 2 ^ k - 1 + 1 = x + 1 + 2 ^ k; ring

theorem good_succ (c : Ctx d) (O : ℤ → Z d) (v : Bool) (k : ℕ) (x : ℤ)
    (h : Good c O (k + 1) (lowEnd v (k + 1) x)) :
    Good c O k (lowEnd v k x) ∧
      Good c O k (lowEnd v k (if v then lowEnd v k x + 2 ^ k - 1 else lowEnd v k x)) := by
  rcases lowEnd_halves v k x with ⟨rfl, e1, e2⟩ | ⟨rfl, e1, e2⟩
  · rw [e1] at h
    rw [if_pos rfl, e2]; exact ⟨h.1, h.2.1⟩
  · rw [if_neg (by decide), e2, ← e1]; exact ⟨h.2.1, h.1⟩

/-- The tree over a good segment as a combination of the trees over its halves. -/
theorem tree_succ {c : Ctx d} {O : ℤ → Z d} (hO : IsOrbit c O) (v : Bool) (k : ℕ) (w : Draws (k + 1))
    (x : ℤ) (h : Good c O (k + 1) (lowEnd v (k + 1) x)) :
    buildTree c v (k + 1) w (O x) = join c v w.1 (buildTree c v k w.2.1 (O x))
      (buildTree c v k w.2.2 (O (if v then lowEnd v k x + 2 ^ k - 1 else lowEnd v k x))) := by
  obtain ⟨p1, p2, p3, p4⟩ := (tree_orbit hO v k w.2.1 x).1 (good_succ c O v k x h).1
  rw [buildTree]
  rw [p1, p2, if_pos (by rfl)]
  cases v
  · rw [if_neg (by decide), if_neg (by decide), p3]
  · rw [if_pos rfl, if_pos rfl, p4]

/-- **C109** The number of valid points of a complete tree is the number of slice points
of its segment. -/
theorem tree_count {c : Ctx d} {O : ℤ → Z d} (hO : IsOrbit c O) (v : Bool) (k : ℕ) (w : Draws k)
    (x : ℤ) (h : Good c O k (lowEnd v k x)) :
    (buildTree c v k w (O x)).nValid = (seg c O k (lowEnd v k x)).card := by
  induction k generalizing x with
  | zero =>
    have e : lowEnd v 0 x = x + sgn v := by cases v <;> rfl
    have hl := (leaf_spec c v (O x) _ (hO.step v x)).2.2
    rw [e]
    rcases hl with ⟨h1, h2, _⟩ | ⟨h1, h2⟩
    · rw [(seg_zero c O _).1 h2, Finset.card_singleton]; exact h1
    · rw [(seg_zero c O _).2 h2, Finset.card_empty]; exact h1
  | succ k ih =>
    rw [tree_succ hO v k w x h]
    obtain ⟨g1, g2⟩ := good_succ c O v k x h
    change (buildTree c v k w.2.1 (O x)).nValid + (buildTree c v k w.2.2 (O _)).nValid = _
    rw [ih w.2.1 x g1, ih w.2.2 _ g2, seg_card_succ]
    rcases lowEnd_halves v k x with ⟨rfl, e1, e2⟩ | ⟨rfl, e1, e2⟩
    · rw [if_pos rfl, e2, e1]
    · rw [if_neg (by decide), e2, e1, add_comm]

/-- **C109** The proposal of a complete tree is uniform over the slice points: `nValid`
times the expected value of any function of it is the sum of the function over them. -/
theorem tree_uniform {c : Ctx d} {O : ℤ → Z d} (hO : IsOrbit c O) (v : Bool) (k : ℕ) (x : ℤ)
    (h : Good c O k (lowEnd v k x)) (φ : Pt d → ℝ) (α β : ℝ) :
    Draws.E k (fun w => α * ((seg c O k (lowEnd v k x)).card * φ (buildTree c v k w (O x)).prop) + β)
      = α * segSum c O φ k (lowEnd v k x) + β := by
  induction k generalizing x α β with
  | zero =>
    have e : lowEnd v 0 x = x + sgn v := by cases v <;> rfl
    have hl := (leaf_spec c v (O x) _ (hO.step v x)).2.2
    rw [e]
    change α * (((seg c O 0 (x + sgn v)).card : ℝ) * φ (leaf c v (O x)).prop) + β = _
    unfold segSum
    rcases hl with ⟨_, h2, h3⟩ | ⟨_, h2⟩
    · rw [(seg_zero c O _).1 h2, h3]; simp
    · rw [(seg_zero c O _).2 h2]; simp
  | succ k ih =>
    obtain ⟨g1, g2⟩ := good_succ c O v k x h
    set x2 := (if v = true then lowEnd v k x + 2 ^ k - 1 else lowEnd v k x) with hx2
    have hcard : (seg c O (k + 1) (lowEnd v (k + 1) x)).card
        = (seg c O k (lowEnd v k x)).card + (seg c O k (lowEnd v k x2)).card := by
      rw [seg_card_succ]
      rcases lowEnd_halves v k x with ⟨rfl, e1, e2⟩ | ⟨rfl, e1, e2⟩
      · rw [hx2, if_pos rfl, e2, e1]
      · rw [hx2, if_neg (by decide), e2, e1, add_comm]
    have hsum : segSum c O φ (k + 1) (lowEnd v (k + 1) x)
        = segSum c O φ k (lowEnd v k x) + segSum c O φ k (lowEnd v k x2) := by
      rw [segSum_succ]
      rcases lowEnd_halves v k x with ⟨rfl, e1, e2⟩ | ⟨rfl, e1, e2⟩
      · rw [hx2, if_pos rfl, e2, e1]
      · rw [hx2, if_neg (by decide), e2, e1, add_comm]
    have hin : ∀ (u : ℝ) (w1 w2 : Draws k),
        (buildTree c v (k + 1) (u, w1, w2) (O x)).prop
          = choose u (seg c O k (lowEnd v k x)).card (seg c O k (lowEnd v k x2)).card
            (buildTree c v k w1 (O x)).prop (buildTree c v k w2 (O x2)).prop := by
      intro u w1 w2
      rw [tree_succ hO v k (u, w1, w2) x h]
      change choose u (buildTree c v k w1 (O x)).nValid (buildTree c v k w2 (O x2)).nValid _ _ = _
      rw [tree_count hO v k w1 x g1, tree_count hO v k w2 x2 g2]
    simp only [Draws.E]
    simp only [hin, hcard, choose_mean]
    have e1 : ∀ w1 : Draws k, Draws.E k (fun w2 => α * (((seg c O k (lowEnd v k x)).card : ℝ)
          * φ (buildTree c v k w1 (O x)).prop
          + ((seg c O k (lowEnd v k x2)).card : ℝ) * φ (buildTree c v k w2 (O x2)).prop) + β)
        = α * (((seg c O k (lowEnd v k x)).card : ℝ) * φ (buildTree c v k w1 (O x)).prop)
          + (α * segSum c O φ k (lowEnd v k x2) + β) := by
      intro w1
      have := ih x2 g2 α (α * (((seg c O k (lowEnd v k x)).card : ℝ)
          * φ (buildTree c v k w1 (O x)).prop) + β)
      rw [show α * (((seg c O k (lowEnd v k x)).card : ℝ) * φ (buildTree c v k w1 (O x)).prop)
          + (α * segSum c O φ k (lowEnd v k x2) + β) = α * segSum c O φ k (lowEnd v k x2)
            + (α * (((seg c O k (lowEnd v k x)).card : ℝ) * φ (buildTree c v k w1 (O x)).prop) + β) by ring,
        ← this]
      congr 1
      funext w2
      ring
    simp only [e1]
    rw [ih x g1, hsum]
    ring

/-! ## The value of the remaining doublings -/

open Classical in
/-- Expected final value, given the mean `y` of the current proposal over the slice points
of the segment `(a, j)`. -/
noncomputable def V (c : Ctx d) (O : ℤ → Z d) (φ : Pt d → ℝ) : ℕ → ℕ → ℤ → ℝ → ℝ
  | 0, _, _, y => y
  | n + 1, j, a, y =>
    if Good c O j a then
      (1 / 2) * (if Good c O j (a - 2 ^ j) then
          V c O φ n (j + 1) (a - 2 ^ j) (((seg c O j a).card * y + segSum c O φ j (a - 2 ^ j))
            / ((seg c O j a).card + (seg c O j (a - 2 ^ j)).card))
        else y)
      + (1 / 2) * (if Good c O j (a + 2 ^ j) then
          V c O φ n (j + 1) a (((seg c O j a).card * y + segSum c O φ j (a + 2 ^ j))
            / ((seg c O j a).card + (seg c O j (a + 2 ^ j)).card))
        else y)
    else y

theorem V_affine (c : Ctx d) (O : ℤ → Z d) (φ : Pt d → ℝ) (n j : ℕ) (a : ℤ) :
    ∃ P Q : ℝ, ∀ y, V c O φ n j a y = P * y + Q := by
  classical
  induction n generalizing j a with
  | zero => exact ⟨1, 0, fun y => by simp [V]⟩
  | succ n ih =>
    obtain ⟨P1, Q1, h1⟩ := ih (j + 1) (a - 2 ^ j)
    obtain ⟨P2, Q2, h2⟩ := ih (j + 1) a
    by_cases hg : Good c O j a
    · have side : ∀ (b : ℤ) (P Q N M S : ℝ), ∃ P' Q' : ℝ, ∀ y,
          (if Good c O j b then P * ((N * y + S) / M) + Q else y) = P' * y + Q' := by
        intro b P Q N M S
        by_cases hb : Good c O j b
        · exact ⟨P * N / M, P * S / M + Q, fun y => by rw [if_pos hb]; ring⟩
        · exact ⟨1, 0, fun y => by rw [if_neg hb]; ring⟩
      obtain ⟨A1, B1, k1⟩ := side (a - 2 ^ j) P1 Q1 (seg c O j a).card
        ((seg c O j a).card + (seg c O j (a - 2 ^ j)).card) (segSum c O φ j (a - 2 ^ j))
      obtain ⟨A2, B2, k2⟩ := side (a + 2 ^ j) P2 Q2 (seg c O j a).card
        ((seg c O j a).card + (seg c O j (a + 2 ^ j)).card) (segSum c O φ j (a + 2 ^ j))
      refine ⟨A1 / 2 + A2 / 2, B1 / 2 + B2 / 2, fun y => ?_⟩
      simp only [V, if_pos hg, h1, h2, k1, k2]
      ring
    · exact ⟨1, 0, fun y => by simp [V, if_neg hg]⟩

/-- The state stands for the segment `(a, j)`. -/
structure SInv (c : Ctx d) (O : ℤ → Z d) (j : ℕ) (a : ℤ) (s : TState d) : Prop where
  minus : s.minus = O a
  plus : s.plus = O (a + 2 ^ j - 1)
  count : s.nValid = (seg c O j a).card
  pos : 0 < s.nValid
  cont : s.cont = true ↔ Good c O j a

theorem doubles_stop (c : Ctx d) (n j : ℕ) (w : TDraws n j) (s : TState d) (h : s.cont = false) :
    doubles c n j w s = s := by
  cases n with
  | zero => rfl
  | succ n => rw [doubles, h]; rfl

/-- One doubling into a good segment. -/
theorem double_good {c : Ctx d} {O : ℤ → Z d} (hO : IsOrbit c O) (j : ℕ) (a : ℤ) (s : TState d)
    (hs : SInv c O j a s) (hg : Good c O j a) (v : ℝ) (tr : Draws j) (u : ℝ) :
    (v < 0.5 → Good c O j (a - 2 ^ j) → SInv c O (j + 1) (a - 2 ^ j) (double c j (v, tr, u) s) ∧
      (double c j (v, tr, u) s).prop = choose u (seg c O j a).card (seg c O j (a - 2 ^ j)).card s.prop
        (buildTree c false j tr (O a)).prop) ∧
    (¬v < 0.5 → Good c O j (a + 2 ^ j) → SInv c O (j + 1) a (double c j (v, tr, u) s) ∧
      (double c j (v, tr, u) s).prop = choose u (seg c O j a).card (seg c O j (a + 2 ^ j)).card s.prop
        (buildTree c true j tr (O (a + 2 ^ j - 1))).prop) ∧
    (v < 0.5 → ¬Good c O j (a - 2 ^ j) →
      (double c j (v, tr, u) s).cont = false ∧ (double c j (v, tr, u) s).prop = s.prop) ∧
    (¬v < 0.5 → ¬Good c O j (a + 2 ^ j) →
      (double c j (v, tr, u) s).cont = false ∧ (double c j (v, tr, u) s).prop = s.prop) := by
  classical
  have ep : (2 : ℤ) ^ (j + 1) = 2 ^ j + 2 ^ j := by ring
  have eL : lowEnd false j a = a - 2 ^ j := rfl
  have eR : lowEnd true j (a + 2 ^ j - 1) = a + 2 ^ j := by
    change a + 2 ^ j - 1 + 1 = _; ring
  refine ⟨?_, ?_, ?_, ?_⟩
  · intro hv hgs
    have hb := (tree_orbit hO false j tr a).1 (by rw [eL]; exact hgs)
    have hn := tree_count hO false j tr a (by rw [eL]; exact hgs)
    rw [eL] at hb hn
    obtain ⟨p1, p2, p3, p4⟩ := hb
    unfold double
    simp only [hv, decide_true, Bool.not_true, Bool.false_eq_true, if_false, hs.minus, hs.plus, hs.count,
      p1, p2, p3, hn, Bool.not_false, Bool.and_true, if_true, Bool.true_and]
    refine ⟨⟨rfl, ?_, ?_, ?_, ?_⟩, trivial⟩
    · dsimp only; congr 1; rw [ep]; ring
    · dsimp only
      rw [seg_card_succ, sub_add_cancel, add_comm]
    · dsimp only
      have := hs.pos; rw [hs.count] at this; omega
    · dsimp only
      rw [Bool.not_eq_true']
      rw [show a + 2 ^ j - 1 = a - 2 ^ j + 2 ^ (j + 1) - 1 by rw [ep]; ring]
      constructor
      · intro h; exact ⟨hgs, by rw [sub_add_cancel]; exact hg, h⟩
      · intro h; exact h.2.2
  · intro hv hgs
    have hb := (tree_orbit hO true j tr (a + 2 ^ j - 1)).1 (by rw [eR]; exact hgs)
    have hn := tree_count hO true j tr (a + 2 ^ j - 1) (by rw [eR]; exact hgs)
    rw [eR] at hb hn
    obtain ⟨p1, p2, p3, p4⟩ := hb
    unfold double
    simp only [hv, decide_false, Bool.not_false, if_true, hs.minus, hs.plus, hs.count,
      p1, p2, p4, hn, Bool.and_true, Bool.true_and]
    refine ⟨⟨rfl, ?_, ?_, ?_, ?_⟩, trivial⟩
    · dsimp only; congr 1; rw [ep]; ring
    · dsimp only
      rw [seg_card_succ]
    · dsimp only
      have := hs.pos; rw [hs.count] at this; omega
    · dsimp only
      rw [Bool.not_eq_true']
      rw [show a + 2 ^ j + 2 ^ j - 1 = a + 2 ^ (j + 1) - 1 by rw [ep]; ring]
      constructor
      · intro h; exact ⟨hg, hgs, h⟩
      · intro h; exact h.2.2
  · intro hv hgs
    have hb := (tree_orbit hO false j tr a).2 (by rw [eL]; exact hgs)
    unfold double
    simp only [hv, decide_true, Bool.not_true, Bool.false_eq_true, if_false, hs.minus, hb, Bool.false_and,
      and_self]
  · intro hv hgs
    have hb := (tree_orbit hO true j tr (a + 2 ^ j - 1)).2 (by rw [eR]; exact hgs)
    unfold double
    simp only [hv, decide_false, Bool.not_false, if_true, hs.plus, hb, Bool.false_and,
      and_self, Bool.false_eq_true, if_false]

/-- The expected value of a function of the final proposal. -/
theorem doubles_mean {c : Ctx d} {O : ℤ → Z d} (hO : IsOrbit c O) (φ : Pt d → ℝ) (n j : ℕ) (a : ℤ)
    (s : TState d) (hs : SInv c O j a s) :
    TDraws.E n j (fun w => φ (doubles c n j w s).prop) = V c O φ n j a (φ s.prop) := by
  classical
  induction n generalizing j a s with
  | zero => rfl
  | succ n ih =>
    by_cases hg : Good c O j a
    · have hcont := hs.cont.mpr hg
      have hN : (0 : ℝ) < (seg c O j a).card := by
        have := hs.pos; rw [hs.count] at this; exact_mod_cast this
      have step : ∀ (v : ℝ) (tr : Draws j) (u : ℝ) (w : TDraws n (j + 1)),
          doubles c (n + 1) j ((v, tr, u), w) s = doubles c n (j + 1) w (double c j (v, tr, u) s) := by
        intro v tr u w
        change (if s.cont = true then _ else s) = _
        rw [if_pos hcont]
      -- value of one side
      have side : ∀ (v : Bool) (x b a' : ℤ), lowEnd v j x = b → Good c O j b →
          Draws.E j (fun tr => ∫ u in (0 : ℝ)..1, V c O φ n (j + 1) a'
            (φ (choose u (seg c O j a).card (seg c O j b).card s.prop (buildTree c v j tr (O x)).prop)))
          = V c O φ n (j + 1) a' (((seg c O j a).card * φ s.prop + segSum c O φ j b)
              / ((seg c O j a).card + (seg c O j b).card)) := by
        intro v x b a' hb hgb
        obtain ⟨P, Q, hV⟩ := V_affine c O φ n (j + 1) a'
        have hM : (0 : ℝ) < ((seg c O j a).card : ℝ) + (seg c O j b).card := by positivity
        have e1 : ∀ tr : Draws j, ∫ u in (0 : ℝ)..1, V c O φ n (j + 1) a'
            (φ (choose u (seg c O j a).card (seg c O j b).card s.prop (buildTree c v j tr (O x)).prop))
            = P / (((seg c O j a).card : ℝ) + (seg c O j b).card) * (((seg c O j b).card : ℝ)
                * φ (buildTree c v j tr (O x)).prop)
              + (P / (((seg c O j a).card : ℝ) + (seg c O j b).card) * (((seg c O j a).card : ℝ) * φ s.prop)
                + Q) := by
          intro tr
          have := choose_mean φ (seg c O j a).card (seg c O j b).card s.prop
            (buildTree c v j tr (O x)).prop (P / (((seg c O j a).card : ℝ) + (seg c O j b).card)) Q
          rw [show P / (((seg c O j a).card : ℝ) + (seg c O j b).card) * (((seg c O j b).card : ℝ)
                * φ (buildTree c v j tr (O x)).prop)
              + (P / (((seg c O j a).card : ℝ) + (seg c O j b).card) * (((seg c O j a).card : ℝ) * φ s.prop)
                + Q) = P / (((seg c O j a).card : ℝ) + (seg c O j b).card)
                  * (((seg c O j a).card : ℝ) * φ s.prop + ((seg c O j b).card : ℝ)
                    * φ (buildTree c v j tr (O x)).prop) + Q by ring, ← this]
          congr 1
          funext u
          rw [hV]
          push_cast
          field_simp
        simp only [e1]
        have := tree_uniform hO v j x (by rw [hb]; exact hgb) φ
          (P / (((seg c O j a).card : ℝ) + (seg c O j b).card))
          (P / (((seg c O j a).card : ℝ) + (seg c O j b).card) * (((seg c O j a).card : ℝ) * φ s.prop) + Q)
        rw [hb] at this
        rw [this, hV]
        field_simp
        ring
      have inner : ∀ v : ℝ, Draws.E j (fun tr => ∫ u in (0 : ℝ)..1,
          TDraws.E n (j + 1) fun w => φ (doubles c (n + 1) j ((v, tr, u), w) s).prop)
          = if v < 0.5 then
              (if Good c O j (a - 2 ^ j) then
                V c O φ n (j + 1) (a - 2 ^ j) (((seg c O j a).card * φ s.prop + segSum c O φ j (a - 2 ^ j))
                  / ((seg c O j a).card + (seg c O j (a - 2 ^ j)).card))
              else φ s.prop)
            else
              (if Good c O j (a + 2 ^ j) then
                V c O φ n (j + 1) a (((seg c O j a).card * φ s.prop + segSum c O φ j (a + 2 ^ j))
                  / ((seg c O j a).card + (seg c O j (a + 2 ^ j)).card))
              else φ s.prop) := by
        intro v
        simp only [step]
        have hd := fun tr u => double_good hO j a s hs hg v tr u
        by_cases hv : v < 0.5
        · rw [if_pos hv]
          by_cases hb : Good c O j (a - 2 ^ j)
          · rw [if_pos hb, ← side false a (a - 2 ^ j) (a - 2 ^ j) rfl hb]
            congr 1; funext tr; congr 1; funext u
            obtain ⟨h1, h2⟩ := (hd tr u).1 hv hb
            rw [ih (j + 1) (a - 2 ^ j) _ h1, h2]
          · rw [if_neg hb]
            have : ∀ tr u, (TDraws.E n (j + 1) fun w => φ (doubles c n (j + 1) w
                (double c j (v, tr, u) s)).prop) = φ s.prop := by
              intro tr u
              obtain ⟨h1, h2⟩ := (hd tr u).2.2.1 hv hb
              simp only [doubles_stop c n (j + 1) _ _ h1, h2, TDraws.E_const]
            simp only [this, unit_const, Draws.E_const]
        · rw [if_neg hv]
          have eR : lowEnd true j (a + 2 ^ j - 1) = a + 2 ^ j := by
            change a + 2 ^ j - 1 + 1 = _; ring
          by_cases hb : Good c O j (a + 2 ^ j)
          · rw [if_pos hb, ← side true (a + 2 ^ j - 1) (a + 2 ^ j) a eR hb]
            congr 1; funext tr; congr 1; funext u
            obtain ⟨h1, h2⟩ := (hd tr u).2.1 hv hb
            rw [ih (j + 1) a _ h1, h2]
          · rw [if_neg hb]
            have : ∀ tr u, (TDraws.E n (j + 1) fun w => φ (doubles c n (j + 1) w
                (double c j (v, tr, u) s)).prop) = φ s.prop := by
              intro tr u
              obtain ⟨h1, h2⟩ := (hd tr u).2.2.2 hv hb
              simp only [doubles_stop c n (j + 1) _ _ h1, h2, TDraws.E_const]
            simp only [this, unit_const, Draws.E_const]
      change ∫ v in (0 : ℝ)..1, Draws.E j (fun tr => ∫ u in (0 : ℝ)..1,
          TDraws.E n (j + 1) fun w => φ (doubles c (n + 1) j ((v, tr, u), w) s).prop) = _
      simp only [inner]
      rw [unit_ite _ _ _ (by norm_num) (by norm_num)]
      simp only [V, if_pos hg]
      norm_num
    · have hc : s.cont = false := by
        rw [← Bool.not_eq_true]; exact fun h => hg (hs.cont.mp h)
      simp only [doubles_stop c (n + 1) j _ s hc, TDraws.E_const, V, if_neg hg]

/-! ## Closed form -/

open Classical in
/-- The halves of the segment `(b, l)` are good (so that it can be reached). -/
noncomputable def reach (c : Ctx d) (O : ℤ → Z d) : ℕ → ℤ → ℝ
  | 0, _ => 1
  | l + 1, b => if Good c O l b ∧ Good c O l (b + 2 ^ l) then 1 else 0

open Classical in
/-- Probability of stopping at the segment `(b, l)` when `r` doublings are left. -/
noncomputable def stop (c : Ctx d) (O : ℤ → Z d) : ℕ → ℕ → ℤ → ℝ
  | 0, _, _ => 1
  | _ + 1, l, b =>
    if Good c O l b then
      (if Good c O l (b - 2 ^ l) then 0 else 1 / 2) + (if Good c O l (b + 2 ^ l) then 0 else 1 / 2)
    else 1

theorem reach_nonneg (c : Ctx d) (O : ℤ → Z d) (l : ℕ) (b : ℤ) : 0 ≤ reach c O l b := by
  classical
  cases l with
  | zero => exact zero_le_one
  | succ l => rw [reach]; split <;> norm_num

theorem stop_nonneg (c : Ctx d) (O : ℤ → Z d) (r l : ℕ) (b : ℤ) : 0 ≤ stop c O r l b := by
  classical
  cases r with
  | zero => exact zero_le_one
  | succ r =>
    rw [stop]
    split
    · split <;> split <;> norm_num
    · norm_num

/-- Mean over the slice points of a segment. -/
noncomputable def segMean (c : Ctx d) (O : ℤ → Z d) (φ : Pt d → ℝ) (l : ℕ) (b : ℤ) : ℝ :=
  segSum c O φ l b / (seg c O l b).card

/-- Every dyadic part of a good segment is good. -/
theorem good_part (c : Ctx d) (O : ℤ → Z d) (j l m : ℕ) (b : ℤ) (hm : m < 2 ^ l)
    (h : Good c O (j + l) b) : Good c O j (b + m * 2 ^ j) := by
  induction l generalizing m b with
  | zero =>
    obtain rfl : m = 0 := by simpa using hm
    simpa using h
  | succ l ih =>
    have h' : Good c O (j + l) b ∧ Good c O (j + l) (b + 2 ^ (j + l)) ∧ _ := h
    by_cases hml : m < 2 ^ l
    · exact ih m b hml h'.1
    · have e : 2 ^ (l + 1) = 2 ^ l + 2 ^ l := by ring
      have := ih (m - 2 ^ l) (b + 2 ^ (j + l)) (by omega) h'.2.1
      have e2 : b + 2 ^ (j + l) + ((m - 2 ^ l : ℕ) : ℤ) * 2 ^ j = b + m * 2 ^ j := by
        rw [Nat.cast_sub (by omega)]; push_cast; rw [pow_add]; ring
      rwa [e2] at this

theorem sum_range_double (f : ℕ → ℝ) (N : ℕ) :
    ∑ m ∈ Finset.range (2 * N), f m
      = ∑ m ∈ Finset.range N, f (2 * m) + ∑ m ∈ Finset.range N, f (2 * m + 1) := by
  induction N with
  | zero => simp
  | succ N ih =>
    rw [show 2 * (N + 1) = 2 * N + 1 + 1 by ring, Finset.sum_range_succ, Finset.sum_range_succ, ih,
      Finset.sum_range_succ, Finset.sum_range_succ]
    ring

/-- The term of stopping at level `j + l` in the segment that starts `m * 2 ^ j` before
`a`. -/
noncomputable def term (c : Ctx d) (O : ℤ → Z d) (φ : Pt d → ℝ) (n j : ℕ) (a : ℤ) (l m : ℕ) : ℝ :=
  (1 / 2) ^ l * (if l = 0 then 1 else reach c O (j + l) (a - m * 2 ^ j))
    * stop c O (n - l) (j + l) (a - m * 2 ^ j) * segMean c O φ (j + l) (a - m * 2 ^ j)

theorem V_closed (c : Ctx d) (O : ℤ → Z d) (φ : Pt d → ℝ) (n j : ℕ) (a : ℤ)
    (hN : 0 < (seg c O j a).card) :
    V c O φ n j a (segMean c O φ j a)
      = ∑ l ∈ Finset.range (n + 1), ∑ m ∈ Finset.range (2 ^ l), term c O φ n j a l m := by
  classical
  induction n generalizing j a with
  | zero => simp [V, term, stop]
  | succ n ih =>
    have hN' : (0 : ℝ) < (seg c O j a).card := by exact_mod_cast hN
    rw [Finset.sum_range_succ']
    have h0 : ∑ m ∈ Finset.range (2 ^ 0), term c O φ (n + 1) j a 0 m
        = stop c O (n + 1) j a * segMean c O φ j a := by
      simp [term]
    rw [h0]
    by_cases hg : Good c O j a
    · -- the terms of one side
      have side : ∀ (s : ℕ) (_ : s < 2), ∑ l ∈ Finset.range (n + 1), ∑ m ∈ Finset.range (2 ^ l),
            term c O φ (n + 1) j a (l + 1) (2 * m + s)
          = if Good c O j (a - s * 2 ^ j) ∧ Good c O j (a - s * 2 ^ j + 2 ^ j) then
              (1 / 2) * V c O φ n (j + 1) (a - s * 2 ^ j) (segMean c O φ (j + 1) (a - s * 2 ^ j))
            else 0 := by
        intro s hs
        have ee : ∀ (l m : ℕ), a - ((2 * m + s : ℕ) : ℤ) * 2 ^ j = a - s * 2 ^ j - m * 2 ^ (j + 1) := by
          intro l m; push_cast; rw [pow_succ]; ring
        have ej : ∀ l, j + (l + 1) = j + 1 + l := fun l => by omega
        split
        · next hgs =>
          rw [ih (j + 1) (a - s * 2 ^ j) ?_, Finset.mul_sum]
          · refine Finset.sum_congr rfl fun l _ => ?_
            rw [Finset.mul_sum]
            refine Finset.sum_congr rfl fun m hm => ?_
            unfold term
            rw [ee l m, ej l, Nat.add_sub_add_right, pow_succ, if_neg (Nat.succ_ne_zero l)]
            cases l with
            | zero =>
              obtain rfl : m = 0 := by simpa using hm
              have : reach c O (j + 1 + 0) (a - s * 2 ^ j - (0 : ℕ) * 2 ^ (j + 1)) = 1 := by
                rw [Nat.cast_zero, zero_mul, sub_zero]
                exact if_pos hgs
              rw [this, if_pos rfl]; ring
            | succ l => rw [if_neg (Nat.succ_ne_zero l)]; ring
          · rw [seg_card_succ]
            interval_cases s
            · simp only [Nat.cast_zero, zero_mul, sub_zero]; omega
            · simp only [Nat.cast_one, one_mul, sub_add_cancel]; omega
        · next hgs =>
          refine Finset.sum_eq_zero fun l _ => Finset.sum_eq_zero fun m hm => ?_
          have hr : reach c O (j + (l + 1)) (a - ((2 * m + s : ℕ) : ℤ) * 2 ^ j) = 0 := by
            rw [ee l m]
            change (if _ then (1 : ℝ) else 0) = 0
            rw [if_neg]
            rintro ⟨h1, h2⟩
            apply hgs
            cases l with
            | zero =>
              obtain rfl : m = 0 := by simpa using hm
              simp only [Nat.cast_zero, zero_mul, sub_zero] at h1 h2
              exact ⟨h1, h2⟩
            | succ l =>
              rw [Finset.mem_range] at hm
              have e : 2 ^ (l + 1) = 2 ^ l + 2 ^ l := by ring
              -- the part `m` of level `j + 1`
              have key : Good c O (j + 1) (a - s * 2 ^ j) := by
                by_cases hml : m < 2 ^ l
                · have := good_part c O (j + 1) l m _ hml (by
                    rw [show j + 1 + l = j + (l + 1) by omega]; exact h1)
                  rwa [sub_add_cancel] at this
                · have h2' : Good c O (j + (l + 1)) (a - s * 2 ^ j - m * 2 ^ (j + 1) + 2 ^ (j + (l + 1))) := h2
                  have := good_part c O (j + 1) l (m - 2 ^ l) _ (by omega) (by
                    rw [show j + 1 + l = j + (l + 1) by omega]; exact h2')
                  have e2 : a - s * 2 ^ j - m * 2 ^ (j + 1) + 2 ^ (j + (l + 1))
                      + ((m - 2 ^ l : ℕ) : ℤ) * 2 ^ (j + 1) = a - s * 2 ^ j := by
                    rw [Nat.cast_sub (by omega)]; push_cast
                    rw [show j + (l + 1) = l + (j + 1) by omega, pow_add]; ring
                  rwa [e2] at this
              exact ⟨key.1, key.2.1⟩
          unfold term
          rw [if_neg (Nat.succ_ne_zero l), hr]
          ring
      have split2 : ∑ l ∈ Finset.range (n + 1), ∑ m ∈ Finset.range (2 ^ (l + 1)),
            term c O φ (n + 1) j a (l + 1) m
          = ∑ l ∈ Finset.range (n + 1), ∑ m ∈ Finset.range (2 ^ l),
              term c O φ (n + 1) j a (l + 1) (2 * m + 0)
            + ∑ l ∈ Finset.range (n + 1), ∑ m ∈ Finset.range (2 ^ l),
              term c O φ (n + 1) j a (l + 1) (2 * m + 1) := by
        rw [← Finset.sum_add_distrib]
        refine Finset.sum_congr rfl fun l _ => ?_
        rw [show 2 ^ (l + 1) = 2 * 2 ^ l by ring, sum_range_double]
        simp only [add_zero]
      rw [split2, side 0 (by norm_num), side 1 (by norm_num)]
      simp only [Nat.cast_zero, zero_mul, sub_zero, Nat.cast_one, one_mul, sub_add_cancel, hg, true_and,
        and_true]
      have hmean : ∀ b : ℤ, ((seg c O j a).card : ℝ) * segMean c O φ j a + segSum c O φ j b
          = segSum c O φ j a + segSum c O φ j b := by
        intro b
        unfold segMean
        rw [mul_div_cancel₀ _ hN'.ne']
      have hL : (((seg c O j a).card : ℝ) * segMean c O φ j a + segSum c O φ j (a - 2 ^ j))
          / ((seg c O j a).card + (seg c O j (a - 2 ^ j)).card) = segMean c O φ (j + 1) (a - 2 ^ j) := by
        rw [hmean]
        unfold segMean
        rw [segSum_succ, seg_card_succ, sub_add_cancel]
        push_cast
        rw [add_comm (segSum c O φ j a), add_comm ((seg c O j a).card : ℝ)]
      have hR : (((seg c O j a).card : ℝ) * segMean c O φ j a + segSum c O φ j (a + 2 ^ j))
          / ((seg c O j a).card + (seg c O j (a + 2 ^ j)).card) = segMean c O φ (j + 1) a := by
        rw [hmean]
        unfold segMean
        rw [segSum_succ, seg_card_succ]
        push_cast
        rfl
      simp only [V, if_pos hg, hL, hR, stop]
      split <;> split <;> ring
    · have hz : ∑ l ∈ Finset.range (n + 1), ∑ m ∈ Finset.range (2 ^ (l + 1)),
          term c O φ (n + 1) j a (l + 1) m = 0 := by
        refine Finset.sum_eq_zero fun l _ => Finset.sum_eq_zero fun m hm => ?_
        rw [Finset.mem_range] at hm
        have e : 2 ^ (l + 1) = 2 ^ l + 2 ^ l := by ring
        have hr : reach c O (j + (l + 1)) (a - m * 2 ^ j) = 0 := by
          change (if _ then (1 : ℝ) else 0) = 0
          rw [if_neg]
          rintro ⟨h1, h2⟩
          apply hg
          by_cases hml : m < 2 ^ l
          · have := good_part c O j l m _ hml h1
            rwa [sub_add_cancel] at this
          · have h2' : Good c O (j + l) (a - m * 2 ^ j + 2 ^ (j + l)) := h2
            have := good_part c O j l (m - 2 ^ l) _ (by omega) h2'
            have e2 : a - m * 2 ^ j + 2 ^ (j + l) + ((m - 2 ^ l : ℕ) : ℤ) * 2 ^ j = a := by
              rw [Nat.cast_sub (by omega)]; push_cast; rw [pow_add]; ring
            rwa [e2] at this
        unfold term
        rw [if_neg (Nat.succ_ne_zero l), hr]
        ring
      rw [hz]
      simp only [V, if_neg hg, stop]
      ring

/-! ## Transition probabilities -/

open Classical in
/-- Probability of going from orbit point `i` to orbit point `k` with at most `D`
doublings: every segment `(b, l)` that contains both contributes the probability
`(1/2)^l` of being reached times the probability of stopping there, spread uniformly over
its slice points. -/
noncomputable def weight (c : Ctx d) (O : ℤ → Z d) (D : ℕ) (i k : ℤ) : ℝ :=
  ∑ l ∈ Finset.range (D + 1), ∑ b ∈ Finset.Ioc (i - 2 ^ l) i,
    if k ∈ seg c O l b then (1 / 2) ^ l * reach c O l b * stop c O (D - l) l b / (seg c O l b).card else 0

theorem sum_back (f : ℤ → ℝ) (i : ℤ) (N : ℕ) :
    ∑ m ∈ Finset.range N, f (i - m) = ∑ b ∈ Finset.Ioc (i - N) i, f b := by
  refine Finset.sum_bij (fun m _ => i - (m : ℤ)) ?_ ?_ ?_ ?_
  · intro m hm
    rw [Finset.mem_range] at hm
    rw [Finset.mem_Ioc]; omega
  · intro m _ m' _ h; omega
  · intro b hb
    rw [Finset.mem_Ioc] at hb
    exact ⟨(i - b).toNat, by rw [Finset.mem_range]; omega, by omega⟩
  · intros; rfl

/-- The closed form as a weighted sum over orbit points. -/
theorem V_weight (c : Ctx d) (O : ℤ → Z d) (φ : Pt d → ℝ) (D : ℕ) (i : ℤ) (hi : Slice c (O i)) :
    V c O φ D 0 i (φ (O i).q)
      = ∑ k ∈ Finset.Ioo (i - 2 ^ D) (i + 2 ^ D), weight c O D i k * φ (O k).q := by
  classical
  have hs := (seg_zero c O i).1 hi
  have hm : segMean c O φ 0 i = φ (O i).q := by
    unfold segMean segSum
    rw [hs]; simp
  rw [← hm, V_closed c O φ D 0 i (by rw [hs]; simp)]
  unfold weight
  simp only [Finset.sum_mul]
  rw [Finset.sum_comm]
  refine Finset.sum_congr rfl fun l hl => ?_
  rw [Finset.mem_range] at hl
  rw [Finset.sum_comm]
  have e1 : ∀ m : ℕ, term c O φ D 0 i l m = (fun b : ℤ => (1 / 2) ^ l * reach c O l b
      * stop c O (D - l) l b * segMean c O φ l b) (i - m) := by
    intro m
    unfold term
    simp only [zero_add, pow_zero, mul_one]
    cases l with
    | zero => rfl
    | succ l => rw [if_neg (Nat.succ_ne_zero l)]
  simp only [e1]
  rw [sum_back (fun b : ℤ => (1 / 2) ^ l * reach c O l b * stop c O (D - l) l b * segMean c O φ l b)]
  rw [show ((2 ^ l : ℕ) : ℤ) = 2 ^ l by push_cast; rfl]
  refine Finset.sum_congr rfl fun b hb => ?_
  rw [Finset.mem_Ioc] at hb
  have hpow : (2 : ℤ) ^ l ≤ 2 ^ D := pow_le_pow_right₀ (by norm_num) (by omega)
  simp only [ite_mul, zero_mul]
  rw [← Finset.sum_filter]
  have hf : (Finset.Ioo (i - 2 ^ D) (i + 2 ^ D)).filter (fun k => k ∈ seg c O l b) = seg c O l b := by
    ext k
    rw [Finset.mem_filter, Finset.mem_Ioo]
    refine ⟨fun h => h.2, fun h => ⟨?_, h⟩⟩
    unfold seg at h
    rw [Finset.mem_filter, Finset.mem_Ico] at h
    omega
  rw [hf, ← Finset.mul_sum]
  unfold segMean segSum
  ring

/-- **C109** Along an orbit the transition goes from `i` to `k` with the probability
`weight`. -/
theorem transition_weight {c : Ctx d} {O : ℤ → Z d} (hO : IsOrbit c O) (D : ℕ) (i : ℤ)
    (hi : Slice c (O i)) (hg : LeafGood c (O i)) (φ : Pt d → ℝ) :
    TDraws.E D 0 (fun w => φ (doubles c D 0 w (TState.start (O i))).prop)
      = ∑ k ∈ Finset.Ioo (i - 2 ^ D) (i + 2 ^ D), weight c O D i k * φ (O k).q := by
  rw [← V_weight c O φ D i hi]
  refine doubles_mean hO φ D 0 i (TState.start (O i)) ⟨rfl, ?_, ?_, Nat.one_pos, ?_⟩
  · simp [TState.start]
  · rw [(seg_zero c O i).1 hi]; rfl
  · exact ⟨fun _ => hg, fun _ => rfl⟩

/-- **C109** The weights are probabilities on slice points. -/
theorem weight_prob {c : Ctx d} {O : ℤ → Z d} (hO : IsOrbit c O) (D : ℕ) (i : ℤ)
    (hi : Slice c (O i)) (hg : LeafGood c (O i)) :
    (∀ k, 0 ≤ weight c O D i k) ∧ (∀ k, ¬Slice c (O k) → weight c O D i k = 0) ∧
      ∑ k ∈ Finset.Ioo (i - 2 ^ D) (i + 2 ^ D), weight c O D i k = 1 := by
  classical
  refine ⟨fun k => ?_, fun k hk => ?_, ?_⟩
  · refine Finset.sum_nonneg fun l _ => Finset.sum_nonneg fun b _ => ?_
    split
    · have := reach_nonneg c O l b
      have := stop_nonneg c O (D - l) l b
      positivity
    · exact le_refl _
  · refine Finset.sum_eq_zero fun l _ => Finset.sum_eq_zero fun b _ => ?_
    rw [if_neg]
    intro h
    unfold seg at h
    rw [Finset.mem_filter] at h
    exact hk h.2
  · have := transition_weight hO D i hi hg (fun _ => 1)
    rw [TDraws.E_const] at this
    simp only [mul_one] at this
    exact this.symm

/-- **C109** Detailed balance: going from one slice point to another has the same
probability as going back. -/
theorem weight_symm (c : Ctx d) (O : ℤ → Z d) (D : ℕ) (i k : ℤ) (hi : Slice c (O i))
    (hk : Slice c (O k)) : weight c O D i k = weight c O D k i := by
  classical
  have e : ∀ i k : ℤ, Slice c (O k) → weight c O D i k = ∑ l ∈ Finset.range (D + 1),
      ∑ b ∈ Finset.Ioc (i - 2 ^ l) i ∩ Finset.Ioc (k - 2 ^ l) k,
        (1 / 2) ^ l * reach c O l b * stop c O (D - l) l b / (seg c O l b).card := by
    intro i k hk
    refine Finset.sum_congr rfl fun l _ => ?_
    rw [← Finset.sum_filter]
    refine Finset.sum_congr ?_ fun _ _ => rfl
    ext b
    simp only [Finset.mem_filter, Finset.mem_inter, Finset.mem_Ioc, seg, Finset.mem_Ico]
    constructor
    · rintro ⟨h1, h2, _⟩; omega
    · rintro ⟨h1, h2⟩; exact ⟨h1, by omega, hk⟩
  rw [e i k hk, e k i hi]
  simp only [Finset.inter_comm]

/-! ## The transition of the code -/

/-- The context of a transition from orbit point `i` at slice level `logu`. -/
noncomputable def ctxAt (tg : Target d) (im : Pt d) (eps dmax : ℝ) (logu : Flt) (h0 : ℝ) : Ctx d :=
  { tg := tg, im := im, eps := eps, logu := logu, H0 := h0, dmax := dmax }

/-- Probability of going from `i` to `k` at a given slice level; `H i` is the energy of
the start, against which divergence is judged. -/
noncomputable def prob (tg : Target d) (im : Pt d) (eps dmax : ℝ) (logu : Flt) (D : ℕ) (O : ℤ → Z d)
    (H : ℤ → ℝ) (i k : ℤ) : ℝ :=
  weight (ctxAt tg im eps dmax logu (H i)) O D i k

/-- **C109** (partial) The transition satisfies detailed balance between two orbit points
under the slice, provided both judge divergence alike. Missing: without this condition it
does not hold, see `nuts_balance_false`. -/
theorem nuts_balance_partial (tg : Target d) (im : Pt d) (eps dmax : ℝ) (hd : 0 < dmax) (logu : Flt) (D : ℕ)
    (z : Z d) (hz : z.g = tg.g z.q) (H : ℤ → ℝ)
    (hH : ∀ i, energy tg im (orbit tg im eps z i) = .fin (H i)) (i k : ℤ)
    (hi : logu.le (.fin (-H i))) (hk : logu.le (.fin (-H k)))
    (agree : ∀ m, dmax < H m - H i ↔ dmax < H m - H k) :
    let O := orbit tg im eps z
    (∀ φ : Pt d → ℝ, TDraws.E D 0 (fun w => φ (doubles (ctxAt tg im eps dmax logu (H i)) D 0 w
        (TState.start (O i))).prop)
      = ∑ m ∈ Finset.Ioo (i - 2 ^ D) (i + 2 ^ D), prob tg im eps dmax logu D O H i m * φ (O m).q) ∧
    (∀ m, 0 ≤ prob tg im eps dmax logu D O H i m) ∧
    ∑ m ∈ Finset.Ioo (i - 2 ^ D) (i + 2 ^ D), prob tg im eps dmax logu D O H i m = 1 ∧
    prob tg im eps dmax logu D O H i k = prob tg im eps dmax logu D O H k i := by
  classical
  intro O
  have hO : ∀ h0, IsOrbit (ctxAt tg im eps dmax logu h0) O := fun h0 =>
    orbit_isOrbit (ctxAt tg im eps dmax logu h0) z hz
  have hS : ∀ h0, Slice (ctxAt tg im eps dmax logu h0) (O i) := fun h0 => ⟨H i, hH i, hi⟩
  have hS' : ∀ h0, Slice (ctxAt tg im eps dmax logu h0) (O k) := fun h0 => ⟨H k, hH k, hk⟩
  have hlt : logu.lt (.fin (dmax - H i)) := by
    cases logu with
    | nan => exact absurd hi (by simp [Flt.fin, Flt.le])
    | num a =>
      have h1 : a ≤ ((-H i : ℝ) : EReal) := hi
      have h2 : ((-H i : ℝ) : EReal) < ((dmax - H i : ℝ) : EReal) :=
        EReal.coe_lt_coe_iff.mpr (by linarith)
      exact lt_of_le_of_lt h1 h2
  have hgood : LeafGood (ctxAt tg im eps dmax logu (H i)) (O i) :=
    ⟨H i, hH i, hlt, by change H i - H i ≤ dmax; linarith⟩
  obtain ⟨p1, _, p3⟩ := weight_prob (hO (H i)) D i (hS _) hgood
  refine ⟨fun φ => transition_weight (hO (H i)) D i (hS _) hgood φ, p1, p3, ?_⟩
  have hgoodEq : ∀ m, LeafGood (ctxAt tg im eps dmax logu (H i)) (O m)
      ↔ LeafGood (ctxAt tg im eps dmax logu (H k)) (O m) := by
    intro m
    constructor
    · rintro ⟨h, h1, h2, h3⟩
      obtain rfl := Flt.fin_inj.mp ((hH m).symm.trans h1)
      exact ⟨H m, h1, h2, not_lt.mp fun h4 => not_lt.mpr h3 ((agree m).mpr h4)⟩
    · rintro ⟨h, h1, h2, h3⟩
      obtain rfl := Flt.fin_inj.mp ((hH m).symm.trans h1)
      exact ⟨H m, h1, h2, not_lt.mp fun h4 => not_lt.mpr h3 ((agree m).mp h4)⟩
  have hG : ∀ l b, Good (ctxAt tg im eps dmax logu (H i)) O l b
      = Good (ctxAt tg im eps dmax logu (H k)) O l b := by
    intro l
    induction l with
    | zero => intro b; exact propext (hgoodEq b)
    | succ l ih => intro b; simp only [Good, ih]; rfl
  have hseg : ∀ l b, seg (ctxAt tg im eps dmax logu (H i)) O l b
      = seg (ctxAt tg im eps dmax logu (H k)) O l b := fun l b => rfl
  have hreach : ∀ l b, reach (ctxAt tg im eps dmax logu (H i)) O l b
      = reach (ctxAt tg im eps dmax logu (H k)) O l b := by
    intro l b
    cases l with
    | zero => rfl
    | succ l => exact if_congr (and_congr (iff_of_eq (hG _ _)) (iff_of_eq (hG _ _))) rfl rfl
  have hstop : ∀ r l b, stop (ctxAt tg im eps dmax logu (H i)) O r l b
      = stop (ctxAt tg im eps dmax logu (H k)) O r l b := by
    intro r l b
    cases r with
    | zero => rfl
    | succ r =>
      refine if_congr (iff_of_eq (hG _ _)) ?_ rfl
      exact congrArg₂ (· + ·) (if_congr (iff_of_eq (hG _ _)) rfl rfl) (if_congr (iff_of_eq (hG _ _)) rfl rfl)
  have hw : weight (ctxAt tg im eps dmax logu (H i)) O D i k
      = weight (ctxAt tg im eps dmax logu (H k)) O D i k := by
    unfold weight
    simp only [hreach, hstop, hseg]
  change weight (ctxAt tg im eps dmax logu (H i)) O D i k = weight (ctxAt tg im eps dmax logu (H k)) O D k i
  rw [hw]
  exact weight_symm _ O D i k (hS (H k)) (hS' (H k))

/-- A smooth potential with critical points at the integers. -/
noncomputable def bumps : Target 1 :=
  { U := fun q => .fin (1001 * Real.sin (Real.pi * q 0 / 2) ^ 2)
    g := fun q _ => 1001 * (Real.pi / 2) * Real.sin (Real.pi * q 0) }

/-- Its gradient is right. -/
theorem bumps_deriv (x : ℝ) :
    HasDerivAt (fun x => 1001 * Real.sin (Real.pi * x / 2) ^ 2) (bumps.g (fun _ => x) 0) x := by
  have h1 : HasDerivAt (fun x : ℝ => Real.pi * x / 2) (Real.pi / 2) x := by
    have := ((hasDerivAt_id x).const_mul Real.pi).div_const 2
    simpa using this
  have h2 := ((h1.sin).pow 2).const_mul 1001
  refine h2.congr_deriv ?_
  have h3 : Real.sin (Real.pi * x) = 2 * Real.sin (Real.pi * x / 2) * Real.cos (Real.pi * x / 2) := by
    rw [← Real.sin_two_mul]; congr 1; ring
  change _ = 1001 * (Real.pi / 2) * Real.sin (Real.pi * x)
  rw [h3]
  push_cast
  ring

theorem bumps_orbit (k : ℤ) :
    orbit bumps (fun _ => 1) 1 ⟨fun _ => 0, fun _ => 1, fun _ => 0⟩ k
      = ⟨fun _ => k, fun _ => 1, fun _ => 0⟩ := by
  have hg : ∀ k : ℤ, bumps.g (fun _ => (k : ℝ)) = fun _ => 0 := by
    intro k
    funext _
    change 1001 * (Real.pi / 2) * Real.sin (Real.pi * k) = 0
    rw [mul_comm Real.pi, Real.sin_int_mul_pi, mul_zero]
  have step : ∀ (k : ℤ) (e : ℤ), leapfrog bumps ⟨fun _ => (k : ℝ), fun _ => 1, fun _ => 0⟩ (e : ℝ) (fun _ => 1)
      = ⟨fun _ => ((k + e : ℤ) : ℝ), fun _ => 1, fun _ => 0⟩ := by
    intro k e
    have hq : (fun _ : Fin 1 => (k : ℝ) + (e : ℝ) * ((1 - 0.5 * (e : ℝ) * 0) * 1))
        = fun _ => ((k + e : ℤ) : ℝ) := by
      funext _; push_cast; ring
    unfold leapfrog
    dsimp only
    rw [hq, hg]
    ext i <;> simp
  have pos : ∀ n : ℕ, (fun z => leapfrog bumps z 1 fun _ => 1)^[n]
      (⟨fun _ => 0, fun _ => 1, fun _ => 0⟩ : Z 1) = ⟨fun _ => ((n : ℤ) : ℝ), fun _ => 1, fun _ => 0⟩ := by
    intro n
    induction n with
    | zero => simp
    | succ n ih =>
      rw [Function.iterate_succ_apply', ih]
      have := step n 1
      rw [Int.cast_one] at this
      rw [this]; push_cast; rfl
  have neg : ∀ n : ℕ, (fun z => leapfrog bumps z (-1) fun _ => 1)^[n]
      (⟨fun _ => 0, fun _ => 1, fun _ => 0⟩ : Z 1) = ⟨fun _ => ((-n : ℤ) : ℝ), fun _ => 1, fun _ => 0⟩ := by
    intro n
    induction n with
    | zero => simp
    | succ n ih =>
      rw [Function.iterate_succ_apply', ih]
      have := step (-n) (-1)
      rw [show ((-1 : ℤ) : ℝ) = -1 by norm_num] at this
      rw [this]
      have e : (-(n : ℤ) + -1) = -((n + 1 : ℕ) : ℤ) := by push_cast; ring
      rw [e]
  match k with
  | .ofNat n => exact pos n
  | .negSucc n =>
    have := neg (n + 1)
    rw [show -((n + 1 : ℕ) : ℤ) = Int.negSucc n from rfl] at this
    exact this

/-- **C109** False as stated: with the default `delta_max` of 1000, a smooth potential,
one doubling and a slice level that both points satisfy, the point 1 is never reached from
the point 0, but 0 is reached from 1. The start's energy enters the divergence test, so the
two directions build different trees. -/
theorem nuts_balance_false :
    let O := orbit bumps (fun _ => 1) 1 ⟨fun _ => 0, fun _ => 1, fun _ => 0⟩
    ∃ (H : ℤ → ℝ) (logu : Flt), (∀ k, energy bumps (fun _ => 1) (O k) = .fin (H k)) ∧
      Slice (ctxAt bumps (fun _ => 1) 1 1000 logu (H 0)) (O 0) ∧
      Slice (ctxAt bumps (fun _ => 1) 1 1000 logu (H 1)) (O 1) ∧
      prob bumps (fun _ => 1) 1 1000 logu 1 O H 0 1 = 0 ∧
      0 < prob bumps (fun _ => 1) 1 1000 logu 1 O H 1 0 ∧
      (∀ φ : Pt 1 → ℝ, TDraws.E 1 0 (fun w => φ (doubles (ctxAt bumps (fun _ => 1) 1 1000 logu (H 0)) 1 0 w
          (TState.start (O 0))).prop)
        = ∑ k ∈ Finset.Ioo (-2) 2, prob bumps (fun _ => 1) 1 1000 logu 1 O H 0 k * φ fun _ => k) ∧
      (∀ φ : Pt 1 → ℝ, TDraws.E 1 0 (fun w => φ (doubles (ctxAt bumps (fun _ => 1) 1 1000 logu (H 1)) 1 0 w
          (TState.start (O 1))).prop)
        = ∑ k ∈ Finset.Ioo (-1) 3, prob bumps (fun _ => 1) 1 1000 logu 1 O H 1 k * φ fun _ => k) := by
  classical
  intro O
  let H : ℤ → ℝ := fun k => 1001 * Real.sin (Real.pi * k / 2) ^ 2 + 0.5
  have hO : ∀ k, O k = ⟨fun _ => k, fun _ => 1, fun _ => 0⟩ := bumps_orbit
  have hH : ∀ k, energy bumps (fun _ => 1) (O k) = .fin (H k) := by
    intro k
    rw [hO k]
    unfold energy kinetic bumps
    dsimp only
    rw [Flt.add_fin]
    simp [H]
  have H0 : H 0 = 0.5 := by simp [H]
  have H1 : H 1 = 1001.5 := by
    simp only [H, Int.cast_one, mul_one, Real.sin_pi_div_two]; norm_num
  have s0 : ∀ h, Slice (ctxAt bumps (fun _ => 1) 1 1000 (.fin (-1002)) h) (O 0) := fun h =>
    ⟨H 0, hH 0, by change (Flt.fin (-1002)).le _; rw [Flt.fin_le, H0]; norm_num⟩
  have s1 : ∀ h, Slice (ctxAt bumps (fun _ => 1) 1 1000 (.fin (-1002)) h) (O 1) := fun h =>
    ⟨H 1, hH 1, by change (Flt.fin (-1002)).le _; rw [Flt.fin_le, H1]; norm_num⟩
  have orb : ∀ h, IsOrbit (ctxAt bumps (fun _ => 1) 1 1000 (.fin (-1002)) h) O := fun h =>
    orbit_isOrbit (ctxAt bumps (fun _ => 1) 1 1000 (.fin (-1002)) h) _ (by
      change (fun _ => (0 : ℝ)) = bumps.g fun _ => 0
      funext _
      simp [bumps])
  have g00 : LeafGood (ctxAt bumps (fun _ => 1) 1 1000 (.fin (-1002)) (H 0)) (O 0) :=
    ⟨H 0, hH 0, by change (Flt.fin (-1002)).lt (.fin (1000 - H 0)); rw [Flt.fin_lt, H0]; norm_num,
      by change H 0 - H 0 ≤ 1000; norm_num⟩
  have g10 : LeafGood (ctxAt bumps (fun _ => 1) 1 1000 (.fin (-1002)) (H 1)) (O 0) :=
    ⟨H 0, hH 0, by change (Flt.fin (-1002)).lt (.fin (1000 - H 0)); rw [Flt.fin_lt, H0]; norm_num,
      by change H 0 - H 1 ≤ 1000; rw [H0, H1]; norm_num⟩
  have g11 : LeafGood (ctxAt bumps (fun _ => 1) 1 1000 (.fin (-1002)) (H 1)) (O 1) :=
    ⟨H 1, hH 1, by change (Flt.fin (-1002)).lt (.fin (1000 - H 1)); rw [Flt.fin_lt, H1]; norm_num,
      by change H 1 - H 1 ≤ 1000; norm_num⟩
  have n01 : ¬LeafGood (ctxAt bumps (fun _ => 1) 1 1000 (.fin (-1002)) (H 0)) (O 1) := by
    rintro ⟨h, h1, _, h3⟩
    obtain rfl := Flt.fin_inj.mp ((hH 1).symm.trans h1)
    have : H 1 - H 0 ≤ 1000 := h3
    rw [H0, H1] at this
    norm_num at this
  have q : ∀ k : ℤ, (O k).q = fun _ => (k : ℝ) := fun k => by rw [hO k]
  refine ⟨H, .fin (-1002), hH, s0 _, s1 _, ?_, ?_, ?_, ?_⟩
  · unfold prob weight
    refine Finset.sum_eq_zero fun l hl => Finset.sum_eq_zero fun b hb => ?_
    rw [Finset.mem_range] at hl
    rw [Finset.mem_Ioc] at hb
    split
    · next hk =>
      unfold seg at hk
      rw [Finset.mem_filter, Finset.mem_Ico] at hk
      interval_cases l
      · norm_num at hk hb; omega
      · obtain rfl : b = 0 := by norm_num at hk hb; omega
        have : reach (ctxAt bumps (fun _ => 1) 1 1000 (.fin (-1002)) (H 0)) O 1 0 = 0 :=
          if_neg fun h => n01 (by have := h.2; simp only [pow_zero, zero_add] at this; exact this)
        rw [this]; ring
    · rfl
  · have hpos : ∀ l b, 0 ≤ (if (0 : ℤ) ∈ seg (ctxAt bumps (fun _ => 1) 1 1000 (.fin (-1002)) (H 1)) O l b then
        (1 / 2 : ℝ) ^ l * reach (ctxAt bumps (fun _ => 1) 1 1000 (.fin (-1002)) (H 1)) O l b
          * stop (ctxAt bumps (fun _ => 1) 1 1000 (.fin (-1002)) (H 1)) O (1 - l) l b
          / (seg (ctxAt bumps (fun _ => 1) 1 1000 (.fin (-1002)) (H 1)) O l b).card else 0) := by
      intro l b
      split
      · have := reach_nonneg (ctxAt bumps (fun _ => 1) 1 1000 (.fin (-1002)) (H 1)) O l b
        have := stop_nonneg (ctxAt bumps (fun _ => 1) 1 1000 (.fin (-1002)) (H 1)) O (1 - l) l b
        positivity
      · exact le_refl _
    have hmem : (0 : ℤ) ∈ seg (ctxAt bumps (fun _ => 1) 1 1000 (.fin (-1002)) (H 1)) O 1 0 := by
      unfold seg
      rw [Finset.mem_filter, Finset.mem_Ico]
      exact ⟨by norm_num, s0 _⟩
    have hr : reach (ctxAt bumps (fun _ => 1) 1 1000 (.fin (-1002)) (H 1)) O 1 0 = 1 :=
      if_pos ⟨g10, by simp only [pow_zero, zero_add]; exact g11⟩
    unfold prob weight
    refine lt_of_lt_of_le ?_ (Finset.single_le_sum (f := fun l => _)
      (fun l _ => Finset.sum_nonneg fun b _ => hpos l b) (Finset.mem_range.mpr (by norm_num : 1 < 1 + 1)))
    refine lt_of_lt_of_le ?_ (Finset.single_le_sum (f := fun b => _)
      (fun b _ => hpos 1 b) (Finset.mem_Ioc.mpr (by norm_num : (1 : ℤ) - 2 ^ 1 < 0 ∧ (0 : ℤ) ≤ 1)))
    rw [if_pos hmem, hr]
    have hst : stop (ctxAt bumps (fun _ => 1) 1 1000 (.fin (-1002)) (H 1)) O (1 - 1) 1 0 = 1 := rfl
    rw [hst]
    have : (0 : ℝ) < (seg (ctxAt bumps (fun _ => 1) 1 1000 (.fin (-1002)) (H 1)) O 1 0).card := by
      have := Finset.card_pos.mpr ⟨_, hmem⟩
      exact_mod_cast this
    positivity
  · intro φ
    have := transition_weight (orb (H 0)) 1 0 (s0 _) g00 φ
    simp only [q] at this
    exact this
  · intro φ
    have := transition_weight (orb (H 1)) 1 1 (s1 _) g11 φ
    simp only [q] at this
    exact this

/-- The hypotheses of `nuts_balance_partial` are met by the same potential at a wider
divergence threshold. -/
example : ∃ (H : ℤ → ℝ) (logu : Flt),
    (∀ k, energy bumps (fun _ => 1) (orbit bumps (fun _ => 1) 1 ⟨fun _ => 0, fun _ => 1, fun _ => 0⟩ k)
      = .fin (H k)) ∧ logu.le (.fin (-H 0)) ∧ logu.le (.fin (-H 1)) ∧
    (∀ m, (2000 : ℝ) < H m - H 0 ↔ 2000 < H m - H 1) := by
  refine ⟨fun k => 1001 * Real.sin (Real.pi * k / 2) ^ 2 + 0.5, .fin (-1002), fun k => ?_, ?_, ?_, fun m => ?_⟩
  · rw [bumps_orbit k]
    unfold energy kinetic bumps
    dsimp only
    rw [Flt.add_fin]
    simp
  · rw [Flt.fin_le]; simp; norm_num
  · rw [Flt.fin_le]
    simp only [Int.cast_one, mul_one, Real.sin_pi_div_two]; norm_num
  · have h1 : ∀ x : ℝ, Real.sin x ^ 2 ≤ 1 := fun x => by
      nlinarith [Real.sin_sq_add_cos_sq x, sq_nonneg (Real.cos x)]
    have := h1 (Real.pi * m / 2)
    have h2 : ∀ x : ℝ, 0 ≤ Real.sin x ^ 2 := fun x => sq_nonneg _
    have := h2 (Real.pi * (0 : ℤ) / 2)
    have := h2 (Real.pi * (1 : ℤ) / 2)
    constructor <;> intro h <;> linarith

end Verif.Nuts
