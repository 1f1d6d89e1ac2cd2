import Verif.Mcmc.PropsNuts
import Mathlib.Order.Interval.Finset.Nat
import Mathlib.Data.Int.Interval
import Mathlib.Tactic.Linarith

/-!
# C56: size, bookkeeping and proposals of the NUTS tree
-/

set_option autoImplicit false

namespace Verif.Nuts

open Verif
open Verif.SMC (Pt)

variable {d : ℕ}

/-! ## Spec: orbits, slice and good subtrees -/

/-- Consecutive leapfrog points. -/
structure IsOrbit (c : Ctx d) (O : ℤ → Z d) : Prop where
  fwd : ∀ k, leapfrog c.tg (O k) c.eps c.im = O (k + 1)
  bwd : ∀ k, leapfrog c.tg (O k) (-c.eps) c.im = O (k - 1)

/-- The point is finite and under the slice. -/
def Slice (c : Ctx d) (z : Z d) : Prop :=
  ∃ h, energy c.tg c.im z = .fin h ∧ c.logu.le (.fin (-h))

/-- The point does not stop the integration. -/
def LeafGood (c : Ctx d) (z : Z d) : Prop :=
  ∃ h, energy c.tg c.im z = .fin h ∧ c.logu.lt (.fin (c.dmax - h)) ∧ h - c.H0 ≤ c.dmax

/-- The orbit segment of length `2 ^ k` from `a` on does not stop the integration: its
points do not, and no dyadic part of it makes a U-turn. -/
def Good (c : Ctx d) (O : ℤ → Z d) : ℕ → ℤ → Prop
  | 0, a => LeafGood c (O a)
  | k + 1, a => Good c O k a ∧ Good c O k (a + 2 ^ k) ∧
      uturn c.im (O a) (O (a + 2 ^ (k + 1) - 1)) = false

open Classical in
/-- Slice points of the segment of length `2 ^ k` from `a` on. -/
noncomputable def seg (c : Ctx d) (O : ℤ → Z d) (k : ℕ) (a : ℤ) : Finset ℤ :=
  (Finset.Ico a (a + 2 ^ k)).filter fun i => Slice c (O i)

/-! ## Orbits exist -/

/-- The orbit of a point. -/
noncomputable def orbit (tg : Target d) (im : Pt d) (eps : ℝ) (z : Z d) : ℤ → Z d
  | .ofNat n => (fun z => leapfrog tg z eps im)^[n] z
  | .negSucc n => (fun z => leapfrog tg z (-eps) im)^[n + 1] z

theorem iterate_consistent (tg : Target d) (im : Pt d) (eps : ℝ) (z : Z d) (hz : z.g = tg.g z.q)
    (n : ℕ) : let z' := (fun z => leapfrog tg z eps im)^[n] z; z'.g = tg.g z'.q := by
  cases n with
  | zero => exact hz
  | succ n => rw [Function.iterate_succ_apply']; rfl

theorem orbit_zero (tg : Target d) (im : Pt d) (eps : ℝ) (z : Z d) : orbit tg im eps z 0 = z := rfl

theorem orbit_isOrbit (c : Ctx d) (z : Z d) (hz : z.g = c.tg.g z.q) :
    IsOrbit c (orbit c.tg c.im c.eps z) := by
  have back := fun (z : Z d) (h : z.g = c.tg.g z.q) => leapfrog_reverse c.tg z h c.eps c.im
  have fwd' := fun (z : Z d) (h : z.g = c.tg.g z.q) => by
    have := leapfrog_reverse c.tg z h (-c.eps) c.im
    rwa [neg_neg] at this
  constructor
  · intro k
    match k with
    | .ofNat n =>
      change _ = (fun z => leapfrog c.tg z c.eps c.im)^[n + 1] z
      rw [Function.iterate_succ_apply']
      rfl
    | .negSucc 0 => exact fwd' z hz
    | .negSucc (n + 1) =>
      rw [show Int.negSucc (n + 1) + 1 = Int.negSucc n by omega]
      change leapfrog c.tg ((fun z => leapfrog c.tg z (-c.eps) c.im)^[n + 1 + 1] z) c.eps c.im = _
      rw [Function.iterate_succ_apply']
      exact fwd' _ (iterate_consistent c.tg c.im (-c.eps) z hz (n + 1))
  · intro k
    match k with
    | .ofNat 0 => rfl
    | .ofNat (n + 1) =>
      rw [show Int.ofNat (n + 1) - 1 = Int.ofNat n by simp]
      change leapfrog c.tg ((fun z => leapfrog c.tg z c.eps c.im)^[n + 1] z) (-c.eps) c.im = _
      rw [Function.iterate_succ_apply']
      exact back _ (iterate_consistent c.tg c.im c.eps z hz n)
    | .negSucc n =>
      rw [show Int.negSucc n - 1 = Int.negSucc (n + 1) by omega]
      change _ = (fun z => leapfrog c.tg z (-c.eps) c.im)^[n + 1 + 1] z
      rw [Function.iterate_succ_apply']
      rfl

/-- Index step of a direction. -/
def sgn (v : Bool) : ℤ := if v then 1 else -1

theorem IsOrbit.step {c : Ctx d} {O : ℤ → Z d} (hO : IsOrbit c O) (v : Bool) (k : ℤ) :
    leapfrog c.tg (O k) (c.step v) c.im = O (k + sgn v) := by
  cases v
  · exact hO.bwd k
  · exact hO.fwd k

/-! ## Bounds that hold for every tree -/

theorem finite?_some {e : Flt} {h : ℝ} : finite? e = some h ↔ e = .fin h := by
  classical
  constructor
  · intro he
    cases e with
    | nan => cases he
    | num a =>
      unfold finite? at he
      dsimp only at he
      split at he
      · cases he
      · next hn =>
        rw [not_or] at hn
        obtain rfl := Option.some.inj he
        unfold Flt.fin
        rw [EReal.coe_toReal hn.1 hn.2]
  · rintro rfl; exact finite?_fin h

/-- **C56** A tree of depth `k` makes between 1 and `2 ^ k` leapfrog steps, its counters
are ordered, the acceptance statistics are averages of numbers in `[0, 1]`, and a divergent
tree never continues; one that continues is complete. -/
theorem tree_bounds (c : Ctx d) (v : Bool) (k : ℕ) (w : Draws k) (z : Z d) :
    let t := buildTree c v k w z
    1 ≤ t.nLeap ∧ t.nLeap ≤ 2 ^ k ∧ t.nValid ≤ t.nAlpha ∧ t.nAlpha ≤ t.nLeap ∧
      0 ≤ t.alphaSum ∧ t.alphaSum ≤ t.nAlpha ∧ (t.cont = true → t.div = false) ∧
      (t.cont = true → t.nLeap = 2 ^ k ∧ t.nAlpha = 2 ^ k) := by
  classical
  induction k generalizing z with
  | zero =>
    unfold buildTree leaf
    dsimp only
    cases finite? (energy c.tg c.im (leapfrog c.tg z (c.step v) c.im)) with
    | none => simp
    | some h =>
      refine ⟨le_refl _, le_refl _, ?_, le_refl _, (Real.exp_pos _).le, ?_, ?_, fun _ => ⟨rfl, rfl⟩⟩
      · dsimp only; split <;> omega
      · rw [Nat.cast_one]; exact Real.exp_le_one_iff.mpr (min_le_right _ _)
      · dsimp only; simp
  | succ k ih =>
    rw [buildTree]
    dsimp only
    obtain ⟨a1, a2, a3, a4, a5, a6, a7, a8⟩ := ih w.2.1 z
    split
    · next hc =>
      rw [Bool.and_eq_true, Bool.not_eq_true'] at hc
      obtain ⟨b1, b2, b3, b4, b5, b6, b7, b8⟩ := ih w.2.2
        (if v = true then (buildTree c v k w.2.1 z).plus else (buildTree c v k w.2.1 z).minus)
      generalize buildTree c v k w.2.2 _ = b at *
      generalize buildTree c v k w.2.1 z = a at *
      obtain ⟨a9, a10⟩ := a8 hc.1
      have e : 2 ^ (k + 1) = 2 ^ k + 2 ^ k := by ring
      unfold join
      dsimp only
      refine ⟨by omega, by omega, by omega, by omega, by linarith, by push_cast; linarith, ?_, ?_⟩
      · intro h
        rw [Bool.and_eq_true] at h
        rw [hc.2, b7 h.1]; rfl
      · intro h
        rw [Bool.and_eq_true] at h
        obtain ⟨b9, b10⟩ := b8 h.1
        omega
    · next hc =>
      have hcf : (buildTree c v k w.2.1 z).cont = false := by
        cases h : (buildTree c v k w.2.1 z).cont with
        | false => rfl
        | true => rw [h, a7 h] at hc; exact absurd rfl hc
      have e : 2 ^ k ≤ 2 ^ (k + 1) := Nat.pow_le_pow_right (by norm_num) (by omega)
      refine ⟨a1, a2.trans e, a3, a4, a5, a6, a7, fun h => ?_⟩
      rw [hcf] at h; cases h

/-! ## The tree follows the orbit -/

/-- Lower end of the segment visited from `x`. -/
def lowEnd (v : Bool) (k : ℕ) (x : ℤ) : ℤ := if v then x + 1 else x - 2 ^ k

theorem leaf_spec (c : Ctx d) (v : Bool) (z z1 : Z d) (h : leapfrog c.tg z (c.step v) c.im = z1) :
    (LeafGood c z1 → (leaf c v z).cont = true ∧ (leaf c v z).div = false ∧
      (leaf c v z).minus = z1 ∧ (leaf c v z).plus = z1) ∧
    (¬LeafGood c z1 → (leaf c v z).cont = false) ∧
    (((leaf c v z).nValid = 1 ∧ Slice c z1 ∧ (leaf c v z).prop = z1.q) ∨
      ((leaf c v z).nValid = 0 ∧ ¬Slice c z1)) := by
  classical
  unfold leaf
  dsimp only
  rw [h]
  cases he : finite? (energy c.tg c.im z1) with
  | none =>
    have hno : ∀ h, energy c.tg c.im z1 ≠ .fin h := by
      intro h hh
      rw [finite?_some.mpr hh] at he; cases he
    exact ⟨fun ⟨h, hh, _⟩ => absurd hh (hno h), fun _ => rfl, Or.inr ⟨rfl, fun ⟨h, hh, _⟩ => hno h hh⟩⟩
  | some h1 =>
    rw [finite?_some] at he
    dsimp only
    refine ⟨?_, ?_, ?_⟩
    · rintro ⟨h, hh, h2, h3⟩
      obtain rfl := Flt.fin_inj.mp (he.symm.trans hh)
      rw [decide_eq_true h2, decide_eq_false (not_lt.mpr h3)]
      exact ⟨rfl, rfl, rfl, rfl⟩
    · intro hn
      by_contra hc
      rw [Bool.not_eq_false, Bool.and_eq_true, decide_eq_true_eq, Bool.not_eq_true',
        decide_eq_false_iff_not, not_lt] at hc
      exact hn ⟨h1, he, hc.1, hc.2⟩
    · by_cases hs : c.logu.le (.fin (-h1))
      · exact Or.inl ⟨if_pos hs, ⟨h1, he, hs⟩, rfl⟩
      · refine Or.inr ⟨if_neg hs, fun ⟨h, hh, h2⟩ => ?_⟩
        obtain rfl := Flt.fin_inj.mp (he.symm.trans hh)
        exact hs h2

/-- **C56** Along an orbit: the tree continues exactly if the segment it covers is good,
and then its ends are the ends of the segment. -/
theorem tree_orbit {c : Ctx d} {O : ℤ → Z d} (hO : IsOrbit c O) (v : Bool) (k : ℕ) (w : Draws k)
    (x : ℤ) :
    let t := buildTree c v k w (O x)
    let a := lowEnd v k x
    (Good c O k a → t.cont = true ∧ t.div = false ∧ t.minus = O a ∧ t.plus = O (a + 2 ^ k - 1)) ∧
      (¬Good c O k a → t.cont = false) := by
  induction k generalizing x with
  | zero =>
    have h := leaf_spec c v (O x) _ (hO.step v x)
    have e : lowEnd v 0 x = x + sgn v := by cases v <;> rfl
    have e2 : x + sgn v + 2 ^ 0 - 1 = x + sgn v := by ring
    dsimp only
    rw [e, e2]
    exact ⟨h.1, h.2.1⟩
  | succ k ih =>
    dsimp only
    rw [buildTree]
    obtain ⟨i1, i2⟩ := ih w.2.1 x
    have tb := (tree_bounds c v k w.2.1 (O x)).2.2.2.2.2.2.1
    have ep : (2 : ℤ) ^ (k + 1) = 2 ^ k + 2 ^ k := by ring
    cases v with
    | true =>
      have e1 : lowEnd true k x = x + 1 := rfl
      have e2 : lowEnd true (k + 1) x = x + 1 := rfl
      rw [e1] at i1 i2
      rw [e2]
      by_cases hg : Good c O k (x + 1)
      · obtain ⟨p1, p2, p3, p4⟩ := i1 hg
        obtain ⟨j1, j2⟩ := ih w.2.2 (x + 1 + 2 ^ k - 1)
        have e3 : lowEnd true k (x + 1 + 2 ^ k - 1) = x + 1 + 2 ^ k := by
          change x + 1 + 2 ^ k - 1 + 1 = _; ring
        rw [e3] at j1 j2
        rw [p1, p2]
        simp only [Bool.not_false, Bool.and_true, if_true]
        rw [p4]
        unfold join
        simp only [if_true, p2, p3]
        by_cases hg2 : Good c O k (x + 1 + 2 ^ k)
        · obtain ⟨r1, r2, r3, r4⟩ := j1 hg2
          rw [r1, r2, r4, show x + 1 + 2 ^ k + 2 ^ k - 1 = x + 1 + 2 ^ (k + 1) - 1 by rw [ep]; ring]
          constructor
          · rintro ⟨_, _, hu⟩
            rw [hu]; simp
          · intro hn
            have : uturn c.im (O (x + 1)) (O (x + 1 + 2 ^ (k + 1) - 1)) = true := by
              by_contra hu
              exact hn ⟨hg, hg2, Bool.not_eq_true _ ▸ hu⟩
            rw [this]; rfl
        · exact ⟨fun h => absurd h.2.1 hg2, fun _ => by rw [j2 hg2]; rfl⟩
      · have hf := i2 hg
        refine ⟨fun h => absurd h.1 hg, fun _ => ?_⟩
        rw [hf]; exact hf
    | false =>
      have e1 : lowEnd false k x = x - 2 ^ k := rfl
      have e2 : lowEnd false (k + 1) x = x - 2 ^ (k + 1) := rfl
      have e4 : x - 2 ^ (k + 1) + 2 ^ k = x - 2 ^ k := by rw [ep]; ring
      rw [e1] at i1 i2
      rw [e2]
      by_cases hg : Good c O k (x - 2 ^ k)
      · obtain ⟨p1, p2, p3, p4⟩ := i1 hg
        obtain ⟨j1, j2⟩ := ih w.2.2 (x - 2 ^ k)
        have e3 : lowEnd false k (x - 2 ^ k) = x - 2 ^ (k + 1) := by
          change x - 2 ^ k - 2 ^ k = _; rw [ep]; ring
        rw [e3] at j1 j2
        rw [p1, p2]
        simp only [Bool.not_false, Bool.and_true, if_true, Bool.false_eq_true, if_false]
        rw [p3]
        unfold join
        simp only [Bool.false_eq_true, if_false, p2, p4]
        by_cases hg2 : Good c O k (x - 2 ^ (k + 1))
        · obtain ⟨r1, r2, r3, r4⟩ := j1 hg2
          rw [r1, r2, r3, show x - 2 ^ k + 2 ^ k - 1 = x - 2 ^ (k + 1) + 2 ^ (k + 1) - 1 by ring]
          constructor
          · rintro ⟨_, _, hu⟩
            rw [hu]; simp
          · intro hn
            have : uturn c.im (O (x - 2 ^ (k + 1))) (O (x - 2 ^ (k + 1) + 2 ^ (k + 1) - 1)) = true := by
              by_contra hu
              refine hn ⟨hg2, ?_, Bool.not_eq_true _ ▸ hu⟩
              rw [e4]; exact hg
            rw [this]; rfl
        · exact ⟨fun h => absurd h.1 hg2, fun _ => by rw [j2 hg2]; rfl⟩
      · have hf := i2 hg
        refine ⟨fun h => absurd (by have := h.2.1; rw [e4] at this; exact this) hg, fun _ => ?_⟩
        rw [hf]; exact hf

/-! ## Proposals -/

/-- All draws in `[0, 1)`. -/
def DrawsOK : (k : ℕ) → Draws k → Prop
  | 0, _ => True
  | k + 1, w => (0 ≤ w.1 ∧ w.1 < 1) ∧ DrawsOK k w.2.1 ∧ DrawsOK k w.2.2

theorem choose_zero_left {u : ℝ} (hu : u < 1) {n2 : ℕ} (h : 0 < n2) (q1 q2 : Pt d) :
    choose u 0 n2 q1 q2 = q2 := by
  classical
  unfold choose
  rw [if_pos (by omega), zero_add, div_self (by exact_mod_cast h.ne'), if_pos hu]

theorem choose_zero_right {u : ℝ} (hu : 0 ≤ u) (n1 : ℕ) (q1 q2 : Pt d) :
    choose u n1 0 q1 q2 = q1 := by
  classical
  unfold choose
  split
  · rw [if_neg (by rw [Nat.cast_zero, zero_div]; exact not_lt.mpr hu)]
  · rfl

theorem choose_or (u : ℝ) (n1 n2 : ℕ) (q1 q2 : Pt d) :
    choose u n1 n2 q1 q2 = q1 ∨ choose u n1 n2 q1 q2 = q2 := by
  classical
  unfold choose
  split
  · split
    · exact Or.inr rfl
    · exact Or.inl rfl
  · exact Or.inl rfl

/-- A choice between candidates that are admissible when their count is positive. -/
theorem choose_ok {u : ℝ} (h0 : 0 ≤ u) (h1 : u < 1) (P : Pt d → Prop) (n1 n2 : ℕ) (q1 q2 : Pt d)
    (a1 : 0 < n1 → P q1) (a2 : 0 < n2 → P q2) (h : 0 < n1 + n2) : P (choose u n1 n2 q1 q2) := by
  rcases Nat.eq_zero_or_pos n1 with rfl | hp1
  · rw [choose_zero_left h1 (by omega)]; exact a2 (by omega)
  · rcases Nat.eq_zero_or_pos n2 with rfl | hp2
    · rw [choose_zero_right h0]; exact a1 hp1
    · rcases choose_or u n1 n2 q1 q2 with e | e
      · rw [e]; exact a1 hp1
      · rw [e]; exact a2 hp2

/-- **C56** If the tree counts a valid point, its proposal is a point of the visited
segment that lies under the slice. -/
theorem tree_proposal {c : Ctx d} {O : ℤ → Z d} (hO : IsOrbit c O) (v : Bool) (k : ℕ) (w : Draws k)
    (hw : DrawsOK k w) (x : ℤ) :
    let t := buildTree c v k w (O x)
    0 < t.nValid → ∃ i ∈ seg c O k (lowEnd v k x), t.prop = (O i).q := by
  classical
  induction k generalizing x with
  | zero =>
    intro t ht
    have h := (leaf_spec c v (O x) _ (hO.step v x)).2.2
    have e : lowEnd v 0 x = x + sgn v := by cases v <;> rfl
    rcases h with ⟨_, h2, h3⟩ | ⟨h1, _⟩
    · refine ⟨x + sgn v, ?_, h3⟩
      unfold seg
      rw [Finset.mem_filter, Finset.mem_Ico, e]
      exact ⟨⟨le_refl _, by norm_num⟩, h2⟩
    · exact absurd ht (by rw [show t.nValid = 0 from h1]; exact lt_irrefl 0)
  | succ k ih =>
    dsimp only
    rw [buildTree]
    have ep : (2 : ℤ) ^ (k + 1) = 2 ^ k + 2 ^ k := by ring
    have hp : (0 : ℤ) < 2 ^ k := by positivity
    obtain ⟨i1, i2⟩ := tree_orbit hO v k w.2.1 x
    have hsub : ∀ i, i ∈ seg c O k (lowEnd v k x) → i ∈ seg c O (k + 1) (lowEnd v (k + 1) x) := by
      intro i hi
      unfold seg at *
      rw [Finset.mem_filter, Finset.mem_Ico] at *
      refine ⟨?_, hi.2⟩
      cases v with
      | true =>
        have e1 : lowEnd true k x = x + 1 := rfl
        have e2 : lowEnd true (k + 1) x = x + 1 := rfl
        omega
      | false =>
        have e1 : lowEnd false k x = x - 2 ^ k := rfl
        have e2 : lowEnd false (k + 1) x = x - 2 ^ (k + 1) := rfl
        omega
    split
    · next hc =>
      rw [Bool.and_eq_true] at hc
      have hg : Good c O k (lowEnd v k x) := by
        by_contra hn
        rw [i2 hn] at hc; cases hc.1
      obtain ⟨_, _, p3, p4⟩ := i1 hg
      unfold join
      intro hn
      dsimp only at hn ⊢
      refine choose_ok hw.1.1 hw.1.2
        (fun q => ∃ i ∈ seg c O (k + 1) (lowEnd v (k + 1) x), q = (O i).q) _ _ _ _ ?_ ?_ hn
      · intro h
        obtain ⟨i, hi, e⟩ := ih w.2.1 hw.2.1 x h
        exact ⟨i, hsub i hi, e⟩
      · intro h
        cases v with
        | true =>
          rw [if_pos rfl, p4] at h ⊢
          obtain ⟨i, hi, e⟩ := ih w.2.2 hw.2.2 _ h
          refine ⟨i, ?_, e⟩
          unfold seg at *
          rw [Finset.mem_filter, Finset.mem_Ico] at *
          refine ⟨?_, hi.2⟩
          have e1 : lowEnd true k x = x + 1 := rfl
          have e2 : lowEnd true (k + 1) x = x + 1 := rfl
          have e3 : lowEnd true k (lowEnd true k x + 2 ^ k - 1) = lowEnd true k x + 2 ^ k - 1 + 1 := rfl
          omega
        | false =>
          rw [if_neg (by decide), p3] at h ⊢
          obtain ⟨i, hi, e⟩ := ih w.2.2 hw.2.2 _ h
          refine ⟨i, ?_, e⟩
          unfold seg at *
          rw [Finset.mem_filter, Finset.mem_Ico] at *
          refine ⟨?_, hi.2⟩
          have e1 : lowEnd false k x = x - 2 ^ k := rfl
          have e2 : lowEnd false (k + 1) x = x - 2 ^ (k + 1) := rfl
          have e3 : lowEnd false k (lowEnd false k x) = lowEnd false k x - 2 ^ k := rfl
          omega
    · intro h
      obtain ⟨i, hi, e⟩ := ih w.2.1 hw.2.1 x h
      exact ⟨i, hsub i hi, e⟩

/-! ## The whole transition -/

/-- All draws in `[0, 1)`. -/
def TDrawsOK : (n j : ℕ) → TDraws n j → Prop
  | 0, _, _ => True
  | n + 1, j, w => DrawsOK j w.1.2.1 ∧ (0 ≤ w.1.2.2 ∧ w.1.2.2 < 1) ∧ TDrawsOK n (j + 1) w.2

/-- What holds before each doubling: the ends are the ends of a segment of length `2 ^ j`
that contains the start, the proposal is one of its slice points. -/
structure TInv (c : Ctx d) (O : ℤ → Z d) (j : ℕ) (s : TState d) : Prop where
  depth : s.depth = j
  leap : s.nLeap ≤ 2 ^ j - 1
  alpha : s.nAlpha ≤ s.nLeap
  sum0 : 0 ≤ s.alphaSum
  sum1 : s.alphaSum ≤ s.nAlpha
  pos : 0 < s.nValid
  prop : ∃ i : ℤ, |i| < 2 ^ j ∧ Slice c (O i) ∧ s.prop = (O i).q
  ends : s.cont = true → ∃ a : ℤ, a ≤ 0 ∧ 0 < a + 2 ^ j ∧ s.minus = O a ∧ s.plus = O (a + 2 ^ j - 1)

theorem double_inv {c : Ctx d} {O : ℤ → Z d} (hO : IsOrbit c O) (j : ℕ) (w : ℝ × Draws j × ℝ)
    (hw : DrawsOK j w.2.1) (h0 : 0 ≤ w.2.2) (h1 : w.2.2 < 1) (s : TState d) (hs : TInv c O j s)
    (hc : s.cont = true) : TInv c O (j + 1) (double c j w s) := by
  classical
  obtain ⟨a, ha0, ha1, hm, hp⟩ := hs.ends hc
  have ep : (2 : ℤ) ^ (j + 1) = 2 ^ j + 2 ^ j := by ring
  have ep' : 2 ^ (j + 1) = 2 ^ j + 2 ^ j := by ring
  have hpp : (0 : ℤ) < 2 ^ j := by positivity
  have hpp' : 0 < 2 ^ j := by positivity
  obtain ⟨i, hi, hsl, hpr⟩ := hs.prop
  unfold double
  dsimp only
  generalize (!decide (w.1 < 0.5)) = v
  set x := (if v = true then a + 2 ^ j - 1 else a) with hx
  have hz : (if v = true then s.plus else s.minus) = O x := by
    rw [hx]; cases v
    · exact hm
    · exact hp
  rw [hz]
  obtain ⟨b1, b2, b3, b4, b5, b6, b7, b8⟩ := tree_bounds c v j w.2.1 (O x)
  obtain ⟨t1, t2⟩ := tree_orbit hO v j w.2.1 x
  have tp := tree_proposal hO v j w.2.1 hw x
  have := hs.leap
  have := hs.alpha
  have := hs.sum0
  have := hs.sum1
  have := hs.pos
  refine ⟨rfl, ?_, ?_, ?_, ?_, ?_, ?_, ?_⟩
  · dsimp only; omega
  · dsimp only; omega
  · dsimp only; linarith
  · dsimp only; push_cast; linarith
  · dsimp only; omega
  · dsimp only
    have hkeep : ∃ i : ℤ, |i| < 2 ^ (j + 1) ∧ Slice c (O i) ∧ s.prop = (O i).q :=
      ⟨i, by rw [ep]; linarith, hsl, hpr⟩
    split
    · refine choose_ok h0 h1 (fun q => ∃ i : ℤ, |i| < 2 ^ (j + 1) ∧ Slice c (O i) ∧ q = (O i).q)
        _ _ _ _ (fun _ => hkeep) (fun h => ?_) (by omega)
      obtain ⟨k, hk, e⟩ := tp h
      unfold seg at hk
      rw [Finset.mem_filter, Finset.mem_Ico] at hk
      refine ⟨k, ?_, hk.2, e⟩
      rw [abs_lt]
      cases v with
      | true =>
        rw [if_pos rfl] at hx
        have e1 : lowEnd true j x = x + 1 := rfl
        omega
      | false =>
        rw [if_neg (by decide)] at hx
        have e1 : lowEnd false j x = x - 2 ^ j := rfl
        omega
    · exact hkeep
  · dsimp only
    intro h
    rw [Bool.and_eq_true] at h
    have hg : Good c O j (lowEnd v j x) := by
      by_contra hn
      rw [t2 hn] at h; cases h.1
    obtain ⟨_, _, p3, p4⟩ := t1 hg
    cases v with
    | true =>
      rw [if_pos rfl] at hx
      have e1 : lowEnd true j x = x + 1 := rfl
      refine ⟨a, ha0, by omega, by rw [if_pos rfl]; exact hm, ?_⟩
      rw [if_pos rfl, p4]
      congr 1; omega
    | false =>
      rw [if_neg (by decide)] at hx
      have e1 : lowEnd false j x = x - 2 ^ j := rfl
      refine ⟨x - 2 ^ j, by omega, by omega, by rw [if_neg (by decide), p3, e1], ?_⟩
      rw [if_neg (by decide), hp]
      congr 1; omega

theorem doubles_inv {c : Ctx d} {O : ℤ → Z d} (hO : IsOrbit c O) (n j : ℕ) (w : TDraws n j)
    (hw : TDrawsOK n j w) (s : TState d) (hs : TInv c O j s) :
    ∃ j', j' ≤ j + n ∧ TInv c O j' (doubles c n j w s) := by
  induction n generalizing j s with
  | zero => exact ⟨j, le_refl _, hs⟩
  | succ n ih =>
    rw [doubles]
    split
    · next hc =>
      obtain ⟨j', h1, h2⟩ := ih (j + 1) w.2 hw.2.2 _
        (double_inv hO j w.1 hw.1 hw.2.1.1 hw.2.1.2 s hs hc)
      exact ⟨j', by omega, h2⟩
    · exact ⟨j, by omega, hs⟩

/-- The slice level of a start with energy `h0`. -/
noncomputable def ctxOf (tg : Target d) (im : Pt d) (eps dmax h0 r : ℝ) : Ctx d :=
  { tg := tg, im := im, eps := eps, logu := (Flt.fin (-h0)).add (Flt.logU r), H0 := h0, dmax := dmax }

theorem slice_start (tg : Target d) (im : Pt d) (eps dmax h0 r : ℝ) (hr0 : 0 ≤ r) (hr1 : r ≤ 1)
    (z : Z d) (hz : energy tg im z = .fin h0) : Slice (ctxOf tg im eps dmax h0 r) z := by
  classical
  refine ⟨h0, hz, ?_⟩
  unfold ctxOf Flt.logU
  dsimp only
  split
  · simp [Flt.fin, Flt.add, Flt.le]
  · rw [Flt.add_fin, Flt.fin_le]
    have := Real.log_nonpos hr0 hr1
    linarith

/-- **C56** A transition makes at most `maxDepth` doublings and `2 ^ depth - 1` leapfrog
steps, reports an acceptance statistic in `[0, 1]`, and returns the position of an orbit
point less than `2 ^ depth` steps away which lies under the slice (the start, if nothing
else). A start of infinite or undefined energy is returned as it is. -/
theorem transition_spec (tg : Target d) (im : Pt d) (eps : ℝ) (maxDepth : ℕ) (dmax : ℝ) (noise : Pt d)
    (r : ℝ) (hr0 : 0 ≤ r) (hr1 : r < 1) (w : TDraws maxDepth 0) (hw : TDrawsOK maxDepth 0 w)
    (q0 : Pt d) :
    let out := transition tg im eps maxDepth dmax noise r w q0
    let z0 : Z d := ⟨q0, momentum im noise, tg.g q0⟩
    out.depth ≤ maxDepth ∧ out.nLeap ≤ 2 ^ out.depth - 1 ∧ 0 ≤ out.accept ∧ out.accept ≤ 1 ∧
      (∀ h0, energy tg im z0 = .fin h0 → ∃ i : ℤ, |i| < 2 ^ out.depth ∧
        Slice (ctxOf tg im eps dmax h0 r) (orbit tg im eps z0 i) ∧
        out.q = (orbit tg im eps z0 i).q) ∧
      ((∀ h0, energy tg im z0 ≠ .fin h0) → out.q = q0 ∧ out.div = true ∧ out.nLeap = 0) := by
  intro out z0
  cases he : finite? (energy tg im z0) with
  | none =>
    have hout : out = { q := q0, accept := 0, nLeap := 0, depth := 0, div := true } := by
      change transition tg im eps maxDepth dmax noise r w q0 = _
      unfold transition
      dsimp only
      rw [show finite? (energy tg im ⟨q0, momentum im noise, tg.g q0⟩) = none from he]
    rw [hout]
    refine ⟨Nat.zero_le _, le_refl _, le_refl _, zero_le_one, fun h0 hh => ?_, fun _ => ⟨rfl, rfl, rfl⟩⟩
    rw [finite?_some.mpr hh] at he; cases he
  | some h0 =>
    have he' := finite?_some.mp he
    have hout : out = (let s := doubles (ctxOf tg im eps dmax h0 r) maxDepth 0 w (TState.start z0)
        { q := s.prop, accept := s.alphaSum / ((max 1 s.nAlpha : ℕ) : ℝ), nLeap := s.nLeap
          depth := s.depth, div := s.div }) := by
      change transition tg im eps maxDepth dmax noise r w q0 = _
      unfold transition
      dsimp only
      rw [show finite? (energy tg im ⟨q0, momentum im noise, tg.g q0⟩) = some h0 from he]
      rfl
    have hO : IsOrbit (ctxOf tg im eps dmax h0 r) (orbit tg im eps z0) :=
      orbit_isOrbit (ctxOf tg im eps dmax h0 r) z0 rfl
    obtain ⟨j', h1, h2⟩ := doubles_inv hO maxDepth 0 w hw (TState.start z0)
      { depth := rfl, leap := le_refl _, alpha := le_refl _, sum0 := le_refl _, sum1 := by simp [TState.start]
        pos := Nat.one_pos
        prop := ⟨0, by norm_num, slice_start tg im eps dmax h0 r hr0 hr1.le z0 he', rfl⟩
        ends := fun _ => ⟨0, le_refl _, by norm_num, rfl, rfl⟩ }
    rw [hout]
    dsimp only
    generalize doubles (ctxOf tg im eps dmax h0 r) maxDepth 0 w (TState.start z0) = s at *
    have hd := h2.depth
    have hmax : (0 : ℝ) < ((max 1 s.nAlpha : ℕ) : ℝ) := by
      have : 0 < max 1 s.nAlpha := by omega
      exact_mod_cast this
    refine ⟨by omega, by rw [hd]; exact h2.leap, div_nonneg h2.sum0 hmax.le, ?_, ?_, ?_⟩
    · rw [div_le_one hmax]
      refine h2.sum1.trans ?_
      exact_mod_cast le_max_right 1 s.nAlpha
    · intro h hh
      obtain rfl := Flt.fin_inj.mp (he'.symm.trans hh)
      rw [hd]; exact h2.prop
    · intro hno; exact absurd he' (hno h0)

/-- The hypotheses are met by a standard Gaussian target at the origin. -/
example : ∃ (w : TDraws 2 0), TDrawsOK 2 0 w ∧
    energy (gauss fun _ : Fin 1 => 1) (fun _ => 1) ⟨fun _ => 0, momentum (fun _ => 1) fun _ => 1,
      (gauss fun _ => 1).g fun _ => 0⟩ = .fin 0.5 := by
  refine ⟨((0.3, (), 0.5), ((0.7, (0.1, (), ()), 0.2), ())), ?_, ?_⟩
  · simp only [TDrawsOK, DrawsOK]; norm_num
  · simp [energy, gauss, kinetic, momentum]

end Verif.Nuts
