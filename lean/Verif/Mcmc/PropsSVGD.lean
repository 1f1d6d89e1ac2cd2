import Verif.Mcmc.SVGD
import Verif.Mcmc.PropsNutsTree
import Verif.Data.PropsQuantile
import Verif.Kernel.GaussPD
import Mathlib.Analysis.Calculus.Deriv.Basic
import Mathlib.Analysis.SpecialFunctions.ExpDeriv
import Mathlib.Analysis.SpecialFunctions.Pow.Real
import Mathlib.Algebra.BigOperators.Field

/-!
# C60, C61, C62, C115: the SVGD step
-/

set_option autoImplicit false

namespace Verif.SVGD

open Verif
open Verif.Nuts (finite?)
open scoped Matrix

variable {n d : ℕ}

/-! ## Specification -/

/-- In the box. -/
def InBox (lo hi x : Pt d) : Prop := ∀ c, lo c ≤ x c ∧ x c ≤ hi c

/-- Gaussian kernel with bandwidth `h`. -/
noncomputable def gauss (h : ℝ) (a b : Pt d) : ℝ := Real.exp (-(∑ c, (a c - b c) ^ 2) / h)

/-- Derivative of the kernel in coordinate `c` of its first argument. -/
noncomputable def gradK (h : ℝ) (a b : Pt d) (c : Fin d) : ℝ :=
  deriv (fun t => gauss h (Function.update a c t) b) (a c)

/-- Square of the Euclidean distance. -/
def dist2 (a b : Pt d) : ℝ := ∑ c, (a c - b c) ^ 2

/-! ## Projection -/

/-- **C60** A projected point is in the box (when the bounds are ordered). -/
theorem project_mem {lo hi : Pt d} (hb : ∀ c, lo c ≤ hi c) (x : Pt d) :
    InBox lo hi (project (some (lo, hi)) x) := fun c =>
  ⟨le_min (le_max_right _ _) (hb c), min_le_right _ _⟩

/-- **C60** Projection leaves the points of the box where they are. -/
theorem project_id {lo hi x : Pt d} (h : InBox lo hi x) : project (some (lo, hi)) x = x := by
  funext c
  simp [project, (h c).1, (h c).2]

/-- **C60** Projecting twice is projecting once, for any bounds. -/
theorem project_idem (b : Option (Pt d × Pt d)) (x : Pt d) :
    project b (project b x) = project b x := by
  cases b with
  | none => rfl
  | some b =>
    obtain ⟨lo, hi⟩ := b
    funext c
    simp only [project]
    rcases le_total (lo c) (hi c) with h | h
    · rw [max_eq_left (le_min (le_max_right _ _) h)]
      exact min_eq_left (min_le_right _ _)
    · rw [min_eq_right (h.trans (le_max_right _ _)), min_eq_right (h.trans (le_max_right _ _))]

/-- **C60** The projection is the nearest point of the box, coordinate by coordinate. -/
theorem project_nearest {lo hi y : Pt d} (hy : InBox lo hi y) (x : Pt d) (c : Fin d) :
    |project (some (lo, hi)) x c - x c| ≤ |y c - x c| := by
  obtain ⟨h1, h2⟩ := hy c
  simp only [project]
  rcases le_total (x c) (lo c) with h | h
  · rw [max_eq_right h, min_eq_left (h1.trans h2), abs_of_nonneg (by linarith),
      abs_of_nonneg (by linarith)]
    linarith
  · rw [max_eq_left h]
    rcases le_total (x c) (hi c) with h' | h'
    · rw [min_eq_left h', sub_self, abs_zero]; exact abs_nonneg _
    · rw [min_eq_right h', abs_of_nonpos (by linarith), abs_of_nonpos (by linarith)]
      linarith

/-- **C60** Hence it is the nearest point in Euclidean distance. -/
theorem project_nearest2 {lo hi y : Pt d} (hy : InBox lo hi y) (x : Pt d) :
    dist2 (project (some (lo, hi)) x) x ≤ dist2 y x :=
  Finset.sum_le_sum fun c _ => sq_le_sq.mpr (project_nearest hy x c)

/-- **C60** With bounds in the wrong order nothing is in the box, yet the
projection goes through: it returns the upper bound. -/
theorem project_inverted {lo hi : Pt d} (hb : ∀ c, hi c ≤ lo c) (x : Pt d) :
    project (some (lo, hi)) x = hi := by
  funext c
  simp only [project]
  exact min_eq_right ((hb c).trans (le_max_right _ _))

/-! ## Bounds and preconditioner -/

/-- The value that a bound gives to coordinate `c`. -/
def Bound.at (b : Bound) (d : ℕ) (c : Fin d) : Option ℝ :=
  match b with
  | .scalar a => some a
  | .vec [a] => some a
  | .vec l => if l.length = d then l[c.val]? else none

/-- A bound fits dimension `d`: a scalar, one number, or `d` numbers. -/
def Bound.Fits (b : Bound) (d : ℕ) : Prop :=
  match b with
  | .scalar _ => True
  | .vec l => l.length = 1 ∨ l.length = d

theorem tile1_length (d : ℕ) (l : List ℝ) : (tile1 d l).length = d ↔ l.length = 1 ∨ l.length = d := by
  match l with
  | [] => simp [tile1]
  | [a] => simp [tile1]
  | a :: b :: l => simp [tile1]

theorem Bound.flat_fits (b : Bound) (d : ℕ) : (tile1 d b.flat).length = d ↔ b.Fits d := by
  cases b with
  | scalar a => simp [Bound.flat, Bound.Fits, tile1]
  | vec l => exact tile1_length d l

theorem tile1_getD (d : ℕ) (l : List ℝ) (h : (tile1 d l).length = d) (c : Fin d) :
    Bound.at (.vec l) d c = some ((tile1 d l).getD c 0) := by
  match l with
  | [] =>
    have : d = 0 := by simpa [tile1] using h.symm
    subst this; exact c.elim0
  | [a] => simp [Bound.at, tile1]
  | a :: b :: l =>
    have h' : (a :: b :: l).length = d := h
    simp only [Bound.at, tile1]
    rw [if_pos h', List.getD_eq_getElem?_getD, List.getElem?_eq_getElem (by rw [h']; exact c.2)]
    rfl

theorem Bound.flat_at (b : Bound) (d : ℕ) (h : b.Fits d) (c : Fin d) :
    b.at d c = some ((tile1 d b.flat).getD c 0) := by
  have h' := (Bound.flat_fits b d).mpr h
  cases b with
  | scalar a => simp [Bound.at, Bound.flat, tile1]
  | vec l => exact tile1_getD d l h' c

/-- **C60** A box is accepted exactly when it has two sides that fit the dimension;
the bounds are those given, single numbers being repeated. -/
theorem normBounds_spec (box : List Bound) (d : ℕ) (lo hi : Pt d) :
    normBounds box d = .ok (lo, hi) ↔
      ∃ a b, box = [a, b] ∧ a.Fits d ∧ b.Fits d ∧
        ∀ c, a.at d c = some (lo c) ∧ b.at d c = some (hi c) := by
  have key : ∀ a b : Bound,
      (if (tile1 d a.flat).length ≠ d ∨ (tile1 d b.flat).length ≠ d then
        (.error .valueError : Py (Pt d × Pt d))
       else .ok (fun i => (tile1 d a.flat).getD i 0, fun i => (tile1 d b.flat).getD i 0)) =
        .ok (lo, hi) ↔ a.Fits d ∧ b.Fits d ∧
          ∀ c, a.at d c = some (lo c) ∧ b.at d c = some (hi c) := by
    intro a b
    by_cases ha : a.Fits d
    · by_cases hb : b.Fits d
      · rw [if_neg (by simp [Bound.flat_fits, ha, hb])]
        constructor
        · intro h
          injection h with h
          have h1 := congrArg Prod.fst h
          have h2 := congrArg Prod.snd h
          refine ⟨ha, hb, fun c => ⟨?_, ?_⟩⟩
          · rw [Bound.flat_at a d ha]; exact congrArg some (congrFun h1 c)
          · rw [Bound.flat_at b d hb]; exact congrArg some (congrFun h2 c)
        · rintro ⟨_, _, h⟩
          congr 1
          refine Prod.ext (funext fun c => ?_) (funext fun c => ?_)
          · have := (h c).1
            rw [Bound.flat_at a d ha] at this
            exact Option.some.inj this
          · have := (h c).2
            rw [Bound.flat_at b d hb] at this
            exact Option.some.inj this
      · rw [if_pos (by simp [Bound.flat_fits, hb])]
        simp [hb]
    · rw [if_pos (by simp [Bound.flat_fits, ha])]
      simp [ha]
  match box with
  | [] => simp [normBounds]
  | [a] => simp [normBounds]
  | a :: b :: c :: l => simp [normBounds]
  | [.scalar a, .scalar b] =>
    simp only [normBounds]
    constructor
    · intro h
      injection h with h
      have h1 := congrArg Prod.fst h
      have h2 := congrArg Prod.snd h
      subst h1 h2
      exact ⟨_, _, rfl, trivial, trivial, fun c => ⟨rfl, rfl⟩⟩
    · rintro ⟨a', b', hab, _, _, h⟩
      cases hab
      congr 1
      exact Prod.ext (funext fun c => Option.some.inj (h c).1) (funext fun c => Option.some.inj (h c).2)
  | [.scalar a, .vec l] =>
    simp only [normBounds]
    rw [key]
    constructor
    · intro h; exact ⟨_, _, rfl, h⟩
    · rintro ⟨a', b', hab, h⟩; cases hab; exact h
  | [.vec l, b] =>
    cases b <;>
    · simp only [normBounds]
      rw [key]
      constructor
      · intro h; exact ⟨_, _, rfl, h⟩
      · rintro ⟨a', b', hab, h⟩; cases hab; exact h

/-- Two-dimensional box with a common lower bound. -/
example : normBounds [.scalar 0, .vec [1, 2]] 2 = .ok (fun _ => 0, ![1, 2]) := by
  rw [normBounds_spec]
  refine ⟨_, _, rfl, trivial, Or.inr rfl, fun c => ?_⟩
  fin_cases c <;> simp [Bound.at]

example : normBounds [.scalar 0, .vec [1, 2, 3]] 2 = .error .valueError := by
  simp [normBounds, tile1, Bound.flat]

/-- **C60** An accepted preconditioner is positive, at least the jitter, and the
given diagonal wherever this exceeds the jitter. -/
theorem precond_spec {diag : List ℝ} {jitter : ℝ} {p : Pt d}
    (h : precond (some diag) d jitter = .ok p) (c : Fin d) :
    0 < p c ∧ jitter ≤ p c ∧
      ∃ a ∈ diag, 0 < a ∧ Bound.at (.vec diag) d c = some a ∧ p c = max a jitter := by
  simp only [precond] at h
  by_cases h1 : (tile1 d diag).length ≠ d
  · rw [if_pos h1] at h; cases h
  rw [if_neg h1] at h
  by_cases h2 : ∃ a ∈ tile1 d diag, a ≤ 0
  · rw [if_pos h2] at h; cases h
  rw [if_neg h2] at h
  cases h
  push Not at h1 h2
  have hc : (tile1 d diag).getD c 0 ∈ tile1 d diag := by
    rw [List.getD_eq_getElem?_getD, List.getElem?_eq_getElem (by rw [h1]; exact c.2)]
    exact List.getElem_mem _
  have hp := h2 _ hc
  refine ⟨lt_max_of_lt_left hp, le_max_right _ _, _, ?_, hp, tile1_getD d diag h1 c, rfl⟩
  match diag, hc with
  | [], hc => exact hc
  | [a], hc => simp [tile1]
  | a :: b :: l, hc => exact hc

/-- **C60** No preconditioner means no scaling. -/
theorem precond_none (jitter : ℝ) : precond none d jitter = .ok fun _ => 1 := rfl

/-- **C60** A diagonal is refused exactly when its length is wrong or it has a
nonpositive entry. -/
theorem precond_refuses (diag : List ℝ) (jitter : ℝ) (hd : 0 < d) :
    (∃ e, precond (some diag) d jitter = .error e) ↔
      (diag.length ≠ 1 ∧ diag.length ≠ d) ∨ ∃ a ∈ diag, a ≤ 0 := by
  simp only [precond]
  by_cases h1 : (tile1 d diag).length ≠ d
  · rw [if_pos h1]
    have := mt (tile1_length d diag).mpr h1
    push Not at this
    simp [this]
  · rw [if_neg h1]
    push Not at h1
    have hm : (∃ a ∈ tile1 d diag, a ≤ 0) ↔ ∃ a ∈ diag, a ≤ 0 := by
      match diag with
      | [] => rfl
      | [a] => simp [tile1, hd.ne']
      | a :: b :: l => rfl
    have hl := (tile1_length d diag).mp h1
    by_cases h2 : ∃ a ∈ tile1 d diag, a ≤ 0
    · rw [if_pos h2]
      simp only [Except.error.injEq, exists_eq', true_iff]
      exact Or.inr (hm.mp h2)
    · rw [if_neg h2]
      simp only [reduceCtorEq, exists_false, false_iff]
      rintro (h | h)
      · rcases hl with h' | h'
        · exact h.1 h'
        · exact h.2 h'
      · exact h2 (hm.mpr h)

/-! ## Kernel -/

theorem sqDist_eq (x : Pts n d) (i j : Fin n) : sqDist x i j = dist2 (x i) (x j) := by
  unfold sqDist dist2
  exact Finset.sum_congr rfl fun c _ => by ring

theorem dist2_comm (a b : Pt d) : dist2 a b = dist2 b a :=
  Finset.sum_congr rfl fun c _ => by ring

theorem dist2_nonneg (a b : Pt d) : 0 ≤ dist2 a b := Finset.sum_nonneg fun c _ => sq_nonneg _

theorem dist2_self (a : Pt d) : dist2 a a = 0 := by simp [dist2]

theorem dist2_eq_zero {a b : Pt d} : dist2 a b = 0 ↔ a = b := by
  constructor
  · intro h
    rw [dist2, Finset.sum_eq_zero_iff_of_nonneg fun c _ => sq_nonneg _] at h
    funext c
    have := h c (Finset.mem_univ _)
    exact sub_eq_zero.mp (pow_eq_zero_iff (two_ne_zero) |>.mp this)
  · rintro rfl; exact dist2_self a

theorem mem_posSq (x : Pts n d) (s : ℝ) :
    s ∈ posSq x ↔ 0 < s ∧ ∃ i j, s = dist2 (x i) (x j) := by
  simp only [posSq, List.mem_filter, List.mem_flatMap, List.mem_finRange, List.mem_map, true_and,
    decide_eq_true_eq]
  constructor
  · rintro ⟨⟨i, j, rfl⟩, h⟩
    exact ⟨h, i, j, sqDist_eq x i j⟩
  · rintro ⟨h, i, j, rfl⟩
    exact ⟨⟨i, j, sqDist_eq x i j⟩, h⟩

/-- Half-level quantile of a nonempty list lies between its extremes. -/
theorem percentile_half_pos (l : List ℝ) (hl : l ≠ []) (hp : ∀ a ∈ l, 0 < a) :
    ∃ m, Data.percentile l (50 / 100) = .ok m ∧ 0 < m := by
  refine ⟨_, Data.percentile_eq l hl _, ?_⟩
  have h1 : (1 : ℝ) ≤ l.length := by exact_mod_cast List.length_pos_iff.mpr hl
  obtain ⟨a, _, c⟩ := Data.interp_bounds l (50 / 100 * ((l.length : ℝ) - 1)) (by linarith) (by linarith)
  exact lt_of_lt_of_le (hp _ (Data.sortCol_mem l c)) a

/-- The bandwidth before safeguards. -/
noncomputable def raw (o : KOpts) (x : Pts n d) : ℝ :=
  match rawBandwidth o x with
  | .ok r => r
  | .error _ => 0

theorem raw_ok (o : KOpts) (x : Pts n d) : rawBandwidth o x = .ok (raw o x) := by
  unfold raw
  cases h : rawBandwidth o x with
  | ok r => rfl
  | error e =>
    exfalso
    unfold rawBandwidth at h
    cases hb : o.bandwidth with
    | some b => rw [hb] at h; cases h
    | none =>
      rw [hb] at h
      dsimp only at h
      by_cases hp : posSq x = []
      · rw [if_pos hp] at h; cases h
      · rw [if_neg hp] at h
        obtain ⟨m, hm, _⟩ := percentile_half_pos (posSq x) hp fun a ha => ((mem_posSq x a).mp ha).1
        rw [hm] at h; cases h

/-- The bandwidth of the kernel. -/
noncomputable def bw (o : KOpts) (x : Pts n d) : ℝ := guardBandwidth o (raw o x)

/-- **C60** The kernel is refused exactly for a nonpositive scale or lower bound;
otherwise it is the Gaussian kernel of the reported bandwidth. -/
theorem rbf_ok (o : KOpts) (x : Pts n d) (k : Fin n → Fin n → ℝ) (h : ℝ) :
    rbf o x = .ok (k, h) ↔ 0 < o.scale ∧ (∀ m ∈ o.bmin, 0 < m) ∧ h = bw o x ∧
      ∀ i j, k i j = gauss h (x i) (x j) := by
  unfold rbf
  by_cases h1 : o.scale ≤ 0
  · rw [if_pos h1]
    constructor
    · intro hh; cases hh
    · rintro ⟨h', _⟩; linarith
  rw [if_neg h1]
  by_cases h2 : ∃ m ∈ o.bmin, m ≤ 0
  · simp only [if_pos h2]
    constructor
    · intro hh; cases hh
    · rintro ⟨_, h', _⟩
      obtain ⟨m, hm, hm'⟩ := h2
      have := h' m hm
      linarith
  simp only [if_neg h2]
  rw [raw_ok]
  push Not at h1 h2
  have e : ∀ i j, Real.exp (-sqDist x i j / bw o x) = gauss (bw o x) (x i) (x j) := by
    intro i j
    rw [sqDist_eq]; rfl
  constructor
  · intro hh
    injection hh with hh
    have hk := congrArg Prod.fst hh
    have hh' := congrArg Prod.snd hh
    dsimp only at hk hh'
    refine ⟨h1, h2, hh'.symm, fun i j => ?_⟩
    rw [← hk, ← hh']
    exact e i j
  · rintro ⟨_, _, rfl, hk⟩
    refine congrArg Except.ok (Prod.ext (funext fun i => funext fun j => ?_) rfl)
    exact (e i j).trans (hk i j).symm

/-- Value of the bandwidth before safeguards: the given one, the scale when all the
particles coincide, or the scaled median of the positive squared distances. -/
theorem raw_fixed {o : KOpts} {b : ℝ} (h : o.bandwidth = some b) (x : Pts n d) :
    raw o x = o.scale * b := by
  have := raw_ok o x
  unfold rawBandwidth at this
  rw [h] at this
  injection this with this
  exact this.symm

theorem raw_median {o : KOpts} (h : o.bandwidth = none) (x : Pts n d) (hx : posSq x ≠ []) {m : ℝ}
    (hm : Data.percentile (posSq x) (50 / 100) = .ok m) :
    raw o x = o.scale * m / Real.log ((n : ℝ) + 1) := by
  have := raw_ok o x
  unfold rawBandwidth at this
  rw [h] at this
  dsimp only at this
  rw [if_neg hx, hm] at this
  injection this with this
  have hn : 0 < n := by
    rcases Nat.eq_zero_or_pos n with rfl | h
    · exact absurd (by simp [posSq]) hx
    · exact h
  have hlog : 0 < Real.log ((n : ℝ) + 1) := by
    apply Real.log_pos
    have : (1 : ℝ) ≤ n := by exact_mod_cast hn
    linarith
  rw [if_neg (not_le.mpr hlog)] at this
  exact this.symm

theorem raw_coincide {o : KOpts} (h : o.bandwidth = none) (x : Pts n d) (hx : posSq x = []) :
    raw o x = o.scale := by
  have := raw_ok o x
  unfold rawBandwidth at this
  rw [h] at this
  dsimp only at this
  rw [if_pos hx] at this
  injection this with this
  exact this.symm

/-- **C60** The bandwidth is positive, and not below the requested minimum. -/
theorem bandwidth_pos {o : KOpts} {x : Pts n d} {k : Fin n → Fin n → ℝ} {h : ℝ}
    (hj : 0 ≤ o.jitter) (hr : rbf o x = .ok (k, h)) : 0 < h ∧ ∀ m ∈ o.bmin, m ≤ h := by
  obtain ⟨hs, hm, rfl, _⟩ := (rbf_ok o x k h).mp hr
  unfold bw guardBandwidth
  have h' : 0 < (if raw o x ≤ o.jitter then max o.scale o.jitter else raw o x) := by
    split_ifs with hc
    · exact lt_max_of_lt_left hs
    · push Not at hc; linarith
  cases hb : o.bmin with
  | none => exact ⟨h', by simp⟩
  | some m =>
    refine ⟨lt_max_of_lt_left h', ?_⟩
    intro m' hm'
    cases hm'
    exact le_max_right _ _

theorem gauss_self (h : ℝ) (a : Pt d) : gauss h a a = 1 := by simp [gauss]

theorem gauss_comm (h : ℝ) (a b : Pt d) : gauss h a b = gauss h b a := by
  unfold gauss
  have : ∑ c, (a c - b c) ^ 2 = ∑ c, (b c - a c) ^ 2 := dist2_comm a b
  rw [this]

theorem gauss_pos (h : ℝ) (a b : Pt d) : 0 < gauss h a b := Real.exp_pos _

theorem gauss_le_one {h : ℝ} (hh : 0 < h) (a b : Pt d) : gauss h a b ≤ 1 := by
  unfold gauss
  rw [Real.exp_le_one_iff]
  exact div_nonpos_of_nonpos_of_nonneg (neg_nonpos.mpr (dist2_nonneg a b)) hh.le

theorem gauss_lt_one {h : ℝ} (hh : 0 < h) {a b : Pt d} (hab : a ≠ b) : gauss h a b < 1 := by
  unfold gauss
  rw [Real.exp_lt_one_iff]
  have : 0 < dist2 a b := lt_of_le_of_ne (dist2_nonneg a b) fun e => hab (dist2_eq_zero.mp e.symm)
  exact div_neg_of_neg_of_pos (neg_neg_of_pos this) hh

/-- **C60** The kernel matrix is symmetric with a unit diagonal, its entries are in
`(0, 1]`, and equal to 1 only for coinciding particles. -/
theorem kernel_spec {o : KOpts} {x : Pts n d} {k : Fin n → Fin n → ℝ} {h : ℝ}
    (hj : 0 ≤ o.jitter) (hr : rbf o x = .ok (k, h)) (i j : Fin n) :
    k i j = k j i ∧ k i i = 1 ∧ 0 < k i j ∧ k i j ≤ 1 ∧ (k i j = 1 ↔ x i = x j) := by
  obtain ⟨hh, _⟩ := bandwidth_pos hj hr
  obtain ⟨_, _, _, hk⟩ := (rbf_ok o x k h).mp hr
  simp only [hk]
  refine ⟨gauss_comm _ _ _, gauss_self _ _, gauss_pos _ _ _, gauss_le_one hh _ _, ?_, ?_⟩
  · intro e
    by_contra hne
    exact (gauss_lt_one hh hne).ne e
  · intro e; rw [e, gauss_self]

theorem kernel_quad {o : KOpts} {x : Pts n d} {k : Fin n → Fin n → ℝ} {h : ℝ}
    (hr : rbf o x = .ok (k, h)) (v : Fin n → ℝ) :
    v ⬝ᵥ ((Matrix.of k) *ᵥ v) = ∑ i, ∑ j, v i * v j * Real.exp (-PD.sq (x i) (x j) / h) := by
  obtain ⟨_, _, _, hk⟩ := (rbf_ok o x k h).mp hr
  simp only [dotProduct, Matrix.mulVec, Matrix.of_apply, Finset.mul_sum, hk]
  refine Finset.sum_congr rfl fun i _ => Finset.sum_congr rfl fun j _ => ?_
  change v i * (gauss h (x i) (x j) * v j) = v i * v j * gauss h (x i) (x j)
  ring

/-- **C60** The kernel matrix is positive semidefinite, and positive definite when the
particles are distinct. -/
theorem kernel_posDef {o : KOpts} {x : Pts n d} {k : Fin n → Fin n → ℝ} {h : ℝ}
    (hj : 0 ≤ o.jitter) (hr : rbf o x = .ok (k, h)) :
    (Matrix.of k).PosSemidef ∧ (Function.Injective x → (Matrix.of k).PosDef) := by
  obtain ⟨hh, _⟩ := bandwidth_pos hj hr
  have hsym : (Matrix.of k)ᵀ = Matrix.of k := by
    ext i j
    exact (kernel_spec hj hr j i).1
  refine ⟨Core.posSemidef_of_quad hsym fun v => ?_, fun hx => Core.posDef_of_quad hsym fun v hv => ?_⟩
  · rw [kernel_quad hr]; exact PD.gauss_quad_nonneg x hh v
  · rw [kernel_quad hr]; exact PD.gauss_quad_pos x hx hh hv

/-- Two particles at distance one. -/
example : rbf (n := 2) (d := 1) ⟨some 2, 1, none, 0⟩ (fun i _ => i) =
    .ok (fun i j => gauss 2 (fun _ : Fin 1 => ((i : ℕ) : ℝ)) (fun _ => ((j : ℕ) : ℝ)), 2) := by
  rw [rbf_ok]
  refine ⟨by norm_num, by simp, ?_, fun i j => rfl⟩
  unfold bw
  rw [raw_fixed rfl]
  norm_num [guardBandwidth]

/-- **C60** A negative `jitter` (it is not checked) lets a negative bandwidth through, and
then the kernel exceeds 1. -/
theorem kernel_range_false : ∃ (o : KOpts) (x : Pts 2 1) (k : Fin 2 → Fin 2 → ℝ) (h : ℝ),
    rbf o x = .ok (k, h) ∧ h < 0 ∧ 1 < k 0 1 := by
  refine ⟨⟨some (-1), 1, none, -2⟩, fun i _ => i,
    fun i j => gauss (-1) (fun _ : Fin 1 => ((i : ℕ) : ℝ)) (fun _ => ((j : ℕ) : ℝ)), -1, ?_,
    by norm_num, ?_⟩
  · rw [rbf_ok]
    refine ⟨by norm_num, by simp, ?_, fun i j => rfl⟩
    unfold bw
    rw [raw_fixed rfl]
    norm_num [guardBandwidth]
  · unfold gauss
    rw [Real.one_lt_exp_iff]
    norm_num

/-! ## The step -/

theorem normBox_none : normBox none d = .ok none := rfl

theorem normBox_some (b : List Bound) (r : Option (Pt d × Pt d)) :
    normBox (some b) d = .ok r ↔ ∃ p, normBounds b d = .ok p ∧ r = some p := by
  unfold normBox
  cases h : normBounds b d with
  | error e => simp [h, bind, Except.bind]
  | ok p =>
    simp only [h, bind, Except.bind, pure, Except.pure]
    constructor
    · intro h'; injection h' with h'; exact ⟨p, rfl, h'.symm⟩
    · rintro ⟨p', hp, rfl⟩; injection hp with hp; rw [hp]

/-- When a step succeeds, and what it returns. -/
theorem step_ok (vg : ValGrad d) (f : LogProb d) (o : StepOpts) (x0 : Pts n d)
    (r : Pts n d × StepInfo n d) :
    step vg f o x0 = .ok r ↔ 0 < o.stepSize ∧ 0 < o.temperature ∧ 0 < n ∧
      ∃ b pre k0 h, normBox o.box d = .ok b ∧ precond o.precondDiag d o.jitter = .ok pre ∧
        rbf o.toKOpts (fun i => project b (x0 i)) = .ok (k0, h) ∧
        r = stepFrom vg f o b pre (fun i => project b (x0 i)) k0 h := by
  unfold step
  by_cases h1 : o.stepSize ≤ 0
  · rw [if_pos h1]
    constructor
    · intro h; cases h
    · rintro ⟨h, _⟩; linarith
  by_cases h2 : o.temperature ≤ 0
  · rw [if_neg h1, if_pos h2]
    constructor
    · intro h; cases h
    · rintro ⟨_, h, _⟩; linarith
  rw [if_neg h1, if_neg h2]
  push Not at h1 h2
  cases hb : normBox o.box d with
  | error e =>
    constructor
    · intro h; cases h
    · rintro ⟨_, _, _, b, _, _, _, h, _⟩; cases h
  | ok b =>
    dsimp only [bind, Except.bind, pure, Except.pure]
    cases hp : precond o.precondDiag d o.jitter with
    | error e =>
      constructor
      · intro h; cases h
      · rintro ⟨_, _, _, b, _, _, _, _, h, _⟩; cases h
    | ok pre =>
      dsimp only
      by_cases hn : n = 0
      · rw [if_pos hn]
        constructor
        · intro h; cases h
        · rintro ⟨_, _, h, _⟩; omega
      · rw [if_neg hn]
        cases hr : rbf o.toKOpts (fun i => project b (x0 i)) with
        | error e =>
          constructor
          · intro h; cases h
          · rintro ⟨_, _, _, b', _, _, _, hb', _, h, _⟩
            injection hb' with hb'
            subst hb'
            rw [hr] at h; cases h
        | ok kh =>
          constructor
          · intro h
            injection h with h
            exact ⟨h1, h2, Nat.pos_of_ne_zero hn, b, pre, kh.1, kh.2, rfl, rfl, hr, h.symm⟩
          · rintro ⟨_, _, _, b', pre', k0, h, hb', hp', hr', rfl⟩
            injection hb' with hb'
            subst hb'
            injection hp' with hp'
            subst hp'
            rw [hr] at hr'
            injection hr' with hr'
            subst hr'
            rfl

/-- **C60** A step succeeds exactly when its arguments are valid; a log-density that raises
never makes it fail. -/
theorem step_succeeds (vg : ValGrad d) (f : LogProb d) (o : StepOpts) (x0 : Pts n d) :
    (∃ y info, step vg f o x0 = .ok (y, info)) ↔
      0 < o.stepSize ∧ 0 < o.temperature ∧ 0 < n ∧ (∃ b, normBox o.box d = .ok b) ∧
        (∃ p, precond o.precondDiag d o.jitter = .ok p) ∧ 0 < o.scale ∧ ∀ m ∈ o.bmin, 0 < m := by
  constructor
  · rintro ⟨y, info, h⟩
    obtain ⟨h1, h2, h3, b, pre, k0, hh, hb, hp, hk, _⟩ := (step_ok vg f o x0 _).mp h
    obtain ⟨h4, h5, _⟩ := (rbf_ok _ _ _ _).mp hk
    exact ⟨h1, h2, h3, ⟨b, hb⟩, ⟨pre, hp⟩, h4, h5⟩
  · rintro ⟨h1, h2, h3, ⟨b, hb⟩, ⟨pre, hp⟩, h4, h5⟩
    have hk := (rbf_ok o.toKOpts (fun i => project b (x0 i))
      (fun i j => gauss (bw o.toKOpts fun i => project b (x0 i)) (project b (x0 i)) (project b (x0 j)))
      (bw o.toKOpts fun i => project b (x0 i))).mpr ⟨h4, h5, rfl, fun i j => rfl⟩
    have := (step_ok vg f o x0 (stepFrom vg f o b pre (fun i => project b (x0 i)) _ _)).mpr
      ⟨h1, h2, h3, b, pre, _, _, hb, hp, hk, rfl⟩
    exact ⟨_, _, this⟩

/-- **C60** After a successful step every particle is in the box. -/
theorem step_in_box {vg : ValGrad d} {f : LogProb d} {o : StepOpts} {x0 y : Pts n d}
    {info : StepInfo n d} {box : List Bound} {lo hi : Pt d} (hbox : o.box = some box)
    (hn : normBounds box d = .ok (lo, hi)) (hle : ∀ c, lo c ≤ hi c)
    (h : step vg f o x0 = .ok (y, info)) (i : Fin n) : InBox lo hi (y i) := by
  obtain ⟨_, _, _, b, pre, k0, hh, hb, _, _, hr⟩ := (step_ok vg f o x0 _).mp h
  rw [hbox, normBox_some] at hb
  obtain ⟨p, hp, rfl⟩ := hb
  rw [hn] at hp
  cases hp
  have : y = _ := congrArg Prod.fst hr
  rw [this]
  exact project_mem hle _

end Verif.SVGD
