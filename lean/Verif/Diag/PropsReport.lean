import Verif.Diag.Report
import Verif.Misc.PropsFrameOps
import Verif.Misc.PropsDesigns
import Verif.Diag.PropsParamStats
import Verif.Param.Props
import Mathlib.Tactic.Linarith
import Mathlib.Tactic.Positivity
import Mathlib.Tactic.FieldSimp

/-!
# Properties of descriptions and of the report
-/

set_option autoImplicit false

namespace Verif.Report

open Verif

/-! ## Names -/

theorem toString_inj {a b : ℕ} (h : toString a = toString b) : a = b := by
  have h1 : Nat.toDigits 10 a = Nat.toDigits 10 b := by
    have := congrArg String.toList h
    simpa [Nat.toString_eq_repr, Nat.toList_repr] using this
  have := congrArg (fun l => Nat.ofDigitChars 10 l 0) h1
  simpa [Nat.ofDigitChars_ten_toDigits] using this

theorem append_inj {p a b : String} (h : p ++ a = p ++ b) : a = b := by
  have := congrArg String.toList h
  simp only [String.toList_append] at this
  exact String.toList_injective (List.append_cancel_left this)

theorem names_nodup (p : String) (d : ℕ) : ((List.range d).map fun i => p ++ toString i).Nodup :=
  List.Nodup.map (fun _ _ h => toString_inj (append_inj h)) List.nodup_range

theorem rho_ne {p : String} {s : String} (h : (p.toList.head?) ≠ s.toList.head?) (hp : p ≠ "") (i : ℕ) :
    s ≠ p ++ toString i := by
  intro he
  apply h
  rw [he, String.toList_append]
  cases hq : p.toList with
  | nil => exact absurd (String.toList_injective (by simpa using hq)) hp
  | cons a l => rfl

/-! ## Specification -/

/-- Least and greatest entry, mean and standard deviation of a list of numbers. -/
structure Descr (c : List ℝ) (lo hi m s : ℝ) : Prop where
  lo_mem : lo ∈ c
  hi_mem : hi ∈ c
  range : ∀ a ∈ c, lo ≤ a ∧ a ≤ hi
  mean : m * c.length = c.sum
  std_nonneg : 0 ≤ s
  std : s ^ 2 * c.length = (c.map fun a => (a - m) ^ 2).sum

/-- These numbers are determined. -/
theorem Descr.unique {c : List ℝ} {lo hi m s lo' hi' m' s' : ℝ} (h : Descr c lo hi m s) (h' : Descr c lo' hi' m' s') :
    lo = lo' ∧ hi = hi' ∧ m = m' ∧ s = s' := by
  have hl : (0 : ℝ) < c.length := by exact_mod_cast List.length_pos_of_mem h.lo_mem
  have hm : m = m' := mul_right_cancel₀ hl.ne' (h.mean.trans h'.mean.symm)
  subst hm
  refine ⟨le_antisymm (h.range _ h'.lo_mem).1 (h'.range _ h.lo_mem).1,
    le_antisymm (h'.range _ h.hi_mem).2 (h.range _ h'.hi_mem).2, rfl, ?_⟩
  have := mul_right_cancel₀ hl.ne' (h.std.trans h'.std.symm)
  exact (pow_left_inj₀ h.std_nonneg h'.std_nonneg two_ne_zero).mp this

theorem sum_le_of {c : List ℝ} {f g : ℝ → ℝ} (h : ∀ a ∈ c, f a ≤ g a) : (c.map f).sum ≤ (c.map g).sum :=
  List.sum_le_sum h

theorem sum_const (c : List ℝ) (k : ℝ) : (c.map fun _ => k).sum = k * c.length := by
  induction c with
  | nil => simp
  | cons a c ih => simp [ih]; ring

/-- **C156** The mean lies between the extremes, and the standard deviation is at most half their
distance. -/
theorem Descr.bounds {c : List ℝ} {lo hi m s : ℝ} (h : Descr c lo hi m s) :
    lo ≤ m ∧ m ≤ hi ∧ s ≤ (hi - lo) / 2 := by
  have hl : (0 : ℝ) < c.length := by exact_mod_cast List.length_pos_of_mem h.lo_mem
  have hs : c.sum = (c.map fun a => a).sum := by simp
  have h1 : lo * c.length ≤ m * c.length := by
    rw [h.mean, hs, ← sum_const]; exact sum_le_of fun a ha => (h.range a ha).1
  have h2 : m * c.length ≤ hi * c.length := by
    rw [h.mean, hs, ← sum_const]; exact sum_le_of fun a ha => (h.range a ha).2
  have h1 := le_of_mul_le_mul_right h1 hl
  have h2 := le_of_mul_le_mul_right h2 hl
  refine ⟨h1, h2, ?_⟩
  -- Bhatia-Davis: the sum of (a - m)^2 is at most n (hi - m) (m - lo)
  have h3 : s ^ 2 * c.length ≤ (hi - m) * (m - lo) * c.length := by
    have e : ∀ c : List ℝ, (c.map fun a => (hi - m) * (m - lo) + (hi + lo - 2 * m) * (a - m)).sum =
        (hi - m) * (m - lo) * c.length + (hi + lo - 2 * m) * (c.sum - m * c.length) := by
      intro c
      induction c with
      | nil => simp
      | cons a c ih => simp only [List.map_cons, List.sum_cons, ih, List.length_cons]; push_cast; ring
    have := sum_le_of (c := c) (f := fun a => (a - m) ^ 2)
      (g := fun a => (hi - m) * (m - lo) + (hi + lo - 2 * m) * (a - m)) (fun a ha => by
        obtain ⟨p, q⟩ := h.range a ha
        nlinarith [mul_nonneg (sub_nonneg.mpr p) (sub_nonneg.mpr q)])
    rw [h.std]
    rw [e, ← h.mean] at this
    linarith
  have h4 := le_of_mul_le_mul_right h3 hl
  apply abs_le_of_sq_le_sq' _ (by linarith) |>.2
  nlinarith [sq_nonneg (hi + lo - 2 * m)]

/-- **C156** The row of statistics of a column. -/
theorem describeCol_spec (c : List ℝ) :
    (c = [] → describeCol c = .error .valueError) ∧
    (c ≠ [] → ∃ lo hi m s, Descr c lo hi m s ∧ describeCol c = .ok [lo, hi, hi - lo, m, s]) := by
  refine ⟨fun h => by subst h; rfl, fun h => ?_⟩
  cases c with
  | nil => exact absurd rfl h
  | cons a l =>
    obtain ⟨n1, n2, n3⟩ := Designs.foldl_min_spec l a
    obtain ⟨x1, x2, x3⟩ := Designs.foldl_max_spec l a
    have hl : (0 : ℝ) < (a :: l).length := by simp; positivity
    refine ⟨l.foldl min a, l.foldl max a, mean (a :: l), std (a :: l), ⟨?_, ?_, ?_, ?_, Real.sqrt_nonneg _, ?_⟩, rfl⟩
    · rcases n1 with h | h
      · rw [h]; exact List.mem_cons_self
      · exact List.mem_cons_of_mem _ h
    · rcases x1 with h | h
      · rw [h]; exact List.mem_cons_self
      · exact List.mem_cons_of_mem _ h
    · intro b hb
      rcases List.mem_cons.mp hb with rfl | hb
      · exact ⟨n2, x2⟩
      · exact ⟨n3 b hb, x3 b hb⟩
    · exact div_mul_cancel₀ _ hl.ne'
    · have h0 : 0 ≤ ((a :: l).map fun x => (x - mean (a :: l)) ^ 2).sum :=
        List.sum_nonneg fun x hx => by
          obtain ⟨y, _, rfl⟩ := List.mem_map.mp hx
          exact sq_nonneg _
      have hl' : (((a :: l).map fun x => (x - mean (a :: l)) ^ 2).length : ℝ) = (a :: l).length := by simp
      unfold std
      rw [Real.sq_sqrt (by rw [mean]; exact div_nonneg h0 (by positivity))]
      rw [mean, hl']
      exact div_mul_cancel₀ _ hl.ne'

/-- The columns: one for a vector; those of the array otherwise. -/
theorem columns_spec (x : Data) :
    (∀ a, x = .scalar a → x.columns = .error .indexError) ∧
    (∀ l, x = .vec l → x.columns = .ok [l]) ∧
    (∀ d rows, x = .mat d rows → (∀ r ∈ rows, r.length = d) → ∃ cols, x.columns = .ok cols ∧ cols.length = d ∧
      (∀ c ∈ cols, c.length = rows.length) ∧
      ∀ (i j : ℕ) (a : ℝ), (cols[j]?.bind fun c => c[i]?) = some a ↔ (rows[i]?.bind fun r => r[j]?) = some a) := by
  refine ⟨fun a h => by subst h; rfl, fun l h => by subst h; rfl, ?_⟩
  rintro d rows rfl hr
  refine ⟨_, rfl, by simp, ?_, ?_⟩
  · intro c hc
    obtain ⟨j, _, rfl⟩ := List.mem_map.mp hc
    simp
  · intro i j a
    by_cases hj : j < d
    · rw [List.getElem?_map, List.getElem?_range hj]
      simp only [Option.map_some, Option.bind_some, List.getElem?_map]
      cases hi : rows[i]? with
      | none => simp
      | some r =>
        have : j < r.length := by rw [hr r (List.mem_of_getElem? hi)]; exact hj
        simp [this]
    · constructor
      · intro h
        rw [List.getElem?_eq_none (by simp; omega)] at h
        cases h
      · intro h
        cases hi : rows[i]? with
        | none => rw [hi] at h; cases h
        | some r =>
          rw [hi] at h
          have : r[j]? = none := List.getElem?_eq_none (by rw [hr r (List.mem_of_getElem? hi)]; omega)
          rw [Option.bind_some, this] at h
          cases h

/-- The row of a column in the table. -/
def RowOf (c : List ℝ) (r : List Flt) : Prop :=
  ∃ lo hi m s, Descr c lo hi m s ∧ r = [.fin lo, .fin hi, .fin (hi - lo), .fin m, .fin s]

/-- The row with a last entry. -/
def RowOfF (c : List ℝ) (f : Flt) (r : List Flt) : Prop :=
  ∃ lo hi m s, Descr c lo hi m s ∧
    r = [.fin lo, .fin hi, .fin (hi - lo), .fin m, .fin s, (Flt.fin (hi - lo)).mul f]

theorem rows_ok (cols : List (List ℝ)) (h : ∀ c ∈ cols, c ≠ []) :
    ∃ rows, cols.mapM describeCol = .ok rows ∧ List.Forall₂ (fun c r => ∃ lo hi m s, Descr c lo hi m s ∧
      r = [lo, hi, hi - lo, m, s]) cols rows := by
  induction cols with
  | nil => exact ⟨[], rfl, .nil⟩
  | cons c cols ih =>
    obtain ⟨rows, h1, h2⟩ := ih fun c hc => h c (List.mem_cons_of_mem _ hc)
    obtain ⟨lo, hi, m, s, hd, he⟩ := (describeCol_spec c).2 (h c List.mem_cons_self)
    refine ⟨_ :: rows, ?_, .cons ⟨lo, hi, m, s, hd, rfl⟩ h2⟩
    rw [List.mapM_cons, he, h1]
    rfl

theorem rows_error (cols : List (List ℝ)) (h : [] ∈ cols) : cols.mapM describeCol = .error .valueError := by
  induction cols with
  | nil => cases h
  | cons c cols ih =>
    rw [List.mapM_cons]
    by_cases hc : c = []
    · subst hc; rfl
    · obtain ⟨lo, hi, m, s, _, he⟩ := (describeCol_spec c).2 hc
      rw [he, ih ((List.mem_cons.mp h).resolve_left fun e => hc e.symm)]
      rfl

/-- **C156** `describe_array`: one row for each column, in order, with the least and greatest
entries, their difference, the mean and the standard deviation; then the difference times the
factor of the row.  An empty column, or factors of another number, raise `ValueError`. -/
theorem describe_spec (h : DataFrame.Heap) (x : Data) (rn : ℕ) {cols : List (List ℝ)} (hc : x.columns = .ok cols) :
    ([] ∈ cols → ∀ sf, describe h x rn sf = .error .valueError) ∧
    ([] ∉ cols →
      (∃ f h' rows, describe h x rn none = .ok (f, h') ∧ f.data = .mat 5 rows ∧ f.rows = rn ∧
        h'.get f.cols = ["min", "max", "delta", "mean", "std"] ∧ (∀ r < h.next, h'.get r = h.get r) ∧
        h'.next = h.next + 1 ∧ f.cols = h.next ∧
        List.Forall₂ RowOf cols rows) ∧
      (∀ s, s.length ≠ cols.length → describe h x rn (some (.array s)) = .error .valueError) ∧
      ∀ sf s, ((∃ a, sf = .scalar a ∧ s = List.replicate cols.length a) ∨ (sf = .array s ∧ s.length = cols.length)) →
        ∃ f h' rows, describe h x rn (some sf) = .ok (f, h') ∧ f.data = .mat 6 rows ∧ f.rows = rn ∧
          h'.get f.cols = ["min", "max", "delta", "mean", "std", "delta_over_sigma"] ∧
          (∀ r < h.next, h'.get r = h.get r) ∧ h'.next = h.next + 1 ∧ f.cols = h.next ∧
          rows.length = cols.length ∧
          ∀ (j : ℕ) (c : List ℝ) (a : Flt), cols[j]? = some c → s[j]? = some a → ∃ r, rows[j]? = some r ∧ RowOfF c a r) := by
  refine ⟨fun he sf => ?_, fun hne => ?_⟩
  · simp only [describe, hc, rows_error cols he, bind, Except.bind]
  obtain ⟨rows, hr, hf⟩ := rows_ok cols fun c hc' e => hne (e ▸ hc')
  refine ⟨?_, ?_, ?_⟩
  · refine ⟨_, _, _, by simp only [describe, hc, hr, bind, Except.bind, pure, Except.pure]; rfl, rfl, rfl, ?_,
      fun r hr => DataFrame.new_old _ _ hr, rfl, rfl, ?_⟩
    · exact DataFrame.new_get _ _
    · rw [List.forall₂_map_right_iff]
      refine hf.imp ?_
      rintro c r ⟨lo, hi, m, s, hd, rfl⟩
      exact ⟨lo, hi, m, s, hd, rfl⟩
  · intro s hs
    simp only [describe, hc, hr, bind, Except.bind, Factor.get, if_pos hs]
  · intro sf s hs
    have hget : sf.get cols.length = .ok s := by
      rcases hs with ⟨a, rfl, rfl⟩ | ⟨rfl, hl⟩
      · rfl
      · simp only [Factor.get, hl, ne_eq, not_true_eq_false, if_false]
    have hl : s.length = cols.length := by
      rcases hs with ⟨a, rfl, rfl⟩ | ⟨rfl, hl⟩
      · simp
      · exact hl
    have hrl := hf.length_eq
    refine ⟨_, _, _, by simp only [describe, hc, hr, hget, bind, Except.bind, pure, Except.pure]; rfl, rfl, rfl, ?_,
      fun r hr => DataFrame.new_old _ _ hr, rfl, rfl, ?_, ?_⟩
    · exact DataFrame.new_get _ _
    · simp [hl, ← hrl]
    · intro j c a hj ha
      obtain ⟨hjl, rfl⟩ := List.getElem?_eq_some_iff.mp hj
      have hjr : j < rows.length := hrl ▸ hjl
      obtain ⟨lo, hi, m, s', hd, he⟩ := List.forall₂_iff_get.mp hf |>.2 j hjl hjr
      simp only [List.get_eq_getElem] at hd he
      refine ⟨_, ?_, lo, hi, m, s', hd, rfl⟩
      rw [List.getElem?_zipWith, ha, List.getElem?_map, List.getElem?_eq_getElem hjr, he]
      rfl

/-- A number has no second axis. -/
theorem describe_scalar (h : DataFrame.Heap) (a : ℝ) (rn : ℕ) (sf : Option Factor) :
    describe h (.scalar a) rn sf = .error .indexError := rfl

/-- The statistics of the numbers 1, 3, 5, 7. -/
example : Descr [1, 3, 5, 7] 1 7 4 (√5) :=
  ⟨by simp, by simp, by intro a ha; simp at ha; rcases ha with rfl | rfl | rfl | rfl <;> norm_num,
    by norm_num, Real.sqrt_nonneg _, by
      rw [Real.sq_sqrt (by norm_num)]; norm_num⟩

example : (Data.mat 2 [[1, 5], [3, 7]]).columns = .ok [[1, 3], [5, 7]] := rfl

/-! ## Covariance parameters -/

/-- **C157** The dictionary holds `sigma = √σ²` and the lengthscales, under distinct keys, and these
are the values of the parameter object built from the same vector; an empty vector raises. -/
theorem sigmaRho_spec (c0 : ℝ) (cs : List ℝ) :
    sigmaRho [] = .error .indexError ∧
    ∃ d, sigmaRho (c0 :: cs) = .ok d ∧ d.length = cs.length + 1 ∧ (d.map Prod.fst).Nodup ∧
      (∃ s, d[0]? = some ("sigma", s) ∧ 0 < s ∧ s ^ 2 = Real.exp c0) ∧
      (∀ (i : ℕ) (c : ℝ), cs[i]? = some c → d[i + 1]? = some ("rho" ++ toString i, 1 / Real.exp c)) ∧
      ∃ p, Param.makeAnisotropic (c0 :: cs) none none "" = .ok p ∧
        p.denormalized = (d.map Prod.snd).set 0 (Real.exp c0) := by
  have hd : sigmaRho (c0 :: cs) = .ok (("sigma", Real.exp (1 / 2 * c0)) ::
      (List.range cs.length).map fun i => ("rho" ++ toString i, Real.exp (-((c0 :: cs).getD (i + 1) 0)))) := rfl
  refine ⟨rfl, _, hd, by simp, ?_, ⟨_, rfl, Real.exp_pos _, ?_⟩, ?_, ?_⟩
  · rw [List.map_cons, List.map_map, List.nodup_cons]
    refine ⟨?_, ?_⟩
    · intro hm
      obtain ⟨i, _, hi⟩ := List.mem_map.mp hm
      exact rho_ne (p := "rho") (s := "sigma") (by decide) (by decide) i hi.symm
    · exact names_nodup "rho" _
  · rw [← Real.exp_nat_mul]; congr 1; push_cast; ring
  · intro i c hi
    obtain ⟨hl, rfl⟩ := List.getElem?_eq_some_iff.mp hi
    simp [hl, Real.exp_neg]
  · obtain ⟨p, hp, hden⟩ : ∃ p, Param.makeAnisotropic (c0 :: cs) none none "" = .ok p ∧
        p.denormalized = Real.exp c0 :: cs.map fun v => Real.exp (-v) := by
      refine ⟨⟨c0 :: cs, (c0 :: cs).length, ["covparam", "variance"] :: List.replicate cs.length ["covparam", "lengthscale"],
        ("" ++ "sigma2") :: (List.range cs.length).map (fun i => "" ++ "rho_" ++ toString i),
        .log :: List.replicate cs.length .logInv, none :: List.replicate cs.length none⟩, ?_, ?_⟩
      · rw [← Param.mkParam_explicit (c0 :: cs) _ _ _ _ "param_" (by simp) (by simp) (by simp) (by simp)]
        unfold Param.makeAnisotropic
        simp
      · have hz : ∀ vs : List ℝ, ((vs.zip (List.replicate vs.length Param.Norm.logInv)).map
            (fun x => Param.denormalize x.1 x.2)) = vs.map (fun v => Real.exp (-v)) := by
          intro vs
          induction vs with
          | nil => rfl
          | cons a vs ih => simp [List.replicate_succ, Param.denormalize] at *; exact ih
        simp only [Param.Param.denormalized, List.zip_cons_cons, List.map_cons, hz]
        rfl
    refine ⟨p, hp, ?_⟩
    rw [hden, List.map_cons, List.set_cons_zero, List.map_map]
    congr 1
    apply List.ext_getElem?
    intro i
    by_cases hi : i < cs.length
    · simp [hi]
    · simp [hi]

/-! ## Projection of the bounds -/

/-- A covariance entry. -/
def IsCov (path : List String) : Bool := decide (path.head? = some "covparam")

/-- What a pair of bounds is stored as. -/
def Stored (b : Flt × Flt) (o : Option (Flt × Flt)) : Prop :=
  (isInf b.1 ∧ isInf b.2 → o = none) ∧ (¬ (isInf b.1 ∧ isInf b.2) → o = some b)

theorem fold_set {β γ : Type} (g : γ → β) (inds : List ℕ) : ∀ (cb : List γ) (bs : List β), inds.Nodup →
    (∀ j, j ∉ inds → ((inds.zip cb).foldl (fun bs e => bs.set e.1 (g e.2)) bs)[j]? = bs[j]?) ∧
    (∀ (k j : ℕ) (c : γ), inds[k]? = some j → cb[k]? = some c → j < bs.length →
      ((inds.zip cb).foldl (fun bs e => bs.set e.1 (g e.2)) bs)[j]? = some (g c)) := by
  induction inds with
  | nil => intro cb bs _; simp
  | cons i inds ih =>
    intro cb bs hnd
    obtain ⟨hi, hnd⟩ := List.nodup_cons.mp hnd
    cases cb with
    | nil => simp
    | cons c cb =>
      obtain ⟨i1, i2⟩ := ih cb (bs.set i (g c)) hnd
      simp only [List.zip_cons_cons, List.foldl_cons]
      refine ⟨fun j hj => ?_, fun k j c' hk hc hj => ?_⟩
      · rw [i1 j fun h => hj (List.mem_cons_of_mem _ h), List.getElem?_set_ne]
        rintro rfl
        exact hj List.mem_cons_self
      · cases k with
        | zero =>
          simp only [List.getElem?_cons_zero, Option.some.injEq] at hk hc
          subst hk; subst hc
          rw [i1 i hi, List.getElem?_set_self hj]
        | succ k =>
          exact i2 k j c' (by simpa using hk) (by simpa using hc) (by simpa using hj)

theorem covInds_spec (paths : List (List String)) :
    (covInds paths).length = paths.countP IsCov ∧ (covInds paths).Nodup ∧
    ∀ (j : ℕ) (pth : List String), paths[j]? = some pth →
      (IsCov pth = true → (covInds paths)[(paths.take j).countP IsCov]? = some j) ∧
      (IsCov pth = false → j ∉ covInds paths) := by
  have hc : ∀ j ≤ paths.length, (paths.take j).countP IsCov =
      ((List.range j).filter fun j => decide ((paths.getD j []).head? = some "covparam")).length := by
    intro j hj
    rw [← List.countP_eq_length_filter]
    have : paths.take j = (List.range j).map fun i => paths.getD i [] := by
      apply List.ext_getElem?
      intro i
      by_cases hi : i < j
      · simp [hi, List.getElem?_take, show i < paths.length by omega]
      · simp [hi, List.getElem?_take]
    rw [this, List.countP_map]
    rfl
  refine ⟨?_, List.nodup_range.filter _, ?_⟩
  · have := hc paths.length le_rfl
    rw [List.take_length] at this
    exact this.symm
  · intro j pth hj
    obtain ⟨hl, rfl⟩ := List.getElem?_eq_some_iff.mp hj
    have hg : paths.getD j [] = paths[j] := by simp [hl]
    refine ⟨fun hcov => ?_, fun hcov hm => ?_⟩
    · have hr : List.range paths.length = List.range j ++ j :: (List.range (paths.length - (j + 1))).map (fun i => j + 1 + i) := by
        have e : paths.length = j + 1 + (paths.length - (j + 1)) := by omega
        conv_lhs => rw [e, List.range_add, List.range_succ]
        simp
      unfold covInds
      rw [hr, List.filter_append, hc j hl.le, List.getElem?_append_right le_rfl, Nat.sub_self]
      have : decide ((paths.getD j []).head? = some "covparam") = true := by rw [hg]; exact hcov
      rw [List.filter_cons_of_pos (p := fun j => decide ((paths.getD j []).head? = some "covparam")) this]
      rfl
    · have := (List.mem_filter.mp hm).2
      simp only [hg] at this
      unfold IsCov at hcov
      rw [hcov] at this
      cases this

/-- **C158** The projection: if there are as many pairs as covariance entries, the k-th covariance
entry gets the k-th pair, `None` when both sides are infinite, and the other entries keep theirs;
otherwise nothing changes.  Names, paths and values never change. -/
theorem applyBounds_spec (p : PObj) (hw : p.bounds.length = p.paths.length) (cb : List (Flt × Flt)) :
    (p.paths.countP IsCov ≠ cb.length → applyBounds p cb = p) ∧
    (applyBounds p cb).names = p.names ∧ (applyBounds p cb).paths = p.paths ∧
    (applyBounds p cb).denorm = p.denorm ∧
    (p.paths.countP IsCov = cb.length → ∀ (j : ℕ) (pth : List String), p.paths[j]? = some pth →
      (IsCov pth = false → (applyBounds p cb).bounds[j]? = p.bounds[j]?) ∧
      (IsCov pth = true → ∃ b o, cb[(p.paths.take j).countP IsCov]? = some b ∧
        (applyBounds p cb).bounds[j]? = some o ∧ Stored b o)) := by
  obtain ⟨c1, c2, c3⟩ := covInds_spec p.paths
  have hne : p.paths.countP IsCov ≠ cb.length → applyBounds p cb = p := fun h => by
    unfold applyBounds; rw [if_pos (by rw [c1]; exact h)]
  refine ⟨hne, ?_, ?_, ?_, ?_⟩
  · unfold applyBounds; dsimp only; split <;> rfl
  · unfold applyBounds; dsimp only; split <;> rfl
  · unfold applyBounds; dsimp only; split <;> rfl
  · intro he j pth hj
    have e : (applyBounds p cb).bounds = ((covInds p.paths).zip cb).foldl (fun bs e =>
        bs.set e.1 ((fun b : Flt × Flt => open Classical in if isInf b.1 ∧ isInf b.2 then none else some b) e.2)) p.bounds := by
      unfold applyBounds
      dsimp only
      rw [if_neg (by rw [c1, he]; simp)]
    obtain ⟨f1, f2⟩ := fold_set (fun b : Flt × Flt => open Classical in if isInf b.1 ∧ isInf b.2 then none else some b)
      (covInds p.paths) cb p.bounds c2
    obtain ⟨g1, g2⟩ := c3 j pth hj
    rw [e]
    refine ⟨fun h => f1 j (g2 h), fun h => ?_⟩
    have hk := g1 h
    have hkl : (p.paths.take j).countP IsCov < cb.length := by
      rw [← he, ← c1]; exact (List.getElem?_eq_some_iff.mp hk).1
    have hjl : j < p.bounds.length := by rw [hw]; exact (List.getElem?_eq_some_iff.mp hj).1
    refine ⟨_, _, List.getElem?_eq_getElem hkl, f2 _ j _ hk (List.getElem?_eq_getElem hkl) hjl, ?_, ?_⟩
    · intro hi; exact if_pos hi
    · intro hi; exact if_neg hi

/-- **C158** The bounds used for the covariance entries are the rows that follow those of the mean
parameters; a missing, malformed or too short array changes nothing; without a parameter object, an
unknown model type raises `ValueError`. -/
theorem init_spec (ty : String) (cov : List ℝ) (mp : Option (List ℝ)) (q : PObj) :
    (∀ b, ty ≠ "linear_mean_matern_anisotropic" → ty ≠ "linear_mean_matern_anisotropic_noisy" →
      init ty cov mp b none = .error .valueError) ∧
    init ty cov mp none (some q) = .ok q ∧ init ty cov mp (some .other) (some q) = .ok q ∧
    (∀ l, l.length < (mp.getD []).length + cov.length → init ty cov mp (some (.pairs l)) (some q) = .ok q) ∧
    (∀ l, (mp.getD []).length + cov.length ≤ l.length → ∃ cb, cb.length = cov.length ∧
      (∀ k < cov.length, cb[k]? = l[(mp.getD []).length + k]?) ∧
      init ty cov mp (some (.pairs l)) (some q) = .ok (applyBounds q cb)) ∧
    ∀ b r, build ty cov = .ok r → init ty cov mp b none = init ty cov mp b (some r) := by
  refine ⟨fun b h1 h2 => ?_, rfl, rfl, fun l hl => ?_, fun l hl => ?_, fun b r hr => ?_⟩
  · simp only [init, build, if_neg h1, if_neg h2, bind, Except.bind]
  · simp only [init, bind, Except.bind, if_neg (not_le.mpr hl), pure, Except.pure]
  · have e1 : pyClamp l.length ((mp.getD []).length : ℤ) = (mp.getD []).length := by
      unfold pyClamp; split <;> omega
    have e2 : pyClamp l.length (((mp.getD []).length : ℤ) + cov.length) = (mp.getD []).length + cov.length := by
      unfold pyClamp; split <;> omega
    refine ⟨pySlice l (mp.getD []).length ((mp.getD []).length + cov.length), ?_, ?_, ?_⟩
    · unfold pySlice
      rw [e1, e2]; simp; omega
    · intro k hk
      unfold pySlice
      rw [e1, e2, List.getElem?_drop, List.getElem?_take_of_lt (by omega)]
    · simp only [init, bind, Except.bind, if_pos hl, pure, Except.pure]
  · simp only [init, hr, bind, Except.bind]

theorem logInv_denorm (vs : List ℝ) : ((vs.zip (List.replicate vs.length Param.Norm.logInv)).map
    (fun x => Param.denormalize x.1 x.2)) = vs.map (fun v => Real.exp (-v)) := by
  induction vs with
  | nil => rfl
  | cons a vs ih => simp [List.replicate_succ, Param.denormalize] at *; exact ih

/-- The parameter object built without noise. -/
theorem build_spec (c0 : ℝ) (cs : List ℝ) : ∃ p, build "linear_mean_matern_anisotropic" (c0 :: cs) = .ok p ∧
    p.names = "sigma2" :: (List.range cs.length).map (fun i => "rho_" ++ toString i) ∧ p.names.Nodup ∧
    p.denorm = Real.exp c0 :: cs.map (fun c => Real.exp (-c)) ∧
    p.paths = ["covparam", "variance"] :: List.replicate cs.length ["covparam", "lengthscale"] ∧
    p.bounds = List.replicate (cs.length + 1) none := by
  have hmk : Param.makeAnisotropic (c0 :: cs) none none "" = .ok ⟨c0 :: cs, (c0 :: cs).length,
      ["covparam", "variance"] :: List.replicate cs.length ["covparam", "lengthscale"],
      "sigma2" :: (List.range cs.length).map (fun i => "rho_" ++ toString i),
      .log :: List.replicate cs.length .logInv, none :: List.replicate cs.length none⟩ := by
    rw [← Param.mkParam_explicit (c0 :: cs) _ _ _ _ "param_" (by simp) (by simp) (by simp) (by simp)]
    unfold Param.makeAnisotropic
    simp
  refine ⟨_, by unfold build; rw [if_pos rfl, hmk]; rfl, rfl, ?_, ?_, rfl, ?_⟩
  · simp only [ofParam]
    refine List.nodup_cons.mpr ⟨fun hm => ?_, names_nodup _ _⟩
    obtain ⟨i, _, hi⟩ := List.mem_map.mp hm
    exact rho_ne (p := "rho_") (s := "sigma2") (by decide) (by decide) i hi.symm
  · simp only [ofParam, Param.Param.denormalized, List.zip_cons_cons, List.map_cons, logInv_denorm]
    rfl
  · simp [ofParam, List.replicate_succ]

/-- The parameter object built with noise. -/
theorem build_noisy_spec (c0 c1 : ℝ) (cs : List ℝ) :
    ∃ p, build "linear_mean_matern_anisotropic_noisy" (c0 :: c1 :: cs) = .ok p ∧
    p.names = "sigma2" :: "sigma2_noise" :: (List.range cs.length).map (fun i => "rho_" ++ toString i) ∧ p.names.Nodup ∧
    p.denorm = Real.exp c0 :: Real.exp c1 :: cs.map (fun c => Real.exp (-c)) ∧
    (∀ q ∈ p.paths, IsCov q) ∧ p.paths.length = cs.length + 2 ∧
    p.bounds = List.replicate (cs.length + 2) none := by
  have hmk : makeNoisy (c0 :: c1 :: cs) = .ok ⟨c0 :: c1 :: cs, (c0 :: c1 :: cs).length,
      ["covparam", "variance"] :: ["covparam", "variance"] :: List.replicate cs.length ["covparam", "lengthscale"],
      "sigma2" :: "sigma2_noise" :: (List.range cs.length).map (fun i => "rho_" ++ toString i),
      .log :: .log :: List.replicate cs.length .logInv, none :: none :: List.replicate cs.length none⟩ := by
    rw [← Param.mkParam_explicit (c0 :: c1 :: cs) _ _ _ _ "param_" (by simp) (by simp) (by simp) (by simp)]
    unfold makeNoisy
    simp
  refine ⟨_, by unfold build; rw [if_neg (by decide), if_pos rfl, hmk]; rfl, rfl, ?_, ?_, ?_, ?_, ?_⟩
  · simp only [ofParam]
    refine List.nodup_cons.mpr ⟨fun hm => ?_, List.nodup_cons.mpr ⟨fun hm => ?_, names_nodup _ _⟩⟩
    · rcases List.mem_cons.mp hm with h | hm
      · exact absurd h (by decide)
      · obtain ⟨i, _, hi⟩ := List.mem_map.mp hm
        exact rho_ne (p := "rho_") (s := "sigma2") (by decide) (by decide) i hi.symm
    · obtain ⟨i, _, hi⟩ := List.mem_map.mp hm
      exact rho_ne (p := "rho_") (s := "sigma2_noise") (by decide) (by decide) i hi.symm
  · simp only [ofParam, Param.Param.denormalized, List.zip_cons_cons, List.map_cons, logInv_denorm]
    rfl
  · intro q hq
    simp only [ofParam] at hq
    rcases List.mem_cons.mp hq with rfl | hq
    · decide
    rcases List.mem_cons.mp hq with rfl | hq
    · decide
    · rw [(List.mem_replicate.mp hq).2]; decide
  · simp [ofParam]
  · simp [ofParam, List.replicate_succ]

/-- **C158** The stored bounds are those of the optimiser, on the logarithmic scale, while
`check_bounds` compares them with the variance itself: with `log σ² = 0` inside `[-1, 1/2]`, the
report's parameter object finds `σ²` out of bounds. -/
theorem init_scale_false : ∃ p, init "linear_mean_matern_anisotropic" [0, 0] none
    (some (.pairs [(.fin (-1), .fin (1 / 2)), (.num ⊥, .num ⊤)])) none = .ok p ∧
    p.bounds = [some (.fin (-1), .fin (1 / 2)), none] ∧ p.checkBounds = [false, true] := by
  obtain ⟨p, hp, _, _, h3, h4, h5⟩ := build_spec 0 [0]
  have hcov : p.paths = [["covparam", "variance"], ["covparam", "lengthscale"]] := h4
  have hb : p.bounds = [none, none] := h5
  have hci : covInds p.paths = [0, 1] := by rw [hcov]; decide
  have h1 : ¬ (isInf (Flt.fin (-1)) ∧ isInf (Flt.fin (1 / 2))) := by
    rintro ⟨h | h, _⟩ <;> injection h with h
    · exact EReal.coe_ne_top _ h
    · exact EReal.coe_ne_bot _ h
  have h2 : isInf (Flt.num ⊥) ∧ isInf (Flt.num ⊤) := ⟨Or.inr rfl, Or.inl rfl⟩
  have hap : (applyBounds p [(.fin (-1), .fin (1 / 2)), (.num ⊥, .num ⊤)]).bounds =
      [some (.fin (-1), .fin (1 / 2)), none] := by
    unfold applyBounds
    simp only [hci, hb]
    rw [if_neg (by simp)]
    simp only [List.zip_cons_cons, List.zip_nil_left, List.foldl_cons, List.foldl_nil, if_neg h1, if_pos h2]
    rfl
  have hden : (applyBounds p [(.fin (-1), .fin (1 / 2)), (.num ⊥, .num ⊤)]).denorm = p.denorm :=
    (applyBounds_spec p (by rw [hb, hcov]; rfl) _).2.2.2.1
  refine ⟨_, ?_, hap, ?_⟩
  · simp only [init, hp, bind, Except.bind]
    rfl
  · unfold PObj.checkBounds
    rw [hap, hden, h3]
    simp only [List.map_cons, List.map_nil, List.zip_cons_cons, List.zip_nil_left, List.cons.injEq, and_true]
    simp only [decide_eq_false_iff_not, Flt.fin_le, Real.exp_zero]
    norm_num

/-! ## Printing a dictionary -/

/-- **C159** One line for each entry, in order: the key, right-justified in a common width of at
least 15 and two more than the longest key, a colon, and the text of the value. -/
theorem pretty_spec (toStr : DataFrame.Shown → String) (fp : ℕ) (d : List (String × Cell))
    (h : ∀ e ∈ d, ∀ x, e.2 = .float x → x ≠ .nan) :
    ∃ w lines, 15 ≤ w ∧ (∀ e ∈ d, e.1.length + 2 ≤ w) ∧ (w = 15 ∨ ∃ e ∈ d, w = e.1.length + 2) ∧
      pretty toStr fp d = .ok lines ∧
      List.Forall₂ (fun e l => ∃ t, e.2.text toStr fp = .ok t ∧
        l = List.replicate (w - e.1.length) ' ' ++ e.1.toList ++ [':', ' '] ++ t.toList) d lines := by
  obtain ⟨m1, m2⟩ := DataFrame.foldl_max_ge (d.map fun e => e.1.length) 0
  have m3 : ∀ (l : List ℕ) b, l.foldl max b = b ∨ l.foldl max b ∈ l := by
    intro l
    induction l with
    | nil => intro b; exact Or.inl rfl
    | cons a l ih =>
      intro b
      rcases ih (max b a) with h | h
      · rw [List.foldl_cons, h]
        rcases le_total a b with h | h
        · left; exact max_eq_left h
        · right; rw [max_eq_right h]; exact List.mem_cons_self
      · right; exact List.mem_cons_of_mem _ h
  have ht : ∀ e ∈ d, ∃ t, e.2.text toStr fp = .ok t := by
    intro e he
    obtain ⟨k, c⟩ := e
    cases c with
    | other s => exact ⟨s, rfl⟩
    | float x =>
      cases x with
      | nan => exact absurd rfl (h _ he .nan rfl)
      | num v =>
        unfold Cell.text DataFrame.ftos
        dsimp only
        split
        · exact ⟨_, rfl⟩
        · split <;> exact ⟨_, rfl⟩
  refine ⟨max 15 (((d.map fun e => e.1.length).foldl max 0) + 2), ?_⟩
  have hlines : ∀ w : ℕ, ∀ d : List (String × Cell), (∀ e ∈ d, ∃ t, e.2.text toStr fp = .ok t) → ∃ lines,
      (d.mapM fun e => do
        let t ← e.2.text toStr fp
        return DataFrame.rjust e.1 w ++ [':', ' '] ++ t.toList : Py (List (List Char))) = .ok lines ∧
      List.Forall₂ (fun e l => ∃ t, e.2.text toStr fp = .ok t ∧
        l = List.replicate (w - e.1.length) ' ' ++ e.1.toList ++ [':', ' '] ++ t.toList) d lines := by
    intro w d
    induction d with
    | nil => intro _; exact ⟨[], rfl, .nil⟩
    | cons e d ih =>
      intro hd
      obtain ⟨lines, l1, l2⟩ := ih fun e he => hd e (List.mem_cons_of_mem _ he)
      obtain ⟨t, ht⟩ := hd e List.mem_cons_self
      refine ⟨_ :: lines, ?_, .cons ⟨t, ht, rfl⟩ l2⟩
      rw [List.mapM_cons, l1, ht]
      rfl
  obtain ⟨lines, l1, l2⟩ := hlines (max 15 (((d.map fun e => e.1.length).foldl max 0) + 2)) d ht
  refine ⟨lines, le_max_left _ _, ?_, ?_, l1, l2⟩
  · intro e he
    have := m2 _ (List.mem_map.mpr ⟨e, he, rfl⟩)
    exact (Nat.add_le_add_right this 2).trans (le_max_right _ _)
  · rcases m3 (d.map fun e => e.1.length) 0 with h0 | h0
    · left; rw [h0]; rfl
    · obtain ⟨e, he, h1⟩ := List.mem_map.mp h0
      rcases le_total (((d.map fun e => e.1.length).foldl max 0) + 2) 15 with h | h
      · left; exact max_eq_left h
      · right; exact ⟨e, he, by rw [max_eq_right h, ← h1]⟩

/-- **C159** A value that is not a number stops the printing with a `ValueError`, even when it is
the only problem: a report of a failed parameter selection cannot be displayed. -/
theorem pretty_false (toStr : DataFrame.Shown → String) (fp : ℕ) (d : List (String × Cell)) (k : String)
    (h : (k, Cell.float .nan) ∈ d) : pretty toStr fp d = .error .valueError := by
  have : ∀ w : ℕ, ∀ d : List (String × Cell), (k, Cell.float .nan) ∈ d →
      (d.mapM fun e => do
        let t ← e.2.text toStr fp
        return DataFrame.rjust e.1 w ++ [':', ' '] ++ t.toList : Py (List (List Char))) = .error .valueError := by
    intro w d
    induction d with
    | nil => intro h; cases h
    | cons e d ih =>
      intro h
      rw [List.mapM_cons]
      have herr : ∀ err, e.2.text toStr fp = .error err → err = .valueError := by
        intro err
        obtain ⟨k, c⟩ := e
        cases c with
        | other s => intro h; cases h
        | float x =>
          cases x with
          | nan => intro h; injection h with h; exact h.symm
          | num v =>
            unfold Cell.text DataFrame.ftos
            dsimp only
            intro h
            split at h
            · cases h
            · split at h <;> cases h
      cases he : e.2.text toStr fp with
      | error err => rw [herr err he]; rfl
      | ok t =>
        rcases List.mem_cons.mp h with rfl | h
        · cases he
        · rw [ih h]; rfl
  exact this _ d h

example : pretty (fun _ => "x") 3 [("cvg_reached", .other "True"), ("time", .float (.fin 2))] =
    .ok ["    cvg_reached: True".toList, "           time: x".toList] := by
  have : DataFrame.ftos 3 (Flt.fin 2) = .ok (DataFrame.ftosReal 3 2) := by
    unfold DataFrame.ftos Flt.fin
    dsimp only
    rw [if_neg (EReal.coe_ne_top _), if_neg (EReal.coe_ne_bot _), EReal.toReal_coe]
  simp only [pretty, List.mapM_cons, List.mapM_nil, Cell.text, this]
  rfl

/-! ## The data table -/

theorem eraseDups_nodup : ∀ {l : List String}, l.Nodup → l.eraseDups = l
  | [], _ => rfl
  | a :: l, h => by
    obtain ⟨ha, hl⟩ := List.nodup_cons.mp h
    rw [List.eraseDups_cons, List.filter_eq_self.mpr, eraseDups_nodup hl]
    intro b hb
    have : b ≠ a := fun e => ha (e ▸ hb)
    simpa using this

/-- With distinct names, the values of the dictionary are those of the entries, in order. -/
theorem dictValues_eq (p : PObj) (h : p.names.Nodup) (hl : p.names.length = p.denorm.length) :
    dictValues p = p.denorm := by
  unfold dictValues
  rw [eraseDups_nodup h]
  have key : ∀ (i : ℕ) (k : String) (v : ℝ), p.names[i]? = some k → p.denorm[i]? = some v →
      Param.dictLookup (p.names.zip p.denorm) k = some v := by
    intro i k v hk hv
    apply Param.dictLookup_nodup
    · rw [List.map_fst_zip (by omega)]; exact h
    · exact List.mem_of_getElem? (List.getElem?_zip_eq_some.mpr ⟨hk, hv⟩)
  have : ∀ (ns : List String) (ds : List ℝ) (f : String → Option ℝ), ns.length = ds.length →
      (∀ (i : ℕ) k v, ns[i]? = some k → ds[i]? = some v → f k = some v) → ns.filterMap f = ds := by
    intro ns
    induction ns with
    | nil => intro ds f hl _; cases ds with
      | nil => rfl
      | cons _ _ => cases hl
    | cons n ns ih =>
      intro ds f hl hf
      cases ds with
      | nil => cases hl
      | cons d ds =>
        rw [List.filterMap_cons_some (hf 0 n d rfl rfl), ih ds f (by simpa using hl)
          fun i k v hk hv => hf (i + 1) k v (by simpa using hk) (by simpa using hv)]
  exact this _ _ _ hl key

/-- The names announced for the columns of the observations: numbered for a matrix, `zi` otherwise. -/
def obsNames : Data → List String
  | .scalar _ => ["zi"]
  | .vec _ => ["zi"]
  | .mat d _ => (List.range d).map fun j => "zi_" ++ toString j

/-- **C160** The data table: the number of observations, one row for each column of the
observations and one for each column of the inputs.  The last entry of an input row is the width
divided by the corresponding lengthscale; that of an observation row is the width divided by the
*first parameter*, which is the variance. -/
theorem dataPart_spec (h : DataFrame.Heap) (p : PObj) {s2 : ℝ} {pre rho : List ℝ} (hnd : p.names.Nodup)
    (hl : p.names.length = p.denorm.length) (hp : p.denorm = s2 :: pre ++ rho) (hs : s2 ≠ 0)
    (hrho : ∀ r ∈ rho, r ≠ 0) (h0 : rho ≠ []) {xr : List (List ℝ)} (hxr : ∀ r ∈ xr, r.length = rho.length)
    (hx0 : xr ≠ []) {zi : Data} {zc : List (List ℝ)} {n : ℕ} (hz : zi.columns = .ok zc) (hz0 : [] ∉ zc)
    (hn : zi.rows = .ok n) :
    ∃ f h' T, dataPart h p (.mat rho.length xr) zi = .ok (n, f, h') ∧ f.data = .mat 6 T ∧
      T.length = zc.length + rho.length ∧
      h'.get f.rows = obsNames zi ++ (List.range rho.length).map (fun j => "xi_" ++ toString j) ∧
      h'.get f.cols = ["min", "max", "delta", "mean", "std", "delta_over_sigma"] ∧
      (∀ (j : ℕ) (c : List ℝ), zc[j]? = some c → ∃ r, T[j]? = some r ∧ RowOfF c (.fin (1 / s2)) r) ∧
      ∀ (j : ℕ) (ρ : ℝ), rho[j]? = some ρ → ∃ c r, c.length = xr.length ∧
        (∀ (i : ℕ) (a : ℝ), c[i]? = some a ↔ (xr[i]?.bind fun r => r[j]?) = some a) ∧
        T[zc.length + j]? = some r ∧ RowOfF c (.fin (1 / ρ)) r := by
  rw [show obsNames zi = ziNames zi by cases zi <;> rfl]
  have hdv := dictValues_eq p hnd hl
  have hzl : (ziNames zi).length = zc.length := by
    cases zi with
    | scalar a => cases hz
    | vec l => injection hz with hz; subst hz; rfl
    | mat d rows => injection hz with hz; subst hz; simp [ziNames]
  have hget : pyGet (dictValues p) 0 = .ok s2 := by rw [hdv, hp]; rfl
  have hdrop : pyDrop (dictValues p) (-(rho.length : ℤ)) = rho := by
    have hpos := List.length_pos_iff.mpr h0
    rw [hdv, hp]
    unfold pyDrop
    have : pyClamp (s2 :: pre ++ rho).length (-(rho.length : ℤ)) = (s2 :: pre).length := by
      unfold pyClamp
      rw [if_neg (by omega)]
      simp
      omega
    rw [this, List.drop_left]
  obtain ⟨fz, h2, Tz, z1, z2, z3, z4, z5, z6, z7, z8, z9⟩ := ((describe_spec (h.new (ziNames zi)).2 zi h.next hz).2 hz0).2.2
    (.scalar (inv s2)) (List.replicate zc.length (inv s2)) (Or.inl ⟨_, rfl, rfl⟩)
  obtain ⟨xc, x1, x2, x3, x4⟩ := (columns_spec (.mat rho.length xr)).2.2 _ _ rfl hxr
  have hxc0 : [] ∉ xc := by
    intro hm
    have := x3 _ hm
    exact hx0 (List.length_eq_zero_iff.mp this.symm)
  set h3 := (h2.new ((List.range rho.length).map fun j => "xi_" ++ toString j)).2 with hh3
  obtain ⟨fx, h4, Tx, y1, y2, y3, y4, y5, y6, y7, y8, y9⟩ := ((describe_spec h3 _ h2.next x1).2 hxc0).2.2
    (.array (rho.map inv)) (rho.map inv) (Or.inr ⟨rfl, by simp [x2]⟩)
  have hn1 : (h.new (ziNames zi)).2.next = h.next + 1 := rfl
  have hn3 : h3.next = h2.next + 1 := rfl
  have rect : ∀ (T : List (List Flt)) (cs : List (List ℝ)) (ss : List Flt), T.length = cs.length → ss.length = cs.length →
      (∀ (j : ℕ) (c : List ℝ) (a : Flt), cs[j]? = some c → ss[j]? = some a → ∃ r, T[j]? = some r ∧ RowOfF c a r) →
      ∀ r ∈ T, r.length = 6 := by
    intro T cs ss e1 e2 hT r hr
    obtain ⟨j, hj⟩ := List.mem_iff_getElem?.mp hr
    have hjl := (List.getElem?_eq_some_iff.mp hj).1
    obtain ⟨r', hr', lo, hi, m, s, _, rfl⟩ := hT j cs[j] ss[j] (List.getElem?_eq_getElem (by omega))
      (List.getElem?_eq_getElem (by omega))
    rw [hj] at hr'
    injection hr' with hr'
    rw [hr']; rfl
  -- the lists of names in the last heap
  have g1 : h4.get fz.rows = ziNames zi := by
    rw [z3, y5 _ (by omega), hh3, DataFrame.new_old _ _ (by omega), z5 _ (by omega)]
    exact DataFrame.new_get _ _
  have g2 : h4.get fz.cols = ["min", "max", "delta", "mean", "std", "delta_over_sigma"] := by
    rw [z7, y5 _ (by omega), hh3, DataFrame.new_old _ _ (by omega), ← z7, z4]
  have g3 : h4.get fx.rows = (List.range rho.length).map fun j => "xi_" ++ toString j := by
    rw [y3, y5 _ (by omega), hh3]
    exact DataFrame.new_get _ _
  have wz : DataFrame.WF h4 fz 6 Tz := ⟨z2, rect _ _ _ z8 (by simp) z9, by rw [g1, hzl, z8], by rw [g2]; rfl,
    by rw [z3, z7]; omega, by rw [z3]; omega, by rw [z7]; omega⟩
  have wx : DataFrame.WF h4 fx 6 Tx := ⟨y2, rect _ _ _ y8 (by simp [x2]) y9, by rw [g3, y8, x2]; simp, by rw [y4]; rfl,
    by rw [y3, y7]; omega, by rw [y3]; omega, by rw [y7]; omega⟩
  obtain ⟨k, h5, k1, k2, k3, k4, k5, k6⟩ := DataFrame.concat_rows wz wx (by rw [g2, y4])
  refine ⟨k, h5, Tz ++ Tx, ?_, k2.data, by simp [z8, y8, x2], by rw [k4, g1, g3], by rw [k5, g2], ?_, ?_⟩
  · unfold dataPart
    simp only [hn, hget, bind, Except.bind]
    have e1 : (h.new (ziNames zi)).1 = h.next := rfl
    simp only [e1, z1, hdrop]
    have e2 : (h2.new ((List.range rho.length).map fun j => "xi_" ++ toString j)).1 = h2.next := rfl
    simp only [e2, ← hh3, y1, k1]
    rfl
  · intro j c hc
    have hjl := (List.getElem?_eq_some_iff.mp hc).1
    obtain ⟨r, hr, hro⟩ := z9 j c (inv s2) hc (by simp [hjl])
    refine ⟨r, by rw [List.getElem?_append_left (by omega)]; exact hr, ?_⟩
    rw [inv, Flt.div_fin hs] at hro
    exact hro
  · intro j ρ hρ
    have hjl := (List.getElem?_eq_some_iff.mp hρ).1
    have hjx : j < xc.length := by omega
    have hρ0 := hrho ρ (List.mem_of_getElem? hρ)
    obtain ⟨r, hr, hro⟩ := y9 j xc[j] (inv ρ) (List.getElem?_eq_getElem hjx) (by simp [hρ])
    refine ⟨xc[j], r, x3 _ (List.getElem_mem hjx), fun i a => ?_, ?_, ?_⟩
    · rw [← x4 i j a, List.getElem?_eq_getElem hjx]; rfl
    · rw [List.getElem?_append_right (by omega), z8, Nat.add_sub_cancel_left]; exact hr
    · rw [inv, Flt.div_fin hρ0] at hro
      exact hro

/-- **C160** `delta_over_sigma` is not the width over the standard deviation for the observations:
with `σ² = 4` (so `σ = 2`) and observations `0` and `2`, whose width is `2`, the table shows `1/2`
instead of `1`. -/
theorem over_sigma_false (h : DataFrame.Heap) : ∃ p f h' T d r,
    build "linear_mean_matern_anisotropic" [Real.log 4, 0] = .ok p ∧
    dataPart h p (.mat 1 [[0], [1]]) (.vec [0, 2]) = .ok (2, f, h') ∧ f.data = .mat 6 T ∧
    sigmaRho [Real.log 4, 0] = .ok d ∧ d[0]? = some ("sigma", 2) ∧
    T[0]? = some r ∧ r[2]? = some (.fin 2) ∧ r[5]? = some (.fin (1 / 2)) ∧ (Flt.fin 2).div (.fin 2) = .fin 1 := by
  obtain ⟨p, hb, b1, b2, b3, _⟩ := build_spec (Real.log 4) [0]
  have hd : p.denorm = 4 :: [] ++ [1] := by
    rw [b3, Real.exp_log (by norm_num)]; simp
  obtain ⟨f, h', T, t1, t2, _, _, _, t3, _⟩ := dataPart_spec h p (s2 := 4) (pre := []) (rho := [1]) b2
    (by rw [b1, b3]; simp) hd (by norm_num) (by simp) (by simp) (xr := [[0], [1]]) (by simp) (by simp)
    (zi := .vec [0, 2]) (zc := [[0, 2]]) (n := 2) rfl (by simp) rfl
  obtain ⟨r, hr, lo, hi, m, s, hds, rfl⟩ := t3 0 [0, 2] rfl
  have hlo : lo = 0 := by
    have h1 := hds.lo_mem
    have h2 := (hds.range 0 (by simp)).1
    simp at h1
    rcases h1 with h1 | h1
    · exact h1
    · linarith
  have hhi : hi = 2 := by
    have h1 := hds.hi_mem
    have h2 := (hds.range 2 (by simp)).2
    simp at h1
    rcases h1 with h1 | h1
    · linarith
    · exact h1
  subst hlo; subst hhi
  obtain ⟨_, d, d1, _, _, ⟨sg, d2, d3, d4⟩, _⟩ := sigmaRho_spec (Real.log 4) [0]
  have hsg : sg = 2 := by
    rw [Real.exp_log (by norm_num)] at d4
    nlinarith
  subst hsg
  refine ⟨p, f, h', T, d, _, hb, t1, t2, d1, d2, hr, by simp, ?_, ?_⟩
  · simp; norm_num
  · rw [Flt.div_fin (by norm_num)]; norm_num

end Verif.Report
