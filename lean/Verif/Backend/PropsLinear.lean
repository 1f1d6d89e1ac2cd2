import Verif.Backend.Linear
import Mathlib.Tactic.Linarith
import Mathlib.Tactic.Ring
import Mathlib.Tactic.FieldSimp
import Mathlib.Tactic.NormNum
import Mathlib.Algebra.BigOperators.Group.List.Lemmas
import Mathlib.Data.Fin.VecNotation
import Mathlib.LinearAlgebra.Matrix.Notation
import Mathlib.Tactic.FinCases

/-!
# C189 – C192: statistics, triangular systems, densities and conversions of the backends
-/

set_option autoImplicit false

namespace Verif.Backend

open Verif

/-! ## C189 -/

/-- Arrays that `numpy.cov` lays out as torch does. -/
def Obs.Plain (old rowvar : Bool) : Obs → Prop
  | .vec _ => rowvar = true
  | .mat _ rows => rowvar = true ∨ old = false ∨ rows.length ≠ 1

theorem vars_agree {old rowvar : Bool} {m : Obs} (h : m.Plain old rowvar) :
    varsTorch rowvar m = varsNumpy old rowvar m := by
  cases m with
  | vec x => simp only [Obs.Plain] at h; simp [varsTorch, varsNumpy, h]
  | mat c rows =>
    simp only [Obs.Plain] at h
    cases rowvar with
    | true => rfl
    | false =>
      have : (old && rows.length == 1) = false := by
        rcases h with h | h | h
        · cases h
        · simp [h]
        · simp [h]
      simp only [varsTorch, varsNumpy, this]
      rfl

/-- **C189** `cov` gives the same on both backends, errors included, whenever variables are rows or the
arrays have two axes (and more than one row for an old numpy). -/
theorem cov_agree_partial {old rowvar : Bool} {m : Obs} {y : Option Obs} (hm : m.Plain old rowvar)
    (hy : ∀ o ∈ y, o.Plain old rowvar) (bias : Bool) (ddof : Option ℤ) :
    covTorch m y rowvar bias ddof = covNumpy old m y rowvar bias ddof := by
  have e : y.map (varsTorch rowvar) = y.map (varsNumpy old rowvar) := by
    cases y with
    | none => rfl
    | some o => simp [vars_agree (hy o rfl)]
  simp only [covTorch, covNumpy, vars_agree hm, e]

/-- **C189** is false for a vector with `rowvar=False`: numpy returns its variance, torch takes every
entry for a variable observed once. -/
theorem cov_vector_false :
    covNumpy false (.vec [0, 2]) none false false none = .ok (some [[2]]) ∧
    covNumpy true (.vec [0, 2]) none false false none = .ok (some [[2]]) ∧
    covTorch (.vec [0, 2]) none false false none = .ok none ∧
    covTorch (.vec [0, 2]) none false true none = .ok (some [[0, 0], [0, 0]]) := by
  refine ⟨?_, ?_, ?_, ?_⟩ <;>
    norm_num [covNumpy, covTorch, stackVars, varsNumpy, varsTorch, covRows, correction, covEntry, avg, bind,
      Except.bind, pure, Except.pure]

/-- **C189** The entries: an entry is the covariance of two variables, the matrix is symmetric, and the
diagonal is `var` with the same `ddof`. -/
theorem cov_entries (m : Obs) (rowvar bias : Bool) (ddof : Option ℤ) {r : List (List ℝ)}
    (h : covTorch m none rowvar bias ddof = .ok (some r)) :
    let x := varsTorch rowvar m
    r.length = x.2.length ∧ 0 < (x.1 : ℤ) - correction bias ddof ∧
    ∀ (i j : ℕ) (a b : List ℝ), x.2[i]? = some a → x.2[j]? = some b →
      ∃ ri rj, r[i]? = some ri ∧ r[j]? = some rj ∧ ri[j]? = some (covEntry x.1 (correction bias ddof) a b) ∧
        rj[i]? = ri[j]? ∧
        (a.length = x.1 → ri[i]? = some (varTorch a (correction bias ddof))) := by
  intro x
  simp only [covTorch, Option.map_none, stackVars, bind, Except.bind, pure, Except.pure, covRows] at h
  split at h
  · cases h
  · rename_i hn
    simp only [Except.ok.injEq, Option.some.injEq] at h
    subst h
    refine ⟨by simp [x], not_le.mp hn, ?_⟩
    intro i j a b hi hj
    have sym : ∀ a b : List ℝ, covEntry x.1 (correction bias ddof) b a = covEntry x.1 (correction bias ddof) a b := by
      intro a b
      unfold covEntry
      congr 2
      rw [List.zipWith_comm]
      congr 1
      funext u v
      ring
    refine ⟨x.2.map fun c => covEntry x.1 (correction bias ddof) a c,
      x.2.map fun c => covEntry x.1 (correction bias ddof) b c, ?_, ?_, ?_, ?_, ?_⟩
    · rw [List.getElem?_map, hi]; rfl
    · rw [List.getElem?_map, hj]; rfl
    · rw [List.getElem?_map, hj]; rfl
    · rw [List.getElem?_map, List.getElem?_map, hj, hi]
      simp [sym a b]
    · intro ha
      rw [List.getElem?_map, hi]
      simp only [Option.map_some, covEntry, varTorch, ha]
      congr 3
      rw [List.zipWith_self]
      refine List.map_congr_left fun u _ => ?_
      ring

/-- **C189** With a second array its variables come after those of the first; arrays with different
numbers of observations are refused. -/
theorem cov_second (m y : Obs) (rowvar bias : Bool) (ddof : Option ℤ) :
    let x := varsTorch rowvar m
    let u := varsTorch rowvar y
    (x.1 ≠ u.1 → covTorch m (some y) rowvar bias ddof = .error .valueError) ∧
    (x.1 = u.1 → correction bias ddof < x.1 → ∃ r, covTorch m (some y) rowvar bias ddof = .ok (some r) ∧
      r.length = x.2.length + u.2.length ∧
      ∀ (i j : ℕ) (a b : List ℝ), x.2[i]? = some a → u.2[j]? = some b →
        ∃ ri rj, r[i]? = some ri ∧ ri[x.2.length + j]? = some (covEntry x.1 (correction bias ddof) a b) ∧
          r[x.2.length + j]? = some rj ∧ rj[i]? = some (covEntry x.1 (correction bias ddof) b a)) := by
  intro x u
  constructor
  · intro h
    have : ¬ (varsTorch rowvar m).1 = (varsTorch rowvar y).1 := h
    simp [covTorch, stackVars, this, bind, Except.bind]
  · intro h hc
    have h' : (varsTorch rowvar m).1 = (varsTorch rowvar y).1 := h
    have hc' : ¬ ((varsTorch rowvar m).1 : ℤ) - correction bias ddof ≤ 0 := by
      change correction bias ddof < ((varsTorch rowvar m).1 : ℤ) at hc
      omega
    have e : covTorch m (some y) rowvar bias ddof = .ok (some ((x.2 ++ u.2).map fun a => (x.2 ++ u.2).map fun b =>
        covEntry x.1 (correction bias ddof) a b)) := by
      simp only [covTorch, Option.map_some, stackVars, if_pos h', bind, Except.bind, pure, Except.pure, covRows,
        if_neg hc']
      rfl
    refine ⟨_, e, by simp, ?_⟩
    intro i j a b hi hj
    have hil : i < x.2.length := (List.getElem?_eq_some_iff.mp hi).1
    have h1 : (x.2 ++ u.2)[i]? = some a := by rw [List.getElem?_append_left hil, hi]
    have h2 : (x.2 ++ u.2)[x.2.length + j]? = some b := by
      rw [List.getElem?_append_right (Nat.le_add_right _ _), Nat.add_sub_cancel_left, hj]
    refine ⟨_, _, by rw [List.getElem?_map, h1]; rfl, by rw [List.getElem?_map, h2]; rfl,
      by rw [List.getElem?_map, h2]; rfl, by rw [List.getElem?_map, h1]; rfl⟩

example : covTorch (.vec [0, 2]) (some (.vec [0, 4])) true false none = .ok (some [[2, 4], [4, 8]]) := by
  norm_num [covTorch, stackVars, varsTorch, covRows, correction, covEntry, avg, bind, Except.bind, pure,
    Except.pure]

/-- The weighted sum of variables. -/
noncomputable def combine (n : ℕ) (w : List ℝ) (xs : List (List ℝ)) : Fin n → ℝ := fun k =>
  (List.zipWith (fun c x => c * (x.getD k 0 - avg x)) w xs).sum

theorem zipWith_sum_fin {n : ℕ} {a b : List ℝ} (ha : a.length = n) (hb : b.length = n) (f : ℝ → ℝ → ℝ) :
    (List.zipWith f a b).sum = ∑ k : Fin n, f (a.getD k 0) (b.getD k 0) := by
  subst ha
  have : List.zipWith f a b = List.ofFn fun k : Fin a.length => f (a.getD k 0) (b.getD k 0) := by
    apply List.ext_getElem
    · simp [hb]
    · intro i h1 h2
      have hi : i < a.length := by simp at h2; exact h2
      have hi' : i < b.length := by omega
      simp [hi, hi']
  rw [this, List.sum_ofFn]

/-- **C189** The matrix of covariances is positive semidefinite: for every weights the quadratic form is
the variance of the weighted sum, in particular nonnegative. -/
theorem cov_psd {n : ℕ} {corr : ℤ} (hn : 0 < (n : ℤ) - corr) (w : List ℝ) (xs : List (List ℝ))
    (hx : ∀ x ∈ xs, x.length = n) :
    (List.zipWith (fun c a => c * (List.zipWith (fun d b => d * covEntry n corr a b) w xs).sum) w xs).sum =
      (∑ k : Fin n, combine n w xs k ^ 2) / ((n : ℝ) - corr) ∧
    0 ≤ (List.zipWith (fun c a => c * (List.zipWith (fun d b => d * covEntry n corr a b) w xs).sum) w xs).sum := by
  have hpos : (0 : ℝ) < (n : ℝ) - corr := by
    have : (0 : ℝ) < (((n : ℤ) - corr : ℤ) : ℝ) := by exact_mod_cast hn
    push_cast at this
    exact this
  have key : ∀ (a : List ℝ), a.length = n → ∀ (w' : List ℝ) (ys : List (List ℝ)), (∀ y ∈ ys, y.length = n) →
      (List.zipWith (fun d b => d * covEntry n corr a b) w' ys).sum =
        (∑ k : Fin n, (a.getD k 0 - avg a) * combine n w' ys k) / ((n : ℝ) - corr) := by
    intro a ha w'
    induction w' with
    | nil => intro ys _; simp [combine]
    | cons d w' ih =>
      intro ys hy
      rcases ys with _ | ⟨y, ys⟩
      · simp [combine]
      · rw [List.zipWith_cons_cons, List.sum_cons, ih ys fun z hz => hy z (List.mem_cons_of_mem _ hz)]
        have hyn := hy y List.mem_cons_self
        have e : ∀ k, combine n (d :: w') (y :: ys) k = d * (y.getD k 0 - avg y) + combine n w' ys k := by
          intro k; simp [combine]
        simp only [e, covEntry]
        rw [zipWith_sum_fin ha hyn, ← mul_div_assoc, ← add_div]
        congr 1
        rw [Finset.mul_sum, ← Finset.sum_add_distrib]
        refine Finset.sum_congr rfl fun k _ => ?_
        ring
  have main : ∀ (w' : List ℝ) (ys : List (List ℝ)), (∀ y ∈ ys, y.length = n) →
      (List.zipWith (fun c a => c * (List.zipWith (fun d b => d * covEntry n corr a b) w xs).sum) w' ys).sum =
      (∑ k : Fin n, combine n w' ys k * combine n w xs k) / ((n : ℝ) - corr) := by
    intro w'
    induction w' with
    | nil => intro ys _; simp [combine]
    | cons c w' ih =>
      intro ys hy
      rcases ys with _ | ⟨y, ys⟩
      · simp [combine]
      · rw [List.zipWith_cons_cons, List.sum_cons, ih ys fun z hz => hy z (List.mem_cons_of_mem _ hz),
          key y (hy y List.mem_cons_self) w xs hx]
        have e : ∀ k, combine n (c :: w') (y :: ys) k = c * (y.getD k 0 - avg y) + combine n w' ys k := by
          intro k; simp [combine]
        simp only [e]
        rw [← mul_div_assoc, ← add_div]
        congr 1
        rw [Finset.mul_sum, ← Finset.sum_add_distrib]
        refine Finset.sum_congr rfl fun k _ => ?_
        ring
  have e := main w xs hx
  have e2 : (∑ k : Fin n, combine n w xs k * combine n w xs k) = ∑ k : Fin n, combine n w xs k ^ 2 :=
    Finset.sum_congr rfl fun k _ => (pow_two _).symm
  rw [e2] at e
  refine ⟨e, ?_⟩
  rw [e]
  exact div_nonneg (Finset.sum_nonneg fun k _ => sq_nonneg _) hpos.le

/-! ## C190 -/

/-- The matrix is triangular. -/
def IsTri {n : ℕ} (lower : Bool) (A : Matrix (Fin n) (Fin n) ℝ) : Prop :=
  ∀ i j, (if lower then i < j else j < i) → A i j = 0

theorem triPart_tri {n : ℕ} {lower : Bool} {A : Matrix (Fin n) (Fin n) ℝ} (h : IsTri lower A) :
    triPart (!lower) A = A := by
  funext i j
  cases lower with
  | true =>
    simp only [triPart, Bool.not_true, Bool.false_eq_true, if_false]
    split
    · rfl
    · rename_i hij
      exact (h i j (by simpa using hij)).symm
  | false =>
    simp only [triPart, Bool.not_false, if_true]
    split
    · rfl
    · rename_i hij
      exact (h i j (by simpa using hij)).symm

theorem solve_inv {n : ℕ} {A : Matrix (Fin n) (Fin n) ℝ} (hd : A.det ≠ 0) (b x : Fin n → ℝ) :
    x = A⁻¹.mulVec b ↔ A.mulVec x = b := by
  have hu : IsUnit A.det := isUnit_iff_ne_zero.mpr hd
  constructor
  · rintro rfl
    rw [Matrix.mulVec_mulVec, Matrix.mul_nonsing_inv A hu, Matrix.one_mulVec]
  · rintro rfl
    rw [Matrix.mulVec_mulVec, Matrix.nonsing_inv_mul A hu, Matrix.one_mulVec]

/-- **C190** Without transposition both backends return the solution of the triangular system, and only
that. -/
theorem solveTri_partial {n : ℕ} {A : Matrix (Fin n) (Fin n) ℝ} {lower : Bool} (h : IsTri lower A)
    (hd : A.det ≠ 0) (b : Fin n → ℝ) :
    (∃ x, solveTriTorch A b .no lower = .ok x ∧ A.mulVec x = b) ∧
      solveTriScipy A b .no lower = solveTriTorch A b .no lower ∧
      ∀ y, A.mulVec y = b → solveTriTorch A b .no lower = .ok y := by
  have e : solveTriTorch A b .no lower = .ok (A⁻¹.mulVec b) := by
    simp only [solveTriTorch, triSolve, triPart_tri h]
  refine ⟨⟨_, e, (solve_inv hd b _).mp rfl⟩, ?_, ?_⟩
  · rw [e]; simp only [solveTriScipy, triPart_tri h]
  · intro y hy
    rw [e, (solve_inv hd b y).mpr hy]

/-- **C190** With transposition scipy solves the transposed system; torch solves it when the flag names
the triangle of the transposed matrix. -/
theorem solveTri_trans {n : ℕ} {A : Matrix (Fin n) (Fin n) ℝ} {lower : Bool} (h : IsTri lower A)
    (hd : A.det ≠ 0) (b : Fin n → ℝ) :
    (∃ x, solveTriScipy A b .yes lower = .ok x ∧ A.transpose.mulVec x = b) ∧
    ∃ x, solveTriTorch A b .yes (!lower) = .ok x ∧ A.transpose.mulVec x = b := by
  have hd' : A.transpose.det ≠ 0 := by rwa [Matrix.det_transpose]
  have ht : IsTri (!lower) A.transpose := by
    intro i j hij
    refine h j i ?_
    cases lower <;> simpa using hij
  refine ⟨⟨_, rfl, ?_⟩, ⟨_, rfl, ?_⟩⟩
  · rw [triPart_tri h]
    exact (solve_inv hd' b _).mp rfl
  · unfold triSolve
    rw [triPart_tri ht]
    exact (solve_inv hd' b _).mp rfl

/-- **C190** Any other `trans` is refused by both, with different exceptions. -/
theorem solveTri_other {n : ℕ} (A : Matrix (Fin n) (Fin n) ℝ) (b : Fin n → ℝ) (lower : Bool) :
    solveTriScipy A b .other lower = .error .keyError ∧ solveTriTorch A b .other lower = .error .valueError ∧
    solveTriScipy A b .conj lower = solveTriScipy A b .yes lower ∧
    solveTriTorch A b .conj lower = solveTriTorch A b .yes lower := ⟨rfl, rfl, rfl, rfl⟩

/-- **C190** is false with `trans=1`: torch applies `lower` to the transposed matrix, reads the wrong
triangle and returns something that is not a solution. -/
theorem solveTri_trans_false :
    ∃ (A : Matrix (Fin 2) (Fin 2) ℝ) (b x y : Fin 2 → ℝ), IsTri true A ∧ A.det ≠ 0 ∧
      solveTriScipy A b .yes true = .ok x ∧ A.transpose.mulVec x = b ∧
      solveTriTorch A b .yes true = .ok y ∧ A.transpose.mulVec y ≠ b := by
  have ht : IsTri true (!![1, 0; 1, 1] : Matrix (Fin 2) (Fin 2) ℝ) := by
    intro i j hij
    fin_cases i <;> fin_cases j <;> simp at hij ⊢
  have hd : (!![1, 0; 1, 1] : Matrix (Fin 2) (Fin 2) ℝ).det ≠ 0 := by simp [Matrix.det_fin_two]
  obtain ⟨⟨x, h1, h2⟩, _⟩ := solveTri_trans ht hd ![0, 1]
  refine ⟨!![1, 0; 1, 1], ![0, 1], x, _, ht, hd, h1, h2, rfl, ?_⟩
  have e : triPart (!true) (!![1, 0; 1, 1] : Matrix (Fin 2) (Fin 2) ℝ).transpose = 1 := by
    funext i j
    fin_cases i <;> fin_cases j <;> simp [triPart]
  unfold triSolve
  rw [e, inv_one, Matrix.one_mulVec]
  intro h
  have := congrFun h 0
  simp [Matrix.mulVec, dotProduct, Fin.sum_univ_two] at this

/-! ## C191 -/

/-- **C191** Percentiles agree for a number, with the only method that torch supports. -/
theorem percentile_partial (quantile : List ℝ → ℝ → ℝ) (x : List ℝ) (q : ℝ) :
    percentileTorch quantile x (.num q) none none false = percentileNumpy quantile x (.num q) ∧
    percentileTorch quantile x (.num q) (some "linear") (some "linear") false = .ok [quantile x (q / 100)] ∧
    (∀ m i, (i ≠ none ∧ i ≠ some "linear") → percentileTorch quantile x (.num q) m i false = .error .valueError) ∧
    ∀ m, m ≠ "linear" → percentileTorch quantile x (.num q) (some m) none false = .error .notImplementedError := by
  refine ⟨rfl, rfl, ?_, ?_⟩
  · intro m i hi
    unfold percentileTorch
    rw [if_pos hi]
  · intro m hm
    unfold percentileTorch
    simp [hm]

/-- **C191** Weights are never ignored: torch refuses them. -/
theorem percentile_weights (quantile : List ℝ → ℝ → ℝ) (x : List ℝ) (q : QArg) (m i : Option String) :
    ∃ e, percentileTorch quantile x q m i true = .error e := by
  unfold percentileTorch
  split
  · exact ⟨_, rfl⟩
  · exact ⟨_, rfl⟩

/-- **C191** is false for a list of levels, which only numpy accepts. -/
theorem percentile_list_false (quantile : List ℝ → ℝ → ℝ) (x : List ℝ) (qs : List ℝ) :
    percentileTorch quantile x (.list qs) none none false = .error .typeError ∧
    percentileNumpy quantile x (.list qs) = .ok (qs.map fun q => quantile x (q / 100)) := ⟨rfl, rfl⟩

/-- **C191** `isscalar` agrees on everything but arrays with one entry. -/
theorem isscalar_partial (a : SArg) :
    (isscalarTorch a = isscalarNumpy a ↔ ∀ s, a = .arr s → s.prod ≠ 1) := by
  cases a with
  | num => simp [isscalarTorch, isscalarNumpy]
  | arr s => simp [isscalarTorch, isscalarNumpy]
  | other => simp [isscalarTorch, isscalarNumpy]

theorem isscalar_false : isscalarTorch (.arr [1]) = true ∧ isscalarNumpy (.arr [1]) = false := ⟨rfl, rfl⟩

/-- **C191** `nan_to_num` returns the same finite numbers on both backends, and keeps finite ones. -/
theorem nanToNum_spec (big nan : ℝ) (posinf neginf : Option ℝ) (copy : Bool) (x : List Flt) :
    (nanToNumTorch big nan posinf neginf copy x).1 = (nanToNumNumpy big nan posinf neginf copy x).1 ∧
    (nanToNumTorch big nan posinf neginf copy x).1.length = x.length ∧
    (nanToNumTorch big nan posinf neginf copy x).2 = x ∧
    (nanToNumNumpy big nan posinf neginf true x).2 = x ∧
    nanToNum big nan posinf neginf .nan = nan ∧
    nanToNum big nan posinf neginf (.num ⊤) = posinf.getD big ∧
    nanToNum big nan posinf neginf (.num ⊥) = neginf.getD (-big) ∧
    ∀ r : ℝ, nanToNum big nan posinf neginf (.fin r) = r := by
  classical
  refine ⟨rfl, by simp [nanToNumTorch], rfl, rfl, rfl, ?_, ?_, ?_⟩
  · simp [nanToNum]
  · simp [nanToNum]
  · intro r
    simp [nanToNum, Flt.fin]

/-- **C191** is false of `copy=False`: numpy changes the argument, torch does not. -/
theorem nanToNum_copy_false :
    (nanToNumNumpy 1 0 none none false [.nan]).2 = [.fin 0] ∧
    (nanToNumTorch 1 0 none none false [.nan]).2 = [.nan] := by
  simp [nanToNumNumpy, nanToNumTorch, nanToNum]

/-! ## C192 -/

/-- **C192** `logpdf` of several points in dimension `d > 1`: one number per point on both backends. -/
theorem logpdf_shape_partial (n d : ℕ) (hn : n ≠ 1) :
    logpdfShapeNumpy [n, d] (.mat d) = .ok [n] ∧ logpdfShapeTorch [n, d] (.mat d) = .ok [n] ∧
    logpdfShapeNumpy [d] (.mat d) = .ok [] ∧ logpdfShapeTorch [d] (.mat d) = .ok [] := by
  simp [logpdfShapeNumpy, logpdfShapeTorch, hn]

/-- **C192** In dimension one torch gives one number per point, points being a vector, a column or a
number, whatever the number of axes of the covariance; numpy does for vectors and numbers and a
covariance with at most one axis. -/
theorem logpdf_shape_one (n k : ℕ) (hn : n ≠ 1) :
    logpdfShapeTorch [n] (.one k) = .ok [n] ∧ logpdfShapeTorch [n, 1] (.one k) = .ok [n] ∧
    logpdfShapeTorch [] (.one k) = .ok [] ∧ logpdfShapeTorch [n] .num = .ok [n] ∧
    logpdfShapeTorch [n, 1] .num = .ok [n] ∧
    logpdfShapeNumpy [n] .num = .ok [n] ∧ (logpdfShapeNumpy [n] (.one k) = .ok [n] ↔ k ≤ 1) ∧
    (logpdfShapeNumpy [] (.one k) = .ok [] ↔ k = 0) := by
  have e : List.replicate (k - 1) 1 = [] ↔ k ≤ 1 := by rw [List.replicate_eq_nil_iff]; omega
  simp [logpdfShapeNumpy, logpdfShapeTorch, hn, bcOnes]
  omega

/-- **C192** Both backends refuse the same shapes. -/
theorem logpdf_refuse (x : List ℕ) (c : LCov) (e : PyErr) :
    logpdfShapeNumpy x c = .error e ↔ logpdfShapeTorch x c = .error e := by
  cases c with
  | num => simp [logpdfShapeNumpy, logpdfShapeTorch]
  | one k => simp [logpdfShapeNumpy, logpdfShapeTorch]
  | mat d =>
    simp only [logpdfShapeNumpy, logpdfShapeTorch]
    cases x.getLast? with
    | none => simp
    | some l => simp only; split <;> simp
  | bad => simp [logpdfShapeNumpy, logpdfShapeTorch]

/-- **C192** is false for a single point as a row, for a column of points in dimension one, and for a
covariance with two axes in dimension one. -/
theorem logpdf_shape_false :
    (logpdfShapeNumpy [1, 2] (.mat 2) = .ok [] ∧ logpdfShapeTorch [1, 2] (.mat 2) = .ok [1]) ∧
    (logpdfShapeNumpy [5, 1] .num = .ok [5, 1] ∧ logpdfShapeTorch [5, 1] .num = .ok [5]) ∧
    (logpdfShapeNumpy [5] (.one 2) = .ok [1, 5] ∧ logpdfShapeTorch [5] (.one 2) = .ok [5]) := by
  refine ⟨⟨rfl, rfl⟩, ⟨rfl, rfl⟩, ⟨rfl, rfl⟩⟩

end Verif.Backend
