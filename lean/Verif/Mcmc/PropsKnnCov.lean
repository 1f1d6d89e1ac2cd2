import Verif.Mcmc.KnnCov
import Verif.Mcmc.PropsMHTune

/-!
# Properties of the covariance estimates of `knn_cov.py`
-/

set_option autoImplicit false

namespace Verif.KnnCov

open Verif

variable {d : ℕ}

/-! ## Contracts of the external functions -/

/-- A choice of `n` different row numbers. -/
def IsChoice (choice : ℕ → ℕ → List ℕ) : Prop :=
  ∀ N n, n ≤ N → (choice N n).length = n ∧ (choice N n).Nodup ∧ ∀ i ∈ choice N n, i < N

/-- The index returns the wanted number of different row numbers, and raises when there are not as
many rows. -/
def IsQuery (query : List (Pt d) → Pt d → ℕ → Py (List ℕ)) : Prop :=
  ∀ x p k, (x.length < k → query x p k = .error .runtimeError) ∧
    (k ≤ x.length → ∃ l, query x p k = .ok l ∧ l.length = k ∧ l.Nodup ∧ ∀ i ∈ l, i < x.length)

/-- The contracts can be met. -/
theorem exists_env : ∃ env : Env d, IsChoice env.choice ∧ IsQuery env.query := by
  refine ⟨⟨fun _ n => List.range n, fun x _ k => if x.length < k then .error .runtimeError else .ok (List.range k)⟩, ?_, ?_⟩
  · intro N n h
    exact ⟨by simp, List.nodup_range, fun i hi => lt_of_lt_of_le (List.mem_range.mp hi) h⟩
  · intro x p k
    refine ⟨fun h => by simp [h], fun h => ⟨List.range k, by simp [not_lt.mpr h], by simp, List.nodup_range,
      fun i hi => lt_of_lt_of_le (List.mem_range.mp hi) h⟩⟩

/-! ## The rows of a neighbourhood -/

theorem rows_mapM (x : List (Pt d)) (l : List ℕ) (h : ∀ i ∈ l, i < x.length) :
    l.mapM (fun (i : ℕ) => pyGet x i) = .ok (l.filterMap fun i => x[i]?) := by
  induction l with
  | nil => rfl
  | cons a l ih =>
    have ha := h a (by simp)
    rw [List.mapM_cons, pyGet_nat x a ha, ih fun i hi => h i (by simp [hi])]
    simp only [bind, Except.bind, pure, Except.pure]
    rw [List.filterMap_cons, List.getElem?_eq_getElem ha]

theorem rows_length (x : List (Pt d)) (l : List ℕ) (h : ∀ i ∈ l, i < x.length) :
    (l.filterMap fun i => x[i]?).length = l.length := by
  induction l with
  | nil => rfl
  | cons a l ih =>
    have ha := h a (by simp)
    rw [List.filterMap_cons, List.getElem?_eq_getElem ha]
    simp [ih fun i hi => h i (by simp [hi])]

/-- Local covariance of one neighbourhood: that of the rows returned by the index. -/
theorem localCov_value {env : Env d} (hq : IsQuery env.query) {x : List (Pt d)} {k idx : ℕ} (hi : idx < x.length)
    (hk : k ≤ x.length) : ∃ l, env.query x x[idx] k = .ok l ∧ l.length = k ∧ l.Nodup ∧ (∀ i ∈ l, i < x.length) ∧
      localCov env x k idx = .ok (MH.covRows (l.filterMap fun i => x[i]?)) := by
  obtain ⟨l, h1, h2, h3, h4⟩ := (hq x x[idx] k).2 hk
  refine ⟨l, h1, h2, h3, h4, ?_⟩
  unfold localCov
  rw [pyGet_nat x idx hi]
  simp only [bind, Except.bind, h1]
  rw [rows_mapM x l h4]
  rfl

theorem mapM_ok_of {α β : Type} (f : α → Py β) (g : α → β) (l : List α) (h : ∀ a ∈ l, f a = .ok (g a)) :
    l.mapM f = .ok (l.map g) := by
  induction l with
  | nil => rfl
  | cons a l ih =>
    rw [List.mapM_cons, h a (by simp), ih fun b hb => h b (by simp [hb])]
    rfl

theorem mapM_some_id {α : Type} (l : List α) : (l.map some).mapM id = some l := by
  induction l with
  | nil => rfl
  | cons a l ih => simp [ih]

theorem meanMats_some {l : List (Mat d)} (h : l ≠ []) : meanMats (l.map some) = some ((l.length : ℝ)⁻¹ • l.sum) := by
  unfold meanMats
  rw [if_neg (by simpa using h), mapM_some_id]
  rfl

/-- The neighbourhoods: the rows found for each chosen row. -/
theorem knn_value {env : Env d} (hc : IsChoice env.choice) (hq : IsQuery env.query) {x : List (Pt d)} {r k : ℕ}
    (hk : k ≤ x.length) : ∃ nb : ℕ → List ℕ,
      (∀ idx, (h : idx < x.length) → env.query x x[idx] k = .ok (nb idx) ∧ (nb idx).length = k ∧ (nb idx).Nodup ∧
        ∀ i ∈ nb idx, i < x.length) ∧
      knn true env x r k = .ok (meanMats ((env.choice x.length (min r x.length)).map fun idx =>
        MH.covRows ((nb idx).filterMap fun i => x[i]?))) := by
  classical
  have hch := hc x.length (min r x.length) (min_le_right _ _)
  have hx : ∀ idx, ∃ l, (h : idx < x.length) → env.query x x[idx] k = .ok l ∧ l.length = k ∧ l.Nodup ∧
      (∀ i ∈ l, i < x.length) ∧ localCov env x k idx = .ok (MH.covRows (l.filterMap fun i => x[i]?)) := by
    intro idx
    by_cases h : idx < x.length
    · obtain ⟨l, hl⟩ := localCov_value hq h hk
      exact ⟨l, fun _ => hl⟩
    · exact ⟨[], fun h' => absurd h' h⟩
  choose nb hnb using hx
  refine ⟨nb, fun idx h => ⟨(hnb idx h).1, (hnb idx h).2.1, (hnb idx h).2.2.1, (hnb idx h).2.2.2.1⟩, ?_⟩
  unfold knn
  simp only [Bool.not_true, Bool.false_eq_true, if_false]
  have hm : (if r > x.length then x.length else r) = min r x.length := by
    rcases le_or_gt r x.length with h | h
    · rw [if_neg (not_lt.mpr h), min_eq_left h]
    · rw [if_pos h, min_eq_right h.le]
  rw [hm, mapM_ok_of _ _ _ fun idx hidx => (hnb idx (hch.2.2 idx hidx)).2.2.2.2]
  rfl

theorem covRows_some {l : List (Pt d)} (h : 2 ≤ l.length) : ∃ C, MH.covRows l = some C := by
  unfold MH.covRows
  rw [if_neg (not_lt.mpr h)]
  exact ⟨_, rfl⟩

/-- **C145** With at least one random point and at least two neighbours, but not more than rows, a
positive semidefinite matrix is returned. -/
theorem knn_psd {env : Env d} (hc : IsChoice env.choice) (hq : IsQuery env.query) {x : List (Pt d)} {r k : ℕ}
    (hr : 0 < r) (h2 : 2 ≤ k) (hk : k ≤ x.length) :
    ∃ C, knn true env x r k = .ok (some C) ∧ C.PosSemidef := by
  obtain ⟨nb, h1, hv⟩ := knn_value hc hq (r := r) hk
  have hch := hc x.length (min r x.length) (min_le_right _ _)
  have hsome : ∀ idx, ∃ C, idx < x.length → MH.covRows ((nb idx).filterMap fun i => x[i]?) = some C := by
    intro idx
    by_cases h : idx < x.length
    · obtain ⟨_, a2, _, a4⟩ := h1 idx h
      obtain ⟨C, hC⟩ := covRows_some (l := (nb idx).filterMap fun i => x[i]?) (by rw [rows_length x _ a4, a2]; exact h2)
      exact ⟨C, fun _ => hC⟩
    · exact ⟨0, fun h' => absurd h' h⟩
  choose C hC using hsome
  have e : (env.choice x.length (min r x.length)).map (fun idx => MH.covRows ((nb idx).filterMap fun i => x[i]?)) =
      ((env.choice x.length (min r x.length)).map C).map some := by
    rw [List.map_map]
    exact List.map_congr_left fun idx hidx => hC idx (hch.2.2 idx hidx)
  have hne : (env.choice x.length (min r x.length)).map C ≠ [] := by
    intro h
    have h0 := hch.1
    rw [List.map_eq_nil_iff.mp h, List.length_nil] at h0
    have : 0 < min r x.length := lt_min hr (by omega)
    omega
  rw [hv, e, meanMats_some hne]
  refine ⟨_, rfl, Matrix.PosSemidef.smul ?_ (by positivity)⟩
  have : ∀ M ∈ (env.choice x.length (min r x.length)).map C, M.PosSemidef := by
    intro M hM
    obtain ⟨idx, hidx, rfl⟩ := List.mem_map.mp hM
    exact MH.covRows_psd (hC idx (hch.2.2 idx hidx))
  generalize (env.choice x.length (min r x.length)).map C = l at this
  clear hne e hv
  induction l with
  | nil => simpa using Matrix.PosSemidef.zero
  | cons M l ih =>
    rw [List.sum_cons]
    exact (this M (by simp)).add (ih fun N hN => this N (by simp [hN]))

/-- The covariance does not depend on the order of the rows. -/
theorem covRows_perm {l l' : List (Pt d)} (h : l.Perm l') : MH.covRows l = MH.covRows l' := by
  unfold MH.covRows MH.meanRows
  rw [h.length_eq, h.sum_eq]
  split_ifs with hc
  · rfl
  · dsimp only
    rw [(h.map _).sum_eq]

theorem all_rows {x : List (Pt d)} {l : List ℕ} (hn : l.Nodup) (hl : l.length = x.length) (hi : ∀ i ∈ l, i < x.length) :
    (l.filterMap fun i => x[i]?).Perm x := by
  have hp : l.Perm (List.range x.length) := by
    refine (List.subperm_of_subset hn fun i h => List.mem_range.mpr (hi i h)).perm_of_length_le ?_
    simp [hl]
  have h2 : (List.range x.length).filterMap (fun i => x[i]?) = x := by
    clear hp hi hl hn
    induction x with
    | nil => rfl
    | cons a x ih =>
      rw [List.length_cons, List.range_succ_eq_map, List.filterMap_cons]
      simp only [List.getElem?_cons_zero, List.filterMap_map]
      congr 1
  exact (hp.filterMap _).trans (by rw [h2])

/-- **C145** With as many neighbours as rows, the estimate is the sample covariance, whatever the
random choice. -/
theorem knn_all {env : Env d} (hc : IsChoice env.choice) (hq : IsQuery env.query) {x : List (Pt d)} {r : ℕ}
    (hr : 0 < r) (h2 : 2 ≤ x.length) : knn true env x r x.length = .ok (classical x) := by
  obtain ⟨nb, h1, hv⟩ := knn_value hc hq (r := r) (le_refl x.length)
  have hch := hc x.length (min r x.length) (min_le_right _ _)
  obtain ⟨C, hC⟩ := covRows_some h2
  have e : (env.choice x.length (min r x.length)).map (fun idx => MH.covRows ((nb idx).filterMap fun i => x[i]?)) =
      ((env.choice x.length (min r x.length)).map fun _ => C).map some := by
    rw [List.map_map]
    refine List.map_congr_left fun idx hidx => ?_
    obtain ⟨_, a2, a3, a4⟩ := h1 idx (hch.2.2 idx hidx)
    rw [covRows_perm (all_rows a3 a2 a4), hC]
    rfl
  have hne : (env.choice x.length (min r x.length)).map (fun _ => C) ≠ [] := by
    intro h
    have h0 := hch.1
    rw [List.map_eq_nil_iff.mp h, List.length_nil] at h0
    have : 0 < min r x.length := lt_min hr (by omega)
    omega
  rw [hv, e, meanMats_some hne]
  unfold classical
  rw [hC]
  congr 2
  rw [List.map_const', List.sum_replicate, List.length_replicate, hch.1]
  have : ((min r x.length : ℕ) : ℝ) ≠ 0 := by
    have : 0 < min r x.length := by omega
    positivity
  rw [← Nat.cast_smul_eq_nsmul ℝ, smul_smul, inv_mul_cancel₀ this, one_smul]

/-- **C145** Without the library the sample covariance is returned, for any data. -/
theorem knn_fallback (env : Env d) (x : List (Pt d)) (r k : ℕ) : knn false env x r k = .ok (classical x) := rfl

/-- **C145** The number of random points is cut to the number of rows, that of neighbours is not:
fewer rows than neighbours raise, though the sample covariance exists and is returned without
the library. -/
theorem knn_small_false {env : Env d} (hc : IsChoice env.choice) (hq : IsQuery env.query) {x : List (Pt d)} {r k : ℕ}
    (hr : 0 < r) (h2 : 2 ≤ x.length) (hk : x.length < k) :
    knn true env x r k = .error .runtimeError ∧ ∃ C, knn false env x r k = .ok (some C) := by
  constructor
  · have hch := hc x.length (min r x.length) (min_le_right _ _)
    have hm : (if r > x.length then x.length else r) = min r x.length := by
      rcases le_or_gt r x.length with h | h
      · rw [if_neg (not_lt.mpr h), min_eq_left h]
      · rw [if_pos h, min_eq_right h.le]
    unfold knn
    simp only [Bool.not_true, Bool.false_eq_true, if_false]
    rw [hm]
    rcases hl : env.choice x.length (min r x.length) with _ | ⟨a, l⟩
    · rw [hl] at hch
      have := hch.1
      simp at this
      omega
    · rw [hl] at hch
      have ha := hch.2.2 a (by simp)
      rw [List.mapM_cons]
      have : localCov env x k a = .error .runtimeError := by
        unfold localCov
        rw [pyGet_nat x a ha]
        simp only [bind, Except.bind, (hq x _ k).1 hk]
      rw [this]
      rfl
  · obtain ⟨C, hC⟩ := covRows_some h2
    exact ⟨C, by rw [knn_fallback, classical, hC]⟩

/-- The case of ten rows and the default fifty neighbours. -/
example (x : List (Pt 2)) (h : x.length = 10) : ∃ env : Env 2, knn true env x 50 50 = .error .runtimeError := by
  obtain ⟨env, hc, hq⟩ := exists_env (d := 2)
  exact ⟨env, (knn_small_false hc hq (by norm_num) (by omega) (by omega)).1⟩

/-! ## Change of coordinates -/

theorem covRows_shift (l : List (Pt d)) (c : Pt d) : MH.covRows (l.map (· + c)) = MH.covRows l := by
  unfold MH.covRows
  rw [List.length_map]
  split_ifs with h
  · rfl
  · have hl : (l.length : ℝ) ≠ 0 := by
      have : 0 < l.length := by omega
      positivity
    have hm : MH.meanRows (l.map (· + c)) = MH.meanRows l + c := by
      unfold MH.meanRows
      have : (l.map (· + c)).sum = l.sum + (l.length : ℝ) • c := by
        clear h hl
        induction l with
        | nil => simp
        | cons a l ih =>
          simp only [List.map_cons, List.sum_cons, ih, List.length_cons]
          push_cast
          rw [add_smul, one_smul]
          abel
      rw [this, List.length_map, smul_add, smul_smul, inv_mul_cancel₀ hl, one_smul]
    dsimp only
    rw [hm, List.map_map]
    congr 4
    funext r
    ext i j
    simp

/-- **C145** The sample covariance does not depend on the origin. -/
theorem classical_shift (x : List (Pt d)) (c : Pt d) : classical (x.map (· + c)) = classical x := covRows_shift x c

end Verif.KnnCov
