import Verif.Data.Generated
import Verif.Data.PropsStats

/-!
# C226: generated statistics methods
-/

set_option autoImplicit false

namespace Verif.Data.Gen

open Verif Verif.Data

/-- **C226** Each of the fourteen names gives the method of its own field and statistic (no two share
one), on the data set and, with the prefix `dataset_`, on a loader; every other name is unknown to
both tables. -/
theorem names_spec (f : Field) (s : Stat) :
    getattrDataset (methodName f s) = .ok ⟨f, s⟩ ∧ getattrLoader (propName f s) = .ok ⟨f, s⟩ ∧
    (∀ name, (∀ f s, name ≠ methodName f s) → getattrDataset name = .error .attributeError) ∧
    (∀ name, (∀ f s, name ≠ propName f s) → getattrLoader name = .error .attributeError) := by
  refine ⟨?_, ?_, ?_, ?_⟩
  · cases f <;> cases s <;> decide
  · cases f <;> cases s <;> decide
  · intro name hn
    have : lookup datasetTable name = none := by
      unfold lookup
      rw [List.find?_eq_none.mpr, Option.map_none]
      intro e he
      rw [List.mem_reverse] at he
      simp only [datasetTable, List.mem_flatMap, List.mem_map] at he
      obtain ⟨f, -, s, -, rfl⟩ := he
      simpa using (hn f s).symm
    simp [getattrDataset, this]
  · intro name hn
    have : lookup loaderTable name = none := by
      unfold lookup
      rw [List.find?_eq_none.mpr, Option.map_none]
      intro e he
      rw [List.mem_reverse] at he
      simp only [loaderTable, List.mem_flatMap, List.mem_map] at he
      obtain ⟨s, -, f, -, rfl⟩ := he
      simpa using (hn f s).symm
    simp [getattrLoader, this]

/-- The method called on a data set. -/
noncomputable def ask (c : Cols) (name : String) (args : List ℝ) : Py (Option ℝ) := do
  callStat c (← getattrDataset name) args

/-- **C226** The methods compute the statistics they are named after, of their own field, over all
shards; they refuse arguments they do not know. -/
theorem stats_spec (c : Cols) (f : Field) (h2 : 2 ≤ (c.get f).flatten.length) (hne : ∀ d ∈ c.get f, d ≠ []) :
    (∃ m, ask c (f.text ++ "_min") [] = .ok (some m) ∧ IsMinOf m (c.get f).flatten) ∧
    (∃ m, ask c (f.text ++ "_max") [] = .ok (some m) ∧ IsMaxOf m (c.get f).flatten) ∧
    ask c (f.text ++ "_mean") [] = .ok (some ((c.get f).flatten.sum / (c.get f).flatten.length)) ∧
    (∃ v : ℝ, v = ((c.get f).flatten.map fun t => (t - (c.get f).flatten.sum / (c.get f).flatten.length) ^ 2).sum /
        ((c.get f).flatten.length - 1) ∧ ask c (f.text ++ "_var") [] = .ok (some v) ∧ ask c (f.text ++ "_std") [] = .ok (some (Real.sqrt v))) ∧
    ask c (f.text ++ "_median") [] = ask c (f.text ++ "_quantile") [1 / 2] ∧
    ask c (f.text ++ "_quantile") [] = .error .typeError ∧
    (∀ s q, s ≠ .quantile → ask c (methodName f s) [q] = .error .typeError) := by
  have hn : ∀ s args, ask c (methodName f s) args = callStat c ⟨f, s⟩ args := by
    intro s args
    simp [ask, (names_spec f s).1, bind, Except.bind]
  have hds : c.get f ≠ [] := by
    intro h; rw [h] at h2; simp at h2
  have hfl : (c.get f).flatten ≠ [] := by
    intro h; rw [h] at h2; simp at h2
  have t1 : f.text ++ "_min" = methodName f .min := by cases f <;> decide
  have t2 : f.text ++ "_max" = methodName f .max := by cases f <;> decide
  have t3 : f.text ++ "_mean" = methodName f .mean := by cases f <;> decide
  have t4 : f.text ++ "_var" = methodName f .var := by cases f <;> decide
  have t5 : f.text ++ "_std" = methodName f .std := by cases f <;> decide
  have t6 : f.text ++ "_median" = methodName f .median := by cases f <;> decide
  have t7 : f.text ++ "_quantile" = methodName f .quantile := by cases f <;> decide
  rw [t1, t2, t3, t4, t5, t6, t7]
  refine ⟨?_, ?_, ?_, ?_, ?_, ?_, ?_⟩
  · obtain ⟨m, e, hm⟩ := reduceMin_spec (c.get f) hds hne
    exact ⟨m, (hn .min []).trans (by simp [callStat, e, Except.map]), hm⟩
  · obtain ⟨m, e, hm⟩ := reduceMax_spec (c.get f) hds hne
    exact ⟨m, (hn .max []).trans (by simp [callStat, e, Except.map]), hm⟩
  · exact (hn .mean []).trans (reduceMean_spec (c.get f) hfl)
  · refine ⟨_, rfl, (hn .var []).trans (reduceVar_spec (c.get f) h2), (hn .std []).trans ?_⟩
    simp only [callStat, reduceStd, reduceVar_spec (c.get f) h2]
    rfl
  · exact (hn .median []).trans (hn .quantile [1 / 2]).symm
  · exact hn .quantile []
  · intro s q hs
    rw [hn s [q]]
    cases s <;> first | rfl | exact absurd rfl hs

/-- **C226** A statistic of one field does not depend on the other. -/
theorem stats_own_field (c c' : Cols) (f : Field) (h : c.get f = c'.get f) (s : Stat) (args : List ℝ) :
    ask c (methodName f s) args = ask c' (methodName f s) args := by
  simp only [ask, (names_spec f s).1, bind, Except.bind]
  simp only [callStat, h]

/-- **C226** (negative) The approximate quantile has no generated method. -/
theorem quantile_approx_false :
    getattrDataset "x_quantile_approx" = .error .attributeError ∧
    getattrLoader "dataset_x_quantile_approx" = .error .attributeError := by
  constructor <;> decide

/-- Reading a property as a number, as in `loader.dataset_x_mean - 1.0`: a bound method is not a
number. -/
noncomputable def asNumber (_ : Bound) : Py ℝ := .error .typeError

/-- **C226** (negative) `loader.dataset_x_mean` is not the mean but a method that computes it, so it
cannot be used as a number, whatever the data; calling it gives the mean. -/
theorem property_value_false (c : Cols) (hx : c.x.flatten ≠ []) :
    (do asNumber (← getattrLoader "dataset_x_mean")) = .error .typeError ∧
    (do callStat c (← getattrLoader "dataset_x_mean") []) = .ok (some (c.x.flatten.sum / c.x.flatten.length)) := by
  have e : getattrLoader "dataset_x_mean" = .ok ⟨.x, .mean⟩ := (names_spec .x .mean).2.1
  constructor
  · rw [e]; rfl
  · rw [e]; exact reduceMean_spec c.x hx

/-! ## Element types -/

theorem meanTypedGo_same (b : Bool) (ds : List (List ℝ)) (t : ℝ) (n : ℕ) :
    meanTypedGo (some (b, t)) n (ds.map fun d => (b, d)) = .ok (npDiv (t + ds.flatten.sum) (n + ds.flatten.length)) := by
  induction ds generalizing t n with
  | nil => simp [meanTypedGo]
  | cons d ds ih =>
    simp only [List.map_cons, meanTypedGo, addInPlace, bind, Except.bind]
    have : (b && !b) = false := by cases b <;> rfl
    simp only [this, Bool.false_eq_true, if_false]
    rw [ih]
    simp only [List.flatten_cons, List.sum_append, List.length_append]
    rw [add_assoc, add_assoc]

/-- **C226** When all shards have the same element type the mean is that of all rows. -/
theorem mean_same_type (b : Bool) (ds : List (List ℝ)) (h : ds.flatten ≠ []) :
    meanTyped (ds.map fun d => (b, d)) = .ok (some (ds.flatten.sum / ds.flatten.length)) := by
  cases ds with
  | nil => exact absurd rfl h
  | cons d ds =>
    simp only [meanTyped, List.map_cons, meanTypedGo]
    rw [meanTypedGo_same]
    have hl : 0 + d.length + ds.flatten.length = (d :: ds).flatten.length := by simp
    have hs : d.sum + ds.flatten.sum = (d :: ds).flatten.sum := by simp
    rw [hl, hs, npDiv, if_neg]
    exact fun h0 => h (List.eq_nil_of_length_eq_zero h0)

/-- **C226** (negative) The order of the shards matters: integers followed by floats fail, floats
followed by integers do not. -/
theorem mean_order_false :
    meanTyped [(true, [1]), (false, [2])] = .error .typeError ∧
    meanTyped [(false, [2]), (true, [1])] = .ok (some (3 / 2)) := by
  constructor
  · simp [meanTyped, meanTypedGo, addInPlace, bind, Except.bind]
  · simp [meanTyped, meanTypedGo, addInPlace, bind, Except.bind, npDiv]
    norm_num

/-- A data set with two shards. -/
example : ∃ m, ask ⟨[[1, 3], [2]], [[5], [6, 7]]⟩ "z_max" [] = .ok (some m) ∧ IsMaxOf m [5, 6, 7] := by
  obtain ⟨-, h, -⟩ := stats_spec ⟨[[1, 3], [2]], [[5], [6, 7]]⟩ .z (by simp [Cols.get]) (by simp [Cols.get])
  simpa [Cols.get, Field.text] using h

theorem meanTypedGo_float (ds : List (Bool × List ℝ)) (t : ℝ) (n : ℕ) :
    ∃ v, meanTypedGo (some (false, t)) n ds = .ok v := by
  induction ds generalizing t n with
  | nil => exact ⟨_, rfl⟩
  | cons d ds ih =>
    obtain ⟨v, hv⟩ := ih (t + d.2.sum) (n + d.2.length)
    exact ⟨v, by simpa [meanTypedGo, addInPlace, bind, Except.bind] using hv⟩

theorem meanTypedGo_int (ds : List (Bool × List ℝ)) (t : ℝ) (n : ℕ) :
    meanTypedGo (some (true, t)) n ds = .error .typeError ↔ ∃ d ∈ ds, d.1 = false := by
  induction ds generalizing t n with
  | nil => simp [meanTypedGo]
  | cons d ds ih =>
    cases hd : d.1
    · simp [meanTypedGo, addInPlace, bind, Except.bind, hd]
    · have := ih (t + d.2.sum) (n + d.2.length)
      simp only [List.mem_cons, exists_eq_or_imp, hd, Bool.true_eq_false, false_or]
      rw [← this]
      simp [meanTypedGo, addInPlace, bind, Except.bind, hd]

/-- **C226** The mean fails exactly when there is no shard, or when the first shard holds integers
and a later one holds floats. -/
theorem mean_fails_iff (ds : List (Bool × List ℝ)) :
    meanTyped ds = .error .typeError ↔ ds = [] ∨ (∃ d, ds.head? = some (true, d)) ∧ ∃ d ∈ ds, d.1 = false := by
  unfold meanTyped
  match ds with
  | [] => simp [meanTypedGo]
  | (true, l) :: ds => simp [meanTypedGo, meanTypedGo_int]
  | (false, l) :: ds =>
    obtain ⟨v, hv⟩ := meanTypedGo_float ds l.sum (0 + l.length)
    simp [meanTypedGo] at hv ⊢
    simp [hv]

/-- Floats, integers, floats: no failure. -/
example : ¬ meanTyped [(false, [2]), (true, [1]), (false, [3])] = .error .typeError := by
  rw [mean_fails_iff]; simp

end Verif.Data.Gen
