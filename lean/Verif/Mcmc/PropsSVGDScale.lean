import Verif.Mcmc.PropsSVGDSample

/-!
# C116: the median kernel does not depend on units
-/

set_option autoImplicit false

namespace Verif.SVGD

open Verif

variable {n d : ℕ}

/-- Quantiles scale with the data. -/
theorem percentile_scale {a : ℝ} (ha : 0 < a) (l : List ℝ) (hl : l ≠ []) (q m : ℝ)
    (h : Data.percentile l q = .ok m) : Data.percentile (l.map (a * ·)) q = .ok (a * m) := by
  have hs : (l.map (a * ·)).insertionSort (· ≤ ·) = (l.insertionSort (· ≤ ·)).map (a * ·) := by
    refine List.Perm.eq_of_pairwise (fun a b _ _ h1 h2 => le_antisymm h1 h2)
      (List.pairwise_insertionSort _ _) ?_ ?_
    · rw [List.pairwise_map]
      exact (List.pairwise_insertionSort (· ≤ ·) l).imp fun h => mul_le_mul_of_nonneg_left h ha.le
    · exact (List.perm_insertionSort _ _).trans ((List.perm_insertionSort (· ≤ ·) l).map _).symm
  have hg : ∀ (l : List ℝ) i, (l.map (a * ·)).getD i 0 = a * l.getD i 0 := by
    intro l i
    rw [List.getD_eq_getElem?_getD, List.getD_eq_getElem?_getD, List.getElem?_map]
    cases l[i]? <;> simp
  unfold Data.percentile at h ⊢
  rw [if_neg hl] at h
  rw [if_neg (by simpa using hl)]
  injection h with h
  dsimp only
  rw [hs, List.length_map, hg, hg, ← h]
  congr 1
  ring

/-- Affine change of units of the particles. -/
noncomputable def affine (a : ℝ) (t : Pt d) (x : Pts n d) : Pts n d := fun i c => a * x i c + t c

theorem dist2_affine (a : ℝ) (t : Pt d) (x : Pts n d) (i j : Fin n) :
    dist2 (affine a t x i) (affine a t x j) = a ^ 2 * dist2 (x i) (x j) := by
  unfold dist2 affine
  rw [Finset.mul_sum]
  exact Finset.sum_congr rfl fun c _ => by ring

theorem posSq_affine {a : ℝ} (ha : 0 < a) (t : Pt d) (x : Pts n d) :
    posSq (affine a t x) = (posSq x).map (a ^ 2 * ·) := by
  classical
  unfold posSq
  have h1 : ((List.finRange n).flatMap fun i => (List.finRange n).map fun j =>
      sqDist (affine a t x) i j) =
      ((List.finRange n).flatMap fun i => (List.finRange n).map fun j => sqDist x i j).map (a ^ 2 * ·) := by
    rw [List.map_flatMap]
    simp only [List.map_map, sqDist_eq, dist2_affine]
    rfl
  rw [h1, List.filter_map]
  congr 1
  refine List.filter_congr fun s _ => ?_
  have : (0 < a ^ 2 * s) ↔ 0 < s := by
    constructor
    · intro h; exact (pos_iff_pos_of_mul_pos h).mp (by positivity)
    · intro h; positivity
  simp [Function.comp, this]

/-- **C116** With the median bandwidth the kernel matrix is unchanged by a translation or a
change of scale of the cloud, as long as the safeguards on the bandwidth are not active; the
bandwidth scales with the square. -/
theorem kernel_units {o : KOpts} {x : Pts n d} {k k' : Fin n → Fin n → ℝ} {h h' a : ℝ} (ha : 0 < a)
    (t : Pt d) (hb : o.bandwidth = none) (hm : o.bmin = none) (hne : ∃ i j, x i ≠ x j)
    (hr : rbf o x = .ok (k, h)) (hr' : rbf o (affine a t x) = .ok (k', h'))
    (hj : o.jitter < raw o x) (hj' : o.jitter < raw o (affine a t x)) :
    h' = a ^ 2 * h ∧ k' = k := by
  obtain ⟨_, _, e1, hk⟩ := (rbf_ok _ _ _ _).mp hr
  obtain ⟨_, _, e2, hk'⟩ := (rbf_ok _ _ _ _).mp hr'
  have hp : posSq x ≠ [] := by
    obtain ⟨i, j, hij⟩ := hne
    have : dist2 (x i) (x j) ∈ posSq x := by
      rw [mem_posSq]
      exact ⟨lt_of_le_of_ne (dist2_nonneg _ _) fun e => hij (dist2_eq_zero.mp e.symm), i, j, rfl⟩
    exact List.ne_nil_of_mem this
  have hp' : posSq (affine a t x) ≠ [] := by rw [posSq_affine ha]; simpa using hp
  obtain ⟨m, hmed, _⟩ := percentile_half_pos (posSq x) hp fun s hs => ((mem_posSq x s).mp hs).1
  have hmed' := percentile_scale (a := a ^ 2) (by positivity) _ hp _ _ hmed
  rw [← posSq_affine ha t] at hmed'
  have r1 := raw_median hb x hp hmed
  have r2 := raw_median hb (affine a t x) hp' hmed'
  have hh : h' = a ^ 2 * h := by
    rw [e1, e2]
    unfold bw guardBandwidth
    rw [hm]
    dsimp only
    rw [if_neg (not_le.mpr hj), if_neg (not_le.mpr hj'), r1, r2]
    ring
  refine ⟨hh, ?_⟩
  funext i j
  rw [hk, hk', hh]
  unfold gauss
  congr 1
  have := dist2_affine a t x i j
  unfold dist2 at this
  rw [this]
  by_cases h0 : h = 0
  · simp [h0]
  · field_simp

/-- Default settings of the kernel. -/
noncomputable def kDefault : KOpts := ⟨none, 1, none, 1 / 10 ^ 12⟩

/-- Two particles at distance one. -/
noncomputable def pair : Pts 2 1 := fun i _ => (i : ℕ)

theorem pair_posSq : posSq pair = [1, 1] := by
  classical
  have hf : List.finRange 2 = [0, 1] := by decide
  unfold posSq
  rw [hf]
  simp [sqDist, pair, List.filter_cons]

theorem pair_raw {a : ℝ} (ha : 0 < a) : raw kDefault (affine a (fun _ => 0) pair) = a ^ 2 / Real.log 3 := by
  have hmed : Data.percentile (posSq pair) (50 / 100) = .ok 1 := by
    rw [pair_posSq]
    have hs : ([1, 1] : List ℝ).insertionSort (· ≤ ·) = [1, 1] :=
      List.Pairwise.insertionSort_eq (by simp)
    unfold Data.percentile
    rw [if_neg (by simp), hs]
    have : ⌊(50 / 100 * ((([1, 1] : List ℝ).length : ℝ) - 1))⌋₊ = 0 := by
      rw [Nat.floor_eq_zero]; norm_num
    dsimp only
    rw [this]
    norm_num
  have hlog3 : Real.log (((2 : ℕ) : ℝ) + 1) = Real.log 3 := by norm_num
  have hmed' := percentile_scale (a := a ^ 2) (by positivity) _ (by rw [pair_posSq]; simp) _ _ hmed
  rw [← posSq_affine ha (fun _ => 0)] at hmed'
  have r2 := raw_median (o := kDefault) rfl (affine a (fun _ => 0) pair)
    (by rw [posSq_affine ha, pair_posSq]; simp) hmed'
  rw [hlog3] at r2
  rw [r2]
  simp [kDefault]

theorem log3_bounds : 1 < Real.log 3 ∧ Real.log 3 < 2 := by
  constructor
  · rw [Real.lt_log_iff_exp_lt (by norm_num)]
    have := Real.exp_one_lt_d9; linarith
  · rw [Real.log_lt_iff_lt_exp (by norm_num)]
    have := Real.add_one_lt_exp (show (2 : ℝ) ≠ 0 by norm_num)
    linarith

theorem affine_one (x : Pts n d) : affine 1 (fun _ => 0) x = x := by
  funext i c; simp [affine]

/-- Metres or kilometres: the hypotheses of `kernel_units` hold. -/
example : kDefault.jitter < raw kDefault pair ∧
    kDefault.jitter < raw kDefault (affine 1000 (fun _ => 0) pair) := by
  have hl := log3_bounds
  have h1 := pair_raw one_pos
  rw [affine_one] at h1
  rw [h1, pair_raw (by norm_num)]
  constructor
  · rw [lt_div_iff₀ (by linarith)]; norm_num [kDefault]; linarith
  · rw [lt_div_iff₀ (by linarith)]; norm_num [kDefault]; linarith

/-- **C116** The safeguard breaks it: a cloud shrunk below the jitter falls back to the scale
as bandwidth. -/
theorem kernel_units_false : ∃ (o : KOpts) (x : Pts 2 1) (a : ℝ) (k k' : Fin 2 → Fin 2 → ℝ) (h h' : ℝ),
    0 < a ∧ o.bandwidth = none ∧ o.bmin = none ∧ rbf o x = .ok (k, h) ∧
    rbf o (affine a (fun _ => 0) x) = .ok (k', h') ∧ k' 0 1 ≠ k 0 1 := by
  have hlog := log3_bounds
  have r1 := pair_raw one_pos
  rw [affine_one] at r1
  have r2 := pair_raw (a := 1 / 10 ^ 6) (by norm_num)
  have b1 : bw kDefault pair = 1 / Real.log 3 := by
    unfold bw guardBandwidth
    rw [r1]
    have : ¬ (1 : ℝ) ^ 2 / Real.log 3 ≤ kDefault.jitter := by
      rw [not_le, lt_div_iff₀ (by linarith)]
      norm_num [kDefault]; linarith
    rw [if_neg this]
    simp [kDefault]
  have b2 : bw kDefault (affine (1 / 10 ^ 6) (fun _ => 0) pair) = 1 := by
    unfold bw guardBandwidth
    rw [r2]
    have : (1 / 10 ^ 6 : ℝ) ^ 2 / Real.log 3 ≤ kDefault.jitter := by
      rw [div_le_iff₀ (by linarith)]
      norm_num [kDefault]; linarith
    rw [if_pos this]
    norm_num [kDefault]
  have h1 := (rbf_ok kDefault pair _ _).mpr ⟨by simp [kDefault], by simp [kDefault], rfl, fun i j => rfl⟩
  have h2 := (rbf_ok kDefault (affine (1 / 10 ^ 6) (fun _ => 0) pair) _ _).mpr
    ⟨by simp [kDefault], by simp [kDefault], rfl, fun i j => rfl⟩
  refine ⟨kDefault, pair, 1 / 10 ^ 6, _, _, _, _, by positivity, rfl, rfl, h1, h2, ?_⟩
  rw [b1, b2]
  unfold gauss
  intro e
  rw [Real.exp_eq_exp] at e
  simp [affine, pair] at e
  norm_num at e
  linarith

end Verif.SVGD
