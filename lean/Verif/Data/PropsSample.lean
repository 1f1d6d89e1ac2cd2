import Verif.Data.PropsLoader
import Verif.Data.PropsDataset
import Verif.Data.PropsFold
import Verif.Data.PropsBatch
import Mathlib.GroupTheory.Perm.Basic
import Mathlib.Data.Fintype.Perm
import Mathlib.Algebra.BigOperators.Field
import Mathlib.Tactic.FieldSimp
import Mathlib.Algebra.Order.BigOperators.Group.Finset
import Mathlib.Data.List.GetD
import Mathlib.Algebra.BigOperators.Fin
import Mathlib.Algebra.BigOperators.Group.Finset.Sigma
import Mathlib.Tactic.LinearCombination
import Mathlib.Order.Interval.Finset.Nat
import Mathlib.Logic.Equiv.Fintype
import Mathlib.Tactic.Ring
import Mathlib.Tactic.Linarith
import Mathlib.Data.Real.Basic

/-!
# C273: shuffled batches and random splits are simple random samples
-/

set_option autoImplicit false

namespace Verif.Data

open Verif Finset

/-- The orders `ord` drawn over equally likely outcomes are uniform: they are permutations of
`0 … n-1`, and each permutation is drawn equally often. -/
structure Fair {Ω : Type} [Fintype Ω] (n : ℕ) (ord : Ω → List ℕ) : Prop where
  perm : ∀ ω, (ord ω).Perm (List.range n)
  count : ∀ l : List ℕ, l.Perm (List.range n) →
    (open Classical in (univ.filter fun ω => ord ω = l).card) * n.factorial = Fintype.card Ω

/-- The list of a permutation. -/
def listOf {n : ℕ} (π : Equiv.Perm (Fin n)) : List ℕ := List.ofFn fun i => (π i : ℕ)

theorem listOf_inj {n : ℕ} : Function.Injective (listOf (n := n)) := by
  intro π ρ h
  ext i
  have := congrFun (List.ofFn_injective h) i
  exact this

theorem listOf_perm {n : ℕ} (π : Equiv.Perm (Fin n)) : (listOf π).Perm (List.range n) := by
  rw [List.perm_ext_iff_of_nodup]
  · intro a
    simp only [listOf, List.mem_ofFn, List.mem_range]
    constructor
    · rintro ⟨i, rfl⟩; exact (π i).2
    · intro h; exact ⟨π.symm ⟨a, h⟩, by simp⟩
  · rw [listOf, List.nodup_ofFn]
    intro i j h
    exact π.injective (Fin.ext h)
  · exact List.nodup_range

theorem exists_listOf {n : ℕ} {l : List ℕ} (h : l.Perm (List.range n)) :
    ∃ π : Equiv.Perm (Fin n), listOf π = l := by
  have hl : l.length = n := by rw [h.length_eq, List.length_range]
  have hn : l.Nodup := h.nodup_iff.mpr List.nodup_range
  subst hl
  have hlt : ∀ i : Fin l.length, l[i] < l.length := fun i =>
    List.mem_range.mp (h.mem_iff.mp (List.getElem_mem i.2))
  have hinj : Function.Injective fun i : Fin l.length => (⟨l[i], hlt i⟩ : Fin l.length) := by
    intro i j hij
    have := Fin.mk.inj hij
    exact Fin.ext ((hn.getElem_inj_iff).mp this)
  refine ⟨Equiv.ofBijective _ (Finite.injective_iff_bijective.mp hinj), ?_⟩
  apply List.ext_getElem
  · simp [listOf]
  · intro i h1 h2
    simp [listOf]

/-- Averages over fair orders are averages over permutations. -/
theorem fair_sum {Ω : Type} [Fintype Ω] {n : ℕ} {ord : Ω → List ℕ} (hf : Fair n ord)
    (G : List ℕ → ℝ) :
    (∑ ω, G (ord ω)) * n.factorial =
      Fintype.card Ω * ∑ π : Equiv.Perm (Fin n), G (listOf π) := by
  classical
  choose π hπ using fun ω => exists_listOf (hf.perm ω)
  have h1 : ∑ ω, G (ord ω) = ∑ ρ : Equiv.Perm (Fin n), ∑ ω with π ω = ρ, G (listOf ρ) := by
    rw [← Finset.sum_fiberwise_of_maps_to (s := univ) (t := univ) (g := π) (fun _ _ => mem_univ _)]
    refine sum_congr rfl fun ρ _ => sum_congr rfl fun ω hω => ?_
    rw [← (mem_filter.mp hω).2, hπ]
  rw [h1, sum_mul, mul_sum]
  refine sum_congr rfl fun ρ _ => ?_
  rw [sum_const, nsmul_eq_mul]
  have h2 : (univ.filter fun ω => π ω = ρ) = univ.filter fun ω => ord ω = listOf ρ := by
    ext ω
    simp only [mem_filter, mem_univ, true_and]
    constructor
    · rintro rfl; exact (hπ ω).symm
    · intro h; exact listOf_inj ((hπ ω).trans h)
  have h3 := hf.count (listOf ρ) (listOf_perm ρ)
  rw [h2]
  have h4 : ((univ.filter fun ω => ord ω = listOf ρ).card : ℝ) * n.factorial =
      Fintype.card Ω := by
    have := congrArg (Nat.cast (R := ℝ)) h3
    push_cast at this
    convert this
  rw [← h4]; ring

/-- The positions `a … a+m-1`. -/
def positions (n a m : ℕ) : Finset (Fin n) := univ.filter fun i => a ≤ (i : ℕ) ∧ (i : ℕ) < a + m

theorem positions_card {n a m : ℕ} (h : a + m ≤ n) : (positions n a m).card = m := by
  unfold positions
  rw [← card_map (Fin.valEmbedding)]
  have : (univ.filter fun i : Fin n => a ≤ (i : ℕ) ∧ (i : ℕ) < a + m).map Fin.valEmbedding =
      Finset.Ico a (a + m) := by
    ext x
    simp only [mem_map, mem_filter, mem_univ, true_and, Fin.valEmbedding_apply, mem_Ico]
    constructor
    · rintro ⟨i, hi, rfl⟩; exact hi
    · intro hx; exact ⟨⟨x, by omega⟩, hx, rfl⟩
  rw [this]; simp

/-- A stretch of the list of a permutation, as a multiset. -/
theorem chunk_listOf {n : ℕ} (π : Equiv.Perm (Fin n)) {a m : ℕ} (h : a + m ≤ n) :
    ((((listOf π).drop a).take m : List ℕ) : Multiset ℕ) =
      (positions n a m).val.map fun i => (π i : ℕ) := by
  have e1 : ((listOf π).drop a).take m =
      (((List.finRange n).drop a).take m).map fun i => (π i : ℕ) := by
    rw [listOf, List.ofFn_eq_map, ← List.map_drop, ← List.map_take]
  rw [e1, ← Multiset.map_coe]
  congr 1
  have e2 : (((List.finRange n).drop a).take m : Multiset (Fin n)) =
      (((List.finRange n).drop a).take m).toFinset.val := by
    rw [List.toFinset_val, List.Nodup.dedup]
    exact ((List.nodup_finRange n).sublist (List.drop_sublist _ _)).sublist (List.take_sublist _ _)
  rw [e2]
  congr 1
  ext i
  simp only [List.mem_toFinset, positions, mem_filter, mem_univ, true_and]
  rw [List.mem_iff_getElem]
  constructor
  · rintro ⟨k, hk, rfl⟩
    simp only [List.length_take, List.length_drop, List.length_finRange] at hk
    simp only [List.getElem_take, List.getElem_drop, List.getElem_finRange]
    simp
    omega
  · intro hi
    refine ⟨(i : ℕ) - a, ?_, ?_⟩
    · simp only [List.length_take, List.length_drop, List.length_finRange]; omega
    · simp only [List.getElem_take, List.getElem_drop, List.getElem_finRange]
      ext
      simp
      omega

/-- Reindexing by a permutation applied before. -/
theorem sum_perm_right {n : ℕ} (τ : Equiv.Perm (Fin n)) (G : Equiv.Perm (Fin n) → ℝ) :
    ∑ π, G (π * τ) = ∑ π, G π := Equiv.sum_comp (Equiv.mulRight τ) G

theorem sum_perm_left {n : ℕ} (τ : Equiv.Perm (Fin n)) (G : Equiv.Perm (Fin n) → ℝ) :
    ∑ π, G (τ * π) = ∑ π, G π := Equiv.sum_comp (Equiv.mulLeft τ) G

/-- Two sets of the same size are exchanged by a permutation. -/
theorem exists_perm_map {n : ℕ} {A B : Finset (Fin n)} (h : A.card = B.card) :
    ∃ τ : Equiv.Perm (Fin n), A.map τ.toEmbedding = B := by
  classical
  obtain ⟨e⟩ : Nonempty ({x // x ∈ A} ≃ {x // x ∈ B}) := by
    rw [← Fintype.card_eq]; simpa using h
  refine ⟨e.extendSubtype, ?_⟩
  ext x
  simp only [mem_map, Equiv.coe_toEmbedding]
  constructor
  · rintro ⟨y, hy, rfl⟩
    exact e.extendSubtype_mem y hy
  · intro hx
    refine ⟨(e.symm ⟨x, hx⟩ : Fin n), (e.symm ⟨x, hx⟩).2, ?_⟩
    rw [e.extendSubtype_apply_of_mem _ (e.symm ⟨x, hx⟩).2]
    simp

/-- Each set of the size of `P` is the image of `P` under equally many permutations. -/
theorem sum_image {n : ℕ} (P : Finset (Fin n)) (F : Finset (Fin n) → ℝ) :
    (∑ π : Equiv.Perm (Fin n), F (P.map π.toEmbedding)) * (n.choose P.card) =
      n.factorial * ∑ A ∈ powersetCard P.card univ, F A := by
  classical
  set c : Finset (Fin n) → ℕ := fun A =>
    (univ.filter fun π : Equiv.Perm (Fin n) => P.map π.toEmbedding = A).card with hc
  have hconst : ∀ A ∈ powersetCard P.card (univ : Finset (Fin n)), c A = c P := by
    intro A hA
    obtain ⟨τ, hτ⟩ := exists_perm_map (mem_powersetCard.mp hA).2.symm
    refine (card_bij (fun π _ => τ * π) ?_ ?_ ?_).symm
    · intro π hπ
      simp only [mem_filter, mem_univ, true_and] at hπ ⊢
      have : P.map (τ * π).toEmbedding = (P.map π.toEmbedding).map τ.toEmbedding := by
        rw [map_map]; rfl
      rw [this, hπ, hτ]
    · intro π _ ρ _ h; exact mul_left_cancel h
    · intro π hπ
      simp only [mem_filter, mem_univ, true_and] at hπ
      refine ⟨τ⁻¹ * π, ?_, by simp⟩
      simp only [mem_filter, mem_univ, true_and]
      have : P.map (τ⁻¹ * π).toEmbedding = (P.map π.toEmbedding).map (τ⁻¹).toEmbedding := by
        rw [map_map]; rfl
      rw [this, hπ, ← hτ, map_map]
      ext x
      simp [Equiv.Perm.inv_def]
  have hmaps : ∀ π ∈ (univ : Finset (Equiv.Perm (Fin n))),
      P.map π.toEmbedding ∈ powersetCard P.card (univ : Finset (Fin n)) := by
    intro π _
    rw [mem_powersetCard]; exact ⟨subset_univ _, card_map _⟩
  have hsum : ∀ F : Finset (Fin n) → ℝ, ∑ π : Equiv.Perm (Fin n), F (P.map π.toEmbedding) =
      c P * ∑ A ∈ powersetCard P.card univ, F A := by
    intro F
    rw [← Finset.sum_fiberwise_of_maps_to hmaps, mul_sum]
    refine sum_congr rfl fun A hA => ?_
    rw [sum_congr rfl (fun π hπ => by rw [(mem_filter.mp hπ).2] :
      ∀ π ∈ univ.filter (fun π : Equiv.Perm (Fin n) => P.map π.toEmbedding = A),
        F (P.map π.toEmbedding) = F A), sum_const, nsmul_eq_mul]
    have := hconst A hA
    simp only [hc] at this ⊢
    rw [this]
  have h1 := hsum fun _ => 1
  simp only [sum_const, nsmul_eq_mul, mul_one, card_univ, card_powersetCard, Fintype.card_fin,
    Fintype.card_perm] at h1
  rw [hsum F, h1]
  ring

/-- A stretch of fair orders is a simple random sample: each set of its size is equally
likely. -/
theorem fair_chunk {Ω : Type} [Fintype Ω] [Nonempty Ω] {n : ℕ} {ord : Ω → List ℕ}
    (hf : Fair n ord) {a m : ℕ} (h : a + m ≤ n) (F : Multiset ℕ → ℝ) :
    (∑ ω, F ((((ord ω).drop a).take m : List ℕ) : Multiset ℕ)) / Fintype.card Ω =
      (∑ A ∈ powersetCard m (univ : Finset (Fin n)), F (A.val.map Fin.val)) / n.choose m := by
  have h1 := fair_sum hf fun l => F (((l.drop a).take m : List ℕ) : Multiset ℕ)
  have h2 := sum_image (positions n a m) fun A => F (A.val.map Fin.val)
  rw [positions_card h] at h2
  simp only [chunk_listOf _ h] at h1
  have h3 : ∀ π : Equiv.Perm (Fin n), ((positions n a m).map π.toEmbedding).val.map Fin.val =
      (positions n a m).val.map fun i => (π i : ℕ) := by
    intro π
    rw [map_val, Multiset.map_map]; rfl
  simp only [h3] at h2
  have hΩ : (Fintype.card Ω : ℝ) ≠ 0 := by exact_mod_cast Fintype.card_ne_zero
  have hc : (n.choose m : ℝ) ≠ 0 := by
    exact_mod_cast (Nat.choose_pos (by omega)).ne'
  have hn : (n.factorial : ℝ) ≠ 0 := by exact_mod_cast n.factorial_ne_zero
  rw [div_eq_div_iff hΩ hc]
  have : ((∑ ω, F ((((ord ω).drop a).take m : List ℕ) : Multiset ℕ)) * n.choose m) * n.factorial =
      ((∑ A ∈ powersetCard m (univ : Finset (Fin n)), F (A.val.map Fin.val)) *
        Fintype.card Ω) * n.factorial := by
    calc _ = ((∑ ω, F ((((ord ω).drop a).take m : List ℕ) : Multiset ℕ)) * n.factorial) *
          n.choose m := by ring
      _ = _ := by rw [h1]; linear_combination (Fintype.card Ω : ℝ) * h2
  exact mul_right_cancel₀ hn this

/-- Each position holds each value equally often. -/
theorem sum_value {n : ℕ} (g : Fin n → ℝ) (i : Fin n) :
    (n : ℝ) * ∑ π : Equiv.Perm (Fin n), g (π i) = n.factorial * ∑ r, g r := by
  classical
  have hi : ∀ j : Fin n, ∑ π : Equiv.Perm (Fin n), g (π j) = ∑ π : Equiv.Perm (Fin n), g (π i) := by
    intro j
    have := sum_perm_right (Equiv.swap i j) fun π => g (π i)
    simpa using this
  have h1 : ∑ j : Fin n, ∑ π : Equiv.Perm (Fin n), g (π j) =
      n.factorial * ∑ r, g r := by
    rw [sum_comm]
    have : ∀ π : Equiv.Perm (Fin n), ∑ j, g (π j) = ∑ r, g r := fun π => Equiv.sum_comp π g
    simp only [this, sum_const, nsmul_eq_mul, card_univ, Fintype.card_perm, Fintype.card_fin]
  simp only [hi, sum_const, nsmul_eq_mul, card_univ, Fintype.card_fin] at h1
  exact h1

/-- The second moment of the sum of a centred function over a set of positions. -/
theorem sum_square {n : ℕ} (g : Fin n → ℝ) (hg : ∑ r, g r = 0) (P : Finset (Fin n)) :
    (n : ℝ) * (n - 1) * ∑ π : Equiv.Perm (Fin n), (∑ i ∈ P, g (π i)) ^ 2 =
      n.factorial * (P.card * (n - P.card)) * ∑ r, g r ^ 2 := by
  classical
  rcases P.eq_empty_or_nonempty with rfl | ⟨i0, hi0⟩
  · simp
  set S1 : ℝ := ∑ π : Equiv.Perm (Fin n), g (π i0) ^ 2 with hS1
  have h1 : ∀ i, ∑ π : Equiv.Perm (Fin n), g (π i) ^ 2 = S1 := by
    intro i
    have := sum_perm_right (Equiv.swap i0 i) fun π => g (π i0) ^ 2
    simpa using this
  -- mixed moments
  have h2 : ∀ i j, i ≠ j → (n - 1 : ℝ) * ∑ π : Equiv.Perm (Fin n), g (π i) * g (π j) = -S1 := by
    intro i j hij
    have hsame : ∀ k, k ≠ i → ∑ π : Equiv.Perm (Fin n), g (π i) * g (π k) =
        ∑ π : Equiv.Perm (Fin n), g (π i) * g (π j) := by
      intro k hk
      have := sum_perm_right (Equiv.swap j k) fun π => g (π i) * g (π j)
      simp only [Equiv.Perm.coe_mul, Function.comp, Equiv.swap_apply_left,
        Equiv.swap_apply_of_ne_of_ne hij hk.symm] at this
      exact this
    have hz : ∑ k, ∑ π : Equiv.Perm (Fin n), g (π i) * g (π k) = 0 := by
      rw [sum_comm]
      refine sum_eq_zero fun π _ => ?_
      rw [← mul_sum, Equiv.sum_comp π g, hg, mul_zero]
    rw [← add_sum_erase univ _ (mem_univ i), sum_congr rfl fun k hk => hsame k (ne_of_mem_erase hk),
      sum_const, nsmul_eq_mul, card_erase_of_mem (mem_univ i), card_univ, Fintype.card_fin] at hz
    have e : ∑ π : Equiv.Perm (Fin n), g (π i) * g (π i) = S1 := by
      rw [← h1 i]; exact sum_congr rfl fun π _ => (pow_two _).symm
    rw [e, Nat.cast_sub (by have := i.2; omega)] at hz
    push_cast at hz
    linarith
  have h3 : (n : ℝ) * S1 = n.factorial * ∑ r, g r ^ 2 := sum_value (fun r => g r ^ 2) i0
  have h4 : ∑ π : Equiv.Perm (Fin n), (∑ i ∈ P, g (π i)) ^ 2 =
      ∑ i ∈ P, ∑ j ∈ P, ∑ π : Equiv.Perm (Fin n), g (π i) * g (π j) := by
    have : ∀ π : Equiv.Perm (Fin n), (∑ i ∈ P, g (π i)) ^ 2 =
        ∑ i ∈ P, ∑ j ∈ P, g (π i) * g (π j) := fun π => by rw [pow_two, sum_mul_sum]
    simp only [this]
    rw [sum_comm]
    refine sum_congr rfl fun i _ => ?_
    rw [sum_comm]
  have h5 : ∀ i ∈ P, (n - 1 : ℝ) * ∑ j ∈ P, ∑ π : Equiv.Perm (Fin n), g (π i) * g (π j) =
      (n - P.card) * S1 := by
    intro i hi
    rw [← add_sum_erase P _ hi, mul_add, mul_sum (P.erase i),
      sum_congr rfl fun j hj => h2 i j (ne_of_mem_erase hj).symm, sum_const, nsmul_eq_mul,
      card_erase_of_mem hi, Nat.cast_sub (card_pos.mpr ⟨i, hi⟩)]
    have e : ∑ π : Equiv.Perm (Fin n), g (π i) * g (π i) = S1 := by
      rw [← h1 i]; exact sum_congr rfl fun π _ => (pow_two _).symm
    rw [e]
    push_cast
    ring
  calc (n : ℝ) * (n - 1) * ∑ π : Equiv.Perm (Fin n), (∑ i ∈ P, g (π i)) ^ 2
      = n * ∑ i ∈ P, (n - 1 : ℝ) * ∑ j ∈ P, ∑ π : Equiv.Perm (Fin n), g (π i) * g (π j) := by
        rw [h4, ← mul_sum]; ring
    _ = n * (P.card * ((n - P.card) * S1)) := by
        rw [sum_congr rfl h5, sum_const, nsmul_eq_mul]
    _ = n.factorial * (P.card * (n - P.card)) * ∑ r, g r ^ 2 := by
        linear_combination (P.card * (n - P.card) : ℝ) * h3

theorem listOf_chunk_sum {n : ℕ} (π : Equiv.Perm (Fin n)) {a m : ℕ} (h : a + m ≤ n) (f : ℕ → ℝ) :
    ((((listOf π).drop a).take m).map f).sum = ∑ i ∈ positions n a m, f (π i) := by
  rw [← Multiset.sum_coe, ← Multiset.map_coe, chunk_listOf π h, Multiset.map_map]
  rfl

/-- The mean of a stretch of fair orders is unbiased. -/
theorem fair_mean {Ω : Type} [Fintype Ω] [Nonempty Ω] {n : ℕ} {ord : Ω → List ℕ}
    (hf : Fair n ord) {a m : ℕ} (hm : 0 < m) (h : a + m ≤ n) (f : ℕ → ℝ) :
    (∑ ω, ((((ord ω).drop a).take m).map f).sum / m) / Fintype.card Ω =
      (∑ r ∈ range n, f r) / n := by
  have h1 := fair_sum hf fun l => ((((l.drop a).take m).map f).sum : ℝ)
  simp only [listOf_chunk_sum _ h] at h1
  rw [sum_comm] at h1
  have hn0 : 0 < n := by omega
  have h2 : (n : ℝ) * ∑ i ∈ positions n a m, ∑ π : Equiv.Perm (Fin n), f (π i) =
      m * (n.factorial * ∑ r ∈ range n, f r) := by
    rw [mul_sum, sum_congr rfl fun i _ => sum_value (fun r : Fin n => f r) i, sum_const,
      nsmul_eq_mul, positions_card h, Fin.sum_univ_eq_sum_range f n]
  have hΩ : (Fintype.card Ω : ℝ) ≠ 0 := by exact_mod_cast Fintype.card_ne_zero
  have hn : (n.factorial : ℝ) ≠ 0 := by exact_mod_cast n.factorial_ne_zero
  have hm' : (m : ℝ) ≠ 0 := by exact_mod_cast hm.ne'
  have hn' : (n : ℝ) ≠ 0 := by exact_mod_cast hn0.ne'
  rw [← sum_div, div_div, div_eq_div_iff (mul_ne_zero hm' hΩ) hn']
  refine mul_right_cancel₀ hn ?_
  linear_combination (n : ℝ) * h1 + (Fintype.card Ω : ℝ) * h2

/-- The mean squared error of the mean of a stretch of fair orders: sampling without
replacement. -/
theorem fair_variance {Ω : Type} [Fintype Ω] [Nonempty Ω] {n : ℕ} {ord : Ω → List ℕ}
    (hf : Fair n ord) {a m : ℕ} (hm : 0 < m) (h : a + m ≤ n) (h2 : 2 ≤ n) (f : ℕ → ℝ) (mu : ℝ)
    (hmu : mu = (∑ r ∈ range n, f r) / n) :
    (∑ ω, (((((ord ω).drop a).take m).map f).sum / m - mu) ^ 2) / Fintype.card Ω =
      (n - m) / (m * n) * ((∑ r ∈ range n, (f r - mu) ^ 2) / (n - 1)) := by
  have hlen : ∀ ω, (((ord ω).drop a).take m).length = m := by
    intro ω
    rw [List.length_take, List.length_drop, (hf.perm ω).length_eq, List.length_range]; omega
  have hm' : (m : ℝ) ≠ 0 := by exact_mod_cast hm.ne'
  have hn' : (n : ℝ) ≠ 0 := by exact_mod_cast (by omega : n ≠ 0)
  have hn1 : (n : ℝ) - 1 ≠ 0 := by
    have : (2 : ℝ) ≤ n := by exact_mod_cast h2
    linarith
  have hΩ : (Fintype.card Ω : ℝ) ≠ 0 := by exact_mod_cast Fintype.card_ne_zero
  have hn : (n.factorial : ℝ) ≠ 0 := by exact_mod_cast n.factorial_ne_zero
  have hsub : ∀ l : List ℕ, (l.map fun r => f r - mu).sum = (l.map f).sum - l.length * mu := by
    intro l
    induction l with
    | nil => simp
    | cons x l ih => simp only [List.map_cons, List.sum_cons, ih, List.length_cons]; push_cast; ring
  have hcent : ∀ ω, ((((ord ω).drop a).take m).map f).sum / m - mu =
      ((((ord ω).drop a).take m).map fun r => f r - mu).sum / m := by
    intro ω
    rw [hsub, hlen]; field_simp
  have h1 := fair_sum hf fun l => ((((l.drop a).take m).map fun r => f r - mu).sum : ℝ) ^ 2
  simp only [listOf_chunk_sum _ h] at h1
  have h0 : ∑ r : Fin n, (f r - mu) = 0 := by
    rw [Fin.sum_univ_eq_sum_range (fun r => f r - mu) n, sum_sub_distrib, sum_const, card_range,
      nsmul_eq_mul, hmu]
    field_simp
    ring
  have h3 := sum_square (fun r : Fin n => f r - mu) h0 (positions n a m)
  rw [positions_card h, Fin.sum_univ_eq_sum_range (fun r => (f r - mu) ^ 2) n] at h3
  simp only [hcent, div_pow]
  rw [← sum_div]
  set T := ∑ ω, ((((ord ω).drop a).take m).map fun r => f r - mu).sum ^ 2
  set Q := ∑ r ∈ range n, (f r - mu) ^ 2
  set U := ∑ π : Equiv.Perm (Fin n), (∑ i ∈ positions n a m, (f (π i) - mu)) ^ 2
  have h4 : (T * (n * (n - 1))) * n.factorial =
      (Fintype.card Ω * (m * (n - m)) * Q) * n.factorial := by
    linear_combination (n * (n - 1) : ℝ) * h1 + (Fintype.card Ω : ℝ) * h3
  have h5 := mul_right_cancel₀ hn h4
  field_simp
  linear_combination h5

/-- The batches of a pass, one by one: batch `k` has the rows at places `k b … k b + b - 1` of
the order of the pass. -/
theorem onePass_batches {α β σ : Type} {xs : List (List α)} {zs : List (List β)}
    {ds : Dataset α β} (h : mkDataset xs zs = .ok ds) {L : Loader α β} (hds : L.ds = ds)
    (hb : 0 < L.batchSize) (R : Rng σ) (s : σ)
    (hp : (L.order R s).1.Perm (List.range ds.len)) :
    ∃ batches, (L.onePass R s).1 = .ok batches ∧ batches.length = L.len ∧
      ∀ k (hk : k < batches.length), k * L.batchSize < ds.len ∧
        (L.dropLast = true → k * L.batchSize + L.batchSize ≤ ds.len) ∧
        (batches[k]).1.length = min L.batchSize (ds.len - k * L.batchSize) ∧
        ((batchRows batches[k]).map some).Perm
          ((((L.order R s).1.drop (k * L.batchSize)).take L.batchSize).map
            fun i => (rowsOf xs zs)[i]?) := by
  have g := good_of_mk h
  obtain ⟨_, hx, hz, _, _⟩ := mkDataset_ok h
  have hrows : ds.rows = rowsOf xs zs := by rw [Dataset.rows, hx, hz]
  set q := (L.order R s).1 with hq
  have hql : (q.map Int.ofNat).length = ds.len := by
    rw [List.length_map, hp.length_eq, List.length_range]
  have hqv : ValidIdx ds.len (q.map Int.ofNat) := by
    intro i hi
    obtain ⟨j, hj, rfl⟩ := List.mem_map.mp hi
    have := List.mem_range.mp (hp.mem_iff.mp hj)
    simp; omega
  set b := L.batchSize with hbdef
  have hlenL : L.len = nBatches ds.len b L.dropLast := by rw [nBatches_len L hb, hds]
  set m := nBatches ds.len b L.dropLast with hmdef
  have hmb : ∀ k < m, k * b < ds.len ∧ (L.dropLast = true → k * b + b ≤ ds.len) := by
    intro k hk
    rw [hmdef] at hk
    unfold nBatches at hk
    split at hk
    · have h1 : (k + 1) * b ≤ ds.len := (Nat.le_div_iff_mul_le hb).mp (by omega)
      rw [Nat.add_mul] at h1; exact ⟨by omega, fun _ => by omega⟩
    · rename_i hd
      have h1 : (k + 1) * b ≤ ds.len + b - 1 := (Nat.le_div_iff_mul_le hb).mp (by omega)
      rw [Nat.add_mul] at h1; exact ⟨by omega, fun hd' => absurd hd' hd⟩
  obtain ⟨batches, e, hF⟩ := mapM_ok (fetchBatch ds) (fun (l : List Int) (p : List α × List β) =>
      p.1.length = l.length ∧ ((batchRows p).map some).Perm (l.map (fun i => ds.rows[i.toNat]?)))
    ((List.range m).map (fun k => ((q.map Int.ofNat).drop (k * b)).take b)) (by
      intro l hl
      obtain ⟨k, hk, rfl⟩ := List.mem_map.mp hl
      have hk' := List.mem_range.mp hk
      obtain ⟨p, hp1, hp2, _, hp4, _⟩ := g.fetch (((q.map Int.ofNat).drop (k * b)).take b)
        (fun i hi => hqv i (List.mem_of_mem_drop (List.mem_of_mem_take hi))) (by
          intro h
          have h' := congrArg List.length h
          rw [List.length_take, List.length_drop, hql] at h'
          have := (hmb k hk').1
          simp at h'
          omega)
      exact ⟨p, hp1, hp2, hp4⟩)
  have hlen : batches.length = m := by
    have := hF.length_eq; simp at this; exact this.symm
  refine ⟨batches, ?_, by rw [hlen, hlenL], ?_⟩
  · unfold Loader.onePass
    have hel := epochLoop_full (q.map Int.ofNat) b hb L.dropLast
    rw [hql] at hel
    simp only [hds, ← hq, ← hbdef, hel]
    exact e
  · intro k hk
    have := List.Forall₂.get hF (by rw [hF.length_eq]; exact hk) hk
    simp only [List.get_eq_getElem, List.getElem_map, List.getElem_range] at this
    rw [List.length_take, List.length_drop, hql, ← List.map_drop, ← List.map_take, List.map_map,
      hrows] at this
    exact ⟨(hmb k (by omega)).1, (hmb k (by omega)).2, this.1, this.2⟩

/-- The multiset of rows at the given places. -/
theorem rows_multiset {γ : Type} {rows l : List γ} {idx : List ℕ}
    (h : (l.map some).Perm (idx.map fun i => rows[i]?)) :
    (l : Multiset γ) = ((idx : Multiset ℕ).map fun i => rows[i]?).filterMap id := by
  have : ((l.map some : List (Option γ)) : Multiset (Option γ)) =
      ((idx.map fun i => rows[i]? : List (Option γ)) : Multiset (Option γ)) :=
    Multiset.coe_eq_coe.mpr h
  rw [Multiset.map_coe, ← this, Multiset.filterMap_coe, List.filterMap_map]
  simp

theorem rows_sum {γ : Type} {rows l : List γ} {idx : List ℕ} (f : γ → ℝ)
    (h : (l.map some).Perm (idx.map fun i => rows[i]?)) :
    (l.map f).sum = (idx.map fun i => (rows[i]?).elim 0 f).sum := by
  have h1 := (h.map fun o : Option γ => o.elim 0 f).sum_eq
  simp only [List.map_map, Function.comp_def, Option.elim_some] at h1
  exact h1

theorem mkLoader_size {α β : Type} {ds : Dataset α β} {b : ℕ} {shuffle dropLast : Bool}
    {seed : Option Int} {infinite : Bool} {L : Loader α β}
    (hL : mkLoader ds (some (b : Int)) shuffle dropLast seed infinite = .ok L) :
    L.batchSize = b := by
  unfold mkLoader at hL
  simp only at hL
  split at hL
  · cases hL
  · cases hL; simp

/-- The average of `F` over all sets of `m` rows. -/
noncomputable def sampleAverage {γ : Type} (rows : List γ) (m : ℕ) (F : Multiset γ → ℝ) : ℝ :=
  (∑ A ∈ powersetCard m (univ : Finset (Fin rows.length)), F (A.val.map fun i => rows[i])) /
    rows.length.choose m

/-- A stretch of fair orders of the rows. -/
theorem fair_rows {Ω γ : Type} [Fintype Ω] [Nonempty Ω] {rows : List γ} {ord : Ω → List ℕ}
    (hf : Fair rows.length ord) {a m : ℕ} (h : a + m ≤ rows.length) (l : Ω → List γ)
    (hl : ∀ ω, ((l ω).map some).Perm ((((ord ω).drop a).take m).map fun i => rows[i]?))
    (F : Multiset γ → ℝ) :
    (∑ ω, F (l ω)) / Fintype.card Ω = sampleAverage rows m F := by
  have := fair_chunk hf h fun M => F ((M.map fun i => rows[i]?).filterMap id)
  have e1 : ∀ ω, ((l ω : List γ) : Multiset γ) = _ := fun ω => rows_multiset (hl ω)
  simp only [e1]
  refine this.trans ?_
  unfold sampleAverage
  congr 1
  refine sum_congr rfl fun A _ => ?_
  congr 1
  rw [Multiset.map_map]
  have e2 : (A.val.map ((fun i => rows[i]?) ∘ Fin.val)) =
      (A.val.map fun i => rows[i]).map some := by
    rw [Multiset.map_map]
    refine Multiset.map_congr rfl fun i _ => ?_
    simp
  rw [e2, Multiset.filterMap_map]
  simp [Function.comp_def, Multiset.filterMap_some]

section Sample

variable {α β σ Ω : Type} [Fintype Ω] [Nonempty Ω] {xs : List (List α)} {zs : List (List β)}
  {ds : Dataset α β}

/-- The order drawn in pass number `e` by a shuffled loader, dataloader.py 390-395: the
generator is seeded with `seed + e` if a seed was given. -/
def drawn (R : Rng σ) (seed : Option Int) (e : Int) (s : σ) (n : ℕ) : List ℕ :=
  (R.perm (match seed with | some b => R.seed (b + e) | none => s) n).1

theorem batches_drawn (h : mkDataset xs zs = .ok ds) (b : ℕ) (dropLast infinite : Bool)
    (seed : Ω → Option Int) (L : Ω → Loader α β)
    (hL : ∀ ω, mkLoader ds (some (b : Int)) true dropLast (seed ω) infinite = .ok (L ω)) (e : Int)
    (R : Rng σ) (s : Ω → σ)
    (hf : Fair (rowsOf xs zs).length fun ω => drawn R (seed ω) e (s ω) (rowsOf xs zs).length) :
    ∃ batches : Ω → List (List α × List β),
      (∀ ω, (((L ω).setEpoch e).onePass R (s ω)).1 = .ok (batches ω)) ∧
      (∀ ω, (batches ω).length = (L ω).len) ∧
      ∀ k, (∀ ω, k < (batches ω).length) → k * b < (rowsOf xs zs).length ∧
        (dropLast = true → k * b + b ≤ (rowsOf xs zs).length) ∧ 0 < b ∧
        (∀ ω, ((batches ω).getD k ([], [])).1.length = min b ((rowsOf xs zs).length - k * b)) ∧
        ∀ ω, ((batchRows ((batches ω).getD k ([], []))).map some).Perm
          ((((drawn R (seed ω) e (s ω) (rowsOf xs zs).length).drop (k * b)).take
            (min b ((rowsOf xs zs).length - k * b))).map fun i => (rowsOf xs zs)[i]?) := by
  have g := good_of_mk h
  obtain ⟨_, hx, hz, _, _⟩ := mkDataset_ok h
  have hn : ds.len = (rowsOf xs zs).length := by rw [← g.rows_len, Dataset.rows, hx, hz]
  have hord : ∀ ω, (((L ω).setEpoch e).order R (s ω)).1 =
      drawn R (seed ω) e (s ω) (rowsOf xs zs).length := by
    intro ω
    obtain ⟨h1, _, h3, _, _, h6⟩ := mkLoader_ok (hL ω)
    have e3 : ((L ω).setEpoch e).shuffle = true := h3
    have e1 : ((L ω).setEpoch e).ds = ds := h1
    have e6 : ((L ω).setEpoch e).baseSeed = seed ω := h6
    unfold Loader.order drawn Loader.reseed
    rw [if_pos e3, e1, e6, hn]
    rfl
  have key : ∀ ω, _ := fun ω => onePass_batches h (L := (L ω).setEpoch e) (mkLoader_ok (hL ω)).1
    (mkLoader_ok (hL ω)).2.1 R (s ω) (by rw [hord ω, hn]; exact hf.perm ω)
  choose batches hb1 hb2 hb3 using key
  refine ⟨batches, hb1, hb2, fun k hk => ?_⟩
  have hbs : ∀ ω, ((L ω).setEpoch e).batchSize = b := fun ω =>
    (show ((L ω).setEpoch e).batchSize = (L ω).batchSize from rfl).trans (mkLoader_size (hL ω))
  obtain ⟨ω0⟩ := (inferInstance : Nonempty Ω)
  have h0 := hb3 ω0 k (hk ω0)
  rw [hbs, hn] at h0
  refine ⟨h0.1, fun hd => h0.2.1 ((mkLoader_ok (hL ω0)).2.2.2.1.trans hd), ?_, fun ω => ?_, fun ω => ?_⟩
  · have := (mkLoader_ok (hL ω0)).2.1
    rwa [mkLoader_size (hL ω0)] at this
  · have h1 := (hb3 ω k (hk ω)).2.2.1
    rw [hbs, hn] at h1
    rw [List.getD_eq_getElem _ _ (hk ω)]
    exact h1
  · have h1 := (hb3 ω k (hk ω)).2.2.2
    rw [hbs, hord] at h1
    rw [List.getD_eq_getElem _ _ (hk ω)]
    have : (((drawn R (seed ω) e (s ω) (rowsOf xs zs).length).drop (k * b)).take
        (min b ((rowsOf xs zs).length - k * b))) =
        ((drawn R (seed ω) e (s ω) (rowsOf xs zs).length).drop (k * b)).take b := by
      rw [← List.take_take, List.take_of_length_le (l := List.drop _ _)]
      rw [List.length_drop, (hf.perm ω).length_eq, List.length_range]
    rw [this]
    exact h1

/-- **C273** Batch `k` of a shuffled loader is a simple random sample of the rows: averages over
the equally likely orders are averages over all sets of that many rows, whatever is computed
from the batch (that does not look at the order of its rows). -/
theorem batch_sample (h : mkDataset xs zs = .ok ds) (b : ℕ) (dropLast infinite : Bool)
    (seed : Ω → Option Int) (L : Ω → Loader α β)
    (hL : ∀ ω, mkLoader ds (some (b : Int)) true dropLast (seed ω) infinite = .ok (L ω)) (e : Int)
    (R : Rng σ) (s : Ω → σ)
    (hf : Fair (rowsOf xs zs).length fun ω => drawn R (seed ω) e (s ω) (rowsOf xs zs).length) :
    ∃ batches : Ω → List (List α × List β),
      (∀ ω, (((L ω).setEpoch e).onePass R (s ω)).1 = .ok (batches ω)) ∧
      (∀ ω, (batches ω).length = (L ω).len) ∧
      ∀ k, (∀ ω, k < (batches ω).length) → ∀ F : Multiset (α × β) → ℝ,
        (∑ ω, F (batchRows ((batches ω).getD k ([], [])))) / Fintype.card Ω =
          sampleAverage (rowsOf xs zs) (min b ((rowsOf xs zs).length - k * b)) F := by
  obtain ⟨batches, h1, h2, h3⟩ := batches_drawn h b dropLast infinite seed L hL e R s hf
  refine ⟨batches, h1, h2, fun k hk F => ?_⟩
  obtain ⟨hkb, _, hb, _, hrows⟩ := h3 k hk
  exact fair_rows hf (by omega) _ hrows F

/-- **C273** The mean over a batch of a shuffled loader is an unbiased estimate of the mean over
the data, also for the last, smaller batch; its mean squared error is that of sampling without
replacement. -/
theorem batch_mean_unbiased (h : mkDataset xs zs = .ok ds) (b : ℕ) (dropLast infinite : Bool)
    (seed : Ω → Option Int) (L : Ω → Loader α β)
    (hL : ∀ ω, mkLoader ds (some (b : Int)) true dropLast (seed ω) infinite = .ok (L ω)) (e : Int)
    (R : Rng σ) (s : Ω → σ)
    (hf : Fair (rowsOf xs zs).length fun ω => drawn R (seed ω) e (s ω) (rowsOf xs zs).length) :
    ∃ batches : Ω → List (List α × List β),
      (∀ ω, (((L ω).setEpoch e).onePass R (s ω)).1 = .ok (batches ω)) ∧
      (∀ ω, (batches ω).length = (L ω).len) ∧
      ∀ k, (∀ ω, k < (batches ω).length) → ∀ f : α × β → ℝ,
        let rows := rowsOf xs zs
        let n : ℝ := rows.length
        let m : ℝ := (min b (rows.length - k * b) : ℕ)
        let mean := fun ω => let l := batchRows ((batches ω).getD k ([], []))
          (l.map f).sum / l.length
        let mu := (rows.map f).sum / n
        (∑ ω, mean ω) / Fintype.card Ω = mu ∧
        (2 ≤ rows.length → (∑ ω, (mean ω - mu) ^ 2) / Fintype.card Ω =
          (n - m) / (m * n) * ((rows.map fun r => (f r - mu) ^ 2).sum / (n - 1))) := by
  obtain ⟨batches, h1, h2, h3⟩ := batches_drawn h b dropLast infinite seed L hL e R s hf
  refine ⟨batches, h1, h2, fun k hk f => ?_⟩
  intro rows n m mean mu
  obtain ⟨hkb, _, hb, _, hrows⟩ := h3 k hk
  replace hkb : k * b < rows.length := hkb
  set mN := min b (rows.length - k * b) with hmN
  have hmpos : 0 < mN := by omega
  have hle : k * b + mN ≤ rows.length := by omega
  set f' : ℕ → ℝ := fun i => (rows[i]?).elim 0 f with hf'
  have hmean : ∀ ω, mean ω = ((((drawn R (seed ω) e (s ω) rows.length).drop (k * b)).take
      mN).map f').sum / mN := by
    intro ω
    have hl : (batchRows ((batches ω).getD k ([], []))).length = mN := by
      have := (hrows ω).length_eq
      rw [List.length_map, List.length_map, List.length_take, List.length_drop,
        (hf.perm ω).length_eq, List.length_range] at this
      change _ = min mN (rows.length - k * b) at this
      omega
    change ((batchRows _).map f).sum / ((batchRows _).length : ℝ) = _
    rw [hl, rows_sum f (hrows ω)]
  have hsum : ∀ g : α × β → ℝ, (∑ r ∈ range rows.length, (rows[r]?).elim 0 g) = (rows.map g).sum := by
    intro g
    rw [← Fin.sum_univ_eq_sum_range (fun r => (rows[r]?).elim 0 g), ← List.sum_ofFn]
    congr 1
    apply List.ext_getElem
    · simp
    · intro i hi1 hi2; simp
  have hmu : mu = (∑ r ∈ range rows.length, f' r) / (rows.length : ℝ) := by
    rw [hf', hsum f]
  simp only [hmean]
  refine ⟨by rw [fair_mean hf hmpos hle f', ← hmu], fun hn2 => ?_⟩
  rw [fair_variance hf hmpos hle hn2 f' mu hmu]
  congr 2
  rw [← hsum fun r => (f r - mu) ^ 2]
  refine sum_congr rfl fun r hr => ?_
  rw [hf']
  simp only [List.getElem?_eq_getElem (mem_range.mp hr), Option.elim_some]

/-- **C273** The mean of a criterion over the batches of a pass: on average over the orders it
is the average of the criterion over all samples of the sizes of the batches, weighted by these
sizes. -/
theorem criterion_average (h : mkDataset xs zs = .ok ds) (b : ℕ) (dropLast infinite : Bool)
    (seed : Ω → Option Int) (L : Ω → Loader α β)
    (hL : ∀ ω, mkLoader ds (some (b : Int)) true dropLast (seed ω) infinite = .ok (L ω)) (e : Int)
    (R : Rng σ) (s : Ω → σ)
    (hf : Fair (rowsOf xs zs).length fun ω => drawn R (seed ω) e (s ω) (rowsOf xs zs).length)
    (F : Multiset (α × β) → ℝ) (N : ℕ) (hN : ∀ ω, (L ω).len = N) (hN0 : 0 < N)
    (st : IterState (List α × List β)) :
    ∃ v : Ω → ℝ, (∀ ω, ∃ batches, (((L ω).setEpoch e).onePass R (s ω)).1 = .ok batches ∧
        (evaluateNumpy (fun _ => batches) (fun p => p.1.length)
          (fun p => .ok (F (batchRows p))) .mean 0 st).1 = .ok ((v ω : ℝ) : WithTop ℝ)) ∧
      (∑ ω, v ω) / Fintype.card Ω =
        (∑ k ∈ range N, (min b ((rowsOf xs zs).length - k * b) : ℕ) *
          sampleAverage (rowsOf xs zs) (min b ((rowsOf xs zs).length - k * b)) F) /
        ∑ k ∈ range N, ((min b ((rowsOf xs zs).length - k * b) : ℕ) : ℝ) := by
  obtain ⟨batches, h1, h2, h3⟩ := batches_drawn h b dropLast infinite seed L hL e R s hf
  set rows := rowsOf xs zs with hrowsdef
  set m : ℕ → ℕ := fun k => min b (rows.length - k * b) with hm
  have hlen : ∀ ω, (batches ω).length = N := fun ω => (h2 ω).trans (hN ω)
  have hk : ∀ k < N, ∀ ω, k < (batches ω).length := fun k hk ω => by rw [hlen]; exact hk
  have hsize : ∀ ω, ∀ k < N, ((batches ω).getD k ([], [])).1.length = m k := by
    intro ω k hkN
    exact (h3 k (hk k hkN)).2.2.2.1 ω
  have hsum : ∀ (ω : Ω) (g : List α × List β → ℝ), ((batches ω).map g).sum =
      ∑ k ∈ range N, g ((batches ω).getD k ([], [])) := by
    intro ω g
    rw [← hlen ω, ← Fin.sum_univ_eq_sum_range (fun k => g ((batches ω).getD k ([], []))),
      ← List.sum_ofFn]
    congr 1
    apply List.ext_getElem
    · simp
    · intro i hi1 hi2
      simp only [List.getElem_map, List.getElem_ofFn]
      rw [List.getD_eq_getElem]
  have hT : ∀ ω, ((((batches ω).map fun p => p.1.length).sum : ℕ) : ℝ) =
      ∑ k ∈ range N, (m k : ℝ) := by
    intro ω
    rw [Nat.cast_list_sum, List.map_map, hsum ω]
    refine sum_congr rfl fun k hkN => ?_
    simp only [Function.comp, hsize ω k (mem_range.mp hkN)]
  have hTpos : (0 : ℝ) < ∑ k ∈ range N, (m k : ℝ) := by
    refine sum_pos (fun k hkN => ?_) ⟨0, mem_range.mpr hN0⟩
    have := h3 k (hk k (mem_range.mp hkN))
    exact_mod_cast (show 0 < m k by simp only [hm]; omega)
  refine ⟨fun ω => (∑ k ∈ range N, F (batchRows ((batches ω).getD k ([], []))) * m k) /
    ∑ k ∈ range N, (m k : ℝ), fun ω => ⟨batches ω, h1 ω, ?_⟩, ?_⟩
  · have hne : (((batches ω).map fun p => p.1.length).sum : ℕ) ≠ 0 := by
      intro h0
      have := hT ω
      rw [h0] at this
      rw [← this] at hTpos
      simp at hTpos
    simp only [evaluateNumpy, sumBatches, if_true]
    rw [foldBatches_ok, finishEval_ok _ _ _ _ hne]
    simp only [evalSpec, hT ω, hsum ω]
    congr 3
    exact sum_congr rfl fun k hkN => by rw [hsize ω k (mem_range.mp hkN)]
  · rw [← sum_div, div_div, mul_comm, ← div_div, sum_comm]
    congr 1
    rw [sum_div]
    refine sum_congr rfl fun k hkN => ?_
    have hkb := h3 k (hk k (mem_range.mp hkN))
    rw [← fair_rows hf (a := k * b) (m := m k) (by simp only [hm]; omega) _ hkb.2.2.2.2 F,
      ← sum_mul]
    ring

/-- **C273** The parts of a random split are simple random samples of the rows. -/
theorem split_sample (h : mkDataset xs zs = .ok ds) (r0 r1 r2 : ℚ) (h0 : 0 ≤ r0) (h1 : 0 ≤ r1)
    (h2 : 0 ≤ r2) (hsum : r0 + r1 + r2 = 1) (ord : Ω → List ℕ)
    (hf : Fair (rowsOf xs zs).length ord) :
    ∃ a b c : Ω → Dataset α β,
      (∀ ω, ds.split (r0, r1, r2) (ord ω) = .ok (a ω, b ω, c ω)) ∧
      ∀ F : Multiset (α × β) → ℝ,
        let n := (rowsOf xs zs).length
        let t := ⌊r0 * n⌋.toNat
        let v := ⌊r1 * n⌋.toNat
        (∑ ω, F (a ω).rows) / Fintype.card Ω = sampleAverage (rowsOf xs zs) t F ∧
        (∑ ω, F (b ω).rows) / Fintype.card Ω = sampleAverage (rowsOf xs zs) v F ∧
        (∑ ω, F (c ω).rows) / Fintype.card Ω = sampleAverage (rowsOf xs zs) (n - (t + v)) F := by
  have g := good_of_mk h
  obtain ⟨_, hx, hz, _, _⟩ := mkDataset_ok h
  have hlen : ds.len = (rowsOf xs zs).length := by rw [← g.rows_len, Dataset.rows, hx, hz]
  set rows := rowsOf xs zs with hrows
  set n := rows.length with hn
  have hn0 : (0 : ℚ) ≤ (n : ℚ) := Nat.cast_nonneg n
  have p0 : 0 ≤ r0 * n := mul_nonneg h0 hn0
  have p1 : 0 ≤ r1 * n := mul_nonneg h1 hn0
  have f0 : 0 ≤ ⌊r0 * n⌋ := Int.floor_nonneg.mpr p0
  have f1 : 0 ≤ ⌊r1 * n⌋ := Int.floor_nonneg.mpr p1
  have hle : ⌊r0 * n⌋ + ⌊r1 * n⌋ ≤ (n : Int) := by
    have a1 := Int.floor_le (r0 * n)
    have a2 := Int.floor_le (r1 * n)
    have : ((⌊r0 * n⌋ + ⌊r1 * n⌋ : Int) : ℚ) ≤ ((n : Int) : ℚ) := by
      push_cast
      have : r0 * n + r1 * n + r2 * n = n := by rw [← add_mul, ← add_mul, hsum, one_mul]
      have : 0 ≤ r2 * n := mul_nonneg h2 hn0
      linarith
    exact_mod_cast this
  have i0 : pyInt (r0 * n) = ((⌊r0 * n⌋.toNat : Nat) : Int) := by simp [pyInt, p0, f0]
  have i1 : pyInt (r1 * n) = ((⌊r1 * n⌋.toNat : Nat) : Int) := by simp [pyInt, p1, f1]
  set t := ⌊r0 * n⌋.toNat with ht
  set v := ⌊r1 * n⌋.toNat with hv
  have htv : t + v ≤ n := by omega
  have sub : ∀ l : List ℕ, (∀ i ∈ l, i < n) → ∃ d, ds.subset (l.map Int.ofNat) = .ok d ∧
      (d.rows.map some).Perm (l.map (fun i => rows[i]?)) := by
    intro l hl
    have hfl : (l.map Int.ofNat).filter (fun i => decide (0 ≤ i) && decide (i < (ds.len : Int))) =
        l.map Int.ofNat := by
      rw [List.filter_eq_self]
      intro i hi
      obtain ⟨j, hj, rfl⟩ := List.mem_map.mp hi
      have := hl j hj
      simp; omega
    obtain ⟨xs', zs', d, d1, d2, d3⟩ := subset_rows h (l.map Int.ofNat)
      ((l.map Int.ofNat).mergeSort (fun a b => decide (a ≤ b)))
      (by rw [hfl]; exact List.mergeSort_perm _ _)
      ((List.pairwise_mergeSort (le := fun a b : Int => decide (a ≤ b))
        (by intro a b c; simp; omega) (by intro a b; simp; omega) _).imp
        (by intro a b hab; simpa using hab))
    obtain ⟨_, e1, e2, _, _⟩ := mkDataset_ok d2
    refine ⟨d, d1, ?_⟩
    rw [Dataset.rows, e1, e2, d3]
    refine ((List.mergeSort_perm _ _).map _).trans ?_
    rw [List.map_map]
    exact List.Perm.refl _
  have hval : ∀ ω, ∀ i ∈ ord ω, i < n := fun ω i hi =>
    List.mem_range.mp ((hf.perm ω).mem_iff.mp hi)
  have hol : ∀ ω, (ord ω).length = n := fun ω => by
    rw [(hf.perm ω).length_eq, List.length_range]
  choose a a1 a2 using fun ω => sub ((ord ω).take t) fun i hi => hval ω i (List.mem_of_mem_take hi)
  choose b b1 b2 using fun ω => sub (((ord ω).drop t).take v) fun i hi =>
    hval ω i (List.mem_of_mem_drop (List.mem_of_mem_take hi))
  choose c c1 c2 using fun ω => sub ((ord ω).drop (t + v)) fun i hi =>
    hval ω i (List.mem_of_mem_drop hi)
  refine ⟨a, b, c, fun ω => ?_, fun F => ⟨?_, ?_, ?_⟩⟩
  · unfold Dataset.split
    rw [if_neg (by simpa using hsum)]
    simp only [hlen, i0, i1, ← Int.natCast_add]
    rw [pyTake_nat, pySlice_nat, pyDrop_nat]
    have e1 : ((ord ω).map Int.ofNat).take t = ((ord ω).take t).map Int.ofNat := by
      rw [List.map_take]
    have e2 : (((ord ω).map Int.ofNat).take (t + v)).drop t =
        (((ord ω).drop t).take v).map Int.ofNat := by
      rw [List.map_take, List.map_drop, List.drop_take]
      congr 1
      omega
    have e3 : ((ord ω).map Int.ofNat).drop (t + v) = ((ord ω).drop (t + v)).map Int.ofNat := by
      rw [List.map_drop]
    simp only [e1, e2, e3, a1, b1, c1]
    rfl
  · exact fair_rows hf (a := 0) (m := t) (by omega) _ (by simpa using a2) F
  · exact fair_rows hf (a := t) (m := v) (by omega) _ b2 F
  · refine fair_rows hf (a := t + v) (m := n - (t + v)) (by omega) _ (fun ω => ?_) F
    rw [List.take_of_length_le (by rw [List.length_drop, hol])]
    exact c2 ω

end Sample

/-- A piece of a concatenation. -/
theorem piece_eq {γ : Type} (l : List (List γ)) (j : ℕ) (hj : j < l.length) :
    l[j] = (l.flatten.drop (((l.take j).map List.length).sum)).take (l[j].length) := by
  induction l generalizing j with
  | nil => simp at hj
  | cons a l ih =>
    cases j with
    | zero => simp
    | succ j =>
      have := ih j (by simpa using hj)
      simp only [List.getElem_cons_succ, List.take_succ_cons, List.map_cons, List.sum_cons,
        List.flatten_cons, List.drop_append]
      rw [List.drop_of_length_le (by omega), List.nil_append,
        Nat.add_sub_cancel_left]
      exact this

/-- **C273** The validation sets of a k-fold partition drawn with a fair order are simple random
samples of the row numbers, and so are the training sets. -/
theorem kfold_sample {Ω : Type} [Fintype Ω] [Nonempty Ω] (n k : ℕ) (hk : 2 ≤ k)
    (ord : Ω → List ℕ) (hf : Fair n ord) :
    ∃ pairs : Ω → List (List ℕ × List ℕ),
      (∀ ω, kFoldIndices .numpy (ord ω) n k = .ok (pairs ω)) ∧
      ∀ j, j < k → ∀ F : Multiset ℕ → ℝ,
        let m := n / k + if j < n % k then 1 else 0
        (∑ ω, F ((pairs ω).getD j ([], [])).2) / Fintype.card Ω =
          sampleAverage (List.range n) m F ∧
        (∑ ω, F ((pairs ω).getD j ([], [])).1) / Fintype.card Ω =
          sampleAverage (List.range n) m fun M => F ((Multiset.range n) - M) := by
  have hne : foldSizes n k ≠ [] := by
    intro h; have := foldSizes_length n k (by omega); rw [h] at this; simp at this; omega
  have hlen : ∀ ω, (ord ω).length = n := fun ω => by
    rw [(hf.perm ω).length_eq, List.length_range]
  have key : ∀ ω, ∃ pairs, kFoldIndices .numpy (ord ω) n k = .ok pairs ∧ pairs.length = k ∧
      ∀ j (hj : j < k), (pairs.getD j ([], [])).2 =
        ((ord ω).drop ((foldSizes n k).take j).sum).take ((foldSizes n k).getD j 0) ∧
        ((pairs.getD j ([], [])).1 ++ (pairs.getD j ([], [])).2).Perm (ord ω) := by
    intro ω
    obtain ⟨s1, s2⟩ := npSplit_spec (ord ω) (foldSizes n k) hne 0
      (by rw [foldSizes_sum n k (by omega), hlen]; omega)
    set folds := npSplit (ord ω) 0 (cumsum 0 (foldSizes n k)).dropLast with hfolds
    have hfl : folds.length = k := by
      have := congrArg List.length s2
      rw [List.length_map, foldSizes_length n k (by omega)] at this; exact this
    obtain ⟨pairs, h1, h2, h3⟩ := kFoldPairs_ok folds k hfl hk
    have hpl : pairs.length = k := by
      have := congrArg List.length h2
      rw [List.length_map, hfl] at this; exact this
    refine ⟨pairs, ?_, hpl, fun j hj => ?_⟩
    · unfold kFoldIndices
      rw [if_neg (by omega)]
      exact h1
    · have hjp : j < pairs.length := by omega
      have hjf : j < folds.length := by omega
      rw [List.getD_eq_getElem _ _ hjp]
      have e1 : (pairs[j]).2 = folds[j] := by
        have : (pairs.map Prod.snd)[j]'(by simpa using hjp) = folds[j] := by
          congr 1
        simpa using this
      have e2 : folds[j].length = (foldSizes n k).getD j 0 := by
        rw [List.getD_eq_getElem _ _ (by rw [foldSizes_length n k (by omega)]; exact hj)]
        have : (folds.map List.length)[j]'(by simpa using hjf) =
            (foldSizes n k)[j]'(by rw [foldSizes_length n k (by omega)]; exact hj) := by
          congr 1
        simpa using this
      have e3 : (folds.take j).map List.length = (foldSizes n k).take j := by
        rw [← s2, List.map_take]
      have e4 := piece_eq folds j hjf
      rw [e2, e3, s1, List.drop_zero] at e4
      refine ⟨e1.trans e4, ?_⟩
      have := h3 (pairs[j]) (List.getElem_mem hjp)
      rw [s1, List.drop_zero] at this
      exact this
  choose pairs h1 _ h2 using key
  refine ⟨pairs, h1, fun j hj F => ?_⟩
  intro m
  have hm : (foldSizes n k).getD j 0 = m := by
    have hmod := Nat.mod_lt n (show 0 < k by omega)
    rw [foldSizes]
    by_cases hjr : j < n % k
    · rw [List.getD_append _ _ _ _ (by simpa using hjr), List.getD_replicate _ hjr]
      simp [m, hjr]
    · rw [List.getD_append_right _ _ _ _ (by simpa using hjr), List.length_replicate,
        List.getD_replicate _ (by omega)]
      simp [m, hjr]
  have hsum : ((foldSizes n k).take j).sum + m ≤ n := by
    have hlt : j < (foldSizes n k).length := by rw [foldSizes_length n k (by omega)]; exact hj
    have e1 : ((foldSizes n k).take (j + 1)).sum = ((foldSizes n k).take j).sum + m := by
      rw [List.take_add_one, List.getElem?_eq_getElem hlt, List.sum_append]
      rw [← hm, List.getD_eq_getElem _ _ hlt]
      simp
    have e2 : ((foldSizes n k).take (j + 1)).sum + ((foldSizes n k).drop (j + 1)).sum =
        (foldSizes n k).sum := by rw [← List.sum_append, List.take_append_drop]
    rw [foldSizes_sum n k (by omega)] at e2
    omega
  have hf' : Fair (List.range n).length ord := by rw [List.length_range]; exact hf
  have hmap : ∀ l : List ℕ, (∀ i ∈ l, i < n) →
      l.map some = l.map fun i => (List.range n)[i]? := by
    intro l hl
    refine List.map_congr_left fun i hi => ?_
    rw [List.getElem?_range (hl i hi)]
  have hv : ∀ ω, (((pairs ω).getD j ([], [])).2.map some).Perm
      ((((ord ω).drop ((foldSizes n k).take j).sum).take m).map fun i => (List.range n)[i]?) := by
    intro ω
    rw [(h2 ω j hj).1, hm, hmap _ fun i hi => List.mem_range.mp ((hf.perm ω).mem_iff.mp
      (List.mem_of_mem_drop (List.mem_of_mem_take hi)))]
  refine ⟨fair_rows hf' (by rw [List.length_range]; exact hsum) _ hv F, ?_⟩
  rw [← fair_rows hf' (by rw [List.length_range]; exact hsum) _ hv]
  congr 1
  refine sum_congr rfl fun ω _ => ?_
  have hp := ((h2 ω j hj).2).trans (hf.perm ω)
  have : (Multiset.range n) = (((pairs ω).getD j ([], [])).1 : Multiset ℕ) +
      (((pairs ω).getD j ([], [])).2 : Multiset ℕ) := by
    rw [Multiset.coe_add]
    exact (Multiset.coe_eq_coe.mpr hp).symm
  rw [this, Multiset.add_sub_cancel_right]

/-- A generator whose states are the permutations. -/
def permRng (n : ℕ) : Rng (Equiv.Perm (Fin n)) where
  seed _ := 1
  perm s m := (if m = n then listOf s else List.range m, s)

/-- With all states equally likely it is fair. -/
theorem permRng_fair (n : ℕ) (e : Int) :
    Fair n fun s : Equiv.Perm (Fin n) => drawn (permRng n) none e s n := by
  classical
  have hd : ∀ s, drawn (permRng n) none e s n = listOf s := fun s => by simp [drawn, permRng]
  refine ⟨fun s => by rw [hd]; exact listOf_perm s, fun l hl => ?_⟩
  obtain ⟨π, rfl⟩ := exists_listOf hl
  have : (univ.filter fun s : Equiv.Perm (Fin n) => drawn (permRng n) none e s n = listOf π) =
      {π} := by
    ext s
    simp only [hd, mem_filter, mem_univ, true_and, mem_singleton]
    exact ⟨fun h => listOf_inj h, fun h => by rw [h]⟩
  rw [Fintype.card_perm, Fintype.card_fin]
  convert one_mul _
  convert card_singleton π

/-- Three rows in two shards, batches of two: the last batch is a single row, and the mean over
it is unbiased too. -/
example : ∃ ds L, mkDataset [[1, 2], [5]] [['a', 'b'], ['c']] = .ok ds ∧
    mkLoader (α := ℕ) (β := Char) ds (some ((2 : ℕ) : Int)) true false none false = .ok L ∧
    L.len = 2 ∧
    Fair (rowsOf [[1, 2], [5]] [['a', 'b'], ['c']]).length
      fun s => drawn (permRng 3) none 0 s 3 :=
  ⟨_, _, rfl, rfl, rfl, permRng_fair 3 0⟩

end Verif.Data
