import Verif.Core.InitLoader
import Verif.Core.PropsInit
import Verif.Core.Contract
import Verif.Kernel.Select
import Verif.Kernel.PropsGap
import Verif.Data.PropsStats
import Verif.Data.PropsQuantile

/-!
# C180 data sources, C181 initial guesses with a loader, C182 approximate quantiles
-/

set_option autoImplicit false

namespace Verif.Core

open Verif Verif.Data Matrix

variable {be : Backend} {la : LA}

/-! ## C180 -/

/-- **C180** `prepare_data` takes the arrays exactly when both are given without a loader and the
points form a matrix, the loader when one is given and not both arrays are, and raises
`ValueError` otherwise. -/
theorem prepareData_spec {X Z L : Type} (ndim : X → ℕ) (xi : Option X) (zi : Option Z) (ld : Option L) :
    (prepareData ndim xi zi ld = .ok true ↔ (∃ x, xi = some x ∧ ndim x = 2) ∧ zi ≠ none ∧ ld = none) ∧
    (prepareData ndim xi zi ld = .ok false ↔ (xi = none ∨ zi = none) ∧ ld ≠ none) ∧
    (∀ e, prepareData ndim xi zi ld = .error e → e = .valueError) := by
  rcases xi with _ | x <;> rcases zi with _ | z <;> rcases ld with _ | l <;> simp [prepareData] <;>
    by_cases h : ndim x = 2 <;> simp [h]

/-- **C180** For points in a matrix the choice is that of `check_xi_zi_or_loader`. -/
theorem prepareData_check {X Z L : Type} (ndim : X → ℕ) (xi : Option X) (zi : Option Z) (ld : Option L)
    (h : ∀ x, xi = some x → ndim x = 2) : prepareData ndim xi zi ld = Kernel.checkSource xi zi ld := by
  rcases xi with _ | x <;> rcases zi with _ | z <;> rcases ld with _ | l <;>
    simp [prepareData, Kernel.checkSource]
  exact h x rfl

/-- **C180** (negative) Half of the arrays beside a loader is accepted: the loader is used, and
the choice does not depend on the array given. -/
theorem prepareData_half_false {X Z L : Type} (ndim : X → ℕ) (x : X) (z : Z) (l : L) :
    prepareData ndim (some x) (none : Option Z) (some l) = .ok false ∧
    prepareData ndim (none : Option X) (some z) (some l) = .ok false := ⟨rfl, rfl⟩

example : prepareData (fun n : ℕ => n) (some 2) (some ()) (none : Option Unit) = .ok true := rfl

/-! ## C181 -/

theorem meanGo_ok {B : Type} {s : ℕ} {size : B → ℕ} {f : B → Py (Fin s → ℝ)} {v : B → Fin s → ℝ} :
    ∀ (bs : List B) (t : Option (Fin s → ℝ)) (n : ℕ), (∀ b ∈ bs, f b = .ok (v b)) → (t = none → bs ≠ []) →
      meanGo size f t n bs = .ok (some (fun i => t.elim 0 (· i) + (bs.map fun b => v b i * size b).sum),
        n + (bs.map size).sum) := by
  intro bs
  induction bs with
  | nil =>
    intro t n _ h
    rcases t with _ | t
    · exact absurd rfl (h rfl)
    · simp [meanGo]
  | cons b bs ih =>
    intro t n hb _
    have h1 := hb b (by simp)
    simp only [meanGo, h1]
    rw [ih _ _ (fun c hc => hb c (by simp [hc])) (by simp)]
    congr 2
    · congr 1
      funext i
      rcases t with _ | t
      · simp
      · simp [add_assoc]
    · simp [add_assoc]

/-- The value of `reduce_mean` for a function which does not raise. -/
theorem reduceMeanPy_ok {B : Type} {s : ℕ} {size : B → ℕ} {f : B → Py (Fin s → ℝ)} {v : B → Fin s → ℝ} {bs : List B}
    (hb : ∀ b ∈ bs, f b = .ok (v b)) (hs : 0 < (bs.map size).sum) :
    reduceMeanPy size f bs =
      .ok (some fun i => (bs.map fun b => v b i * size b).sum / ((bs.map size).sum : ℕ)) := by
  have hne : bs ≠ [] := by rintro rfl; simp at hs
  simp only [reduceMeanPy, meanGo_ok bs none 0 hb (fun _ => hne), bind, Except.bind, pure, Except.pure, zero_add]
  rw [if_neg hs.ne']
  simp

/-- **C181** The length scales guessed with a loader are those of all points together, however
they are cut into shards (none of them empty). -/
theorem loaderDelta_spec {shards : List (List ℝ)} (h0 : shards ≠ []) (hne : ∀ d ∈ shards, d ≠ []) :
    ∃ lo hi, loaderDelta shards = .ok (hi - lo) ∧ IsMinOf lo shards.flatten ∧ IsMaxOf hi shards.flatten := by
  obtain ⟨lo, h1, h2⟩ := reduceMin_spec shards h0 hne
  obtain ⟨hi, h3, h4⟩ := reduceMax_spec shards h0 hne
  exact ⟨lo, hi, by simp only [loaderDelta, h1, h3, bind, Except.bind, pure, Except.pure], h2, h4⟩

theorem sum_map_mul_left {B : Type} (c : ℝ) (f : B → ℝ) (l : List B) :
    (l.map fun b => c * f b).sum = c * (l.map f).sum := by
  induction l with
  | nil => simp
  | cons b l ih => simp [ih, mul_add]

theorem sum_map_add {B : Type} (f g : B → ℝ) (l : List B) :
    (l.map fun b => f b + g b).sum = (l.map f).sum + (l.map g).sum := by
  induction l with
  | nil => simp
  | cons b l ih => simp [ih]; ring

theorem sum_map_pos {B : Type} {f : B → ℝ} {l : List B} (h0 : ∀ b ∈ l, 0 ≤ f b) (h1 : ∃ b ∈ l, 0 < f b) :
    0 < (l.map f).sum := by
  induction l with
  | nil => obtain ⟨b, hb, _⟩ := h1; cases hb
  | cons a l ih =>
    have ha := h0 a (by simp)
    have hl : 0 ≤ (l.map f).sum := List.sum_nonneg fun x hx => by
      obtain ⟨b, hb, rfl⟩ := List.mem_map.mp hx
      exact h0 b (by simp [hb])
    obtain ⟨b, hb, hp⟩ := h1
    rw [List.map_cons, List.sum_cons]
    rcases List.mem_cons.mp hb with rfl | hb
    · linarith
    · have := ih (fun c hc => h0 c (by simp [hc])) ⟨b, hb, hp⟩
      linarith

theorem cast_sum {B : Type} (size : B → ℕ) (l : List B) :
    (((l.map size).sum : ℕ) : ℝ) = (l.map fun b => (size b : ℝ)).sum := by
  induction l with
  | nil => simp
  | cons b l ih => simp [ih]

/-- The negative log-likelihood of a batch as a function of the variance. -/
theorem nll_scale (hla : la.Sound be) {n : ℕ} {K : Mat n n} (hK : K.PosDef) (z : Fin n → ℝ) :
    ∃ A : ℝ, ∀ t : ℝ, 0 < t → nllZeroMean be la (t • K) z =
      .ok (.finite (A + (n / 2 * Real.log t + (z ⬝ᵥ (K⁻¹ *ᵥ z)) / (2 * t)))) := by
  refine ⟨1 / 2 * (n * Real.log (2 * Real.pi) + Real.log K.det), fun t ht => ?_⟩
  have hKt : (t • K).PosDef := hK.smul ht
  obtain ⟨C, hC, hc⟩ := choleskySolve_ok hla hKt (colVec z)
  simp only [nllZeroMean, hc, sum_mul_colVec, hC.logdet]
  congr 2
  have hinv : (t • K)⁻¹ = t⁻¹ • K⁻¹ := by
    have := Matrix.inv_smul' K (Units.mk0 t ht.ne') (PosDef.det_unit hK)
    simpa [Units.smul_def] using this
  rw [det_smul, Fintype.card_fin, Real.log_mul (pow_pos ht n).ne' hK.det_pos.ne', Real.log_pow,
    hinv, smul_mulVec, dotProduct_smul, smul_eq_mul]
  field_simp
  ring

/-- **C181** (zero mean) The variance guessed with a loader minimises, strictly, the sum of the
negative log-likelihoods of the batches. -/
theorem initZeroLoader_min {X : Type} (hla : la.Sound be) {k : X → X → ℝ} {bs : List (IBatch X)}
    (hK : ∀ b ∈ bs, (b.gram k).PosDef) (hz : ∃ b ∈ bs, b.z ≠ 0) :
    ∃ s2 : ℝ, initZeroLoader la k bs = .ok (some fun _ => s2) ∧ 0 < s2 ∧ ∃ v : IBatch X → ℝ → ℝ,
      (∀ b ∈ bs, ∀ t, 0 < t → nllZeroMean be la (t • b.gram k) b.z = .ok (.finite (v b t))) ∧
      ∀ t, 0 < t → t ≠ s2 → (bs.map fun b => v b s2).sum < (bs.map fun b => v b t).sum := by
  classical
  set Q : IBatch X → ℝ := fun b => b.z ⬝ᵥ ((b.gram k)⁻¹ *ᵥ b.z) with hQ
  have hQ0 : ∀ b ∈ bs, 0 ≤ Q b := fun b hb => by
    by_cases h : b.z = 0
    · simp [hQ, h]
    · exact (PosDef.quad_pos (hK b hb).inv h).le
  obtain ⟨b0, hb0, hz0⟩ := hz
  have hQp : 0 < (bs.map Q).sum := sum_map_pos hQ0 ⟨b0, hb0, PosDef.quad_pos (hK b0 hb0).inv hz0⟩
  have hn0 : 0 < b0.n := by
    rcases Nat.eq_zero_or_pos b0.n with h | h
    · exfalso
      apply hz0
      funext i
      exact absurd i.2 (by omega)
    · exact h
  have hN : 0 < (bs.map IBatch.n).sum :=
    lt_of_lt_of_le hn0 (List.single_le_sum (by simp) _ (List.mem_map.mpr ⟨b0, hb0, rfl⟩))
  have hN' : (0 : ℝ) < ((bs.map IBatch.n).sum : ℕ) := by exact_mod_cast hN
  choose! A hA using fun b (hb : b ∈ bs) => nll_scale (be := be) hla (hK b hb) b.z
  refine ⟨(bs.map Q).sum / ((bs.map IBatch.n).sum : ℕ), ?_, by positivity,
    fun b t => A b + (b.n / 2 * Real.log t + Q b / (2 * t)), fun b hb t ht => hA b hb t ht, ?_⟩
  · rw [initZeroLoader, reduceMeanPy_ok (v := fun b _ => 1 / b.n * Q b) ?_ hN]
    · congr 3
      funext _
      congr 2
      apply List.map_congr_left
      intro b hb
      rcases Nat.eq_zero_or_pos b.n with h | h
      · have : b.z = 0 := by funext i; exact absurd i.2 (by omega)
        simp [hQ, this]
      · have : (b.n : ℝ) ≠ 0 := by positivity
        field_simp
    · intro b hb
      simp only [initSigma2Zero, (norms_zero hla (hK b hb) b.z).1, bind, Except.bind, pure, Except.pure]
      rfl
  · intro t ht hne
    have hsum : ∀ t : ℝ, (bs.map fun b => A b + ((b.n : ℝ) / 2 * Real.log t + Q b / (2 * t))).sum =
        (bs.map A).sum + (((bs.map IBatch.n).sum : ℕ) / 2 * Real.log t + (bs.map Q).sum / (2 * t)) := by
      intro t
      rw [sum_map_add, sum_map_add]
      have e1 : (bs.map fun b : IBatch X => (b.n : ℝ) / 2 * Real.log t).sum =
          ((bs.map IBatch.n).sum : ℕ) / 2 * Real.log t := by
        have : ∀ b : IBatch X, (b.n : ℝ) / 2 * Real.log t = Real.log t / 2 * b.n := fun b => by ring
        simp only [this]
        rw [sum_map_mul_left, cast_sum]
        ring
      have e2 : (bs.map fun b => Q b / (2 * t)).sum = (bs.map Q).sum / (2 * t) := by
        have : ∀ b, Q b / (2 * t) = 1 / (2 * t) * Q b := fun b => by ring
        simp only [this]
        rw [sum_map_mul_left]
        ring
      rw [e1, e2]
    rw [hsum, hsum]
    have e : (bs.map Q).sum / ((bs.map IBatch.n).sum : ℕ) = (bs.map Q).sum / (2 * (((bs.map IBatch.n).sum : ℕ) / 2)) := by
      congr 1; ring
    rw [e] at hne ⊢
    have := profile_min (c := (((bs.map IBatch.n).sum : ℕ) : ℝ) / 2) (by positivity) hQp ht hne
    linarith

/-- **C181** With a single batch the guess is that for arrays. -/
theorem initZeroLoader_single {X : Type} (k : X → X → ℝ) (b : IBatch X) (hn : 0 < b.n) {v : ℝ}
    (h : initSigma2Zero la (b.gram k) b.z = .ok v) : initZeroLoader la k [b] = .ok (some fun _ => v) := by
  rw [initZeroLoader, reduceMeanPy_ok (v := fun _ _ => v) ?_ (by simpa using hn)]
  · congr 3
    funext _
    have : (b.n : ℝ) ≠ 0 := by positivity
    simp [this]
  · intro c hc
    rw [List.mem_singleton.mp hc, h]
    rfl

/-- Correlation one half between different points. -/
noncomputable def halfCov (x y : Bool) : ℝ := if x = y then 1 else 1 / 2

theorem half_posDef : (Matrix.of fun i j : Fin 2 => halfCov (![true, false] i) (![true, false] j)).PosDef := by
  refine Matrix.PosDef.of_dotProduct_mulVec_pos ?_ ?_
  · ext i j
    fin_cases i <;> fin_cases j <;> simp [halfCov]
  · intro x hx
    simp only [dotProduct, mulVec, Fin.sum_univ_two, star_trivial, of_apply, halfCov]
    simp
    have h : x 0 ≠ 0 ∨ x 1 ≠ 0 := by
      by_contra h
      push Not at h
      exact hx (by funext i; fin_cases i <;> simp [h.1, h.2])
    rcases h with h | h
    · nlinarith [sq_nonneg (x 0 + 2 * x 1), sq_pos_of_ne_zero h]
    · nlinarith [sq_nonneg (2 * x 0 + x 1), sq_pos_of_ne_zero h]

theorem half_inv : (Matrix.of fun i j : Fin 2 => halfCov (![true, false] i) (![true, false] j))⁻¹ =
    !![4 / 3, -2 / 3; -2 / 3, 4 / 3] := by
  apply Matrix.inv_eq_right_inv
  ext i j
  fin_cases i <;> fin_cases j <;> norm_num [Matrix.mul_apply, halfCov, Fin.sum_univ_two]

theorem one_posDef (x : Bool) : (Matrix.of fun _ _ : Fin 1 => halfCov x x).PosDef := by
  have : (Matrix.of fun _ _ : Fin 1 => halfCov x x) = (1 : Mat 1 1) := by
    ext i j
    fin_cases i; fin_cases j; simp [halfCov]
  rw [this]
  exact Matrix.PosDef.one

/-- **C181** (negative) The guess depends on the batches: for two observations equal to one with
correlation one half it is 2/3 for one batch and 1 for two. -/
theorem initZeroLoader_batches_false (hla : la.Sound be) :
    initZeroLoader la halfCov [⟨2, ![true, false], ![1, 1]⟩] = .ok (some fun _ => 2 / 3) ∧
    initZeroLoader la halfCov [⟨1, ![true], ![1]⟩, ⟨1, ![false], ![1]⟩] = .ok (some fun _ => 1) := by
  constructor
  · apply initZeroLoader_single _ _ (by norm_num)
    have h := (norms_zero hla half_posDef ![1, 1]).1
    simp only [initSigma2Zero, IBatch.gram, h, bind, Except.bind, pure, Except.pure, half_inv]
    congr 1
    norm_num [dotProduct, mulVec, Fin.sum_univ_two]
  · have hv : ∀ x : Bool, initSigma2Zero la (IBatch.gram halfCov ⟨1, ![x], ![1]⟩) ![1] = .ok 1 := by
      intro x
      have h := (norms_zero hla (one_posDef x) ![1]).1
      have e : (IBatch.gram halfCov ⟨1, ![x], ![1]⟩) = Matrix.of fun _ _ : Fin 1 => halfCov x x := by
        ext i j; fin_cases i; fin_cases j; rfl
      have e2 : (Matrix.of fun _ _ : Fin 1 => halfCov x x) = (1 : Mat 1 1) := by
        ext i j; fin_cases i; fin_cases j; simp [halfCov]
      simp only [initSigma2Zero]
      rw [e, h, e2]
      simp [dotProduct, bind, Except.bind, pure, Except.pure]
    rw [initZeroLoader, reduceMeanPy_ok (v := fun _ _ => 1) ?_ (by simp)]
    · congr 3
      funext _
      norm_num
    · intro b hb
      simp only [List.mem_cons, List.not_mem_nil, or_false] at hb
      rcases hb with rfl | rfl
      · rw [hv]; rfl
      · rw [hv]; rfl

example : ∃ la : LA, la.Sound .numpy := ⟨exactLA .numpy, (exactLA_contract .numpy).toSound⟩

/-- **C181** (constant mean) For observations of one axis, the guessed mean is the average of the
generalised least-squares means of the batches weighted by their sizes, and the variance the sum
of their quadratic forms divided by the number of points. -/
theorem initConstantLoader_spec {X : Type} (hla : la.Sound be) {k : X → X → ℝ} {bs : List (IBatch X)}
    (hK : ∀ b ∈ bs, (b.gram k).PosDef) (hn : ∀ b ∈ bs, 0 < b.n) (h0 : bs ≠ []) :
    ∃ m : IBatch X → ℝ, (∀ b ∈ bs, ∀ c : ℝ, (fun i => b.z i - m b) ⬝ᵥ ((b.gram k)⁻¹ *ᵥ fun i => b.z i - m b) ≤
        (fun i => b.z i - c) ⬝ᵥ ((b.gram k)⁻¹ *ᵥ fun i => b.z i - c)) ∧
      initConstantLoader be la k false bs = .ok (some ![
        (bs.map fun b => m b * b.n).sum / ((bs.map IBatch.n).sum : ℕ),
        (bs.map fun b => b.z ⬝ᵥ ((b.gram k)⁻¹ *ᵥ b.z)).sum / ((bs.map IBatch.n).sum : ℕ)]) := by
  have hm : ∀ b ∈ bs, ∃ m s2, initConstantMean la (b.gram k) b.z = .ok (m, s2) ∧
      ∀ c : ℝ, (fun i => b.z i - m) ⬝ᵥ ((b.gram k)⁻¹ *ᵥ fun i => b.z i - m) ≤
        (fun i => b.z i - c) ⬝ᵥ ((b.gram k)⁻¹ *ᵥ fun i => b.z i - c) := by
    intro b hb
    obtain ⟨m, s2, h1, _, h2⟩ := initConstantMean_mean hla (hK b hb) (hn b hb) b.z
    exact ⟨m, s2, h1, h2⟩
  choose! m s2 h1 h2 using hm
  refine ⟨m, h2, ?_⟩
  obtain ⟨b0, hb0⟩ := List.exists_mem_of_ne_nil _ h0
  have hN : 0 < (bs.map IBatch.n).sum :=
    lt_of_lt_of_le (hn b0 hb0) (List.single_le_sum (by simp) _ (List.mem_map.mpr ⟨b0, hb0, rfl⟩))
  rw [initConstantLoader, reduceMeanPy_ok (v := fun b => ![m b, (b.z ⬝ᵥ ((b.gram k)⁻¹ *ᵥ b.z)) / b.n]) ?_ hN]
  · congr 2
    funext i
    fin_cases i
    · simp
    · simp only [Fin.mk_one, Matrix.cons_val_one, Matrix.cons_val_fin_one]
      congr 2
      apply List.map_congr_left
      intro b hb
      have : (b.n : ℝ) ≠ 0 := by have := hn b hb; positivity
      field_simp
  · intro b hb
    have g := h1 b hb
    have g2 := (norms_zero hla (hK b hb) b.z).2
    simp only [initConstantMean, g2, bind, Except.bind, pure, Except.pure, Except.ok.injEq, Prod.mk.injEq] at g
    simp only [perBatchGls, g2, bind, Except.bind, pure, Except.pure, Bool.false_eq_true, if_false, g.1]

/-- **C181** (constant mean) The guessed mean lies between the least and the greatest mean of the
batches. -/
theorem initConstantLoader_range {X : Type} (hla : la.Sound be) {k : X → X → ℝ} {bs : List (IBatch X)}
    (hK : ∀ b ∈ bs, (b.gram k).PosDef) (hn : ∀ b ∈ bs, 0 < b.n) (h0 : bs ≠ []) {lo hi : ℝ}
    (hr : ∀ b ∈ bs, ∀ m s2, initConstantMean la (b.gram k) b.z = .ok (m, s2) → lo ≤ m ∧ m ≤ hi) :
    ∃ v, initConstantLoader be la k false bs = .ok (some v) ∧ lo ≤ v 0 ∧ v 0 ≤ hi := by
  have hm : ∀ b ∈ bs, ∃ m s2, initConstantMean la (b.gram k) b.z = .ok (m, s2) := by
    intro b hb
    obtain ⟨m, s2, h1, _, _⟩ := initConstantMean_mean hla (hK b hb) (hn b hb) b.z
    exact ⟨m, s2, h1⟩
  choose! m s2 h1 using hm
  obtain ⟨b0, hb0⟩ := List.exists_mem_of_ne_nil _ h0
  have hN : 0 < (bs.map IBatch.n).sum :=
    lt_of_lt_of_le (hn b0 hb0) (List.single_le_sum (by simp) _ (List.mem_map.mpr ⟨b0, hb0, rfl⟩))
  have hN' : (0 : ℝ) < ((bs.map IBatch.n).sum : ℕ) := by exact_mod_cast hN
  have hle : ∀ f g : IBatch X → ℝ, (∀ b ∈ bs, f b ≤ g b) → (bs.map f).sum ≤ (bs.map g).sum := by
    intro f g h
    exact List.sum_le_sum h
  refine ⟨_, reduceMeanPy_ok (v := fun b => ![m b, (b.z ⬝ᵥ ((b.gram k)⁻¹ *ᵥ b.z)) / b.n]) ?_ hN, ?_, ?_⟩
  · intro b hb
    have g := h1 b hb
    have g2 := (norms_zero hla (hK b hb) b.z).2
    simp only [initConstantMean, g2, bind, Except.bind, pure, Except.pure, Except.ok.injEq, Prod.mk.injEq] at g
    simp only [perBatchGls, g2, bind, Except.bind, pure, Except.pure, Bool.false_eq_true, if_false, g.1]
  · simp only [Matrix.cons_val_zero]
    rw [le_div_iff₀ hN', cast_sum, ← sum_map_mul_left]
    exact hle _ _ fun b hb => mul_le_mul_of_nonneg_right (hr b hb _ _ (h1 b hb)).1 (Nat.cast_nonneg _)
  · simp only [Matrix.cons_val_zero]
    rw [div_le_iff₀ hN', cast_sum, ← sum_map_mul_left]
    exact hle _ _ fun b hb => mul_le_mul_of_nonneg_right (hr b hb _ _ (h1 b hb)).2 (Nat.cast_nonneg _)

/-- **C181** (negative) For observations given as a column the constant-mean guess with a loader
raises, although with arrays the same observations are accepted. -/
theorem initConstantLoader_column_false {X : Type} (hla : la.Sound be) {k : X → X → ℝ} (b : IBatch X)
    (bs : List (IBatch X)) (hK : (b.gram k).PosDef) :
    initConstantLoader be la k true (b :: bs) =
      .error (match be with | .numpy => .valueError | .torch => .runtimeError) ∧
    ∃ r, initConstantMean la (b.gram k) b.z = .ok r := by
  have g2 := (norms_zero hla hK b.z).2
  constructor
  · simp only [initConstantLoader, reduceMeanPy, meanGo, perBatchGls, g2, bind, Except.bind, if_true]
    cases be <;> rfl
  · exact ⟨_, by simp only [initConstantMean, g2, bind, Except.bind, pure, Except.pure]; rfl⟩

/-- **C181** (negative) A loader without batches (fewer points than a batch, incomplete batches
dropped) raises `TypeError`. -/
theorem initLoader_empty_false {X : Type} {q : ℕ} (k : X → X → ℝ) (h : X → Fin q → ℝ) (column : Bool) :
    initZeroLoader la k [] = .error .typeError ∧ initConstantLoader be la k column [] = .error .typeError ∧
    initLinearLoader la k h [] = .error .typeError := ⟨rfl, rfl, rfl⟩

/-- **C181** (linear predictor) The variance guessed with a loader is the sum of the generalised
least-squares residuals of the batches divided by the number of points. -/
theorem initLinearLoader_spec {X : Type} {q : ℕ} (hla : la.Sound be) {k : X → X → ℝ} {h : X → Fin q → ℝ}
    {bs : List (LBatch X q)} (hK : ∀ b ∈ bs, (b.gram k).PosDef) (hP : ∀ b ∈ bs, FullRank (b.basis h))
    (hN : 0 < (bs.map LBatch.n).sum) :
    ∃ Q : LBatch X q → ℝ, (∀ b ∈ bs,
        let K : Mat (q + b.r) (q + b.r) := Matrix.of fun i j => k (b.x i) (b.x j)
        let res := fun β : Fin q → ℝ => fun i => b.z i - ∑ j, h (b.x i) j * β j
        (∃ β, Q b = res β ⬝ᵥ (K⁻¹ *ᵥ res β)) ∧ ∀ β, Q b ≤ res β ⬝ᵥ (K⁻¹ *ᵥ res β)) ∧
      initLinearLoader la k h bs = .ok (some fun _ => (bs.map Q).sum / ((bs.map LBatch.n).sum : ℕ)) := by
  have hq : ∀ b ∈ bs, ∃ Q, normKSqrd la (b.gram k) (b.basis h) b.z = .ok Q ∧
        (∃ β, Q = (b.z - b.basis h *ᵥ β) ⬝ᵥ ((b.gram k)⁻¹ *ᵥ (b.z - b.basis h *ᵥ β))) ∧
        (∀ β, Q ≤ (b.z - b.basis h *ᵥ β) ⬝ᵥ ((b.gram k)⁻¹ *ᵥ (b.z - b.basis h *ᵥ β))) ∧ (b.n = 0 → Q = 0) := by
    intro b hb
    obtain ⟨Q, g1, g2, β, g3⟩ := normKSqrd_gls hla (hK b hb) (hP b hb) b.z
    refine ⟨Q, g1, ⟨β, g3⟩, g2, fun h0 => ?_⟩
    rw [g3]
    exact Finset.sum_eq_zero fun i _ => absurd i.2 (by unfold LBatch.n at h0; omega)
  choose! Q h1 h2 h3 h4 using hq
  refine ⟨Q, fun b hb => ⟨h2 b hb, h3 b hb⟩, ?_⟩
  rw [initLinearLoader, reduceMeanPy_ok (v := fun b _ => Q b / b.n) ?_ hN]
  · congr 3
    funext _
    congr 2
    apply List.map_congr_left
    intro b hb
    rcases Nat.eq_zero_or_pos b.n with h | h
    · simp [h4 b hb h, h]
    · have : (b.n : ℝ) ≠ 0 := by positivity
      field_simp
  · intro b hb
    simp only [h1 b hb, bind, Except.bind, pure, Except.pure]

/-- **C181** The parameters guessed are finite exactly when the variance is positive and no column
of the points is constant; they are then the logarithm of the variance followed by the negated
logarithms of the length scales. -/
theorem covparamOf_finite (d : ℕ) (s2 : ℝ) (deltas : List ℝ) :
    ((∀ e ∈ covparamOf s2 (deltas.map (logInvRho d)), ∃ x : ℝ, e = Flt.fin x) ↔ 0 < s2 ∧ ∀ δ ∈ deltas, 0 < δ) ∧
    (0 < s2 → (∀ δ ∈ deltas, 0 < δ) → covparamOf s2 (deltas.map (logInvRho d)) =
      Flt.fin (Real.log s2) :: deltas.map fun δ => Flt.fin (-Real.log (Kernel.rhoFactor d * δ))) := by
  have hr := Kernel.rhoFactor_pos d
  have hv : ∀ δ : ℝ, 0 < δ → Flt.num (logInvRho d δ) = Flt.fin (-Real.log (Kernel.rhoFactor d * δ)) := by
    intro δ h
    simp only [logInvRho, if_pos (mul_pos hr h)]
    rfl
  have hval : 0 < s2 → (∀ δ ∈ deltas, 0 < δ) → covparamOf s2 (deltas.map (logInvRho d)) =
      Flt.fin (Real.log s2) :: deltas.map fun δ => Flt.fin (-Real.log (Kernel.rhoFactor d * δ)) := by
    intro h1 h2
    simp only [covparamOf, if_pos h1, List.map_map]
    congr 1
    exact List.map_congr_left fun δ h => hv δ (h2 δ h)
  refine ⟨⟨fun h => ⟨?_, ?_⟩, fun ⟨h1, h2⟩ => ?_⟩, hval⟩
  · by_contra h0
    obtain ⟨x, hx⟩ := h _ (List.mem_cons_self)
    rw [if_neg h0] at hx
    split_ifs at hx <;> simp [Flt.fin] at hx
  · intro δ hδ
    by_contra h0
    obtain ⟨x, hx⟩ := h (Flt.num (logInvRho d δ))
      (List.mem_cons_of_mem _ (List.mem_map_of_mem (List.mem_map_of_mem hδ)))
    have h1 : ¬ 0 < Kernel.rhoFactor d * δ := by
      rw [mul_pos_iff_of_pos_left hr]; exact h0
    simp only [logInvRho, if_neg h1, Flt.fin, Flt.num.injEq] at hx
    exact EReal.coe_ne_top x hx.symm
  · rw [hval h1 h2]
    intro e he
    rcases List.mem_cons.mp he with rfl | he
    · exact ⟨_, rfl⟩
    · obtain ⟨δ, _, rfl⟩ := List.mem_map.mp he
      exact ⟨_, rfl⟩

/-! ## C182 -/

theorem gather_perm {data : List ℝ} {idx : List ℕ} (hl : idx.length = data.length) (hn : idx.Nodup)
    (hi : ∀ j ∈ idx, j < data.length) : (idx.map fun j => data.getD j 0).Perm data := by
  have hp : idx.Perm (List.range data.length) := by
    apply List.Subperm.perm_of_length_le
    · exact List.subperm_of_subset hn fun j hj => List.mem_range.mpr (hi j hj)
    · simp [hl]
  have h2 : ((List.range data.length).map fun j => data.getD j 0) = data := by
    apply List.ext_getElem
    · simp
    · intro i h1 h2
      simp only [List.getElem_map, List.getElem_range]
      simp [List.getD, h2]
  have := hp.map fun j => data.getD j 0
  rwa [h2] at this

theorem mapIdx_flatten_perm {α : Type} (f : ℕ → List α → List α) :
    ∀ l : List (List α), (∀ i d, d ∈ l → (f i d).Perm d) → (l.mapIdx f).flatten.Perm l.flatten := by
  intro l
  induction l generalizing f with
  | nil => intro _; simp
  | cons d l ih =>
    intro h
    rw [List.mapIdx_cons, List.flatten_cons, List.flatten_cons]
    exact (h 0 d (by simp)).append (ih (fun i => f (i + 1)) fun i e he => h (i + 1) e (by simp [he]))

/-- **C182** When the sample is large enough to contain every shard, the approximate quantile is
the exact one, whatever the draws. -/
theorem quantileApprox_exact {draw : ℕ → ℕ → ℕ → List ℕ} (hd : DrawOk draw) {shards : List (List ℝ)} {size : ℕ}
    (hs : ∀ d ∈ shards, d.length * shards.length ≤ size) (q : ℝ) :
    quantileApprox draw shards q size = reduceQuantile shards q := by
  rcases shards.eq_nil_or_concat with rfl | hne'
  · rfl
  have hne : shards ≠ [] := by
    obtain ⟨l, b, rfl⟩ := hne'
    simp
  have hlen : 0 < shards.length := List.length_pos_iff.mpr hne
  by_cases hq : 0 ≤ q ∧ q ≤ 1
  swap
  · simp only [quantileApprox, reduceQuantile, if_pos hq]
  set f : ℕ → List ℝ → List ℝ := fun i data =>
    (draw i data.length (min data.length (size / shards.length))).map fun j => data.getD j 0 with hf
  have hp : (shards.mapIdx f).flatten.Perm shards.flatten := by
    apply mapIdx_flatten_perm
    intro i d hmem
    have hm : min d.length (size / shards.length) = d.length :=
      min_eq_left ((Nat.le_div_iff_mul_le hlen).mpr (hs d hmem))
    obtain ⟨h1, h2, h3⟩ := hd i d.length d.length le_rfl
    simp only [hf, hm]
    exact gather_perm h1 h2 h3
  have e1 : quantileApprox draw shards q size = reduceQuantile (shards.mapIdx f) q := by
    simp only [quantileApprox, reduceQuantile, if_neg (not_not.mpr hq), hf]
  rw [e1]
  by_cases h0 : shards.flatten = []
  · have h0' : (shards.mapIdx f).flatten = [] := by
      rw [h0] at hp
      exact List.perm_nil.mp hp
    have hc : ∀ l : List (List ℝ), l ≠ [] → l.flatten = [] → reduceQuantile l q = .error .indexError := by
      intro l hl hz
      have : l.isEmpty = false := by simpa using hl
      simp only [reduceQuantile, if_neg (not_not.mpr hq), gnpConcat, this, hz, bind, Except.bind, percentile]
      simp
    rw [hc _ hne h0, hc _ (by intro h; rw [← List.length_eq_zero_iff] at h; simp at h; exact hne h) h0']
  · obtain ⟨Q, h1, _, _, _, h2⟩ := reduceQuantile_spec shards h0
    rw [h1 q hq.1 hq.2, h2 _ hp q hq.1 hq.2]

/-- **C182** (negative) With more shards than the size of the sample nothing is drawn and the
method raises. -/
theorem quantileApprox_shards_false {draw : ℕ → ℕ → ℕ → List ℕ} (hd : DrawOk draw) {shards : List (List ℝ)} {size : ℕ}
    (h : size < shards.length) {q : ℝ} (hq : 0 ≤ q ∧ q ≤ 1) : quantileApprox draw shards q size = .error .indexError := by
  have h0 : size / shards.length = 0 := Nat.div_eq_of_lt h
  have hd0 : ∀ i n, draw i n 0 = [] := fun i n => List.length_eq_zero_iff.mp (hd i n 0 (Nat.zero_le _)).1
  have e : ∀ l : List (List ℝ), (l.mapIdx fun _ (_ : List ℝ) => ([] : List ℝ)).flatten = [] := by
    intro l
    induction l with
    | nil => rfl
    | cons a l ih => simpa [List.mapIdx_cons] using ih
  have hl : (shards.mapIdx fun _ (_ : List ℝ) => ([] : List ℝ)).isEmpty = false := by
    have hne : shards ≠ [] := by rintro rfl; simp at h
    cases shards with
    | nil => exact absurd rfl hne
    | cons a l => simp [List.mapIdx_cons]
  simp only [quantileApprox, if_neg (not_not.mpr hq), h0, Nat.min_zero, hd0, List.map_nil, gnpConcat, hl, e, bind,
    Except.bind, percentile]
  simp

/-- **C182** (negative) Every shard has the same share of the sample, whatever its size: with one
point at one and three at zero, cut in this way, the approximate median of two points is one half
for every draw, the exact one zero. -/
theorem quantileApprox_share_false {draw : ℕ → ℕ → ℕ → List ℕ} (hd : DrawOk draw) :
    quantileApprox draw [[1], [0, 0, 0]] (1 / 2) 2 = .ok (1 / 2) ∧ reduceQuantile [[1], [0, 0, 0]] (1 / 2) = .ok 0 := by
  have h1 : draw 0 1 1 = [0] := by
    obtain ⟨a, _, c⟩ := hd 0 1 1 le_rfl
    obtain ⟨j, hj⟩ := List.length_eq_one_iff.mp a
    have := c j (by simp [hj])
    rw [hj]
    congr
    omega
  obtain ⟨j, hj⟩ := List.length_eq_one_iff.mp (hd 1 3 1 (by norm_num)).1
  have hj3 := (hd 1 3 1 (by norm_num)).2.2 j (by simp [hj])
  have hv : ([0, 0, 0] : List ℝ).getD j 0 = 0 := by
    interval_cases j <;> rfl
  constructor
  · simp only [quantileApprox, if_neg (not_not.mpr (show (0 : ℝ) ≤ 1 / 2 ∧ (1 / 2 : ℝ) ≤ 1 by norm_num))]
    simp only [List.mapIdx_cons, List.mapIdx_nil, List.length_cons, List.length_nil, Nat.reduceAdd, Nat.reduceDiv,
      min_self, h1, List.map_cons, List.map_nil, show min 3 1 = 1 from rfl, hj, hv, gnpConcat, bind, Except.bind]
    rw [show (if ([[([1] : List ℝ).getD 0 0], [0]]).isEmpty = true then (Except.error PyErr.valueError : Py (List ℝ))
      else .ok ([[([1] : List ℝ).getD 0 0], [0]]).flatten) = .ok [1, 0] from rfl]
    simp only [percentile]
    have hf : ⌊(1 / 2 : ℝ)⌋₊ = 0 := by rw [Nat.floor_eq_zero]; norm_num
    norm_num [List.insertionSort, List.orderedInsert]
    simp only [hf]
    norm_num
    intro h
    cases h
  · rw [reduceQuantile_eq _ (by simp) _ (by norm_num) (by norm_num)]
    have hf : ⌊(1 / 2 * (((4 : ℕ) : ℝ) - 1) : ℝ)⌋₊ = 1 := by
      rw [Nat.floor_eq_iff (by norm_num)]; norm_num
    simp only [interp, List.flatten_cons, List.flatten_nil, List.append_nil, List.cons_append, List.nil_append,
      List.length_cons, List.length_nil, Nat.reduceAdd, hf]
    simp [sortCol, List.insertionSort, List.orderedInsert, show ¬ (1 : ℝ) ≤ 0 by norm_num]

example : ∃ draw, DrawOk draw := ⟨fun _ _ m => List.range m, fun _ n m h => ⟨by simp, List.nodup_range, fun j hj => by
  have := List.mem_range.mp hj; omega⟩⟩

end Verif.Core
