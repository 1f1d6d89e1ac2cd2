import Verif.Diag.Performance
import Verif.Misc.PropsFrameOps
import Mathlib.Algebra.BigOperators.Group.List.Lemmas
import Mathlib.Algebra.Order.BigOperators.Group.List
import Mathlib.Tactic.FieldSimp
import Mathlib.Tactic.NormNum.RealSqrt

/-!
# Properties of the performance metrics
-/

set_option autoImplicit false

namespace Verif.Performance

open Verif

/-! ## Specification -/

/-- Arithmetic mean. -/
noncomputable def avg (z : List ℝ) : ℝ := z.sum / z.length

/-- Sum of squares. -/
noncomputable def ss (v : List ℝ) : ℝ := (v.map fun x => x ^ 2).sum

/-- Sum of squared deviations from the mean. -/
noncomputable def dev (z : List ℝ) : ℝ := ss (z.map fun x => x - avg z)

/-- The entries expected for targets `z` with errors of total square `s`. -/
structure Good (z : List ℝ) (s : ℝ) (k : Metrics) : Prop where
  n : k.n = z.length
  std : k.std = Flt.fin √(dev z / z.length)
  tss : k.tss = Flt.fin (dev z)
  sse : k.sse = Flt.fin s
  ratio : k.ratio = Flt.fin (s / dev z)
  log : k.logRatio = if s = 0 then .num ⊥ else Flt.fin (Real.logb 10 (s / dev z))
  rmse : k.rmse = Flt.fin √(s / z.length)
  rmseStd : k.rmseOverStd = Flt.fin √(s / dev z)
  score : k.score = Flt.fin (1 - s / dev z)

theorem ss_nonneg (v : List ℝ) : 0 ≤ ss v :=
  List.sum_nonneg (by intro x hx; obtain ⟨y, _, rfl⟩ := List.mem_map.mp hx; exact sq_nonneg y)

theorem dev_nonneg (z : List ℝ) : 0 ≤ dev z := ss_nonneg _

theorem ss_zero (v : List ℝ) : ss v = 0 ↔ ∀ x ∈ v, x = 0 := by
  induction v with
  | nil => simp [ss]
  | cons a v ih =>
    have h1 : ss (a :: v) = a ^ 2 + ss v := by simp [ss]
    rw [h1, List.forall_mem_cons, ← ih]
    have h2 := ss_nonneg v
    constructor
    · intro h
      have : a ^ 2 = 0 := by nlinarith [sq_nonneg a]
      exact ⟨by simpa using this, by linarith⟩
    · rintro ⟨rfl, h⟩
      simp [h]

theorem ss_append (v w : List ℝ) : ss (v ++ w) = ss v + ss w := by simp [ss]

theorem sqnorm_fin (v : List ℝ) : sqnorm (v.map Flt.fin) = Flt.fin (ss v) := by
  unfold sqnorm
  have : (v.map Flt.fin).map (fun x => x.mul x) = (v.map fun x => x ^ 2).map Flt.fin := by
    simp [sq]
  rw [this, Flt.foldl_add_fin, zero_add]
  rfl

theorem centred_fin (z : List ℝ) : centred z = (z.map fun x => x - avg z).map Flt.fin := by
  rcases z with _ | ⟨a, z⟩
  · rfl
  · unfold centred mean
    rw [Flt.div_fin (by simp; positivity)]
    simp only [Flt.sub_fin, List.map_map]
    rfl

theorem tss_fin (z : List ℝ) : sqnorm (centred z) = Flt.fin (dev z) := by
  rw [centred_fin, sqnorm_fin]; rfl

theorem sqrt_fin {x : ℝ} (h : 0 ≤ x) : sqrt (Flt.fin x) = Flt.fin √x := by
  simp [sqrt, Flt.fin, not_lt.mpr h]

theorem std_fin {z : List ℝ} (h : z ≠ []) : std z = Flt.fin √(dev z / z.length) := by
  have hl : (0 : ℝ) < z.length := by
    have := List.length_pos_of_ne_nil h
    exact_mod_cast this
  unfold std
  rw [tss_fin, Flt.div_fin hl.ne', sqrt_fin (div_nonneg (dev_nonneg z) hl.le)]

theorem log10_fin {x : ℝ} (h : 0 ≤ x) : log10 (Flt.fin x) = if x = 0 then .num ⊥ else Flt.fin (Real.logb 10 x) := by
  simp [log10, Flt.fin, not_lt.mpr h]

/-- Targets are constant exactly when their squared deviation vanishes. -/
theorem dev_zero (z : List ℝ) : dev z = 0 ↔ ∀ x ∈ z, ∀ y ∈ z, x = y := by
  unfold dev
  rw [ss_zero, List.forall_mem_map]
  constructor
  · intro h x hx y hy
    linarith [h x hx, h y hy]
  · intro h x hx
    have : z.sum = z.length * x := by
      rw [List.eq_replicate_of_mem (a := x) fun y hy => h y hy x hx]
      simp
    have hl : (z.length : ℝ) ≠ 0 := by
      have := List.length_pos_of_mem hx
      positivity
    unfold avg
    rw [this]
    field_simp
    simp

theorem ne_nil_of_dev {z : List ℝ} (h : dev z ≠ 0) : z ≠ [] := by
  rintro rfl
  exact h ((dev_zero []).mpr (by simp))

theorem good_of {z : List ℝ} (hz : dev z ≠ 0) {s : ℝ} (hs : 0 ≤ s) :
    Good z s
      { n := z.length
        std := std z
        tss := sqnorm (centred z)
        sse := Flt.fin s
        ratio := (Flt.fin s).div (sqnorm (centred z))
        logRatio := log10 ((Flt.fin s).div (sqnorm (centred z)))
        rmse := sqrt ((Flt.fin s).div (Flt.fin (max z.length 1 : ℕ)))
        rmseOverStd := (sqrt ((Flt.fin s).div (Flt.fin (max z.length 1 : ℕ)))).div (std z)
        score := (Flt.fin 1).sub ((Flt.fin s).div (sqnorm (centred z))) } := by
  have hn := ne_nil_of_dev hz
  have hl1 := List.length_pos_of_ne_nil hn
  have hl : (0 : ℝ) < z.length := by exact_mod_cast hl1
  have hm : (max z.length 1 : ℕ) = z.length := max_eq_left hl1
  have hd : 0 < dev z := lt_of_le_of_ne (dev_nonneg z) (Ne.symm hz)
  have hr : 0 ≤ s / dev z := div_nonneg hs hd.le
  have hsd : √(dev z / z.length) ≠ 0 := by positivity
  rw [hm, tss_fin, std_fin hn, Flt.div_fin hz, Flt.div_fin hl.ne', sqrt_fin (div_nonneg hs hl.le), Flt.div_fin hsd,
    log10_fin hr]
  refine ⟨rfl, rfl, rfl, rfl, rfl, ?_, rfl, ?_, Flt.sub_fin _ _⟩
  · by_cases h : s = 0
    · simp [h]
    · rw [if_neg h, if_neg (div_ne_zero h hz)]
  · dsimp only
    congr 1
    rw [← Real.sqrt_div (div_nonneg hs hl.le)]
    congr 1
    field_simp

/-- **C69** For targets which are not all equal every entry of the leave-one-out block is the
textbook quantity. -/
theorem loo_values {z : List ℝ} (hz : ¬ ∀ x ∈ z, ∀ y ∈ z, x = y) (e : List ℝ) :
    Good z (ss e) (looMetrics z e) := by
  unfold looMetrics
  simp only [sqnorm_fin]
  exact good_of (mt (dev_zero z).mp hz) (ss_nonneg e)

theorem diff_same {a b : List ℝ} (h : a.length = b.length) : diff a b = .ok (List.zipWith (· - ·) a b) := by
  unfold diff
  rw [if_pos h]

/-- **C69** The same for the test block, with one prediction for each target. -/
theorem test_values {z p : List ℝ} (hz : ¬ ∀ x ∈ z, ∀ y ∈ z, x = y) (hl : z.length = p.length) :
    ∃ k, testMetrics z p = .ok k ∧ Good z (ss (List.zipWith (· - ·) z p)) k := by
  refine ⟨_, ?_, good_of (mt (dev_zero z).mp hz) (ss_nonneg _)⟩
  unfold testMetrics
  rw [diff_same hl]
  simp only [sqnorm_fin, bind, Except.bind, pure, Except.pure]

/-- **C69** The score is at most one, and one exactly when all errors vanish; the squared ratio
of the error to the standard deviation is one minus the score. -/
theorem score_laws {z e : List ℝ} {k : Metrics} (hz : ¬ ∀ x ∈ z, ∀ y ∈ z, x = y) (h : Good z (ss e) k) :
    ∃ q r : ℝ, k.score = Flt.fin q ∧ k.rmseOverStd = Flt.fin r ∧ q ≤ 1 ∧ r ^ 2 = 1 - q ∧ 0 ≤ r ∧
      (q = 1 ↔ ∀ x ∈ e, x = 0) := by
  have hd0 := mt (dev_zero z).mp hz
  have hd : 0 < dev z := lt_of_le_of_ne (dev_nonneg z) (Ne.symm hd0)
  have hr : 0 ≤ ss e / dev z := div_nonneg (ss_nonneg e) hd.le
  refine ⟨_, _, h.score, h.rmseStd, by linarith, ?_, Real.sqrt_nonneg _, ?_⟩
  · rw [Real.sq_sqrt hr]; ring
  · rw [← ss_zero]
    constructor
    · intro h1
      have : ss e / dev z = 0 := by linarith
      rcases div_eq_zero_iff.mp this with h2 | h2
      · exact h2
      · exact absurd h2 hd0
    · intro h1; rw [h1]; simp

theorem good_unique {z : List ℝ} {s : ℝ} {k k' : Metrics} (h : Good z s k) (h' : Good z s k') : k = k' := by
  cases k
  cases k'
  have := h.n.trans h'.n.symm
  have := h.std.trans h'.std.symm
  have := h.tss.trans h'.tss.symm
  have := h.sse.trans h'.sse.symm
  have := h.ratio.trans h'.ratio.symm
  have := h.log.trans h'.log.symm
  have := h.rmse.trans h'.rmse.symm
  have := h.rmseStd.trans h'.rmseStd.symm
  have := h.score.trans h'.score.symm
  simp_all

example : ∃ k, testMetrics [0, 2] [1, 2] = .ok k ∧ k.score = Flt.fin (1 / 2) ∧ k.rmseOverStd = Flt.fin √(1 / 2) ∧
    k.std = Flt.fin 1 := by
  obtain ⟨k, h, g⟩ := test_values (z := [0, 2]) (p := [1, 2]) (by simp) rfl
  have h1 : dev [0, 2] = 2 := by norm_num [dev, ss, avg]
  have h2 : ss (List.zipWith (· - ·) [0, 2] [1, 2]) = 1 := by norm_num [ss]
  refine ⟨k, h, ?_, ?_, ?_⟩
  · rw [g.score, h1, h2]; norm_num
  · rw [g.rmseStd, h1, h2]
  · rw [g.std, h1]; norm_num

/-! ## Constant predictions -/

theorem ss_map (z : List ℝ) (c : ℝ) : ss (z.map fun x => x - c) = ss z - 2 * c * z.sum + z.length * c ^ 2 := by
  induction z with
  | nil => simp [ss]
  | cons a z ih =>
    have h1 : ∀ (b : ℝ) v, ss (b :: v) = b ^ 2 + ss v := by intro b v; simp [ss]
    rw [List.map_cons, h1, h1, ih]
    simp
    ring

/-- The squared error of a constant exceeds that of the mean by the square of the bias. -/
theorem ss_const {z : List ℝ} (h : z ≠ []) (c : ℝ) :
    ss (z.map fun x => x - c) = dev z + z.length * (avg z - c) ^ 2 := by
  have hl : (z.length : ℝ) ≠ 0 := by
    have := List.length_pos_of_ne_nil h
    positivity
  unfold dev
  rw [ss_map, ss_map]
  have : z.sum = z.length * avg z := by unfold avg; field_simp
  rw [this]
  ring

theorem zip_replicate (z : List ℝ) (c : ℝ) :
    List.zipWith (· - ·) z (List.replicate z.length c) = z.map fun x => x - c := by
  induction z with
  | nil => rfl
  | cons a z ih => simp [List.replicate_succ, ih]

/-- **C136** A constant prediction has a test score of at most zero, and zero only for the mean
of the targets. -/
theorem test_constant {z : List ℝ} (hz : ¬ ∀ x ∈ z, ∀ y ∈ z, x = y) (c : ℝ) :
    ∃ k q, testMetrics z (List.replicate z.length c) = .ok k ∧ k.score = Flt.fin q ∧ q ≤ 0 ∧ (q = 0 ↔ c = avg z) := by
  obtain ⟨k, h, g⟩ := test_values hz (p := List.replicate z.length c) (by simp)
  have hd0 := mt (dev_zero z).mp hz
  have hd : 0 < dev z := lt_of_le_of_ne (dev_nonneg z) (Ne.symm hd0)
  have hn := ne_nil_of_dev hd0
  have hl : (0 : ℝ) < z.length := by
    have := List.length_pos_of_ne_nil hn
    exact_mod_cast this
  have hq : 1 - ss (List.zipWith (· - ·) z (List.replicate z.length c)) / dev z =
      -(z.length * (avg z - c) ^ 2 / dev z) := by
    rw [zip_replicate, ss_const hn]
    field_simp
    ring
  refine ⟨k, _, h, g.score, ?_, ?_⟩
  · rw [hq]
    have : 0 ≤ z.length * (avg z - c) ^ 2 / dev z := by positivity
    linarith
  · rw [hq, neg_eq_zero, div_eq_zero_iff, mul_eq_zero, pow_eq_zero_iff two_ne_zero]
    constructor
    · rintro ((h | h) | h)
      · exact absurd h hl.ne'
      · linarith
      · exact absurd h hd0
    · rintro rfl; simp

/-- The errors made when each target is predicted by the mean of the others. -/
noncomputable def looMeanErrors (z : List ℝ) : List ℝ :=
  z.map fun x => x - (z.sum - x) / (z.length - 1)

/-- **C136** Predicting each target by the mean of the others gives a leave-one-out score of
`1 - (n/(n-1))^2`, below zero. -/
theorem loo_mean {z : List ℝ} (hz : ¬ ∀ x ∈ z, ∀ y ∈ z, x = y) :
    (looMetrics z (looMeanErrors z)).score = Flt.fin (1 - ((z.length : ℝ) / (z.length - 1)) ^ 2) ∧
    1 - ((z.length : ℝ) / (z.length - 1)) ^ 2 < 0 := by
  have hd0 := mt (dev_zero z).mp hz
  have hl : (2 : ℝ) ≤ z.length := by
    have : 2 ≤ z.length := by
      rcases z with _ | ⟨a, _ | ⟨b, z⟩⟩
      · exact absurd (by simp) hz
      · exact absurd (by simp) hz
      · simp
    exact_mod_cast this
  have he : ss (looMeanErrors z) = (z.length / (z.length - 1)) ^ 2 * dev z := by
    unfold looMeanErrors dev ss
    rw [List.map_map, List.map_map, ← List.sum_map_mul_left]
    congr 1
    refine List.map_congr_left fun x _ => ?_
    simp only [Function.comp, avg]
    have h1 : (z.length : ℝ) - 1 ≠ 0 := by linarith
    have h2 : (z.length : ℝ) ≠ 0 := by linarith
    field_simp
    ring
  constructor
  · rw [(loo_values hz _).score, he]
    congr 1
    field_simp
  · have h1 : 1 < (z.length : ℝ) / (z.length - 1) := by
      rw [lt_div_iff₀ (by linarith)]; linarith
    nlinarith

/-! ## Units -/

theorem avg_affine {z : List ℝ} (h : z ≠ []) (a b : ℝ) : avg (z.map fun x => a * x + b) = a * avg z + b := by
  have hl : (z.length : ℝ) ≠ 0 := by
    have := List.length_pos_of_ne_nil h
    positivity
  have : (z.map fun x => a * x + b).sum = a * z.sum + z.length * b := by
    clear h hl
    induction z with
    | nil => simp
    | cons c z ih => simp [ih]; ring
  unfold avg
  rw [this]
  simp
  field_simp

theorem dev_affine {z : List ℝ} (h : z ≠ []) (a b : ℝ) : dev (z.map fun x => a * x + b) = a ^ 2 * dev z := by
  unfold dev ss
  rw [avg_affine h, List.map_map, List.map_map, List.map_map, ← List.sum_map_mul_left]
  congr 1
  refine List.map_congr_left fun x _ => ?_
  simp only [Function.comp]
  ring

/-- **C137** Score, ratio and relative error do not depend on the unit and origin of targets and
predictions; the other entries scale. -/
theorem test_units {z p : List ℝ} (hz : ¬ ∀ x ∈ z, ∀ y ∈ z, x = y) (hl : z.length = p.length) {a : ℝ} (ha : a ≠ 0)
    (b : ℝ) : ∃ k k', testMetrics z p = .ok k ∧
      testMetrics (z.map fun x => a * x + b) (p.map fun x => a * x + b) = .ok k' ∧
      k'.n = k.n ∧ k'.score = k.score ∧ k'.ratio = k.ratio ∧ k'.logRatio = k.logRatio ∧
      k'.rmseOverStd = k.rmseOverStd ∧ k'.std = (Flt.fin |a|).mul k.std ∧ k'.rmse = (Flt.fin |a|).mul k.rmse ∧
      k'.tss = (Flt.fin (a ^ 2)).mul k.tss ∧ k'.sse = (Flt.fin (a ^ 2)).mul k.sse := by
  have hd0 := mt (dev_zero z).mp hz
  have hn := ne_nil_of_dev hd0
  have hz' : ¬ ∀ x ∈ z.map fun x => a * x + b, ∀ y ∈ z.map fun x => a * x + b, x = y := by
    rw [← dev_zero, dev_affine hn]
    exact mul_ne_zero (pow_ne_zero 2 ha) hd0
  obtain ⟨k, h, g⟩ := test_values hz hl
  obtain ⟨k', h', g'⟩ := test_values hz' (p := p.map fun x => a * x + b) (by simpa using hl)
  have hs : ss (List.zipWith (· - ·) (z.map fun x => a * x + b) (p.map fun x => a * x + b)) =
      a ^ 2 * ss (List.zipWith (· - ·) z p) := by
    unfold ss
    rw [← List.sum_map_mul_left]
    congr 1
    rw [List.zipWith_map, List.map_zipWith, List.map_zipWith]
    congr 1
    funext x y
    ring
  have h2 : a ^ 2 ≠ 0 := pow_ne_zero 2 ha
  have hratio : ∀ s : ℝ, a ^ 2 * s / (a ^ 2 * dev z) = s / dev z := fun s => mul_div_mul_left _ _ h2
  have hsq : ∀ s : ℝ, √(a ^ 2 * s) = |a| * √s := fun s => by
    rw [Real.sqrt_mul (sq_nonneg a), Real.sqrt_sq_eq_abs]
  refine ⟨k, k', h, h', ?_, ?_, ?_, ?_, ?_, ?_, ?_, ?_, ?_⟩
  · rw [g.n, g'.n, List.length_map]
  · rw [g.score, g'.score, hs, dev_affine hn, hratio]
  · rw [g.ratio, g'.ratio, hs, dev_affine hn, hratio]
  · rw [g.log, g'.log, hs, dev_affine hn, hratio]
    simp [h2]
  · rw [g.rmseStd, g'.rmseStd, hs, dev_affine hn, hratio]
  · rw [g.std, g'.std, dev_affine hn, List.length_map, Flt.mul_fin, mul_div_assoc, hsq]
  · rw [g.rmse, g'.rmse, hs, List.length_map, Flt.mul_fin, mul_div_assoc, hsq]
  · rw [g.tss, g'.tss, dev_affine hn, Flt.mul_fin]
  · rw [g.sse, g'.sse, hs, Flt.mul_fin]

/-! ## Degenerate targets -/

/-- **C69** Constant targets: the score is minus infinity, or NaN for exact predictions, so that
exact predictions do not have score one; the table cannot be printed then. -/
theorem score_constant_false {z : List ℝ} (hz : ∀ x ∈ z, ∀ y ∈ z, x = y) (e : List ℝ) :
    ((∀ x ∈ e, x = 0) → (looMetrics z e).score = .nan ∧ (looMetrics z e).ratio = .nan) ∧
    (¬ (∀ x ∈ e, x = 0) → (looMetrics z e).score = .num ⊥) := by
  have hd := (dev_zero z).mpr hz
  unfold looMetrics
  simp only [sqnorm_fin, tss_fin, hd]
  constructor
  · intro h
    rw [(ss_zero e).mpr h]
    simp [Flt.div, Flt.fin, Flt.sub, Flt.neg, Flt.add]
  · intro h
    have h0 := mt (ss_zero e).mp h
    have h1 : 0 < ss e := lt_of_le_of_ne (ss_nonneg e) (Ne.symm h0)
    have h2 : (1 : EReal) ≠ ⊤ := EReal.coe_ne_top 1
    simp [Flt.div, Flt.fin, Flt.sub, Flt.neg, Flt.add, h0, h1, h2]

example : (looMetrics [3, 3] [0, 0]).score = .nan := ((score_constant_false (by simp) _).1 (by simp)).1

/-! ## Which calls succeed -/

/-- **C138** Results given in advance are used and the model is not asked; otherwise the model
is; blocks which are not wanted are absent. -/
theorem compute_blocks (model : Model) (zi : Tgt) (loo : Bool) (looRes : Option (List ℝ × List ℝ × List ℝ))
    (zt : Option Tgt) (zpmzpv : Option (List ℝ × List ℝ)) (o : Out) :
    compute model zi loo looRes zt zpmzpv false = .ok o ↔
      o.looPit = none ∧ o.testPit = none ∧
      ((loo = false ∧ o.loo = none) ∨
        ∃ r, (looRes = some r ∨ looRes = none ∧ model.loo = .ok r) ∧ loo = true ∧ o.loo = some (looMetrics zi.flat r.2.2)) ∧
      ((zt = none ∧ o.test = none) ∨
        ∃ t r k, zt = some t ∧ (zpmzpv = some r ∨ zpmzpv = none ∧ model.predict = .ok r) ∧
          testMetrics t.flat r.1 = .ok k ∧ o.test = some k) := by
  have h1 : ∀ x, looPart model zi loo looRes false = .ok x ↔ x.2 = none ∧ ((loo = false ∧ x.1 = none) ∨
      ∃ r, (looRes = some r ∨ looRes = none ∧ model.loo = .ok r) ∧ loo = true ∧ x.1 = some (looMetrics zi.flat r.2.2)) := by
    rintro ⟨x1, x2⟩
    unfold looPart
    cases loo
    · simp [pure, Except.pure]
      constructor
      · rintro ⟨rfl, rfl⟩; exact ⟨rfl, rfl⟩
      · rintro ⟨rfl, rfl⟩; exact ⟨rfl, rfl⟩
    · rcases looRes with _ | ⟨m, v, e⟩
      · rcases hm : model.loo with err | ⟨m, v, e⟩
        · simp [bind, Except.bind]
        · simp [bind, Except.bind, pure, Except.pure]
          constructor
          · rintro ⟨rfl, rfl⟩; exact ⟨rfl, rfl⟩
          · rintro ⟨rfl, rfl⟩; exact ⟨rfl, rfl⟩
      · simp [bind, Except.bind, pure, Except.pure]
        constructor
        · rintro ⟨rfl, rfl⟩; exact ⟨rfl, rfl⟩
        · rintro ⟨rfl, rfl⟩; exact ⟨rfl, rfl⟩
  have h2 : ∀ x, testPart model zt zpmzpv false = .ok x ↔ x.2 = none ∧ ((zt = none ∧ x.1 = none) ∨
      ∃ t r k, zt = some t ∧ (zpmzpv = some r ∨ zpmzpv = none ∧ model.predict = .ok r) ∧
        testMetrics t.flat r.1 = .ok k ∧ x.1 = some k) := by
    rintro ⟨x1, x2⟩
    unfold testPart
    rcases zt with _ | t
    · simp [pure, Except.pure]
      constructor
      · rintro ⟨rfl, rfl⟩; exact ⟨rfl, rfl⟩
      · rintro ⟨rfl, rfl⟩; exact ⟨rfl, rfl⟩
    · rcases zpmzpv with _ | ⟨m, v⟩
      · rcases hm : model.predict with err | ⟨m, v⟩
        · simp [bind, Except.bind]
        · rcases hk : testMetrics t.flat m with err | k
          · simp [bind, Except.bind, hk]
          · simp [bind, Except.bind, pure, Except.pure, hk]
            constructor
            · rintro ⟨rfl, rfl⟩; exact ⟨rfl, rfl⟩
            · rintro ⟨rfl, rfl⟩; exact ⟨rfl, rfl⟩
      · rcases hk : testMetrics t.flat m with err | k
        · simp [bind, Except.bind, hk]
        · simp [bind, Except.bind, pure, Except.pure, hk]
          constructor
          · rintro ⟨rfl, rfl⟩; exact ⟨rfl, rfl⟩
          · rintro ⟨rfl, rfl⟩; exact ⟨rfl, rfl⟩
  unfold compute
  constructor
  · intro h
    rcases ha : looPart model zi loo looRes false with err | a
    · simp [ha, bind, Except.bind] at h
    · rcases hb : testPart model zt zpmzpv false with err | b
      · simp [ha, hb, bind, Except.bind] at h
      · simp only [ha, hb, bind, Except.bind, pure, Except.pure] at h
        injection h with h
        subst h
        obtain ⟨a1, a2⟩ := (h1 a).mp ha
        obtain ⟨b1, b2⟩ := (h2 b).mp hb
        exact ⟨a1, b1, a2, b2⟩
  · rintro ⟨p1, p2, p3, p4⟩
    rw [(h1 (o.loo, none)).mpr ⟨rfl, p3⟩, (h2 (o.test, none)).mpr ⟨rfl, p4⟩]
    obtain ⟨o1, o2, o3, o4⟩ := o
    simp only at p1 p2
    simp only [bind, Except.bind, pure, Except.pure, p1, p2]

/-- **C138** Test predictions are accepted if there is one for each target, or if either list has
a single entry. -/
theorem test_accepts (z p : List ℝ) :
    ((∃ k, testMetrics z p = .ok k) ↔ z.length = p.length ∨ p.length = 1 ∨ z.length = 1) ∧
    (∀ err, testMetrics z p = .error err → err = .valueError) := by
  have hd : ((∃ d, diff z p = .ok d) ↔ z.length = p.length ∨ p.length = 1 ∨ z.length = 1) ∧
      (∀ err, diff z p = .error err → err = .valueError) := by
    unfold diff
    by_cases h : z.length = p.length
    · simp [h]
    · rw [if_neg h]
      rcases z with _ | ⟨a, _ | ⟨b, z⟩⟩ <;> rcases p with _ | ⟨c, _ | ⟨d, p⟩⟩ <;> simp at h ⊢
      exact h
  unfold testMetrics
  rcases hk : diff z p with err | d
  · rw [hk] at hd
    simp only [bind, Except.bind]
    refine ⟨?_, fun e he => hd.2 e (by injection he with he; rw [he])⟩
    rw [← hd.1]
    simp
  · rw [hk] at hd
    simp only [bind, Except.bind, pure, Except.pure]
    refine ⟨?_, by (intro e he; cases he)⟩
    rw [← hd.1]
    simp

/-- **C138** A single prediction is silently used for all targets. -/
theorem test_broadcast_false (z : List ℝ) (c : ℝ) (h : z ≠ []) :
    testMetrics z [c] = testMetrics z (List.replicate z.length c) := by
  have : diff z [c] = diff z (List.replicate z.length c) := by
    rw [diff_same (b := List.replicate z.length c) (by simp), zip_replicate]
    unfold diff
    by_cases hl : z.length = [c].length
    · rw [if_pos hl]
      rcases z with _ | ⟨a, _ | ⟨b, z⟩⟩
      · simp at h
      · rfl
      · simp at hl
    · rw [if_neg hl]
  unfold testMetrics
  rw [this]

/-- **C138** The number of leave-one-out errors given is not compared with that of the targets:
one error for two targets can give a perfect score. -/
theorem loo_length_false (model : Model) : ∃ o k, compute model (.vec [0, 2]) true (some ([0], [1], [0])) none none false = .ok o ∧
    o.loo = some k ∧ k.score = Flt.fin 1 := by
  refine ⟨⟨some (looMetrics [0, 2] [0]), none, none, none⟩, _, ?_, rfl, ?_⟩
  · rw [compute_blocks]
    exact ⟨rfl, rfl, Or.inr ⟨_, Or.inl rfl, rfl, rfl⟩, Or.inl ⟨rfl, rfl⟩⟩
  · rw [(loo_values (by simp) _).score]
    simp [ss]

/-! ## Probability integral transform -/

/-- **C139** With one prediction for each target the PIT values are the predictive distribution
functions at the targets, between zero and one. -/
theorem pit_values {z m v : List ℝ} (h1 : z.length = m.length) (h2 : m.length = v.length) (hv : ∀ x ∈ v, 0 < x) :
    ∃ l : List Flt, pit (.vec z) m v = .ok (.vec l) ∧ l.length = z.length ∧
      ∀ (i : ℕ) (x a s : ℝ), z[i]? = some x → m[i]? = some a → v[i]? = some s →
        l[i]? = some (Flt.fin (Score.Phi ((x - a) / √s))) ∧ 0 ≤ Score.Phi ((x - a) / √s) ∧
          Score.Phi ((x - a) / √s) ≤ 1 := by
  unfold pit
  dsimp only
  rw [if_pos h1]
  refine ⟨_, rfl, by simp [h1, h2], ?_⟩
  intro i x a s hx ha hs
  have hs0 : 0 < s := hv s (List.mem_of_getElem? hs)
  refine ⟨?_, Score.Phi_nonneg _, Score.Phi_le_one _⟩
  rw [List.getElem?_zipWith, hx]
  have : (m.zip v)[i]? = some (a, s) := by
    rw [List.zip, List.getElem?_zipWith, ha, hs]
  rw [this]
  simp [cdfOne, max_eq_left hs0.le, (Real.sqrt_pos.mpr hs0).ne']

/-- **C139** A variance which is not positive, and is clipped to zero, gives NaN. -/
theorem pit_zero_false (x m : ℝ) {v : ℝ} (hv : v ≤ 0) : pit (.vec [x]) [m] [v] = .ok (.vec [.nan]) := by
  simp [pit, cdfOne, max_eq_right hv, not_lt.mpr hv]

/-- **C139** For targets given as a column the result is a square array: every target with every
prediction. -/
theorem pit_column_false {z m v : List ℝ} (h1 : z.length = m.length) (h2 : m.length = v.length) :
    ∃ rows, pit (.col z) m v = .ok (.mat rows) ∧ rows.length = z.length ∧ ∀ r ∈ rows, r.length = z.length := by
  refine ⟨_, rfl, by simp, ?_⟩
  intro r hr
  obtain ⟨x, _, rfl⟩ := List.mem_map.mp hr
  simp [h1, h2]

/-! ## Display -/

/-- A frame of one column. -/
theorem section_wf (rows : List (String × Flt)) :
    DataFrame.WF (α := Flt) ⟨2, fun i => if i = 0 then ["value"] else rows.map (·.1)⟩
      (DataFrame.Frame.init (.mat 1 (rows.map fun r => [r.2])) 0 1) 1 (rows.map fun r => [r.2]) where
  data := rfl
  rect := by
    intro row hrow
    obtain ⟨r, _, rfl⟩ := List.mem_map.mp hrow
    rfl
  rown := by simp [DataFrame.Frame.init]
  coln := by simp [DataFrame.Frame.init]
  ne := by simp [DataFrame.Frame.init]
  lr := by simp [DataFrame.Frame.init]
  lc := by simp [DataFrame.Frame.init]

theorem section_nan (toStr : DataFrame.Shown → String) {rows : List (String × Flt)} (h : ∃ r ∈ rows, r.2 = .nan) :
    ∃ e, section_ (fun x => (DataFrame.ftos 3 x).map toStr) rows = .error e := by
  obtain ⟨r, hr, hn⟩ := h
  exact DataFrame.repr_nan_false toStr (section_wf rows) ⟨[r.2], List.mem_map.mpr ⟨r, hr, rfl⟩, by simp [hn]⟩

theorem section_ok (toStr : DataFrame.Shown → String) {rows : List (String × Flt)} (h : ∀ r ∈ rows, r.2 ≠ .nan) :
    ∃ lines, section_ (fun x => (DataFrame.ftos 3 x).map toStr) rows = .ok lines ∧ lines.length = rows.length + 1 := by
  obtain ⟨lines, h1, h2⟩ := DataFrame.repr_total (fun x => (DataFrame.ftos 3 x).map toStr) (section_wf rows) (by
    intro row hrow a ha
    obtain ⟨r, hr, rfl⟩ := List.mem_map.mp hrow
    have : a = r.2 := by simpa using ha
    subst this
    rcases hx : r.2 with _ | x
    · exact absurd hx (h r hr)
    · simp only [DataFrame.ftos]
      split_ifs <;> exact ⟨_, rfl⟩)
  exact ⟨lines, h1, by simpa using h2⟩

theorem fin_ne_nan (x : ℝ) : Flt.fin x ≠ .nan := fun h => by cases h

/-- **C138** For targets which are not all equal `perf` prints a table of eight rows under a
header; for constant targets predicted exactly it raises. -/
theorem perf_prints (toStr : DataFrame.Shown → String) (model : Model) (zi : Tgt) (m v e : List ℝ) :
    ((¬ ∀ x ∈ zi.flat, ∀ y ∈ zi.flat, x = y) → ∃ t, perf (fun x => (DataFrame.ftos 3 x).map toStr) model zi true
      (some (m, v, e)) none none = .ok [t] ∧ t.length = 9) ∧
    ((∀ x ∈ zi.flat, ∀ y ∈ zi.flat, x = y) → (∀ x ∈ e, x = 0) →
      ∃ err, perf (fun x => (DataFrame.ftos 3 x).map toStr) model zi true (some (m, v, e)) none none = .error err) := by
  have hc : compute model zi true (some (m, v, e)) none none false = .ok ⟨some (looMetrics zi.flat e), none, none, none⟩ := by
    rw [compute_blocks]
    exact ⟨rfl, rfl, Or.inr ⟨_, Or.inl rfl, rfl, rfl⟩, Or.inl ⟨rfl, rfl⟩⟩
  unfold perf
  rw [hc]
  constructor
  · intro hz
    have g := loo_values hz e
    obtain ⟨lines, h1, h2⟩ := section_ok toStr (rows := (looMetrics zi.flat e).rows "press" "Q2") (by
      intro r hr
      simp only [Metrics.rows, g.std, g.tss, g.sse, g.ratio, g.log, g.rmse, g.rmseStd, g.score, List.mem_cons,
        List.not_mem_nil, or_false] at hr
      rcases hr with rfl | rfl | rfl | rfl | rfl | rfl | rfl | rfl <;> first | exact fin_ne_nan _ | skip
      dsimp only
      split_ifs
      · intro h; cases h
      · exact fin_ne_nan _)
    refine ⟨lines, ?_, by simpa [Metrics.rows] using h2⟩
    simp only [bind, Except.bind, h1, pure, Except.pure, List.append_nil]
    rfl
  · intro hz he
    obtain ⟨err, h1⟩ := section_nan toStr (rows := (looMetrics zi.flat e).rows "press" "Q2")
      ⟨("Q2", (looMetrics zi.flat e).score), by simp [Metrics.rows], ((score_constant_false hz e).1 he).1⟩
    exact ⟨err, by simp only [bind, Except.bind, h1]; rfl⟩

/-- **C138** The tables printed: for each block which was computed, the leave-one-out one first,
the names and the values of its rows in order. -/
theorem perf_tables (fts : Flt → Py String) {model : Model} {zi : Tgt} {loo : Bool}
    {looRes : Option (List ℝ × List ℝ × List ℝ)} {zt : Option Tgt} {zpmzpv : Option (List ℝ × List ℝ)} {p : Out}
    (h : compute model zi loo looRes zt zpmzpv false = .ok p) :
    perf fts model zi loo looRes zt zpmzpv =
      ((p.loo.map fun k => [("std(z)", k.std), ("tss", k.tss), ("press", k.sse), ("press/tss", k.ratio),
          ("log10(press/tss)", k.logRatio), ("rmse", k.rmse), ("rmse/std(z)", k.rmseOverStd), ("Q2", k.score)]).toList ++
        (p.test.map fun k => [("std(z)", k.std), ("tss", k.tss), ("rss", k.sse), ("rss/tss", k.ratio),
          ("log10(rss/tss)", k.logRatio), ("rmse", k.rmse), ("rmse/std(z)", k.rmseOverStd), ("R2", k.score)]).toList).mapM
        (section_ fts) := by
  unfold perf
  rw [h]
  have e1 : "press" ++ "/tss" = "press/tss" := by decide
  have e2 : "log10(" ++ "press" ++ "/tss)" = "log10(press/tss)" := by decide
  have e3 : "rss" ++ "/tss" = "rss/tss" := by decide
  have e4 : "log10(" ++ "rss" ++ "/tss)" = "log10(rss/tss)" := by decide
  rcases p with ⟨_ | k1, p2, _ | k2, p4⟩ <;>
    simp only [bind, Except.bind, pure, Except.pure, Option.map, Option.toList, List.nil_append, List.append_nil,
      List.mapM_nil, List.mapM_cons, List.cons_append, Metrics.rows, e1, e2, e3, e4]
  · cases section_ fts _ <;> rfl
  · cases section_ fts _ <;> rfl
  · cases section_ fts [("std(z)", k1.std), ("tss", k1.tss), ("press", k1.sse), ("press/tss", k1.ratio),
          ("log10(press/tss)", k1.logRatio), ("rmse", k1.rmse), ("rmse/std(z)", k1.rmseOverStd), ("Q2", k1.score)]
    · rfl
    · simp only [Except.map]
      cases section_ fts [("std(z)", k2.std), ("tss", k2.tss), ("rss", k2.sse), ("rss/tss", k2.ratio),
          ("log10(rss/tss)", k2.logRatio), ("rmse", k2.rmse), ("rmse/std(z)", k2.rmseOverStd), ("R2", k2.score)] <;> rfl

example (toStr : DataFrame.Shown → String) (model : Model) :
    ∃ err, perf (fun x => (DataFrame.ftos 3 x).map toStr) model (.vec [1, 1]) true (some ([1, 1], [1, 1], [0, 0])) none none =
      .error err := (perf_prints toStr model _ _ _ _).2 (by simp [Tgt.flat]) (by simp)

end Verif.Performance
