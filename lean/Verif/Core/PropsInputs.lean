import Verif.Core.PropsMaternGP
import Verif.Core.Init
import Verif.Kernel.PropsGap

/-!
# C246: origin, units, orientation and order of the coordinates of the inputs

Changing them changes neither predictions nor criteria, provided the length scales are expressed in the new units;
the initial guess and the bounds of the length-scale prior follow by themselves, the power-law prior does not.
-/

set_option autoImplicit false

namespace Verif.Kernel

open Verif

/-- A column in other units. -/
theorem minGap_affine {s : ℝ} (hs : s ≠ 0) (t : ℝ) (x : List ℝ) :
    minGap (x.map fun a => s * a + t) = (minGap x).map fun g => |s| * g := by
  have key : ∀ g, minGap x = some g → minGap (x.map fun a => s * a + t) = some (|s| * g) := by
    intro g hg
    obtain ⟨⟨a, ha, b, hb, hab, rfl⟩, hmin⟩ := ((minGap_spec x).1 g).1 hg
    refine ((minGap_spec _).1 _).2 ⟨?_, ?_⟩
    · rcases lt_or_gt_of_ne hs with h | h
      · exact ⟨s * b + t, List.mem_map.mpr ⟨b, hb, rfl⟩, s * a + t, List.mem_map.mpr ⟨a, ha, rfl⟩, by nlinarith, by
          rw [abs_of_neg h]; ring⟩
      · exact ⟨s * a + t, List.mem_map.mpr ⟨a, ha, rfl⟩, s * b + t, List.mem_map.mpr ⟨b, hb, rfl⟩, by nlinarith, by
          rw [abs_of_pos h]; ring⟩
    · intro a' ha' b' hb' hab'
      obtain ⟨c, hc, rfl⟩ := List.mem_map.mp ha'
      obtain ⟨e, he, rfl⟩ := List.mem_map.mp hb'
      rcases lt_or_gt_of_ne hs with h | h
      · have := hmin e he c hc (by nlinarith)
        rw [abs_of_neg h]
        nlinarith
      · have := hmin c hc e he (by nlinarith)
        rw [abs_of_pos h]
        nlinarith
  cases hg : minGap x with
  | some g => simpa using key g hg
  | none =>
    have h := (minGap_spec x).2.1 hg
    simp only [Option.map_none]
    refine (minGap_spec _).2.2 fun a' ha' b' hb' => ?_
    obtain ⟨c, hc, rfl⟩ := List.mem_map.mp ha'
    obtain ⟨e, he, rfl⟩ := List.mem_map.mp hb'
    rw [h c hc e he]

theorem colRange_affine (s t : ℝ) (x : List ℝ) : colRange (x.map fun a => s * a + t) = |s| * colRange x := by
  rcases eq_or_ne x [] with rfl | hx
  · simp [colRange]
  · obtain ⟨a, ha, b, hb, h1, h2⟩ := colRange_spec hx
    obtain ⟨a', ha', b', hb', h1', h2'⟩ := colRange_spec (x := x.map fun a => s * a + t) (by simpa using hx)
    obtain ⟨c, hc, rfl⟩ := List.mem_map.mp ha'
    obtain ⟨e, he, rfl⟩ := List.mem_map.mp hb'
    have e1 := h2' _ (List.mem_map.mpr ⟨a, ha, rfl⟩)
    have e2 := h2' _ (List.mem_map.mpr ⟨b, hb, rfl⟩)
    have e3 := h2 c hc
    have e4 := h2 e he
    rw [h1, h1']
    rcases le_total s 0 with h | h
    · rw [abs_of_nonpos h]
      refine le_antisymm ?_ ?_ <;> nlinarith
    · rw [abs_of_nonneg h]
      refine le_antisymm ?_ ?_ <;> nlinarith

/-- **C246** The minimum of a log length scale follows the units of its coordinate. -/
theorem logrhoMin_units {s : ℝ} (hs : s ≠ 0) (t : ℝ) (factor : ℝ) (x : List ℝ) :
    logrhoMin1 factor (x.map fun a => s * a + t) = logrhoMin1 factor x + ((Real.log |s| : ℝ) : EReal) := by
  have hs' : 0 < |s| := abs_pos.mpr hs
  have hadd : ∀ a b : EReal, max a b + ((Real.log |s| : ℝ) : EReal) =
      max (a + ((Real.log |s| : ℝ) : EReal)) (b + ((Real.log |s| : ℝ) : EReal)) := by
    intro a b
    rcases le_total a b with h | h
    · rw [max_eq_right h, max_eq_right (by gcongr)]
    · rw [max_eq_left h, max_eq_left (by gcongr)]
  unfold logrhoMin1
  simp only [minGap_affine hs, colRange_affine]
  rw [hadd]
  congr 1
  · cases hg : minGap x with
    | none => simp
    | some g =>
      simp only [Option.map_some]
      rw [Real.log_mul hs'.ne' (minGap_pos hg).ne', add_comm]
      exact EReal.coe_add _ _
  · by_cases h : 0 < colRange x * factor
    · have h' : 0 < |s| * colRange x * factor := by rw [mul_assoc]; positivity
      rw [if_pos h', if_pos h, mul_assoc, Real.log_mul hs'.ne' h.ne', add_comm]
      exact EReal.coe_add _ _
    · have h' : ¬ 0 < |s| * colRange x * factor := by
        rw [mul_assoc]
        push Not at h ⊢
        exact mul_nonpos_of_nonneg_of_nonpos hs'.le h
      rw [if_neg h', if_neg h, EReal.bot_add]

/-- **C246** The barrier of the length-scale prior depends on differences of log length scales only: in other units
(all log length scales shifted by `c j`, in any order) the refusals and the values are the same. -/
theorem barrier_units {d : ℕ} (a : ℝ) (r m r0 c : Fin d → ℝ) (e : Equiv.Perm (Fin d)) :
    neglogF a (fun j => r (e j) + c j) (fun j => m (e j) + c j) (fun j => r0 (e j) + c j) =
      (neglogF a r m r0).map fun v j => v (e j) := by
  unfold neglogF
  have h1 : (∃ j, r0 (e j) + c j ≤ m (e j) + c j) ↔ ∃ j, r0 j ≤ m j := by
    constructor
    · rintro ⟨j, hj⟩
      exact ⟨e j, by linarith⟩
    · rintro ⟨j, hj⟩
      exact ⟨e.symm j, by rw [e.apply_symm_apply]; linarith⟩
  by_cases ha : a ≤ 0
  · simp [if_pos ha, Except.map]
  · by_cases h2 : ∃ j, r0 j ≤ m j
    · simp only [if_neg ha, if_pos h2, if_pos (h1.mpr h2)]
      rfl
    · simp only [if_neg ha, if_neg h2, if_neg (fun h => h2 (h1.mp h))]
      simp only [Except.map]
      congr 1
      funext j
      unfold neglogF1
      simp only [add_sub_add_right_eq_sub]

/-- **C246** The power-law prior has absolute cut-offs and depends on the units: dividing the unit of one coordinate by
`exp 10` moves the same length scale beyond a cut-off. -/
theorem powerLaw_units_false : ∃ p c : ℝ, 0 < c ∧
    logPriorPowerLaw .default ![0, p] ≠ logPriorPowerLaw .default ![0, p - c] ∧
    ∀ p' c', |p'| ≤ 9.21 → |p' - c'| ≤ 9.21 →
      logPriorPowerLaw .default ![0, p'] = logPriorPowerLaw .default ![0, p' - c'] := by
  refine ⟨0, 10, by norm_num, ?_, fun p' c' h1 h2 => ?_⟩
  · simp [logPriorPowerLaw, PowerLaw.default]
    norm_num
  · rw [abs_le] at h1 h2
    have e1 : max (-9.21 - p') 0 = (0 : ℝ) := max_eq_right (by linarith [h1.1])
    have e2 : max (p' - 9.21) 0 = (0 : ℝ) := max_eq_right (by linarith [h1.2])
    have e3 : max (-9.21 - (p' - c')) 0 = (0 : ℝ) := max_eq_right (by linarith [h2.1])
    have e4 : max (p' - c' - 9.21) 0 = (0 : ℝ) := max_eq_right (by linarith [h2.2])
    simp [logPriorPowerLaw, PowerLaw.default, e1, e2, e3, e4]

end Verif.Kernel

namespace Verif.Core

open Verif Verif.Data Matrix
open Verif.Kernel (cov covII covIT covPairwise maternFormula YArg scaledDistance colRange rhoFactor)

variable {n m q d r : ℕ} {be : Backend} {la : LA}

/-- A change of coordinates: new coordinate `j` is `scale j` times the old coordinate `perm j`, plus `shift j`. -/
structure Coords (d : ℕ) where
  scale : Fin d → ℝ
  shift : Fin d → ℝ
  perm : Equiv.Perm (Fin d)
  scale_ne : ∀ j, scale j ≠ 0

/-- Points in the new coordinates. -/
def Coords.points (A : Coords d) (x : Matrix (Fin n) (Fin d) ℝ) : Matrix (Fin n) (Fin d) ℝ :=
  Matrix.of fun i j => A.scale j * x i (A.perm j) + A.shift j

/-- The same length scales in the new units (`loginvrho = -log rho`). -/
noncomputable def Coords.param (A : Coords d) (param : Fin (d + 1) → ℝ) : Fin (d + 1) → ℝ :=
  Fin.cons (param 0) fun j => param (A.perm j).succ - Real.log |A.scale j|

theorem Coords.distance (A : Coords d) (param : Fin (d + 1) → ℝ) (x : Matrix (Fin n) (Fin d) ℝ)
    (y : Matrix (Fin m) (Fin d) ℝ) (i : Fin n) (t : Fin m) :
    scaledDistance (fun j => A.param param j.succ) (A.points x i) (A.points y t) =
      scaledDistance (fun j => param j.succ) (x i) (y t) := by
  unfold scaledDistance Kernel.cdistNumpy Kernel.scaleRow
  congr 1
  rw [← Equiv.sum_comp A.perm fun k => (Real.exp (param k.succ) * x i k - Real.exp (param k.succ) * y t k) ^ 2]
  refine Finset.sum_congr rfl fun j _ => ?_
  have hs : 0 < |A.scale j| := abs_pos.mpr (A.scale_ne j)
  simp only [Coords.param, Fin.cons_succ, Coords.points, of_apply]
  rw [Real.exp_sub, Real.exp_log hs, ← mul_sub, ← mul_sub, mul_pow, mul_pow, div_pow, sq_abs]
  have := A.scale_ne j
  field_simp
  ring

theorem Coords.covII_eq (A : Coords d) (k : ℝ → ℝ) (eps : ℝ) (param : Fin (d + 1) → ℝ) (x : Matrix (Fin n) (Fin d) ℝ) :
    covII k eps (A.param param) (A.points x) = covII k eps param x := by
  ext i j
  simp only [covII, of_apply, A.distance]
  rfl

/-- **C246** All covariances the library computes from the points are unchanged. -/
theorem coords_cov (A : Coords d) (k : ℝ → ℝ) (eps : ℝ) (param : Fin (d + 1) → ℝ) (x y : Matrix (Fin n) (Fin d) ℝ) :
    cov k eps (A.param param) (A.points x) .none = cov k eps param x .none ∧
    cov k eps (A.param param) (A.points x) .same = cov k eps param x .same ∧
    cov k eps (A.param param) (A.points x) (.other (A.points y)) = cov k eps param x (.other y) ∧
    covPairwise k (A.param param) (A.points x) .none = covPairwise k param x .none ∧
    covPairwise k (A.param param) (A.points x) (.other (A.points y)) = covPairwise k param x (.other y) := by
  refine ⟨A.covII_eq k eps param x, A.covII_eq k eps param x, ?_, rfl, ?_⟩
  · ext i j
    simp only [cov, covIT, of_apply, A.distance]
    rfl
  · funext i
    simp only [covPairwise, Kernel.covITPairwise]
    have h := A.distance param x y i i
    have e : ∀ (l a b : Fin d → ℝ), Kernel.scaledDistanceElt false l a b = scaledDistance l a b := by
      intro l a b
      simp only [Kernel.scaledDistanceElt, scaledDistance, Kernel.cdistNumpy, Kernel.scaleRow, Bool.false_eq_true, if_false,
        mul_sub]
    rw [e, e, h]
    rfl

theorem coords_arrays (A : Coords d) (p : ℕ) (eps : ℝ) (param : Fin (d + 1) → ℝ) (x : Matrix (Fin n) (Fin d) ℝ)
    (y : Matrix (Fin m) (Fin d) ℝ) (P : Mat n q) (Pt : Mat m q) :
    maternOther p eps (A.param param) (A.points x) (A.points y) P Pt = maternOther p eps param x y P Pt := by
  have h1 := A.covII_eq (maternFormula p) eps param x
  have h2 := A.covII_eq (maternFormula p) eps param y
  have h3 : covIT (maternFormula p) (A.param param) (A.points x) (A.points y) = covIT (maternFormula p) param x y := by
    ext i j
    simp only [covIT, of_apply, A.distance]
    rfl
  unfold maternOther
  simp only [cov, h1, h2, h3]
  rfl

/-- **C246** Predictions, criteria, leave-one-out errors, norms and sample paths are unchanged. -/
theorem coords_invariant (A : Coords d) (p : ℕ) (eps : ℝ) (param : Fin (d + 1) → ℝ) (x : Matrix (Fin (q + r)) (Fin d) ℝ)
    (y : Matrix (Fin m) (Fin d) ℝ) (P : Mat (q + r) q) (Pt : Mat m q) (zi mi : Fin (q + r) → ℝ) :
    let K' := cov (maternFormula p) eps (A.param param) (A.points x) .same
    let K := cov (maternFormula p) eps param x .same
    (∀ mt zn, predict la mt (maternOther p eps (A.param param) (A.points x) (A.points y) P Pt) zi zn =
      predict la mt (maternOther p eps param x y P Pt) zi zn) ∧
    nll be la K' mi zi = nll be la K mi zi ∧ reml be la K' P zi = reml be la K P zi ∧
    (∀ mt : MeanType (q + r) m, loo la mt K' P zi = loo la mt K P zi) ∧
    normKSqrd la K' P zi = normKSqrd la K P zi ∧
    ∀ E : Mat (q + r) m, samplePathsChol la K' E = samplePathsChol la K E := by
  intro K' K
  have h : K' = K := A.covII_eq (maternFormula p) eps param x
  rw [h, coords_arrays]
  exact ⟨fun _ _ => rfl, rfl, rfl, fun _ => rfl, rfl, fun _ => rfl⟩

/-- No coordinate is constant. -/
def Varies (x : Matrix (Fin n) (Fin d) ℝ) : Prop := ∀ j, ∃ i i', x i j ≠ x i' j

theorem varies_range {x : Matrix (Fin n) (Fin d) ℝ} (h : Varies x) (j : Fin d) :
    0 < colRange (List.ofFn fun i => x i j) := by
  obtain ⟨i, i', hne⟩ := h j
  have hi : x i j ∈ List.ofFn fun i => x i j := (List.mem_ofFn).mpr ⟨i, rfl⟩
  have hi' : x i' j ∈ List.ofFn fun i => x i j := (List.mem_ofFn).mpr ⟨i', rfl⟩
  obtain ⟨a, -, b, -, h1, h2⟩ := Kernel.colRange_spec (List.ne_nil_of_mem hi)
  have e1 := h2 _ hi
  have e2 := h2 _ hi'
  rw [h1]
  rcases lt_or_gt_of_ne hne with h | h <;> linarith

theorem guess_coords (A : Coords d) {x : Matrix (Fin n) (Fin d) ℝ} (h : Varies x) (c : ℝ) :
    (Fin.cons c (guessLoginvrho (A.points x)) : Fin (d + 1) → ℝ) = A.param (Fin.cons c (guessLoginvrho x)) := by
  unfold Coords.param
  congr 1
  funext j
  simp only [Fin.cons_succ, guessLoginvrho]
  have e : (List.ofFn fun i => A.points x i j) =
      (List.ofFn fun i => x i (A.perm j)).map fun a => A.scale j * a + A.shift j := by
    rw [List.map_ofFn]
    rfl
  have hs : 0 < |A.scale j| := abs_pos.mpr (A.scale_ne j)
  have hr := varies_range h (A.perm j)
  have hf := Kernel.rhoFactor_pos d
  rw [e, Kernel.colRange_affine, mul_left_comm, Real.log_mul hs.ne' (mul_pos hf hr).ne']
  ring

/-- **C246** The initial guesses follow the coordinates: computed from the points in the new coordinates they are the old
guesses expressed in the new units (and they raise exactly when the old ones do). -/
theorem coords_guess (A : Coords d) (p : ℕ) (eps : ℝ) {x : Matrix (Fin (q + r)) (Fin d) ℝ} (h : Varies x)
    (P : Mat (q + r) q) (zi : Fin (q + r) → ℝ) :
    guessZeroMean la (maternFormula p) eps (A.points x) zi = (guessZeroMean la (maternFormula p) eps x zi).map A.param ∧
    guessConstantMean la (maternFormula p) eps (A.points x) zi =
      (guessConstantMean la (maternFormula p) eps x zi).map (fun g => (g.1, A.param g.2)) ∧
    guessLinear la (maternFormula p) eps (A.points x) P zi = (guessLinear la (maternFormula p) eps x P zi).map A.param := by
  unfold guessZeroMean guessConstantMean guessLinear
  have hK : cov (maternFormula p) eps (Fin.cons (Real.log 1) (guessLoginvrho (A.points x))) (A.points x) .same =
      cov (maternFormula p) eps (Fin.cons (Real.log 1) (guessLoginvrho x)) x .same := by
    rw [guess_coords A h]
    exact A.covII_eq (maternFormula p) eps _ x
  rw [hK]
  refine ⟨?_, ?_, ?_⟩
  · cases initSigma2Zero la (cov (maternFormula p) eps (Fin.cons (Real.log 1) (guessLoginvrho x)) x .same) zi with
    | error e => rfl
    | ok s2 =>
      simp only [bind, Except.bind, pure, Except.pure, Except.map]
      rw [guess_coords A h]
  · cases initConstantMean la (cov (maternFormula p) eps (Fin.cons (Real.log 1) (guessLoginvrho x)) x .same) zi with
    | error e => rfl
    | ok s2 =>
      simp only [bind, Except.bind, pure, Except.pure, Except.map]
      rw [guess_coords A h]
  · cases initSigma2 la (cov (maternFormula p) eps (Fin.cons (Real.log 1) (guessLoginvrho x)) x .same) P zi with
    | error e => rfl
    | ok s2 =>
      simp only [bind, Except.bind, pure, Except.pure, Except.map]
      rw [guess_coords A h]

/-- Degrees Celsius to Fahrenheit in the first coordinate, metres to millimetres downwards in the second, exchanged. -/
noncomputable def exCoords : Coords 2 where
  scale := ![-1000, 9 / 5]
  shift := ![0, 32]
  perm := Equiv.swap 0 1
  scale_ne := by intro j; fin_cases j <;> norm_num

example : exCoords.points (!![0, 1; 100, 2] : Matrix (Fin 2) (Fin 2) ℝ) = !![-1000, 32; -2000, 212] := by
  ext i j
  fin_cases i <;> fin_cases j <;> simp [exCoords, Coords.points] <;> norm_num

example : Varies (!![0, 1; 100, 2] : Matrix (Fin 2) (Fin 2) ℝ) := by
  intro j
  refine ⟨0, 1, ?_⟩
  fin_cases j <;> norm_num

/-- The guess is then returned and follows. -/
example : ∃ g, guessZeroMean (exactLA .numpy) (maternFormula 1) 0 (!![0, 1; 100, 2] : Matrix (Fin 2) (Fin 2) ℝ) ![1, 2] = .ok g ∧
    guessZeroMean (exactLA .numpy) (maternFormula 1) 0 (!![-1000, 32; -2000, 212] : Matrix (Fin 2) (Fin 2) ℝ) ![1, 2] =
      .ok ![g 0, g 2 - Real.log 1000, g 1 - Real.log (9 / 5)] := by
  have hx : Function.Injective (!![0, 1; 100, 2] : Matrix (Fin 2) (Fin 2) ℝ) := by
    intro i j h
    have := congrFun h 1
    fin_cases i <;> fin_cases j <;> simp_all
  have hs : Varies (!![0, 1; 100, 2] : Matrix (Fin 2) (Fin 2) ℝ) := by
    intro j
    refine ⟨0, 1, ?_⟩
    fin_cases j <;> norm_num
  have hA : exCoords.points (!![0, 1; 100, 2] : Matrix (Fin 2) (Fin 2) ℝ) = !![-1000, 32; -2000, 212] := by
    ext i j
    fin_cases i <;> fin_cases j <;> simp [exCoords, Coords.points] <;> norm_num
  have hK := matern_Kii (n := 2) 1 (eps := 0) (Fin.cons (Real.log 1)
    (guessLoginvrho (!![0, 1; 100, 2] : Matrix (Fin 2) (Fin 2) ℝ))) (Or.inr ⟨le_rfl, hx⟩)
  have h0 := (norms_zero (exactLA_contract .numpy).toSound hK ![1, 2]).1
  obtain ⟨g, hg⟩ : ∃ g, guessZeroMean (exactLA .numpy) (maternFormula 1) 0 (!![0, 1; 100, 2] : Matrix (Fin 2) (Fin 2) ℝ) ![1, 2] =
      .ok g := by
    simp only [guessZeroMean, initSigma2Zero, h0, bind, Except.bind, pure, Except.pure]
    exact ⟨_, rfl⟩
  refine ⟨g, hg, ?_⟩
  have h1 := (coords_guess (la := exactLA .numpy) (q := 1) (r := 1) exCoords 1 0 hs (fun _ _ => 1) ![1, 2]).1
  rw [hA] at h1
  refine h1.trans ?_
  rw [show guessZeroMean (n := 1 + 1) (exactLA .numpy) (maternFormula 1) 0 (!![0, 1; 100, 2] : Matrix (Fin 2) (Fin 2) ℝ) ![1, 2] = .ok g from hg]
  simp only [Except.map]
  congr 1
  funext j
  refine Fin.cases ?_ (fun j => ?_) j
  · rfl
  · fin_cases j
    · simp [Coords.param, exCoords]
    · show g (Equiv.swap (0 : Fin 2) 1 1).succ - Real.log |9 / 5| = g 1 - Real.log (9 / 5)
      rw [Equiv.swap_apply_right, abs_of_pos (by norm_num)]
      rfl

end Verif.Core
