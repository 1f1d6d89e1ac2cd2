import Verif.Plot.PropsCriteria

/-!
# Theorems: the map of a selection criterion (C214)
-/

set_option autoImplicit false

namespace Verif.Plot

open Verif Verif.Designs

/-- The coordinate `x` of the map stands for the covariance parameter `c`: index 0 is `log σ²` and is
shown as `log10 σ`, the others are `log (1/ρ)` and are shown as `log10 ρ`. -/
def Coord (i : ℤ) (c x : ℝ) : Prop :=
  if i = 0 then Real.exp c = ((10 : ℝ) ^ x) ^ 2 else Real.exp c = 1 / (10 : ℝ) ^ x

theorem rpow_logb_ten {y : ℝ} (hy : 0 < y) : (10 : ℝ) ^ Real.logb 10 y = y :=
  Real.rpow_logb (by norm_num) (by norm_num) hy

theorem coord_shown (i : ℤ) (c : ℝ) : Coord i c (shown i c) := by
  unfold Coord shown
  split
  · rw [← Real.rpow_natCast, ← Real.rpow_mul (by norm_num),
      show (0.5 * Real.logb 10 (Real.exp c)) * ((2 : ℕ) : ℝ) = Real.logb 10 (Real.exp c) by push_cast; ring,
      rpow_logb_ten (Real.exp_pos c)]
  · rw [Real.rpow_neg (by norm_num), rpow_logb_ten (Real.exp_pos c)]
    simp

theorem coord_toCov (i : ℤ) {p : ℝ} (hp : 0 < p) : Coord i (toCov i p) (Real.logb 10 p) := by
  unfold Coord toCov
  rw [rpow_logb_ten hp]
  split
  · exact Real.exp_log (by positivity)
  · exact Real.exp_log (by positivity)

/-- A coordinate stands for one parameter only, and a parameter has one coordinate only. -/
theorem coord_unique (i : ℤ) {c c' x x' : ℝ} (h : Coord i c x) (h' : Coord i c' x') : c = c' ↔ x = x' := by
  have hinj : (10 : ℝ) ^ x = (10 : ℝ) ^ x' ↔ x = x' :=
    ⟨fun e => by
      have := congrArg (Real.logb 10) e
      simpa [Real.logb_rpow] using this, fun e => e ▸ rfl⟩
  have hx := Real.rpow_pos_of_pos (show (0 : ℝ) < 10 by norm_num) x
  have hx' := Real.rpow_pos_of_pos (show (0 : ℝ) < 10 by norm_num) x'
  rw [← hinj, ← Real.exp_eq_exp]
  unfold Coord at h h'
  split at h
  · rw [if_pos (by assumption)] at h'
    rw [h, h']
    exact ⟨fun e => (pow_left_inj₀ hx.le hx'.le (by norm_num)).mp e, fun e => by rw [e]⟩
  · rw [if_neg (by assumption)] at h'
    rw [h, h']
    exact ⟨fun e => by simpa using e, fun e => by rw [e]⟩

theorem axis_pos (factor p0 : ℝ) (n k : ℕ) : 0 < axis factor p0 n k :=
  Real.rpow_pos_of_pos (by norm_num) _

theorem mapM_range {β : Type} {f : ℕ → Py β} {n : ℕ} {r : List β} (h : (List.range n).mapM f = .ok r) :
    r.length = n ∧ ∀ (i : ℕ) (b : β), r[i]? = some b → f i = .ok b := by
  have hF := mapM_forall₂ h
  refine ⟨by simpa using hF.length_eq.symm, fun i b hb => ?_⟩
  obtain ⟨h2, e2⟩ := List.getElem?_eq_some_iff.mp hb
  have h1 : i < (List.range n).length := by rw [hF.length_eq]; exact h2
  have := hF.get h1 h2
  simpa [e2] using this

/-- The parameter vector of the point `(x, y)` of the map: the selected vector with two entries
replaced. -/
def At (i1 i2 : ℤ) (k1 k2 : ℕ) (ic : Vec) (x y : ℝ) (v : Vec) : Prop :=
  ∃ c1 c2, Coord i1 c1 x ∧ Coord i2 c2 y ∧ v = ⟨ic.isInt, (ic.val.set k1 c1).set k2 c2⟩

/-- Everything about a map that was drawn. -/
theorem map_ok {fmax factor : ℝ} {f : Vec → Flt} {mc ic : Vec} {c0 : Option Vec} {i1 i2 : ℤ} {n : ℕ}
    {shift : Bool} {M : Map} (h : map2d fmax f mc ic c0 i1 i2 n factor shift = .ok M) :
    ∃ a1 a2 vs o, pyGet mc.val i1 = .ok a1 ∧ pyGet mc.val i2 = .ok a2 ∧ 0 < factor ∧ 0 < n ∧
      meshValues f i1 i2 (axis factor (natural i1 a1) n) (axis factor (natural i2 a2) n) n ic = .ok vs ∧
      place i1 i2 ic = .ok o ∧ optional (place i1 i2) c0 = .ok M.init ∧ M.opt = o ∧
      (∀ i j, M.x i j = Real.logb 10 (axis factor (natural i1 a1) n j)) ∧
      (∀ i j, M.y i j = Real.logb 10 (axis factor (natural i2 a2) n i)) ∧
      ∀ i j, M.z i j = Real.logb 10 (max 0.01 ((((vs.map (List.map (nanToNum fmax))).getD i []).getD j 0) +
        (if shift then -minOf (vs.map (List.map (nanToNum fmax))).flatten else 0))) := by
  unfold map2d at h
  cases ha1 : pyGet mc.val i1 with
  | error e => rw [ha1] at h; cases h
  | ok a1 =>
    cases ha2 : pyGet mc.val i2 with
    | error e => simp only [ha1, ha2, bind, Except.bind] at h; cases h
    | ok a2 =>
      simp only [ha1, ha2, bind, Except.bind] at h
      split at h
      · cases h
      · rename_i hf
        split at h
        · cases h
        · rename_i vs hvs
          split at h
          · cases h
          · rename_i hn
            cases ho : place i1 i2 ic with
            | error e => simp only [ho] at h; cases h
            | ok o =>
              simp only [ho] at h
              cases hi : optional (place i1 i2) c0 with
              | error e => simp only [hi] at h; cases h
              | ok ini =>
                simp only [hi, pure, Except.pure] at h
                cases h
                exact ⟨a1, a2, vs, o, rfl, rfl, not_le.mp hf, Nat.pos_of_ne_zero hn, hvs, rfl, rfl, rfl,
                  fun _ _ => rfl, fun _ _ => rfl, fun _ _ => rfl⟩

theorem place_ok {i1 i2 : ℤ} {v : Vec} {o : ℝ × ℝ} {k1 k2 : ℕ} (hk1 : Means v.val.length i1 k1)
    (hk2 : Means v.val.length i2 k2) (h : place i1 i2 v = .ok o) :
    ∃ b1 b2, v.val[k1]? = some b1 ∧ v.val[k2]? = some b2 ∧ Coord i1 b1 o.1 ∧ Coord i2 b2 o.2 := by
  obtain ⟨b1, hb1⟩ : ∃ b, v.val[k1]? = some b := ⟨_, List.getElem?_eq_getElem hk1.1⟩
  obtain ⟨b2, hb2⟩ : ∃ b, v.val[k2]? = some b := ⟨_, List.getElem?_eq_getElem hk2.1⟩
  simp only [place, pyGet_means hk1 hb1, pyGet_means hk2 hb2, bind, Except.bind, pure, Except.pure] at h
  cases h
  exact ⟨b1, b2, hb1, hb2, coord_shown _ _, coord_shown _ _⟩

theorem mesh_get {f : Vec → Flt} {i1 i2 : ℤ} {p1 p2 : ℕ → ℝ} {n : ℕ} {c : Vec} {vs : List (List Flt)}
    {k1 k2 : ℕ} (hf : c.isInt = false) (hk1 : Means c.val.length i1 k1) (hk2 : Means c.val.length i2 k2)
    (h : meshValues f i1 i2 p1 p2 n c = .ok vs) :
    vs.length = n ∧ ∀ i, i < n → ∃ row, vs[i]? = some row ∧ row.length = n ∧ ∀ j, j < n →
      row[j]? = some (f ⟨false, (c.val.set k1 (toCov i1 (p1 j))).set k2 (toCov i2 (p2 i))⟩) := by
  obtain ⟨hl, hr⟩ := mapM_range h
  refine ⟨hl, fun i hi => ⟨vs[i], List.getElem?_eq_getElem (hl ▸ hi), ?_⟩⟩
  have := hr i vs[i] (List.getElem?_eq_getElem (hl ▸ hi))
  obtain ⟨hl', hr'⟩ := mapM_range this
  refine ⟨hl', fun j hj => ?_⟩
  rw [List.getElem?_eq_getElem (hl'.symm ▸ hj)]
  have h' := hr' j _ (List.getElem?_eq_getElem (hl'.symm ▸ hj))
  simp only [Vec.store, pos_means hk1, hf, coerce, bind, Except.bind, pure, Except.pure, Bool.false_eq_true,
    if_false] at h'
  rw [show pos (c.val.set k1 (toCov i1 (p1 j))).length i2 = .ok k2 by
    rw [List.length_set]; exact pos_means hk2] at h'
  rw [Except.ok.inj h'.symm]

/-- **C214** The colour of each point of the map is that of the criterion at the parameters that the
coordinates of the point stand for, the other parameters being as selected; the red point, and the blue
one, are at the coordinates of the selected and of the initial parameters.  Colours below `10^-2` are cut
off. -/
theorem map_points {fmax factor : ℝ} {f : Vec → Flt} {mc ic : Vec} {c0 : Option Vec} {i1 i2 : ℤ} {n : ℕ}
    {shift : Bool} {M : Map} {k1 k2 : ℕ} (hf : ic.isInt = false) (hk1 : Means ic.val.length i1 k1)
    (hk2 : Means ic.val.length i2 k2) (h : map2d fmax f mc ic c0 i1 i2 n factor shift = .ok M) :
    (∃ s, (shift = false → s = 0) ∧ ∀ i j, i < n → j < n → ∃ v, At i1 i2 k1 k2 ic (M.x i j) (M.y i j) v ∧
      M.z i j = Real.logb 10 (max 0.01 (nanToNum fmax (f v) + s))) ∧
    (∃ b1 b2, ic.val[k1]? = some b1 ∧ ic.val[k2]? = some b2 ∧ Coord i1 b1 M.opt.1 ∧ Coord i2 b2 M.opt.2) ∧
    (c0 = none → M.init = none) ∧
    (∀ c, c0 = some c → c.val.length = ic.val.length → ∃ o b1 b2, M.init = some o ∧ c.val[k1]? = some b1 ∧
      c.val[k2]? = some b2 ∧ Coord i1 b1 o.1 ∧ Coord i2 b2 o.2) := by
  obtain ⟨a1, a2, vs, o, -, -, -, -, hvs, ho, hini, rfl, hx, hy, hz⟩ := map_ok h
  obtain ⟨hl, hg⟩ := mesh_get hf hk1 hk2 hvs
  refine ⟨⟨if shift then -minOf (vs.map (List.map (nanToNum fmax))).flatten else 0,
    fun hs => by rw [hs]; rfl, fun i j hi hj => ?_⟩, place_ok hk1 hk2 ho, fun hc => ?_, fun c hc hlen => ?_⟩
  · obtain ⟨row, hrow, hrl, hrj⟩ := hg i hi
    refine ⟨_, ⟨_, _, hx i j ▸ coord_toCov i1 (axis_pos _ _ _ _), hy i j ▸ coord_toCov i2 (axis_pos _ _ _ _), rfl⟩, ?_⟩
    rw [hz i j]
    congr 3
    simp [List.getD_eq_getElem?_getD, hrow, hrj j hj, hf]
  · subst hc; exact (Except.ok.inj hini).symm
  · subst hc
    simp only [optional] at hini
    cases hp : place i1 i2 c with
    | error e => rw [hp] at hini; cases hini
    | ok o' =>
      rw [hp] at hini
      obtain ⟨b1, b2, h1⟩ := place_ok (hlen ▸ hk1) (hlen ▸ hk2) hp
      exact ⟨o', b1, b2, (Except.ok.inj hini).symm, h1⟩

/-- **C214** The map is centred at the parameters of the model: its columns run from the coordinate of
the model minus `log10 factor` to the coordinate plus `log10 factor`, in equal steps; likewise for its
rows. -/
theorem map_range {fmax factor : ℝ} {f : Vec → Flt} {mc ic : Vec} {c0 : Option Vec} {i1 i2 : ℤ} {n : ℕ}
    {shift : Bool} {M : Map} {k1 k2 : ℕ} (hk1 : Means mc.val.length i1 k1) (hk2 : Means mc.val.length i2 k2)
    (h : map2d fmax f mc ic c0 i1 i2 n factor shift = .ok M) (hn : 2 ≤ n) :
    ∃ a1 a2 x y, mc.val[k1]? = some a1 ∧ mc.val[k2]? = some a2 ∧ Coord i1 a1 x ∧ Coord i2 a2 y ∧
      (∀ i j, M.x i j = x - Real.logb 10 factor + j * (2 * Real.logb 10 factor) / ((n : ℝ) - 1)) ∧
      ∀ i j, M.y i j = y - Real.logb 10 factor + i * (2 * Real.logb 10 factor) / ((n : ℝ) - 1) := by
  obtain ⟨a1, a2, vs, o, h1, h2, -, -, hvs, ho, hini, -, hx, hy, -⟩ := map_ok h
  obtain ⟨b1, hb1⟩ : ∃ b, mc.val[k1]? = some b := ⟨_, List.getElem?_eq_getElem hk1.1⟩
  obtain ⟨b2, hb2⟩ : ∃ b, mc.val[k2]? = some b := ⟨_, List.getElem?_eq_getElem hk2.1⟩
  rw [pyGet_means hk1 hb1] at h1; cases h1
  rw [pyGet_means hk2 hb2] at h2; cases h2
  have key : ∀ (i : ℤ) (c : ℝ), Coord i c (Real.logb 10 (natural i c)) := by
    intro i c
    have hp : 0 < natural i c := by unfold natural; split <;> exact Real.exp_pos _
    have : toCov i (natural i c) = c := by
      unfold toCov natural
      split
      · rw [← Real.exp_nat_mul, Real.log_exp]; push_cast; ring
      · rw [one_div, ← Real.exp_neg, Real.log_exp, neg_neg]
    simpa [this] using coord_toCov i hp
  refine ⟨_, _, _, _, hb1, hb2, key i1 _, key i2 _, fun i j => ?_, fun i j => ?_⟩
  · rw [hx i j, axis, Real.logb_rpow (by norm_num) (by norm_num), lin, if_neg (by omega)]
    ring
  · rw [hy i j, axis, Real.logb_rpow (by norm_num) (by norm_num), lin, if_neg (by omega)]
    ring

/-- **C214** With an odd number of points, the middle of the map is the point of the model, so that the
red point is in the middle when the model has the selected parameters. -/
theorem map_centre {fmax factor : ℝ} {f : Vec → Flt} {ic : Vec} {c0 : Option Vec} {i1 i2 : ℤ} {m : ℕ}
    {shift : Bool} {M : Map} {k1 k2 : ℕ} (hm : 0 < m) (hk1 : Means ic.val.length i1 k1)
    (hk2 : Means ic.val.length i2 k2) (h : map2d fmax f ic ic c0 i1 i2 (2 * m + 1) factor shift = .ok M) :
    (M.x m m, M.y m m) = M.opt := by
  obtain ⟨a1, a2, x, y, h1, h2, hc1, hc2, hx, hy⟩ := map_range hk1 hk2 h (by omega)
  obtain ⟨-, -, -, o, -, -, -, -, -, ho, -, rfl, -, -, -⟩ := map_ok h
  obtain ⟨b1, b2, e1, e2, hd1, hd2⟩ := place_ok hk1 hk2 ho
  rw [h1] at e1; cases e1
  rw [h2] at e2; cases e2
  have hmr : (m : ℝ) ≠ 0 := by exact_mod_cast hm.ne'
  have hz : ∀ l : ℝ, (m : ℝ) * (2 * l) / (((2 * m + 1 : ℕ) : ℝ) - 1) = l := by
    intro l; push_cast; field_simp; ring
  ext
  · rw [hx, hz]
    have := (coord_unique i1 hc1 hd1).mp rfl
    simp only; linarith
  · rw [hy, hz]
    have := (coord_unique i2 hc2 hd2).mp rfl
    simp only; linarith

theorem minOf_le (l : List ℝ) : ∀ x ∈ l, minOf l ≤ x := by
  have key : ∀ (l : List ℝ) (a : ℝ), l.foldl min a ≤ a ∧ ∀ x ∈ l, l.foldl min a ≤ x := by
    intro l
    induction l with
    | nil => intro a; exact ⟨le_rfl, by simp⟩
    | cons b l ih =>
      intro a
      obtain ⟨h1, h2⟩ := ih (min a b)
      refine ⟨h1.trans (min_le_left _ _), fun x hx => ?_⟩
      rcases List.mem_cons.mp hx with rfl | hx
      · exact h1.trans (min_le_right _ _)
      · exact h2 x hx
  exact (key l _).2

theorem minOf_mem (l : List ℝ) (hl : l ≠ []) : minOf l ∈ l := by
  have key : ∀ (l : List ℝ) (a : ℝ), l.foldl min a = a ∨ l.foldl min a ∈ l := by
    intro l
    induction l with
    | nil => intro a; exact Or.inl rfl
    | cons b l ih =>
      intro a
      rcases ih (min a b) with h | h
      · rcases min_choice a b with h' | h'
        · left; rw [List.foldl_cons, h, h']
        · right; rw [List.foldl_cons, h, h']; simp
      · right; rw [List.foldl_cons]; exact List.mem_cons_of_mem _ h
  cases l with
  | nil => exact absurd rfl hl
  | cons b l =>
    rcases key (b :: l) b with h | h
    · rw [minOf, List.headD_cons, h]; simp
    · exact h

theorem logb_hundredth : Real.logb 10 (0.01 : ℝ) = -2 := by
  rw [show (0.01 : ℝ) = (10 : ℝ) ^ (-2 : ℝ) by
    rw [Real.rpow_neg (by norm_num), show (2 : ℝ) = ((2 : ℕ) : ℝ) by norm_num, Real.rpow_natCast]; norm_num]
  exact Real.logb_rpow (by norm_num) (by norm_num)

/-- **C214** With the shift, the colours go from `-2`, at every point where the criterion is smallest
among the points of the map (with NaN counted as 0), upwards; they are ordered as the values of the
criterion. -/
theorem map_colours {fmax factor : ℝ} {f : Vec → Flt} {mc ic : Vec} {c0 : Option Vec} {i1 i2 : ℤ} {n : ℕ}
    {M : Map} {k1 k2 : ℕ} (hf : ic.isInt = false) (hk1 : Means ic.val.length i1 k1)
    (hk2 : Means ic.val.length i2 k2) (h : map2d fmax f mc ic c0 i1 i2 n factor true = .ok M) :
    ∃ v : ℕ → ℕ → Vec,
      (∀ i j, i < n → j < n → At i1 i2 k1 k2 ic (M.x i j) (M.y i j) (v i j)) ∧
      (∀ i j, i < n → j < n → -2 ≤ M.z i j) ∧
      (∀ i j, i < n → j < n → (∀ i' j', i' < n → j' < n →
        nanToNum fmax (f (v i j)) ≤ nanToNum fmax (f (v i' j'))) → M.z i j = -2) ∧
      ∀ i j i' j', i < n → j < n → i' < n → j' < n →
        nanToNum fmax (f (v i j)) ≤ nanToNum fmax (f (v i' j')) → M.z i j ≤ M.z i' j' := by
  obtain ⟨a1, a2, vs, o, -, -, -, -, hvs, -, -, -, hx, hy, hz⟩ := map_ok h
  obtain ⟨hl, hg⟩ := mesh_get hf hk1 hk2 hvs
  set v : ℕ → ℕ → Vec := fun i j => ⟨false, (ic.val.set k1 (toCov i1 (axis factor (natural i1 a1) n j))).set k2
    (toCov i2 (axis factor (natural i2 a2) n i))⟩ with hv
  set num := vs.map (List.map (nanToNum fmax)) with hnum
  have hzz : ∀ i j, i < n → j < n → M.z i j = Real.logb 10 (max 0.01 (nanToNum fmax (f (v i j)) - minOf num.flatten)) := by
    intro i j hi hj
    obtain ⟨row, hrow, hrl, hrj⟩ := hg i hi
    rw [hz i j, if_pos rfl, ← sub_eq_add_neg]
    congr 3
    simp [hnum, List.getD_eq_getElem?_getD, hrow, hrj j hj, hv]
  have hmem : ∀ y ∈ num.flatten, ∃ i j, i < n ∧ j < n ∧ y = nanToNum fmax (f (v i j)) := by
    intro y hy
    obtain ⟨r, hr, hyr⟩ := List.mem_flatten.mp hy
    obtain ⟨row, hrow, rfl⟩ := List.mem_map.mp hr
    obtain ⟨w, hw, rfl⟩ := List.mem_map.mp hyr
    obtain ⟨i, hi, rfl⟩ := List.mem_iff_getElem.mp hrow
    rw [hl] at hi
    obtain ⟨row', hrow', hrl, hrj⟩ := hg i hi
    rw [List.getElem?_eq_getElem (by rw [hl]; exact hi)] at hrow'
    cases hrow'
    obtain ⟨j, hj, rfl⟩ := List.mem_iff_getElem.mp hw
    rw [hrl] at hj
    have := hrj j hj
    rw [List.getElem?_eq_getElem (by rw [hrl]; exact hj)] at this
    exact ⟨i, j, hi, hj, by rw [Option.some.inj this]⟩
  have hin : ∀ i j, i < n → j < n → nanToNum fmax (f (v i j)) ∈ num.flatten := by
    intro i j hi hj
    obtain ⟨row, hrow, hrl, hrj⟩ := hg i hi
    refine List.mem_flatten.mpr ⟨_, List.mem_map.mpr ⟨row, List.mem_of_getElem? hrow, rfl⟩, ?_⟩
    exact List.mem_map.mpr ⟨_, List.mem_of_getElem? (hrj j hj), rfl⟩
  have hlow : ∀ y : ℝ, -2 ≤ Real.logb 10 (max 0.01 y) := fun y => by
    rw [← logb_hundredth]
    exact Real.logb_le_logb_of_le (by norm_num) (by norm_num) (le_max_left _ _)
  refine ⟨v, fun i j hi hj => ?_, fun i j hi hj => hzz i j hi hj ▸ hlow _, fun i j hi hj hmin => ?_,
    fun i j i' j' hi hj hi' hj' hle => ?_⟩
  · exact ⟨_, _, hx i j ▸ coord_toCov i1 (axis_pos _ _ _ _), hy i j ▸ coord_toCov i2 (axis_pos _ _ _ _), by rw [hf]⟩
  · have hne : num.flatten ≠ [] := List.ne_nil_of_mem (hin i j hi hj)
    obtain ⟨i', j', hi', hj', e⟩ := hmem _ (minOf_mem _ hne)
    have h1 := minOf_le _ _ (hin i j hi hj)
    have h2 := hmin i' j' hi' hj'
    rw [← e] at h2
    rw [hzz i j hi hj, le_antisymm h2 h1, sub_self, max_eq_left (by norm_num), logb_hundredth]
  · rw [hzz i j hi hj, hzz i' j' hi' hj']
    exact Real.logb_le_logb_of_le (by norm_num) (lt_max_of_lt_left (by norm_num))
      (max_le_max le_rfl (by linarith))

/-- **C214** The colours order the points as the criterion does: a smaller value never has a higher
colour, a point where the criterion is infinite has the highest colour of the map, and one where it
is `-∞` the lowest, `-2`.  (All finite values are between `-fmax` and `fmax`, and there is no NaN.) -/
theorem map_colours_order {fmax factor : ℝ} {f : Vec → Flt} {mc ic : Vec} {c0 : Option Vec} {i1 i2 : ℤ} {n : ℕ}
    {M : Map} {k1 k2 : ℕ} (hf : ic.isInt = false) (hk1 : Means ic.val.length i1 k1)
    (hk2 : Means ic.val.length i2 k2) (h0 : 0 ≤ fmax)
    (hr : ∀ v, f v = .num ⊤ ∨ f v = .num ⊥ ∨ ∃ r : ℝ, f v = Flt.fin r ∧ |r| ≤ fmax)
    (h : map2d fmax f mc ic c0 i1 i2 n factor true = .ok M) :
    ∃ v : ℕ → ℕ → Vec,
      (∀ i j, i < n → j < n → At i1 i2 k1 k2 ic (M.x i j) (M.y i j) (v i j)) ∧
      (∀ i j i' j', i < n → j < n → i' < n → j' < n → f (v i' j') = .num ⊤ → M.z i j ≤ M.z i' j') ∧
      (∀ i j, i < n → j < n → f (v i j) = .num ⊥ → M.z i j = -2) ∧
      ∀ i j i' j' a b, i < n → j < n → i' < n → j' < n →
        f (v i j) = Flt.fin a → f (v i' j') = Flt.fin b → a ≤ b → M.z i j ≤ M.z i' j' := by
  obtain ⟨v, hv, -, hm, ho⟩ := map_colours hf hk1 hk2 h
  have hb : ∀ w, -fmax ≤ nanToNum fmax (f w) ∧ nanToNum fmax (f w) ≤ fmax := by
    intro w
    rcases hr w with e | e | ⟨r, e, hle⟩
    · rw [e]; simp [nanToNum]; linarith
    · rw [e]; simp [nanToNum]; linarith
    · rw [e]; simpa [nanToNum, Flt.fin] using abs_le.mp hle
  have hfin : ∀ r : ℝ, nanToNum fmax (Flt.fin r) = r := fun r => by simp [nanToNum, Flt.fin]
  refine ⟨v, hv, fun i j i' j' hi hj hi' hj' e => ho _ _ _ _ hi hj hi' hj' ?_,
    fun i j hi hj e => hm i j hi hj fun i' j' hi' hj' => ?_,
    fun i j i' j' a b hi hj hi' hj' ea eb hab => ho _ _ _ _ hi hj hi' hj' ?_⟩
  · rw [e]; simpa [nanToNum] using (hb (v i j)).2
  · rw [e]; simpa [nanToNum] using (hb (v i' j')).1
  · rw [ea, eb, hfin, hfin]; exact hab

/-- **C214** What is refused. -/
theorem map_refusals (fmax factor : ℝ) (f : Vec → Flt) (mc ic : Vec) (c0 : Option Vec) (i1 i2 : ℤ) (n : ℕ)
    (shift : Bool) (h1 : ∃ k, Means mc.val.length i1 k) (h2 : ∃ k, Means mc.val.length i2 k)
    (h : factor ≤ 0 ∨ n = 0) : map2d fmax f mc ic c0 i1 i2 n factor shift = .error .valueError := by
  obtain ⟨k1, hk1⟩ := h1
  obtain ⟨k2, hk2⟩ := h2
  have e1 := pyGet_means hk1 (List.getElem?_eq_getElem hk1.1)
  have e2 := pyGet_means hk2 (List.getElem?_eq_getElem hk2.1)
  simp only [map2d, e1, e2, bind, Except.bind]
  split
  · rfl
  · rename_i hf
    obtain rfl : n = 0 := h.resolve_left hf
    simp [meshValues, pure, Except.pure]

/-- A criterion that cannot be evaluated for small variances and is 5 otherwise. -/
noncomputable def partialCrit : Vec → Flt := fun v => if v.val.getD 0 0 < 0 then .nan else .fin 5

/-- **C214** is false where the criterion is NaN: such points are shown as the best ones, here as `-2`
while the points where the criterion has its smallest value are shown as `log10 5`. -/
theorem map_nan_false (fmax : ℝ) :
    ∃ M, map2d fmax partialCrit ⟨false, [0, 0]⟩ ⟨false, [0, 0]⟩ none 0 1 2 10 true = .ok M ∧
      M.z 0 0 = -2 ∧ M.z 0 1 = Real.logb 10 5 ∧
      (∃ v, At 0 1 0 1 ⟨false, [0, 0]⟩ (M.x 0 0) (M.y 0 0) v ∧ partialCrit v = .nan) := by
  have hn : natural 0 0 = 1 := by simp [natural]
  have hn1 : natural 1 0 = 1 := by simp [natural]
  have h10 : Real.logb 10 (10 : ℝ) = 1 := Real.logb_self_eq_one (by norm_num)
  have ha0 : axis 10 1 2 0 = 1 / 10 := by
    simp only [axis, lin, Real.logb_one, h10]
    norm_num [Real.rpow_neg]
  have ha1 : axis 10 1 2 1 = 10 := by
    simp only [axis, lin, Real.logb_one, h10]
    norm_num
  have ht0 : toCov 0 (1 / 10) < 0 := by
    rw [toCov, if_pos rfl]
    exact Real.log_neg (by norm_num) (by norm_num)
  have ht1 : ¬ toCov 0 10 < 0 := by
    rw [toCov, if_pos rfl, not_lt]
    exact Real.log_nonneg (by norm_num)
  have hm : meshValues partialCrit 0 1 (axis 10 1 2) (axis 10 1 2) 2 ⟨false, [0, 0]⟩ =
      .ok [[.nan, .fin 5], [.nan, .fin 5]] := by
    have hl : List.range 2 = [0, 1] := rfl
    simp [meshValues, hl, List.mapM_cons, Vec.store, pos, coerce, partialCrit, ha0, ha1, bind, Except.bind, pure,
      Except.pure]
    simp only [show ((10 : ℝ)⁻¹) = 1 / 10 by norm_num]
    exact ⟨fun h => absurd ht0 (not_lt.mpr h), fun h => absurd h ht1⟩
  have h5 : nanToNum fmax (.fin 5) = 5 := by
    simp [nanToNum, Flt.fin]
  have h0 : nanToNum fmax .nan = 0 := rfl
  have hmin : minOf [0, 5, 0, 5] = 0 := by norm_num [minOf]
  have hp0 : pyGet [(0 : ℝ), 0] 0 = .ok 0 := rfl
  have hp1 : pyGet [(0 : ℝ), 0] 1 = .ok 0 := rfl
  have hmap : ∃ M, map2d fmax partialCrit ⟨false, [0, 0]⟩ ⟨false, [0, 0]⟩ none 0 1 2 10 true = .ok M := by
    simp only [map2d, hp0, hp1, hn, hn1, hm, place, optional, bind, Except.bind, pure, Except.pure]
    norm_num
  obtain ⟨M, hM⟩ := hmap
  obtain ⟨a1, a2, vs, o, e1, e2, -, -, hvs, -, -, -, hx, hy, hz⟩ := map_ok hM
  rw [hp0] at e1; cases e1
  rw [hp1] at e2; cases e2
  rw [hn, hn1, hm] at hvs
  cases hvs
  refine ⟨M, hM, ?_, ?_, ?_⟩
  · rw [hz]
    simp only [List.map_cons, List.map_nil, h5, h0, List.flatten_cons, List.flatten_nil, List.append_nil,
      List.cons_append, List.nil_append, hmin, if_true]
    norm_num [List.getD]
    rw [show (1 / 100 : ℝ) = 0.01 by norm_num]
    exact logb_hundredth
  · rw [hz]
    simp only [List.map_cons, List.map_nil, h5, h0, List.flatten_cons, List.flatten_nil, List.append_nil,
      List.cons_append, List.nil_append, hmin, if_true]
    norm_num [List.getD]
  · refine ⟨_, ⟨_, _, hx 0 0 ▸ coord_toCov 0 (axis_pos _ _ _ _), hy 0 0 ▸ coord_toCov 1 (axis_pos _ _ _ _), rfl⟩, ?_⟩
    simp only [hn, ha0, partialCrit]
    exact if_pos (by simpa using ht0)

/-- **C214** is false without the shift: a criterion with negative values gives a map of a single
colour. -/
theorem map_unshifted_false {fmax factor : ℝ} {f : Vec → Flt} {mc ic : Vec} {c0 : Option Vec} {i1 i2 : ℤ}
    {n : ℕ} {M : Map} {k1 k2 : ℕ} (hf : ic.isInt = false) (hk1 : Means ic.val.length i1 k1)
    (hk2 : Means ic.val.length i2 k2) (h : map2d fmax f mc ic c0 i1 i2 n factor false = .ok M)
    (hneg : ∀ v, ∃ x : ℝ, x ≤ 0 ∧ f v = .fin x) : ∀ i j, i < n → j < n → M.z i j = -2 := by
  obtain ⟨⟨s, hs, hp⟩, -⟩ := map_points hf hk1 hk2 h
  intro i j hi hj
  obtain ⟨v, -, e⟩ := hp i j hi hj
  obtain ⟨x, hx, ex⟩ := hneg v
  rw [e, hs rfl, ex]
  simp only [nanToNum, Flt.fin]
  rw [if_neg (EReal.coe_ne_top x), if_neg (EReal.coe_ne_bot x), EReal.toReal_coe, add_zero,
    max_eq_left (by linarith), logb_hundredth]

/-- A map of three points by three of a positive criterion exists. -/
example : ∃ M, map2d 1 (fun _ => .fin 3) ⟨false, [1, 2]⟩ ⟨false, [1, 2]⟩ none 0 1 3 4 true = .ok M := by
  have hl : List.range 3 = [0, 1, 2] := rfl
  simp [map2d, pyGet, meshValues, hl, Vec.store, pos, coerce, place, optional, List.mapM_cons, bind, Except.bind,
    pure, Except.pure]
  norm_num

end Verif.Plot
