import Verif.Misc.PropsDesigns
import Mathlib.Data.List.Forall2

/-!
# Properties of regular grids
-/

set_option autoImplicit false

namespace Verif.Designs

open Verif

/-- The `p`-th of `n` equally spaced points from `lo` to `hi`; the only one is `lo`. -/
noncomputable def node (lo hi : ℝ) (n p : ℕ) : ℝ := if n = 1 then lo else lo + p * ((hi - lo) / ((n : ℝ) - 1))

/-- Position of a multi-index when the last index varies fastest. -/
def ravel : List ℕ → List ℕ → ℕ
  | _ :: ns, p :: ps => p * ns.prod + ravel ns ps
  | _, _ => 0

theorem ravel_lt : ∀ {ns ps : List ℕ}, List.Forall₂ (· < ·) ps ns → ravel ns ps < ns.prod
  | [], [], _ => by simp [ravel]
  | n :: ns, p :: ps, h => by
    obtain ⟨h1, h2⟩ := List.forall₂_cons.mp h
    have := ravel_lt h2
    simp only [ravel, List.prod_cons]
    calc p * ns.prod + ravel ns ps < p * ns.prod + ns.prod := by omega
      _ = (p + 1) * ns.prod := by ring
      _ ≤ n * ns.prod := Nat.mul_le_mul_right _ h1

theorem unravel_ravel : ∀ {ns ps : List ℕ}, List.Forall₂ (· < ·) ps ns → unravel ns (ravel ns ps) = ps
  | [], [], _ => rfl
  | n :: ns, p :: ps, h => by
    obtain ⟨_, h2⟩ := List.forall₂_cons.mp h
    have hl := ravel_lt h2
    have hp : 0 < ns.prod := by omega
    simp only [ravel, unravel]
    rw [show p * ns.prod + ravel ns ps = ravel ns ps + ns.prod * p by ring, Nat.add_mul_div_left _ _ hp,
      Nat.div_eq_of_lt hl, zero_add, Nat.add_mul_mod_self_left, Nat.mod_eq_of_lt hl, unravel_ravel h2]

theorem unravel_valid : ∀ {ns : List ℕ} {k : ℕ}, k < ns.prod →
    List.Forall₂ (· < ·) (unravel ns k) ns ∧ ravel ns (unravel ns k) = k
  | [], k, h => by
    simp at h
    subst h
    exact ⟨List.Forall₂.nil, rfl⟩
  | n :: ns, k, h => by
    rw [List.prod_cons] at h
    have hp : 0 < ns.prod := Nat.pos_of_ne_zero fun h0 => by simp [h0] at h
    obtain ⟨h1, h2⟩ := unravel_valid (ns := ns) (k := k % ns.prod) (Nat.mod_lt _ hp)
    refine ⟨List.Forall₂.cons (Nat.div_lt_of_lt_mul (by rwa [mul_comm])) h1, ?_⟩
    simp only [unravel, ravel, h2]
    rw [mul_comm]
    exact Nat.div_add_mod k ns.prod

theorem mapM_ok_map {β γ : Type} (f : β → Py γ) (g : β → γ) (l : List β) (h : ∀ a ∈ l, f a = .ok (g a)) :
    l.mapM f = .ok (l.map g) := by
  induction l with
  | nil => rfl
  | cons x t ih =>
    rw [List.mapM_cons, h x List.mem_cons_self, ih fun a ha => h a (List.mem_cons_of_mem _ ha)]
    rfl

theorem linspace_get (lo hi : ℝ) {n p : ℕ} (h : p < n) : (linspace lo hi n).getD p 0 = node lo hi n p := by
  unfold linspace node
  rw [List.getD_eq_getElem?_getD, List.getElem?_map, List.getElem?_range h]
  rfl

theorem linspace_length (lo hi : ℝ) (n : ℕ) : (linspace lo hi n).length = n := by simp [linspace]

/-- The point of a multi-index. -/
noncomputable def gridPoint (b : Box) (ns ps : List ℕ) : Pt :=
  (List.range ps.length).map fun i => node (b.lo.getD i 0) (b.hi.getD i 0) (ns.getD i 0) (ps.getD i 0)

theorem zipWith_levels (lv : List (List ℝ)) (ps : List ℕ) (h : lv.length = ps.length) :
    List.zipWith (fun (l : List ℝ) (j : ℕ) => l.getD j 0) lv ps =
      (List.range ps.length).map fun i => (lv.getD i []).getD (ps.getD i 0) 0 := by
  refine List.ext_getElem (by simp [h]) fun i h1 h2 => ?_
  have hi : i < ps.length := by simpa using h2
  have hi' : i < lv.length := by omega
  simp only [List.getElem_zipWith, List.getElem_map, List.getElem_range, List.getD_eq_getElem?_getD,
    List.getElem?_eq_getElem hi, List.getElem?_eq_getElem hi', Option.getD_some]

/-- The result of `regulargrid` for admissible arguments: the grid points in order. -/
theorem regulargrid_value {dim : ℕ} {n : GridN} {b : Box} (hd : dim ≠ 0) (hn : (n.sizes dim).length = dim)
    (hlo : dim ≤ b.lo.length) (hhi : dim ≤ b.hi.length) :
    regulargrid dim n b = .ok ((List.range (n.sizes dim).prod).map fun k =>
      gridPoint b (n.sizes dim) (unravel (n.sizes dim) k)) := by
  generalize hns : n.sizes dim = ns at hn
  have hl : ∀ i ∈ List.range dim, level ns b i =
      .ok (linspace (b.lo.getD i 0) (b.hi.getD i 0) (ns.getD i 0)) := by
    intro i hi
    have hi' := List.mem_range.mp hi
    have h1 : i < b.lo.length := by omega
    have h2 : i < b.hi.length := by omega
    have h3 : i < ns.length := by omega
    simp only [level, pyGet_nat _ _ h1, pyGet_nat _ _ h2, pyGet_nat _ _ h3, bind, Except.bind, pure, Except.pure,
      List.getD_eq_getElem?_getD, List.getElem?_eq_getElem h1, List.getElem?_eq_getElem h2,
      List.getElem?_eq_getElem h3, Option.getD_some]
  have hm := mapM_ok_map (level ns b) _ _ hl
  have hshape : ((List.range dim).map fun i => linspace (b.lo.getD i 0) (b.hi.getD i 0) (ns.getD i 0)).map List.length
      = ns := by
    rw [List.map_map]
    refine List.ext_getElem (by simp [hn]) fun i h1 h2 => ?_
    simp [linspace_length, h2]
  unfold regulargrid
  simp only [hns, hm, bind, Except.bind, pure, Except.pure, if_neg hd, hshape, ne_eq, not_true_eq_false, if_false]
  refine congrArg Except.ok (List.map_congr_left fun k hk => ?_)
  obtain ⟨hv, _⟩ := unravel_valid (List.mem_range.mp hk)
  have hlen : (unravel ns k).length = dim := by rw [hv.length_eq, hn]
  rw [zipWith_levels _ _ (by simp [hlen])]
  unfold gridPoint
  refine List.map_congr_left fun i hi => ?_
  have hi' : i < dim := by rw [← hlen]; exact List.mem_range.mp hi
  have h4 : i < (unravel ns k).length := by omega
  have h3 : i < ns.length := by omega
  have hlt : (unravel ns k).getD i 0 < ns.getD i 0 := by
    have := hv.get h4 h3
    simp only [List.getD_eq_getElem?_getD, List.getElem?_eq_getElem h4, List.getElem?_eq_getElem h3, Option.getD_some]
    exact this
  rw [show ((List.range dim).map fun i => linspace (b.lo.getD i 0) (b.hi.getD i 0) (ns.getD i 0)).getD i [] =
    linspace (b.lo.getD i 0) (b.hi.getD i 0) (ns.getD i 0) by
      rw [List.getD_eq_getElem?_getD, List.getElem?_map, List.getElem?_range hi']; rfl]
  exact linspace_get _ _ hlt

/-- **C65** The grid has `prod(n)` rows; the row of a multi-index holds its levels, the last
index varying fastest; every row is that of a multi-index. -/
theorem regulargrid_spec {dim : ℕ} {n : GridN} {b : Box} (hd : dim ≠ 0) (hn : (n.sizes dim).length = dim)
    (hlo : dim ≤ b.lo.length) (hhi : dim ≤ b.hi.length) :
    ∃ x, regulargrid dim n b = .ok x ∧ x.length = (n.sizes dim).prod ∧
      (∀ ps, List.Forall₂ (· < ·) ps (n.sizes dim) →
        x[ravel (n.sizes dim) ps]? = some (gridPoint b (n.sizes dim) ps)) ∧
      ∀ k < x.length, ∃ ps, List.Forall₂ (· < ·) ps (n.sizes dim) ∧ ravel (n.sizes dim) ps = k := by
  refine ⟨_, regulargrid_value hd hn hlo hhi, by simp, fun ps hps => ?_, fun k hk => ?_⟩
  · rw [List.getElem?_map, List.getElem?_range (ravel_lt hps), Option.map_some, unravel_ravel hps]
  · have hk' : k < (n.sizes dim).prod := by simpa using hk
    exact ⟨_, unravel_valid hk'⟩

theorem node_mem {lo hi : ℝ} (h : lo ≤ hi) {n p : ℕ} (hp : p < n) : lo ≤ node lo hi n p ∧ node lo hi n p ≤ hi := by
  unfold node
  split_ifs with h1
  · exact ⟨le_rfl, h⟩
  · have hn : (2 : ℝ) ≤ n := by exact_mod_cast (by omega : 2 ≤ n)
    have hpn : (p : ℝ) ≤ n - 1 := by
      have : (p : ℝ) + 1 ≤ n := by exact_mod_cast hp
      linarith
    have hq : 0 ≤ (hi - lo) / ((n : ℝ) - 1) := div_nonneg (by linarith) (by linarith)
    refine ⟨by nlinarith [mul_nonneg (Nat.cast_nonneg (α := ℝ) p) hq], ?_⟩
    have h2 : (p : ℝ) * ((hi - lo) / ((n : ℝ) - 1)) ≤ ((n : ℝ) - 1) * ((hi - lo) / ((n : ℝ) - 1)) :=
      mul_le_mul_of_nonneg_right hpn hq
    rw [mul_div_cancel₀ _ (by linarith)] at h2
    linarith

theorem node_inj {lo hi : ℝ} (h : lo ≠ hi) {n p q : ℕ} (hp : p < n) (hq : q < n)
    (he : node lo hi n p = node lo hi n q) : p = q := by
  unfold node at he
  split_ifs at he with h1
  · omega
  · have hn : (2 : ℝ) ≤ n := by exact_mod_cast (by omega : 2 ≤ n)
    have hne : (hi - lo) / ((n : ℝ) - 1) ≠ 0 := div_ne_zero (sub_ne_zero.mpr h.symm) (by linarith)
    exact_mod_cast mul_right_cancel₀ hne (add_left_cancel he)

/-- **C65** The first and last levels are the bounds, when there are two or more. -/
theorem node_ends (lo hi : ℝ) {n : ℕ} (h : 2 ≤ n) : node lo hi n 0 = lo ∧ node lo hi n (n - 1) = hi := by
  have hn : (2 : ℝ) ≤ n := by exact_mod_cast h
  unfold node
  rw [if_neg (by omega), if_neg (by omega)]
  refine ⟨by simp, ?_⟩
  rw [Nat.cast_sub (by omega), Nat.cast_one, mul_div_cancel₀ _ (by linarith)]
  ring

/-- **C65** All points are in the box. -/
theorem regulargrid_in_box {dim : ℕ} {n : GridN} {b : Box} (hd : dim ≠ 0) (hn : (n.sizes dim).length = dim)
    (hlo : b.lo.length = dim) (hhi : b.hi.length = dim)
    (hb : ∀ (j : ℕ) l u, b.lo[j]? = some l → b.hi[j]? = some u → l ≤ u) {x : List Pt}
    (hx : regulargrid dim n b = .ok x) : (∀ y ∈ x, y.length = dim) ∧ ∀ (i j : ℕ) a, coord x i j = some a →
      ∃ l u, b.lo[j]? = some l ∧ b.hi[j]? = some u ∧ l ≤ a ∧ a ≤ u := by
  rw [regulargrid_value hd hn hlo.ge hhi.ge] at hx
  injection hx with hx
  have hrow : ∀ y ∈ x, ∃ ps, List.Forall₂ (· < ·) ps (n.sizes dim) ∧ y = gridPoint b (n.sizes dim) ps := by
    intro y hy
    rw [← hx] at hy
    obtain ⟨k, hk, rfl⟩ := List.mem_map.mp hy
    exact ⟨_, (unravel_valid (List.mem_range.mp hk)).1, rfl⟩
  refine ⟨fun y hy => ?_, fun i j a ha => ?_⟩
  · obtain ⟨ps, hps, rfl⟩ := hrow y hy
    simp [gridPoint, hps.length_eq, hn]
  · obtain ⟨y, hy, ha⟩ := Option.bind_eq_some_iff.mp ha
    obtain ⟨ps, hps, rfl⟩ := hrow y (List.mem_of_getElem? hy)
    have hj : j < ps.length := by
      have := (List.getElem?_eq_some_iff.mp ha).1
      simpa [gridPoint] using this
    have hjd : j < dim := by rw [hps.length_eq, hn] at hj; exact hj
    have h1 : j < b.lo.length := by omega
    have h2 : j < b.hi.length := by omega
    have h3 : j < (n.sizes dim).length := by omega
    unfold gridPoint at ha
    rw [List.getElem?_map, List.getElem?_range hj] at ha
    simp only [Option.map_some, Option.some.injEq, List.getD_eq_getElem?_getD, List.getElem?_eq_getElem h1,
      List.getElem?_eq_getElem h2, List.getElem?_eq_getElem h3, List.getElem?_eq_getElem hj, Option.getD_some] at ha
    refine ⟨_, _, List.getElem?_eq_getElem h1, List.getElem?_eq_getElem h2, ?_⟩
    rw [← ha]
    exact node_mem (hb j _ _ (List.getElem?_eq_getElem h1) (List.getElem?_eq_getElem h2)) (hps.get hj h3)

/-- **C65** No point occurs twice when no side of the box is a point. -/
theorem regulargrid_nodup {dim : ℕ} {n : GridN} {b : Box} (hd : dim ≠ 0) (hn : (n.sizes dim).length = dim)
    (hlo : b.lo.length = dim) (hhi : b.hi.length = dim)
    (hb : ∀ (j : ℕ) l u, b.lo[j]? = some l → b.hi[j]? = some u → l ≠ u) {x : List Pt}
    (hx : regulargrid dim n b = .ok x) : x.Nodup := by
  rw [regulargrid_value hd hn hlo.ge hhi.ge] at hx
  injection hx with hx
  rw [← hx]
  refine List.Nodup.map_on ?_ List.nodup_range
  intro k hk k' hk' he
  obtain ⟨h1, h2⟩ := unravel_valid (List.mem_range.mp hk)
  obtain ⟨h3, h4⟩ := unravel_valid (List.mem_range.mp hk')
  rw [← h2, ← h4]
  congr 1
  have hl : (unravel (n.sizes dim) k).length = (unravel (n.sizes dim) k').length := by rw [h1.length_eq, h3.length_eq]
  refine List.ext_getElem hl fun i hi hi' => ?_
  have hid : i < (n.sizes dim).length := by rw [← h1.length_eq]; exact hi
  have hil : i < b.lo.length := by omega
  have hih : i < b.hi.length := by omega
  have := congrArg (fun l : List ℝ => l[i]?) he
  simp only [gridPoint, List.getElem?_map, List.getElem?_range hi, List.getElem?_range hi', Option.map_some,
    Option.some.injEq, List.getD_eq_getElem?_getD, List.getElem?_eq_getElem hi, List.getElem?_eq_getElem hi',
    List.getElem?_eq_getElem hid, List.getElem?_eq_getElem hil, List.getElem?_eq_getElem hih, Option.getD_some] at this
  exact node_inj (hb i _ _ (List.getElem?_eq_getElem hil) (List.getElem?_eq_getElem hih)) (h1.get hi hid)
    (h3.get hi' hid) this

/-- **C65** An integer `n` gives `n` to the power `dim` points. -/
theorem regulargrid_int {dim n : ℕ} {b : Box} (hd : dim ≠ 0) (hlo : b.lo.length = dim) (hhi : b.hi.length = dim) :
    ∃ x, regulargrid dim (.int n) b = .ok x ∧ x.length = n ^ dim := by
  obtain ⟨x, h1, h2, _⟩ := regulargrid_spec (n := .int n) hd (by simp [GridN.sizes]) hlo.ge hhi.ge
  exact ⟨x, h1, by rw [h2]; simp [GridN.sizes]⟩

theorem mapM_range_error {γ : Type} (f : ℕ → Py γ) {dim i : ℕ} (hi : i < dim) {e : PyErr} (he : f i = .error e) :
    ∃ e', (List.range dim).mapM f = .error e' := by
  have : ∀ l : List ℕ, i ∈ l → ∃ e', l.mapM f = .error e' := by
    intro l
    induction l with
    | nil => intro h; cases h
    | cons x t ih =>
      intro h
      rw [List.mapM_cons]
      cases hx : f x with
      | error e' => exact ⟨e', rfl⟩
      | ok y =>
        have ht : i ∈ t := by
          rcases List.mem_cons.mp h with rfl | h
          · rw [he] at hx; cases hx
          · exact h
        obtain ⟨e', h'⟩ := ih ht
        exact ⟨e', by simp [bind, Except.bind, h']⟩
  exact this _ (List.mem_range.mpr hi)

/-- **C65** Dimension zero, a list `n` that is too short, and a box that is too short raise. -/
theorem regulargrid_refuses (dim : ℕ) (n : GridN) (b : Box)
    (h : dim = 0 ∨ (n.sizes dim).length < dim ∨ b.lo.length < dim ∨ b.hi.length < dim) :
    ∃ e, regulargrid dim n b = .error e := by
  by_cases hd : dim = 0
  · subst hd
    exact ⟨.typeError, rfl⟩
  have herr : ∃ i, i < dim ∧ ∃ e, level (n.sizes dim) b i = .error e := by
    rcases h with h | h
    · exact absurd h hd
    refine ⟨dim - 1, by omega, ?_⟩
    unfold level
    by_cases h1 : b.lo.length ≤ dim - 1
    · exact ⟨.indexError, by rw [pyGet_nat_error _ _ h1]; rfl⟩
    rw [pyGet_nat _ _ (not_le.mp h1)]
    by_cases h2 : b.hi.length ≤ dim - 1
    · exact ⟨.indexError, by rw [pyGet_nat_error _ _ h2]; rfl⟩
    rw [pyGet_nat _ _ (not_le.mp h2)]
    exact ⟨.indexError, by rw [pyGet_nat_error _ _ (by omega)]; rfl⟩
  obtain ⟨i, hi, e, he⟩ := herr
  obtain ⟨e', he'⟩ := mapM_range_error (level (n.sizes dim) b) hi he
  exact ⟨e', by unfold regulargrid; simp only [he', bind, Except.bind]⟩

/-- **C65** A list `n` with further sizes whose product is not one raises `ValueError`. -/
theorem regulargrid_superfluous {dim : ℕ} {n : GridN} {b : Box} (hd : dim ≠ 0) (hn : dim ≤ (n.sizes dim).length)
    (hp : ((n.sizes dim).take dim).prod ≠ (n.sizes dim).prod)
    (hlo : dim ≤ b.lo.length) (hhi : dim ≤ b.hi.length) : regulargrid dim n b = .error .valueError := by
  generalize hns : n.sizes dim = ns at hn hp
  have hl : ∀ i ∈ List.range dim, level ns b i =
      .ok (linspace (b.lo.getD i 0) (b.hi.getD i 0) (ns.getD i 0)) := by
    intro i hi
    have hi' := List.mem_range.mp hi
    have h1 : i < b.lo.length := by omega
    have h2 : i < b.hi.length := by omega
    have h3 : i < ns.length := by omega
    simp only [level, pyGet_nat _ _ h1, pyGet_nat _ _ h2, pyGet_nat _ _ h3, bind, Except.bind, pure, Except.pure,
      List.getD_eq_getElem?_getD, List.getElem?_eq_getElem h1, List.getElem?_eq_getElem h2,
      List.getElem?_eq_getElem h3, Option.getD_some]
  have hm := mapM_ok_map (level ns b) _ _ hl
  have hshape : ((List.range dim).map fun i => linspace (b.lo.getD i 0) (b.hi.getD i 0) (ns.getD i 0)).map List.length
      = ns.take dim := by
    rw [List.map_map]
    refine List.ext_getElem (by simp [hn]) fun i h1 h2 => ?_
    have : i < ns.length := by simp at h2; omega
    simp [linspace_length, this]
  unfold regulargrid
  simp only [hns, hm, bind, Except.bind, pure, Except.pure, if_neg hd, hshape, if_pos hp]
  rfl

example : regulargrid 1 (.list [2, 3]) ⟨[0], [1]⟩ = .error .valueError :=
  regulargrid_superfluous (by decide) (by decide) (by decide) (by decide) (by decide)

/-- Six points. -/
example : ∃ x, regulargrid 2 (.list [2, 3]) ⟨[0, 1], [1, 2]⟩ = .ok x ∧ x.length = 6 ∧ x.Nodup ∧
    x[1]? = some [0, 3/2] ∧ x[5]? = some [1, 2] := by
  obtain ⟨x, h1, h2, h3, _⟩ := regulargrid_spec (dim := 2) (n := .list [2, 3]) (b := ⟨[0, 1], [1, 2]⟩) (by decide) rfl
    (by decide) (by decide)
  refine ⟨x, h1, h2, regulargrid_nodup (by decide) rfl rfl rfl ?_ h1, ?_, ?_⟩
  · intro j l u hl hu
    match j with
    | 0 => simp at hl hu; subst hl hu; norm_num
    | 1 => simp at hl hu; subst hl hu; norm_num
    | j + 2 => simp at hl
  · have := h3 [0, 1] (by decide)
    rw [show ravel ((GridN.list [2, 3]).sizes 2) [0, 1] = 1 by decide] at this
    rw [this]
    simp [gridPoint, node, GridN.sizes, List.range_succ]
    norm_num
  · have := h3 [1, 2] (by decide)
    rw [show ravel ((GridN.list [2, 3]).sizes 2) [1, 2] = 5 by decide] at this
    rw [this]
    simp [gridPoint, node, GridN.sizes, List.range_succ]
    norm_num

end Verif.Designs
