import Verif.Core.PropsShapes
import Verif.Core.Indices

/-!
# C278: the index arguments of conditional sample paths
-/

set_option autoImplicit false

namespace Verif.Core.Sh

open Verif Verif.Data Matrix

variable {N ni nt np : ℕ} {be : Backend}

/-! ## Specification -/

/-- The integers `a` name the rows `f` of an array of `N` rows, counted from the start or from the end. -/
def Names {k : ℕ} (a : Fin k → ℤ) (f : Fin k → Fin N) : Prop :=
  ∀ i, a i = ((f i : ℕ) : ℤ) ∨ a i = ((f i : ℕ) : ℤ) - N

/-- `f` lists the rows where the mask holds, in order. -/
def Marks {k : ℕ} (b : Fin N → Bool) (f : Fin k → Fin N) : Prop :=
  StrictMono f ∧ ∀ i, b i = true ↔ ∃ j, f j = i

/-! ## Rows -/

theorem pyGet_names (i : Fin N) {a : ℤ} (h : a = ((i : ℕ) : ℤ) ∨ a = ((i : ℕ) : ℤ) - N) :
    pyGet (List.finRange N) a = .ok i := by
  have hi := i.2
  rcases h with rfl | rfl
  · rw [pyGet_nat _ _ (by simp)]
    simp
  · have h1 : ¬ (0 : ℤ) ≤ ((i : ℕ) : ℤ) - N := by omega
    have h2 : -(N : ℤ) ≤ ((i : ℕ) : ℤ) - N := by omega
    have h3 : ((N : ℤ) + (((i : ℕ) : ℤ) - N)).toNat = i := by omega
    simp [pyGet, h1, h2, h3]

theorem mapM_ok {α β : Type} (g : α → Py β) (l : List α) (h : List β) (hg : List.Forall₂ (fun a b => g a = .ok b) l h) :
    l.mapM g = .ok h := by
  induction hg with
  | nil => rfl
  | cons h1 _ ih => simp [List.mapM_cons, h1, ih, bind, Except.bind, pure, Except.pure]

theorem rows_ints {k : ℕ} {a : Fin k → ℤ} {f : Fin k → Fin N} (h : Names a f) :
    rows N (.ints (List.ofFn a)) = .ok (List.ofFn f) := by
  refine mapM_ok _ _ _ (List.forall₂_iff_get.2 ⟨by simp, fun i h1 h2 => ?_⟩)
  simp only [List.get_eq_getElem, List.getElem_ofFn]
  exact pyGet_names _ (h _)

theorem mapM_err {α β : Type} (g : α → Py β) (e : PyErr) (l : List α) (he : ∀ a ∈ l, ∀ e', g a = .error e' → e' = e)
    (a : α) (ha : a ∈ l) (h : g a = .error e) : l.mapM g = .error e := by
  induction l with
  | nil => simp at ha
  | cons b l ih =>
    rw [List.mapM_cons]
    cases hb : g b with
    | error e' =>
      rw [he b (by simp) e' hb]
      rfl
    | ok y =>
      have ha' : a ∈ l := by
        rcases List.mem_cons.1 ha with rfl | h'
        · rw [h] at hb
          cases hb
        · exact h'
      simp [bind, Except.bind, ih (fun c hc => he c (by simp [hc])) ha']

theorem rows_range {l : List ℤ} (h : ∃ a ∈ l, a < -(N : ℤ) ∨ (N : ℤ) ≤ a) : rows N (.ints l) = .error .indexError := by
  obtain ⟨a, ha, h⟩ := h
  refine mapM_err _ _ _ (fun b _ e' hb => ?_) a ha ?_
  · unfold pyGet at hb
    split_ifs at hb
    · split at hb <;> cases hb; rfl
    · split at hb <;> cases hb; rfl
    · cases hb; rfl
  · rcases h with h | h
    · have h1 : ¬ (0 : ℤ) ≤ a := by omega
      have h2 : ¬ -(N : ℤ) ≤ a := by omega
      simp [pyGet, h1, h2]
    · have h1 : (0 : ℤ) ≤ a := by omega
      have h2 : N ≤ a.toNat := by omega
      simp [pyGet, h1, List.getElem?_eq_none (l := List.finRange N) (by simpa using h2)]

theorem rows_bools {k : ℕ} {b : Fin N → Bool} {f : Fin k → Fin N} (h : Marks b f) :
    rows N (.bools (List.ofFn b)) = .ok (List.ofFn f) := by
  have e : (List.finRange N).filter (fun i : Fin N => b i) = List.ofFn f := by
    refine List.Perm.eq_of_pairwise (le := (· < ·)) (fun a c _ _ h1 h2 => absurd h2 (not_lt.2 h1.le)) ?_ ?_ ?_
    · exact List.Pairwise.filter _ (List.pairwise_lt_finRange N)
    · exact List.pairwise_ofFn.2 fun i j hij => h.1 hij
    · refine (List.perm_ext_iff_of_nodup ((List.nodup_finRange N).filter _)
        (List.nodup_ofFn.2 h.1.injective)).2 fun i => ?_
      simp [List.mem_ofFn, h.2 i]
  simp [rows, e]

theorem ofMat_rows {k : ℕ} (X : Mat N np) (f : Fin k → Fin N) :
    ofMat (X.submatrix (List.ofFn f).get id) = ofMat (X.submatrix f id) := by
  have hl : (List.ofFn f).length = k := List.length_ofFn
  have : ∀ i j, entry (X.submatrix (List.ofFn f).get id) i j = entry (X.submatrix f id) i j := by
    intro i j
    unfold entry
    by_cases h : i < k ∧ j < np
    · rw [dif_pos h, dif_pos (by rw [hl]; exact h)]
      simp [Matrix.submatrix_apply]
    · rw [dif_neg h, dif_neg (by rw [hl]; exact h)]
  simp only [ofMat, this, hl]

theorem rows_floats (l : List ℚ) : rows N (.floats l) = .error .indexError := rfl

theorem condPathsIx_rows (ztsim : Mat N np) {ix tx : Ix} {f : Fin ni → Fin N} {g : Fin nt → Fin N}
    (h1 : rows N ix.toInt = .ok (List.ofFn f)) (h2 : rows N tx = .ok (List.ofFn g)) {z : Fin ni → ℝ} {a : Nd}
    (h : Obs z a) (lam : Mat ni nt) :
    condPathsIx be ztsim ix a tx lam = condPaths be ztsim f a g lam := by
  obtain ⟨d, d1, d2⟩ := sub_col_mat be (· - ·) (ravelCol_obs h) (ofMat_isMat (ztsim.submatrix f id))
  simp only [condPathsIx, condPaths, h1, h2, bind, Except.bind, ofMat_rows, d1]

theorem condPathsMeanIx_rows (ztsim : Mat N np) {ix tx : Ix} {f : Fin ni → Fin N} {g : Fin nt → Fin N}
    (h1 : rows N ix = .ok (List.ofFn f)) (h2 : rows N tx = .ok (List.ofFn g)) (mi : Fin ni → ℝ) (mt : Fin nt → ℝ)
    {z : Fin ni → ℝ} {a : Nd} (h : IsVec a z) (lam : Mat ni nt) :
    condPathsMeanIx be ztsim mi ix a mt tx lam = condPathsMean be ztsim mi f a mt g lam := by
  obtain ⟨u, u1, u2⟩ := zip_vec be (· - ·) h (ofVec_isVec mi)
  obtain ⟨d, d1, d2⟩ := sub_col_mat be (· - ·) (ravelCol_obs (Or.inl u2)) (ofMat_isMat (ztsim.submatrix f id))
  simp only [condPathsMeanIx, condPathsMean, h1, h2, bind, Except.bind, ofMat_rows, u1, d1]

/-! ## Theorems -/

/-- **C278** Integer indices name rows from the start or from the end, and the paths are those conditioned at these
rows. -/
theorem index_paths (be : Backend) (ztsim : Mat N np) {a : Fin ni → ℤ} {b : Fin nt → ℤ} {f : Fin ni → Fin N}
    {g : Fin nt → Fin N} (ha : Names a f) (hb : Names b g) {z : Fin ni → ℝ} {zi : Nd} (h : Obs z zi) (lam : Mat ni nt) :
    ∃ c, condPathsIx be ztsim (.ints (List.ofFn a)) zi (.ints (List.ofFn b)) lam = .ok c ∧ c.shape = [nt, np] ∧
      ∀ (j : Fin nt) (k : Fin np), c.val [(j : ℕ), (k : ℕ)] =
        ztsim (g j) k + ∑ i, lam i j * (z i - ztsim (f i) k) := by
  obtain ⟨c, c1, c2⟩ := condPaths_obs be ztsim f h g lam
  exact ⟨c, by rw [condPathsIx_rows ztsim (ix := .ints (List.ofFn a)) (rows_ints ha) (rows_ints hb) h, c1], c2.1, c2.2⟩

/-- **C278** The same with a parameterised mean. -/
theorem index_paths_mean (be : Backend) (ztsim : Mat N np) {a : Fin ni → ℤ} {b : Fin nt → ℤ} {f : Fin ni → Fin N}
    {g : Fin nt → Fin N} (ha : Names a f) (hb : Names b g) (mi : Fin ni → ℝ) (mt : Fin nt → ℝ) {z : Fin ni → ℝ} {zi : Nd}
    (h : IsVec zi z) (lam : Mat ni nt) :
    ∃ c, condPathsMeanIx be ztsim mi (.ints (List.ofFn a)) zi mt (.ints (List.ofFn b)) lam = .ok c ∧
      c.shape = [nt, np] ∧ ∀ (j : Fin nt) (k : Fin np), c.val [(j : ℕ), (k : ℕ)] =
        ztsim (g j) k + ∑ i, lam i j * (z i - mi i - ztsim (f i) k) + mt j := by
  obtain ⟨c, c1, c2⟩ := condPathsMean_vec be ztsim mi f h mt g lam
  exact ⟨c, by rw [condPathsMeanIx_rows ztsim (rows_ints ha) (rows_ints hb) mi mt h, c1], c2.1, c2.2⟩

/-- **C278** An index of an observation outside the paths raises `IndexError`, whatever the other arguments. -/
theorem index_range (be : Backend) (ztsim : Mat N np) {l : List ℤ} (hl : ∃ a ∈ l, a < -(N : ℤ) ∨ (N : ℤ) ≤ a) (zi : Nd)
    (tx : Ix) (lam : Mat ni nt) : condPathsIx be ztsim (.ints l) zi tx lam = .error .indexError := by
  simp only [condPathsIx, Ix.toInt, rows_range hl, bind, Except.bind]

/-- **C278** So does an index of a target outside the paths, with and without a mean. -/
theorem index_range_target (be : Backend) (ztsim : Mat N np) {a : Fin ni → ℤ} {f : Fin ni → Fin N} (ha : Names a f)
    {l : List ℤ} (hl : ∃ a ∈ l, a < -(N : ℤ) ∨ (N : ℤ) ≤ a) (mi : Fin ni → ℝ) (mt : Fin nt → ℝ) {z : Fin ni → ℝ} {zi : Nd}
    (h : IsVec zi z) (lam : Mat ni nt) :
    condPathsIx be ztsim (.ints (List.ofFn a)) zi (.ints l) lam = .error .indexError ∧
      condPathsMeanIx be ztsim mi (.ints (List.ofFn a)) zi mt (.ints l) lam = .error .indexError := by
  constructor
  · obtain ⟨d, d1, d2⟩ := sub_col_mat be (· - ·) (ravelCol_obs (Or.inl h)) (ofMat_isMat (ztsim.submatrix f id))
    simp only [condPathsIx, Ix.toInt, rows_ints ha, rows_range hl, bind, Except.bind, ofMat_rows, d1]
  · obtain ⟨u, u1, u2⟩ := zip_vec be (· - ·) h (ofVec_isVec mi)
    obtain ⟨d, d1, d2⟩ := sub_col_mat be (· - ·) (ravelCol_obs (Or.inl u2)) (ofMat_isMat (ztsim.submatrix f id))
    simp only [condPathsMeanIx, rows_ints ha, rows_range hl, bind, Except.bind, ofMat_rows, u1, d1]

/-- **C278** A mask selects the targets where it holds, in order. -/
theorem index_mask (be : Backend) (ztsim : Mat N np) {a : Fin ni → ℤ} {f : Fin ni → Fin N} (ha : Names a f)
    {b : Fin N → Bool} {g : Fin nt → Fin N} (hb : Marks b g) {z : Fin ni → ℝ} {zi : Nd} (h : Obs z zi) (lam : Mat ni nt) :
    ∃ c, condPathsIx be ztsim (.ints (List.ofFn a)) zi (.bools (List.ofFn b)) lam = .ok c ∧ c.shape = [nt, np] ∧
      ∀ (j : Fin nt) (k : Fin np), c.val [(j : ℕ), (k : ℕ)] =
        ztsim (g j) k + ∑ i, lam i j * (z i - ztsim (f i) k) := by
  obtain ⟨c, c1, c2⟩ := condPaths_obs be ztsim f h g lam
  exact ⟨c, by rw [condPathsIx_rows ztsim (ix := .ints (List.ofFn a)) (rows_ints ha) (rows_bools hb) h, c1], c2.1, c2.2⟩

/-- **C278** With a parameterised mean masks select the observations and the targets. -/
theorem index_mask_mean (be : Backend) (ztsim : Mat N np) {a : Fin N → Bool} {f : Fin ni → Fin N} (ha : Marks a f)
    {b : Fin N → Bool} {g : Fin nt → Fin N} (hb : Marks b g) (mi : Fin ni → ℝ) (mt : Fin nt → ℝ) {z : Fin ni → ℝ} {zi : Nd}
    (h : IsVec zi z) (lam : Mat ni nt) :
    ∃ c, condPathsMeanIx be ztsim mi (.bools (List.ofFn a)) zi mt (.bools (List.ofFn b)) lam = .ok c ∧
      c.shape = [nt, np] ∧ ∀ (j : Fin nt) (k : Fin np), c.val [(j : ℕ), (k : ℕ)] =
        ztsim (g j) k + ∑ i, lam i j * (z i - mi i - ztsim (f i) k) + mt j := by
  obtain ⟨c, c1, c2⟩ := condPathsMean_vec be ztsim mi f h mt g lam
  exact ⟨c, by rw [condPathsMeanIx_rows ztsim (rows_bools ha) (rows_bools hb) mi mt h, c1], c2.1, c2.2⟩

/-- **C278** Floating-point numbers are refused as indices of targets, and of observations with a parameterised
mean. -/
theorem index_floats (be : Backend) (ztsim : Mat N np) {a : Fin ni → ℤ} {f : Fin ni → Fin N} (ha : Names a f)
    (l : List ℚ) (tx : Ix) (mi : Fin ni → ℝ) (mt : Fin nt → ℝ) {z : Fin ni → ℝ} {zi : Nd} (h : IsVec zi z)
    (lam : Mat ni nt) :
    condPathsIx be ztsim (.ints (List.ofFn a)) zi (.floats l) lam = .error .indexError ∧
      condPathsMeanIx be ztsim mi (.ints (List.ofFn a)) zi mt (.floats l) lam = .error .indexError ∧
      condPathsMeanIx be ztsim mi (.floats l) zi mt tx lam = .error .indexError := by
  obtain ⟨u, u1, u2⟩ := zip_vec be (· - ·) h (ofVec_isVec mi)
  refine ⟨?_, ?_, ?_⟩
  · obtain ⟨d, d1, d2⟩ := sub_col_mat be (· - ·) (ravelCol_obs (Or.inl h)) (ofMat_isMat (ztsim.submatrix f id))
    simp only [condPathsIx, Ix.toInt, rows_ints ha, rows_floats, bind, Except.bind, ofMat_rows, d1]
  · obtain ⟨d, d1, d2⟩ := sub_col_mat be (· - ·) (ravelCol_obs (Or.inl u2)) (ofMat_isMat (ztsim.submatrix f id))
    simp only [condPathsMeanIx, rows_ints ha, rows_floats, bind, Except.bind, ofMat_rows, u1, d1]
  · simp only [condPathsMeanIx, rows_floats, bind, Except.bind, u1]

/-- **C278** Without a mean, floating-point indices of observations are accepted and cut to integers: `1.9` names
row one, `-0.5` row zero. -/
theorem index_floats_cut (be : Backend) (ztsim : Mat N np) {x : Fin ni → ℚ} {f : Fin ni → Fin N}
    (hx : ∀ i, (((f i : ℕ) : ℚ) ≤ x i ∧ x i < (f i : ℕ) + 1) ∨ ((f i : ℕ) = 0 ∧ -1 < x i ∧ x i < 0))
    {b : Fin nt → ℤ} {g : Fin nt → Fin N} (hb : Names b g) {z : Fin ni → ℝ} {zi : Nd} (h : Obs z zi) (lam : Mat ni nt) :
    ∃ c, condPathsIx be ztsim (.floats (List.ofFn x)) zi (.ints (List.ofFn b)) lam = .ok c ∧ c.shape = [nt, np] ∧
      ∀ (j : Fin nt) (k : Fin np), c.val [(j : ℕ), (k : ℕ)] =
        ztsim (g j) k + ∑ i, lam i j * (z i - ztsim (f i) k) := by
  have ht : Names (fun i => truncate (x i)) f := by
    intro i
    left
    rcases hx i with ⟨h1, h2⟩ | ⟨h0, h1, h2⟩
    · have hp : (0 : ℚ) ≤ x i := le_trans (by positivity) h1
      show truncate (x i) = _
      rw [truncate, if_pos hp, Int.floor_eq_iff]
      exact ⟨by exact_mod_cast h1, by exact_mod_cast h2⟩
    · show truncate (x i) = _
      rw [truncate, if_neg (not_le.2 h2), Int.ceil_eq_iff, h0]
      constructor <;> push_cast <;> linarith
  have e : (Ix.floats (List.ofFn x)).toInt = .ints (List.ofFn fun i => truncate (x i)) := by
    simp [Ix.toInt, List.map_ofFn, Function.comp_def]
  obtain ⟨c, c1, c2⟩ := condPaths_obs be ztsim f h g lam
  exact ⟨c, by rw [condPathsIx_rows ztsim (e ▸ rows_ints ht) (rows_ints hb) h, c1], c2.1, c2.2⟩

/-- **C278** is false for a mask of observations without a mean: its entries are read as the row numbers zero and one.
Both of two points are marked and observed, the weights are those of the observation itself, and the path does not
pass through the first observation. -/
theorem index_mask_false (be : Backend) : Marks (fun _ : Fin 2 => true) (id : Fin 2 → Fin 2) ∧
    ∃ c, condPathsIx be (!![0; 10] : Mat 2 1) (.bools [true, true]) (ofVec ![1, 2]) (.ints [0, 1]) (1 : Mat 2 2) =
      .ok c ∧ c.val [0, 0] = -9 ∧ c.val [1, 0] = 2 := by
  refine ⟨⟨strictMono_id, fun i => by simp⟩, ?_⟩
  have n1 : Names ![(1 : ℤ), 1] ![(1 : Fin 2), 1] := by
    intro i; left; fin_cases i <;> rfl
  have n2 : Names ![(0 : ℤ), 1] ![(0 : Fin 2), 1] := by
    intro i; left; fin_cases i <;> rfl
  obtain ⟨c, c1, _, c3⟩ := index_paths be (!![0; 10] : Mat 2 1) n1 n2 (Or.inl (ofVec_isVec ![1, 2])) (1 : Mat 2 2)
  refine ⟨c, ?_, ?_, ?_⟩
  · rw [← c1]
    rfl
  · have := c3 0 0
    norm_num [Fin.sum_univ_two] at this
    exact this
  · have := c3 1 0
    norm_num [Fin.sum_univ_two] at this
    exact this

/-! ## Examples -/

/-- The last of two points is observed, named from the end; the paths at both points. -/
example (be : Backend) : ∃ c, condPathsIx be (!![1; 3] : Mat 2 1) (.ints [-1]) (ofVec ![7]) (.ints [0, 1])
    (!![0.5, 1] : Mat 1 2) = .ok c ∧ c.val [0, 0] = 3 ∧ c.val [1, 0] = 7 := by
  have n1 : Names ![(-1 : ℤ)] ![(1 : Fin 2)] := by intro i; right; fin_cases i; rfl
  have n2 : Names ![(0 : ℤ), 1] ![(0 : Fin 2), 1] := by intro i; left; fin_cases i <;> rfl
  obtain ⟨c, c1, _, c3⟩ := index_paths be (!![1; 3] : Mat 2 1) n1 n2 (Or.inl (ofVec_isVec ![7])) (!![0.5, 1] : Mat 1 2)
  refine ⟨c, by rw [← c1]; rfl, ?_, ?_⟩
  · have := c3 0 0
    norm_num at this
    exact this
  · have := c3 1 0
    norm_num at this
    exact this

/-- Row three of three points. -/
example (be : Backend) (zi : Nd) (tx : Ix) (lam : Mat 1 2) :
    condPathsIx be (!![1; 2; 3] : Mat 3 1) (.ints [3]) zi tx lam = .error .indexError :=
  index_range be _ ⟨3, by simp, by norm_num⟩ _ _ _

/-- A mask of the first and last of three points. -/
example : Marks ![true, false, true] ![(0 : Fin 3), 2] := by
  refine ⟨fun i j h => ?_, fun i => ?_⟩
  · fin_cases i <;> fin_cases j <;> simp_all
  · fin_cases i <;> simp

/-- The index 1.9 is cut to one. -/
example (be : Backend) : ∃ c, condPathsIx be (!![1; 2; 3] : Mat 3 1) (.floats [1.9]) (ofVec ![7]) (.ints [1])
    (!![1] : Mat 1 1) = .ok c ∧ c.val [0, 0] = 7 := by
  obtain ⟨c, c1, _, c3⟩ := index_floats_cut be (!![1; 2; 3] : Mat 3 1) (x := ![1.9]) (f := ![1])
    (fun i => by fin_cases i; left; norm_num) (b := ![1]) (g := ![1])
    (fun i => by left; fin_cases i; rfl) (Or.inl (ofVec_isVec ![7])) (!![1] : Mat 1 1)
  refine ⟨c, by rw [← c1]; rfl, ?_⟩
  have := c3 0 0
  norm_num at this
  exact this

end Verif.Core.Sh
