import Verif.Core.Object
import Verif.Core.PropsLoo
import Verif.Core.PropsMaternGP
import Verif.Core.PropsPaths

/-!
# C204-C206: methods of the `Model` object
-/

set_option autoImplicit false

namespace Verif.Core.Obj

open Verif Verif.Data Matrix

variable {d q n m r : ℕ} {Θ M : Type} {be : Backend} {la : LA}

/-! ## Specification vocabulary -/

/-- The covariance callable comes from a kernel `k` on points with a nugget added when both
arguments are one object, and the mean callable from functions `b` of a point. -/
structure Pointwise (g : GP d q Θ M) (θ : Θ) (k : (Fin d → ℝ) → (Fin d → ℝ) → ℝ) (nug : ℝ)
    (b : (Fin d → ℝ) → Fin q → ℝ) : Prop where
  self : ∀ {n : ℕ} (x : Pts n d) (i j : Fin n),
    g.covMat x x θ i j = k (x.val i) (x.val j) + if i = j then nug else 0
  other : ∀ {n m : ℕ} (x : Pts n d) (y : Pts m d) (i : Fin n) (j : Fin m), x.id ≠ y.id →
    g.covMat x y θ i j = k (x.val i) (y.val j)
  diag : ∀ {n : ℕ} (x : Pts n d) (i : Fin n), g.covDiag x θ i = k (x.val i) (x.val i)
  mean : ∀ {n : ℕ} (x : Pts n d) (i : Fin n) (j : Fin q),
    g.mean x g.meanparam i j = b (x.val i) j

/-- The model can be used for prediction: a documented mean type, with parameters and one
column if it is parameterised. -/
def Usable (g : GP d q Θ M) : Prop :=
  g.meantype = "zero" ∨ g.meantype = "linear_predictor" ∨
    (g.meantype = "parameterized" ∧ q = 1 ∧ g.meanparam.isSome)

/-- The points without the `i`-th, as another object. -/
def drop (x : Pts (n + 1) d) (i : Fin (n + 1)) (id : ℕ) (s : Store) : Pts n d :=
  ⟨id, s, Matrix.of fun a => x.val (i.succAbove a)⟩

/-- The `i`-th point alone, as another object. -/
def single (x : Pts n d) (i : Fin n) (id : ℕ) (s : Store) : Pts 1 d :=
  ⟨id, s, Matrix.of fun _ => x.val i⟩

/-! ## Lemmas -/

theorem asarray_val (be : Backend) (f : ℕ) (x : Pts n d) : (asarray be f x).val = x.val := by
  unfold asarray
  split <;> rfl

theorem asarray_id (be : Backend) (f : ℕ) (x : Pts n d) :
    (asarray be f x).id = if keeps be x.store then x.id else f := by
  unfold asarray
  split <;> simp_all

theorem posteriorVariance_Ktt {ρ : Type} [Fintype ρ] {m : ℕ} (vt : Fin m → ℝ) (K K' : Mat m m)
    (lm rhs : Matrix ρ (Fin m) ℝ) :
    posteriorVariance vt K lm rhs 0 = posteriorVariance vt K' lm rhs 0 := by
  simp [posteriorVariance]

/-- Prediction does not read the covariance matrix of the targets. -/
theorem predict_Ktt {m : ℕ} (mt : MeanType (q + r) m) (a : Arrays (q + r) m q) (K : Mat m m)
    (z : Fin (q + r) → ℝ) (zn : Bool) :
    Core.predict la mt { a with Ktt := K } z zn = Core.predict la mt a z zn := by
  have h0 : krigingZeroMean la { a with Ktt := K } 0 = krigingZeroMean la a 0 := by
    simp only [krigingZeroMean, posteriorVariance_Ktt a.vt K a.Ktt]
  have h1 : krigingUniversal la { a with Ktt := K } 0 = krigingUniversal la a 0 := by
    simp only [krigingUniversal, ukDirect, ukNullspace, posteriorVariance_Ktt a.vt K a.Ktt]
    rfl
  simp only [Core.predict, selectPredictor, h0, h1]

theorem flatCol_one (h : q = 1) (P : Mat n q) : flatCol P = .ok fun i => P i ⟨0, by omega⟩ := by
  rw [flatCol, dif_pos h]

/-- The argument after the optional conversion. -/
def conv (c : Bool) (be : Backend) (f : ℕ) (x : Pts n d) : Pts n d :=
  if c then asarray be f x else x

theorem conv_val (c : Bool) (be : Backend) (f : ℕ) (x : Pts n d) : (conv c be f x).val = x.val := by
  cases c
  · rfl
  · exact asarray_val be f x

theorem conv_id (c : Bool) (be : Backend) (f : ℕ) (x : Pts n d) :
    (conv c be f x).id = x.id ∨ (conv c be f x).id = f := by
  cases c
  · exact Or.inl rfl
  · have := asarray_id be f x
    by_cases h : keeps be x.store = true
    · exact Or.inl (by simpa [conv, h] using this)
    · exact Or.inr (by simpa [conv, h] using this)

/-- Two distinct objects stay distinct. -/
theorem conv_ne (c : Bool) (be : Backend) (f : ℕ) (x : Pts n d) (y : Pts m d) (h : x.id ≠ y.id)
    (hx : x.id < f) (hy : y.id < f) : (conv c be f x).id ≠ (conv c be (f + 1) y).id := by
  rcases conv_id c be f x with h1 | h1 <;> rcases conv_id c be (f + 1) y with h2 | h2 <;> omega

section pointwise

variable {g : GP d q Θ M} {θ : Θ} {k : (Fin d → ℝ) → (Fin d → ℝ) → ℝ} {nug : ℝ}
  {b : (Fin d → ℝ) → Fin q → ℝ}

theorem Pointwise.covMat_val (hg : Pointwise g θ k nug b) {x y : Pts n d} (h : x.val = y.val) :
    g.covMat x x θ = g.covMat y y θ := by
  ext i j
  rw [hg.self, hg.self, h]

theorem Pointwise.mean_val (hg : Pointwise g θ k nug b) {x y : Pts n d} (h : x.val = y.val) :
    g.mean x g.meanparam = g.mean y g.meanparam := by
  ext i j
  rw [hg.mean, hg.mean, h]

/-- The arrays of the model without point `i`, predicting it. -/
theorem Pointwise.arrays_drop (hg : Pointwise g θ k nug b) (xi : Pts (n + 1) d) (i : Fin (n + 1))
    (x : Pts n d) (y : Pts 1 d) (hx : x.val = Matrix.of fun a => xi.val (i.succAbove a))
    (hy : y.val = Matrix.of fun _ => xi.val i) (hne : x.id ≠ y.id) :
    g.arrays θ x y = { leaveOut (g.covMat xi xi θ) (g.mean xi g.meanparam)
      (k (xi.val i) (xi.val i)) i with Ktt := g.covFull y θ } := by
  unfold GP.arrays leaveOut
  congr 1
  · ext a c
    rw [hg.self]
    simp only [of_apply]
    rw [hg.self, hx]
    simp [Fin.succAbove_right_inj]
    rfl
  · ext a c
    rw [hg.other x y _ _ hne]
    simp only [of_apply]
    rw [hg.self, hx, hy, if_neg (Fin.succAbove_ne i a)]
    simp
    rfl
  · funext c
    rw [hg.diag, hy]
    rfl
  · ext a c
    rw [hg.mean]
    simp only [of_apply]
    rw [hg.mean, hx]
    rfl
  · ext a c
    rw [hg.mean]
    simp only [of_apply]
    rw [hg.mean, hy]
    rfl

end pointwise

/-! ## C205 -/

/-- **C205** `Model.loo` is what refitting gives: leaving out any one point and calling
`Model.predict` at it returns the same mean, and the same variance up to the nugget that
`loo` counts and `predict` does not. -/
theorem loo_refit (hla : la.Contract be) (g : GP d q Θ M) {θ : Θ}
    {k : (Fin d → ℝ) → (Fin d → ℝ) → ℝ} {nug : ℝ} {b : (Fin d → ℝ) → Fin q → ℝ}
    (hθ : g.covparam = some θ) (hg : Pointwise g θ k nug b) (hu : Usable g)
    (xi : Pts (q + (r + 1)) d) (z : Fin (q + (r + 1)) → ℝ)
    (hK : (g.covMat xi xi θ).PosDef ∨
      (g.meantype = "linear_predictor" ∧ CPD (g.covMat xi xi θ) (g.mean xi g.meanparam)))
    (hP : g.meantype = "linear_predictor" → FullRank (g.mean xi g.meanparam))
    (c : Bool) (f i1 i2 : ℕ) (s1 s2 : Store) (h12 : i1 ≠ i2) (h1 : i1 < f) (h2 : i2 < f) :
    ∃ zl s e, loo be la f g xi (.vec z) c = .ok (zl, s, e) ∧ ∀ i : Fin (q + r + 1),
      (g.meantype = "linear_predictor" →
        FullRank (g.mean (drop (n := q + r) xi i i1 s1) g.meanparam)) →
      ∃ mean var lam, predict be la f g (drop (n := q + r) xi i i1 s1)
          (.vec (without (n := q + r) z i)) (single xi i i2 s2) false c = .ok (mean, var, lam) ∧
        zl i = mean 0 ∧ s i = var 0 + nug ∧ e i = z i - mean 0 := by
  have hxi : (conv c be f xi).val = xi.val := conv_val c be f xi
  have hKe : g.covMat (conv c be f xi) (conv c be f xi) θ = g.covMat xi xi θ := hg.covMat_val hxi
  have hPe : g.mean (conv c be f xi) g.meanparam = g.mean xi g.meanparam := hg.mean_val hxi
  have hth : g.theta = .ok θ := by simp [GP.theta, hθ]
  -- the refitted problem
  have harr : ∀ i : Fin (q + r + 1), g.arrays θ (conv c be f (drop (n := q + r) xi i i1 s1))
      (conv c be (f + 1) (single xi i i2 s2)) =
      { leaveOut (n := q + r) (g.covMat xi xi θ) (g.mean xi g.meanparam)
        (k (xi.val i) (xi.val i)) i with
        Ktt := g.covFull (conv c be (f + 1) (single xi i i2 s2)) θ } := by
    intro i
    refine hg.arrays_drop (n := q + r) xi i _ _ ?_ ?_ ?_
    · rw [conv_val]; rfl
    · rw [conv_val]; rfl
    · exact conv_ne c be f (drop (n := q + r) xi i i1 s1) (single xi i i2 s2) h12 h1 h2
  have hdiag : ∀ i : Fin (q + r + 1), g.covMat xi xi θ i i - k (xi.val i) (xi.val i) = nug := by
    intro i
    rw [hg.self]
    simp
  have hloo : ∀ mt, g.meanType (conv c be f xi) (conv c be f xi) = .ok mt →
      (g.meantype = "zero" ∨ g.meantype = "parameterized" ∨ g.meantype = "linear_predictor") →
      loo be la f g xi (.vec z) c = Core.loo la mt (g.covMat xi xi θ) (g.mean xi g.meanparam) z := by
    intro mt hmt hk
    have hk' : ¬ (g.meantype ≠ "zero" ∧ g.meantype ≠ "parameterized" ∧
        g.meantype ≠ "linear_predictor") := by tauto
    change (if _ then _ else _) = _
    rw [if_neg hk']
    change (do
      let mt ← g.meanType (conv c be f xi) (conv c be f xi)
      let θ ← g.theta
      Core.loo la mt (g.covMat (conv c be f xi) (conv c be f xi) θ)
        (g.mean (conv c be f xi) g.meanparam) z) = _
    rw [hmt, hth]
    simp only [bind, Except.bind]
    rw [hKe, hPe]
  have hpred : ∀ (i : Fin (q + r + 1)) mt, g.refuses = false →
      g.meanType (conv c be f (drop (n := q + r) xi i i1 s1))
        (conv c be (f + 1) (single xi i i2 s2)) = .ok mt →
      predict be la f g (drop (n := q + r) xi i i1 s1) (.vec (without (n := q + r) z i))
        (single xi i i2 s2) false c =
      Core.predict la mt (leaveOut (n := q + r) (g.covMat xi xi θ) (g.mean xi g.meanparam)
        (k (xi.val i) (xi.val i)) i) (without (n := q + r) z i) false := by
    intro i mt hr hmt
    change (if g.refuses = true then _ else _) = _
    rw [if_neg (by simp [hr])]
    change (do
      let θ ← g.theta
      let mt ← g.meanType (conv c be f (drop (n := q + r) xi i i1 s1))
        (conv c be (f + 1) (single xi i i2 s2))
      Core.predict la mt (g.arrays θ (conv c be f (drop (n := q + r) xi i i1 s1))
        (conv c be (f + 1) (single xi i i2 s2))) (without (n := q + r) z i) false) = _
    rw [hth, hmt]
    simp only [bind, Except.bind]
    rw [harr i, predict_Ktt]
  rcases hu with hm | hm | ⟨hm, hq, hmp⟩
  · have hPD : (g.covMat xi xi θ).PosDef := by
      rcases hK with h | h
      · exact h
      · rw [hm] at h; exact absurd h.1 (by decide)
    have hmt : ∀ {n m : ℕ} (x : Pts n d) (y : Pts m d), g.meanType x y = .ok .zero := by
      intro n m x y
      simp [GP.meanType, hm]
    obtain ⟨zl, s, e, hl, hi⟩ := loo_zeroMean_refit hla hPD (g.mean xi g.meanparam) z 0
    refine ⟨zl, s, e, (hloo _ (hmt _ _) (Or.inl hm)).trans hl, fun i _ => ?_⟩
    obtain ⟨zl', s', e', hl', hi'⟩ := loo_zeroMean_refit hla hPD (g.mean xi g.meanparam) z
      (k (xi.val i) (xi.val i))
    rw [hl] at hl'
    injection hl' with hl'
    obtain ⟨rfl, rfl, rfl⟩ : zl = zl' ∧ s = s' ∧ e = e' := by
      simpa [Prod.ext_iff] using hl'
    obtain ⟨mean, var, lam, hp, h3, h4, h5⟩ := hi' i
    refine ⟨mean, var, lam, (hpred i _ (by simp [GP.refuses, hm]) (hmt _ _)).trans hp, h3, ?_, h5⟩
    rw [h4, hdiag]
  · have hC : CPD (g.covMat xi xi θ) (g.mean xi g.meanparam) := by
      rcases hK with h | h
      · exact CPD.of_posDef h _
      · exact h.2
    have hmt : ∀ {n m : ℕ} (x : Pts n d) (y : Pts m d), g.meanType x y = .ok .linearPredictor := by
      intro n m x y
      simp [GP.meanType, hm]
    obtain ⟨zl, s, e, hl, hi⟩ := loo_linear_refit hla hC (hP hm) z 0
    refine ⟨zl, s, e, (hloo _ (hmt _ _) (Or.inr (Or.inr hm))).trans hl, fun i hfr => ?_⟩
    obtain ⟨zl', s', e', hl', hi'⟩ := loo_linear_refit hla hC (hP hm) z
      (k (xi.val i) (xi.val i))
    rw [hl] at hl'
    injection hl' with hl'
    obtain ⟨rfl, rfl, rfl⟩ : zl = zl' ∧ s = s' ∧ e = e' := by
      simpa [Prod.ext_iff] using hl'
    have hfr' : FullRank (leaveOut (n := q + r) (g.covMat xi xi θ) (g.mean xi g.meanparam)
        (k (xi.val i) (xi.val i)) i).Pi := by
      have hd := hfr hm
      have : (leaveOut (n := q + r) (g.covMat xi xi θ) (g.mean xi g.meanparam)
        (k (xi.val i) (xi.val i)) i).Pi = g.mean (drop (n := q + r) xi i i1 s1) g.meanparam := by
        ext a j
        rw [hg.mean]
        change g.mean xi g.meanparam (i.succAbove a) j = _
        rw [hg.mean]
        rfl
      rw [this]
      exact hd
    obtain ⟨mean, var, lam, hp, h3, h4, h5⟩ := hi' i hfr'
    refine ⟨mean, var, lam, (hpred i _ (by simp [GP.refuses, hm]) (hmt _ _)).trans hp, h3, ?_, h5⟩
    rw [h4, hdiag]
  · have hPD : (g.covMat xi xi θ).PosDef := by
      rcases hK with h | h
      · exact h
      · rw [hm] at h; exact absurd h.1 (by decide)
    obtain ⟨mp, hmp⟩ := Option.isSome_iff_exists.mp hmp
    set j0 : Fin q := ⟨0, by omega⟩
    have hmt : ∀ {n m : ℕ} (x : Pts n d) (y : Pts m d), g.meanType x y =
        .ok (.parameterized (fun i => b (x.val i) j0) fun i => b (y.val i) j0) := by
      intro n m x y
      simp only [GP.meanType, hm, hmp, flatCol_one hq]
      simp only [bind, Except.bind, pure, Except.pure]
      rw [if_neg (by decide), if_neg (by decide), if_pos trivial]
      congr 2 <;> funext i
      · rw [← hmp, hg.mean]
      · rw [← hmp, hg.mean]
    obtain ⟨zl, s, e, hl, hi⟩ := loo_parameterized_refit hla hPD (g.mean xi g.meanparam)
      (fun i => b (xi.val i) j0) z 0
    refine ⟨zl, s, e, (hloo _ ((hmt _ _).trans (by rw [hxi])) (Or.inr (Or.inl hm))).trans hl,
      fun i _ => ?_⟩
    obtain ⟨zl', s', e', hl', hi'⟩ := loo_parameterized_refit hla hPD (g.mean xi g.meanparam)
      (fun i => b (xi.val i) j0) z (k (xi.val i) (xi.val i))
    rw [hl] at hl'
    injection hl' with hl'
    obtain ⟨rfl, rfl, rfl⟩ : zl = zl' ∧ s = s' ∧ e = e' := by
      simpa [Prod.ext_iff] using hl'
    obtain ⟨mean, var, lam, hp, h3, h4, h5⟩ := hi' i
    refine ⟨mean, var, lam, (hpred i _ (by simp [GP.refuses, hm, hmp]) ((hmt _ _).trans ?_)).trans hp,
      h3, ?_, h5⟩
    · rw [conv_val, conv_val]
      rfl
    · rw [h4, hdiag]

/-! ## Matérn models -/

section matern

variable {mean : {n : ℕ} → Pts n d → Option M → Mat n q} {mp : Option M} {mtype : String}

theorem maternMat_self (k : ℝ → ℝ) (eps : ℝ) (x : Pts n d) (θ : Fin (d + 1) → ℝ) :
    maternMat k eps x x θ = Kernel.cov k eps θ x.val .same := by
  rw [maternMat, dif_pos ⟨rfl, rfl⟩]
  rfl

theorem maternMat_other (k : ℝ → ℝ) (eps : ℝ) (x : Pts n d) (y : Pts m d) (θ : Fin (d + 1) → ℝ)
    (h : x.id ≠ y.id) : maternMat k eps x y θ = Kernel.covIT k θ x.val y.val := by
  rw [maternMat, dif_neg (fun hc => h hc.2)]

/-- The Matérn kernel of order `p` on points. -/
noncomputable def maternKernel (p : ℕ) (θ : Fin (d + 1) → ℝ) (x y : Fin d → ℝ) : ℝ :=
  Real.exp (θ 0) * Kernel.maternFormula p (Kernel.scaledDistance (fun j => θ j.succ) x y)

/-- A Matérn model with a mean given by functions of a point is `Pointwise`, the nugget being
`10 ε σ²`. -/
theorem matern_pointwise (p : ℕ) (eps : ℝ) (θ : Fin (d + 1) → ℝ)
    (b : (Fin d → ℝ) → Fin q → ℝ)
    (hb : ∀ {n : ℕ} (x : Pts n d) (i : Fin n) (j : Fin q), mean x mp i j = b (x.val i) j) :
    Pointwise (matern (Kernel.maternFormula p) eps mtype mean mp (some θ)) θ (maternKernel p θ)
      (10 * Real.exp (θ 0) * eps) b where
  self := by
    intro n x i j
    change maternMat _ _ _ _ _ _ _ = _
    rw [maternMat_self]
    by_cases h : i = j <;>
      simp [Kernel.cov, Kernel.covII, maternKernel, h]
  other := by
    intro n m x y i j h
    change maternMat _ _ _ _ _ _ _ = _
    rw [maternMat_other _ _ _ _ _ h]
    rfl
  diag := by
    intro n x i
    simp [matern, Kernel.covPairwise, Kernel.covIIPairwise, maternKernel, Kernel.scaledDistance_self,
      (Kernel.maternFormula_shape_props p).1]
  mean := hb

/-- **C205** For a Matérn model: leave-one-out is refitting, the variances differing by
exactly `10 ε σ²`. -/
theorem matern_loo_refit (hla : la.Contract be) (p : ℕ) {eps : ℝ} (θ : Fin (d + 1) → ℝ)
    (b : (Fin d → ℝ) → Fin q → ℝ)
    (hb : ∀ {n : ℕ} (x : Pts n d) (i : Fin n) (j : Fin q), mean x mp i j = b (x.val i) j)
    (g : GP d q (Fin (d + 1) → ℝ) M)
    (hgm : g = matern (Kernel.maternFormula p) eps mtype mean mp (some θ)) (hu : Usable g)
    (xi : Pts (q + (r + 1)) d) (hx : Admissible eps xi.val) (z : Fin (q + (r + 1)) → ℝ)
    (hP : mtype = "linear_predictor" → FullRank (mean xi mp))
    (c : Bool) (f i1 i2 : ℕ) (s1 s2 : Store) (h12 : i1 ≠ i2) (h1 : i1 < f) (h2 : i2 < f) :
    ∃ zl s e, loo be la f g xi (.vec z) c = .ok (zl, s, e) ∧ ∀ i : Fin (q + r + 1),
      (mtype = "linear_predictor" → FullRank (mean (drop (n := q + r) xi i i1 s1) mp)) →
      ∃ mean var lam, predict be la f g (drop (n := q + r) xi i i1 s1)
          (.vec (without (n := q + r) z i)) (single xi i i2 s2) false c = .ok (mean, var, lam) ∧
        zl i = mean 0 ∧ s i = var 0 + 10 * Real.exp (θ 0) * eps ∧ e i = z i - mean 0 := by
  subst hgm
  refine loo_refit hla _ rfl (matern_pointwise p eps θ b hb) hu xi z (Or.inl ?_) hP c f i1 i2 s1 s2
    h12 h1 h2
  change (maternMat _ _ _ _ _).PosDef
  rw [maternMat_self]
  exact matern_Kii p θ hx

/-! ## C204 -/

/-- Does the call keep the observation points one object? -/
def SameKept (c : Bool) (be : Backend) (s : Store) : Prop := c = true → keeps be s = true

/-- **C204** `predict(xi, zi, xi)` with zero mean returns the data exactly when the conversion
keeps `xi` one object; otherwise the conversions make two objects and every prediction misses
the data by `10 ε σ² K⁻¹ z`. -/
theorem predict_at_data_iff (hla : la.Contract be) (p : ℕ) {eps : ℝ} (heps : 0 < eps)
    (θ : Fin (d + 1) → ℝ) (hmt : mtype = "zero") (xi : Pts (q + r) d) (z : Fin (q + r) → ℝ)
    (hz : z ≠ 0) (c zn : Bool) (f : ℕ) :
    ∃ zt v lam, predict be la f (matern (Kernel.maternFormula p) eps mtype mean mp (some θ))
        xi (.vec z) xi zn c = .ok (zt, v, lam) ∧
      (zt = z ↔ SameKept c be xi.store) ∧
      (¬ SameKept c be xi.store → z - zt =
        (10 * eps * Real.exp (θ 0)) • ((Kernel.cov (Kernel.maternFormula p) eps θ xi.val .same)⁻¹ *ᵥ z))
        := by
  set g := matern (q := q) (M := M) (Kernel.maternFormula p) eps mtype mean mp (some θ) with hg
  have hKpd : (Kernel.cov (Kernel.maternFormula p) eps θ xi.val .same).PosDef :=
    matern_Kii p θ (Or.inl heps)
  have hv1 := conv_val c be f xi
  have hv2 := conv_val c be (f + 1) xi
  have hpred : predict be la f g xi (.vec z) xi zn c =
      Core.predict la .zero (g.arrays θ (conv c be f xi) (conv c be (f + 1) xi)) z zn := by
    have hr : g.refuses = false := by simp [GP.refuses, hg, matern, hmt]
    have hm : ∀ {n m : ℕ} (x : Pts n d) (y : Pts m d), g.meanType x y = .ok .zero := by
      intro n m x y
      simp [GP.meanType, hg, matern, hmt]
    change (if g.refuses = true then _ else _) = _
    rw [if_neg (by simp [hr])]
    change (do
      let mt ← g.meanType (conv c be f xi) (conv c be (f + 1) xi)
      Core.predict la mt (g.arrays θ (conv c be f xi) (conv c be (f + 1) xi)) z zn) = _
    rw [hm]
    rfl
  have hKii : (g.arrays θ (conv c be f xi) (conv c be (f + 1) xi)).Kii =
      Kernel.cov (Kernel.maternFormula p) eps θ xi.val .same := by
    change maternMat _ _ _ _ _ = _
    rw [maternMat_self, hv1]
  have hn : 10 * eps * Real.exp (θ 0) ≠ 0 := by have := Real.exp_pos (θ 0); positivity
  by_cases hs : SameKept c be xi.store
  · have hsame : conv c be f xi = xi ∧ conv c be (f + 1) xi = xi := by
      cases c
      · exact ⟨rfl, rfl⟩
      · have := hs rfl
        simp [conv, asarray, this]
    have hKit : (g.arrays θ (conv c be f xi) (conv c be (f + 1) xi)).Kit =
        Kernel.cov (Kernel.maternFormula p) eps θ xi.val .same := by
      rw [hsame.1, hsame.2]
      exact maternMat_self _ _ _ _
    refine ⟨_, _, _, hpred.trans (predict_zero hla _ (by rw [hKii]; exact hKpd) z zn),
      ⟨fun _ => hs, fun _ => ?_⟩, fun h => absurd hs h⟩
    rw [hKii, hKit, Matrix.nonsing_inv_mul _ (PosDef.det_unit hKpd)]
    funext t
    simp [Matrix.one_apply]
  · have hid : (conv c be f xi).id ≠ (conv c be (f + 1) xi).id := by
      simp only [SameKept, Classical.not_imp] at hs
      obtain ⟨rfl, hk⟩ := hs
      simp [conv, asarray_id, hk]
    have hcopy : (g.arrays θ (conv c be f xi) (conv c be (f + 1) xi)).Kit =
        (g.arrays θ (conv c be f xi) (conv c be (f + 1) xi)).Kii -
          (10 * eps * Real.exp (θ 0)) • (1 : Mat (q + r) (q + r)) := by
      rw [hKii]
      change maternMat _ _ _ _ _ = _
      rw [maternMat_other _ _ _ _ _ hid, hv1, hv2]
      exact matern_copy p eps θ xi.val
    obtain ⟨zt, v, lam, h1, h2, h3⟩ := predict_copy hla _ _ hcopy (by rw [hKii]; exact hKpd) z zn
    refine ⟨zt, v, lam, hpred.trans h1, ⟨fun h => absurd h (h3 hn hz), fun h => absurd h hs⟩,
      fun _ => ?_⟩
    rw [h2, hKii]

end matern

/-- **C204** On the torch backend the documented call with numpy arrays does not interpolate:
`predict(xi, zi, xi)` never returns `zi` (unless it is zero). -/
theorem predict_at_data_false (hla : la.Contract .torch) (p : ℕ) {eps : ℝ} (heps : 0 < eps)
    (θ : Fin (d + 1) → ℝ) (mean : {n : ℕ} → Pts n d → Option M → Mat n q) (mp : Option M)
    (xi : Pts (q + r) d) (t : DT) (hs : xi.store = .nd t) (z : Fin (q + r) → ℝ) (hz : z ≠ 0)
    (zn : Bool) (f : ℕ) (v : Fin (q + r) → ℝ) (lam : Mat (q + r) (q + r)) :
    predict .torch la f (matern (Kernel.maternFormula p) eps "zero" mean mp (some θ))
      xi (.vec z) xi zn true ≠ .ok (z, v, lam) := by
  obtain ⟨zt, v', lam', h, hiff, -⟩ := predict_at_data_iff (mean := mean) (mp := mp) hla p heps θ
    rfl xi z hz true zn f
  intro hc
  rw [h] at hc
  injection hc with hc
  have h1 : zt = z := (Prod.mk.inj hc).1
  have h2 := hiff.mp h1 rfl
  rw [hs] at h2
  cases t <;> exact absurd h2 (by decide)

/-- **C204** The calls that do interpolate: numpy arrays of the working dtype or of integers on
the numpy backend, tensors of the working dtype or of integers on the torch backend, and every
array if no conversion is asked for. -/
theorem sameKept_iff (c : Bool) (be : Backend) (s : Store) :
    SameKept c be s ↔ c = false ∨ (be = .numpy ∧ (s = .nd .working ∨ s = .nd .int)) ∨
      (be = .torch ∧ (s = .tensor .working ∨ s = .tensor .int)) := by
  rcases s with t | t <;> cases t <;> cases be <;> cases c <;> simp [SameKept, keeps]

/-! ## C206 -/

/-- **C206** The criteria read the parameters they are given, not those stored in the model:
whatever the stored covariance parameters and (for the likelihoods) mean type and mean
parameters are, they return the same. -/
theorem criteria_read_arguments (g : GP d q Θ M) (mt : String) (mp : Option M) (cp : Option Θ)
    (θ : Θ) (m0 : M) (xi : Pts n d) (z : Fin n → ℝ) (xj : Pts (q + r) d) (w : Fin (q + r) → ℝ) :
    nllZero be la { g with meantype := mt, meanparam := mp, covparam := cp } θ xi z =
      nllZeroMean be la (g.covMat xi xi θ) z ∧
    (∀ (hq : q = 1), nllMean be la { g with meantype := mt, meanparam := mp, covparam := cp } m0 θ
      xi z = nll be la (g.covMat xi xi θ) (fun i => g.mean xi (some m0) i ⟨0, by omega⟩) z) ∧
    nlrl be la { g with meantype := mt, covparam := cp } θ xj w =
      reml be la (g.covMat xj xj θ) (g.mean xj g.meanparam) w ∧
    normZero la { g with meantype := mt, meanparam := mp, covparam := cp } xi z θ =
      normKSqrdZeroMean la (g.covMat xi xi θ) z ∧
    norm la { g with meantype := mt, covparam := cp } xj w θ =
      normKSqrd la (g.covMat xj xj θ) (g.mean xj g.meanparam) w := by
  refine ⟨rfl, fun hq => ?_, rfl, rfl, rfl⟩
  simp only [nllMean, flatCol_one hq]
  rfl

/-- **C206** Prediction and leave-one-out accept the observations as a column. -/
theorem column_accepted (g : GP d q Θ M) (xi : Pts (q + r) d) (z : Fin (q + r) → ℝ) (xt : Pts m d)
    (zn c : Bool) (f : ℕ) :
    predict be la f g xi (.col z) xt zn c = predict be la f g xi (.vec z) xt zn c ∧
    loo be la f g xi (.col z) c = loo be la f g xi (.vec z) c ∧
    predict be la f g xi .bad xt zn c = .error .assertionError ∧
    loo be la f g xi .bad c = .error .assertionError :=
  ⟨rfl, rfl, rfl, rfl⟩

/-- **C206** A parameterised mean must have one column and, for leave-one-out, parameters. -/
theorem mean_refusals (g : GP d q Θ M) (xi : Pts (q + r) d) (z : Fin (q + r) → ℝ) (c : Bool) (f : ℕ) (θ : Θ) (mp : M) :
    (q ≠ 1 → nllMean be la g mp θ xi z = .error .valueError) ∧
    (g.meantype = "parameterized" → g.meanparam = some mp → q ≠ 1 →
      loo be la f g xi (.vec z) c = .error .valueError) ∧
    (g.meantype = "parameterized" → g.meanparam = none → g.covparam = some θ →
      loo be la f g xi (.vec z) c = .error .typeError) := by
  refine ⟨fun h => ?_, fun h1 h2 h3 => ?_, fun h1 h2 h3 => ?_⟩
  · simp [nllMean, flatCol, h, bind, Except.bind]
  · simp [loo, ZArg.flat, h1, GP.meanType, h2, flatCol, h3, bind, Except.bind]
  · simp [loo, ZArg.flat, h1, GP.meanType, h2, GP.theta, h3, bind, Except.bind, Core.loo]

/-- **C206** Leave-one-out refuses unknown mean types. -/
theorem loo_unknown (g : GP d q Θ M) (xi : Pts (q + r) d) (z : Fin (q + r) → ℝ) (c : Bool) (f : ℕ)
    (h1 : g.meantype ≠ "zero") (h2 : g.meantype ≠ "parameterized") (h3 : g.meantype ≠ "linear_predictor") :
    loo be la f g xi (.vec z) c = .error .valueError := by
  change (if g.meantype ≠ "zero" ∧ g.meantype ≠ "parameterized" ∧ g.meantype ≠ "linear_predictor" then _ else _) = _
  rw [if_pos ⟨h1, h2, h3⟩]

/-- The kind of posterior variance that is asked for: none, one number for each target, a matrix. -/
def Kind {m : ℕ} (rt : ℤ) (V : PostVar m) : Prop :=
  (rt = -1 → V = .none) ∧ (rt = 0 → ∃ v, V = .var v) ∧ (rt = 1 → ∃ C, V = .cov C)

theorem posteriorVariance_kind {ρ : Type} [Fintype ρ] {vt : Fin m → ℝ} {Ktt : Mat m m}
    {lm rhs : Matrix ρ (Fin m) ℝ} {rt : ℤ} {V : PostVar m} (h : posteriorVariance vt Ktt lm rhs rt = .ok V) :
    Kind rt V := by
  unfold posteriorVariance at h
  refine ⟨?_, ?_, ?_⟩ <;> rintro rfl <;> simp [pure, Except.pure] at h <;> simp [← h]

/-- **C206** The predictors of the model return the posterior variance of the kind that is asked for. -/
theorem predictor_kind (g : GP d q Θ M) (xi : Pts (q + r) d) (xt : Pts m d) (rt : ℤ) (lam : Mat (q + r) m)
    (V : PostVar m) :
    (krigingPredictorZero la g xi xt rt = .ok (lam, V) → Kind rt V) ∧
    (krigingPredictor la g xi xt rt = .ok (lam, V) → Kind rt V) := by
  constructor
  · intro h
    cases hθ : g.theta with
    | error e => simp only [krigingPredictorZero, hθ, bind, Except.bind] at h; cases h
    | ok θ =>
      simp only [krigingPredictorZero, hθ, krigingZeroMean, bind, Except.bind, pure, Except.pure] at h
      split at h
      · cases h
      · split at h
        · cases h
        · rename_i hv
          cases h
          exact posteriorVariance_kind hv
  · intro h
    cases hθ : g.theta with
    | error e => simp only [krigingPredictor, hθ, bind, Except.bind] at h; cases h
    | ok θ =>
      simp only [krigingPredictor, hθ, krigingUniversal, bind, Except.bind] at h
      split at h
      · rename_i hd
        cases h
        simp only [ukDirect, bind, Except.bind, pure, Except.pure] at hd
        split at hd
        · cases hd
        · split at hd
          · cases hd
          · rename_i hv
            cases hd
            exact posteriorVariance_kind hv
      · simp only [ukNullspace, bind, Except.bind, pure, Except.pure] at h
        split at h
        · cases h
        · split at h
          · cases h
          · split at h
            · cases h
            · rename_i hv
              cases h
              exact posteriorVariance_kind hv

/-- **C206** What prediction refuses, in this order: an unknown mean type or a parameterised
mean without parameters (`ValueError`), then missing covariance parameters. -/
theorem predict_refusals (g : GP d q Θ M) (xi : Pts (q + r) d) (z : Fin (q + r) → ℝ) (xt : Pts m d)
    (zn c : Bool) (f : ℕ) :
    ((g.meantype ≠ "zero" ∧ g.meantype ≠ "linear_predictor" ∧ g.meantype ≠ "parameterized") ∨
      (g.meantype = "parameterized" ∧ g.meanparam = none) →
      predict be la f g xi (.vec z) xt zn c = .error .valueError) ∧
    (Usable g → g.covparam = none →
      predict be la f g xi (.vec z) xt zn c = .error .typeError) := by
  constructor
  · intro h
    have hr : g.refuses = true := by
      rcases h with ⟨h1, h2, h3⟩ | ⟨h1, h2⟩
      · simp [GP.refuses, h1, h2, h3]
      · simp [GP.refuses, h1, h2]
    change (if g.refuses = true then _ else _) = _
    rw [if_pos hr]
  · intro hu hn
    have hr : g.refuses = false := by
      rcases hu with h | h | ⟨h, _, h'⟩
      · simp [GP.refuses, h]
      · simp [GP.refuses, h]
      · obtain ⟨mp, hmp⟩ := Option.isSome_iff_exists.mp h'
        simp [GP.refuses, h, hmp]
    change (if g.refuses = true then _ else _) = _
    rw [if_neg (by simp [hr])]
    have hth : g.theta = .error .typeError := by simp [GP.theta, hn]
    change (do
      let θ ← g.theta
      let mt ← g.meanType (conv c be f xi) (conv c be (f + 1) xt)
      Core.predict la mt (g.arrays θ (conv c be f xi) (conv c be (f + 1) xt)) z zn) = _
    rw [hth]
    rfl

/-! ## Concrete cases -/

/-- A constant mean with one basis function. -/
def constMean {d : ℕ} : {n : ℕ} → Pts n d → Option Unit → Mat n 1 := fun _ _ => Matrix.of fun _ _ => 1

/-- Three points on a line, stored as a numpy array. -/
def exPts : Pts (1 + 2) 1 := ⟨0, .nd .working, Matrix.of ![![(0 : ℝ)], ![1], ![3]]⟩

noncomputable def exGP (mt : String) : GP 1 1 (Fin 2 → ℝ) Unit :=
  matern (Kernel.maternFormula 1) 1 mt constMean (some ()) (some ![0, 0])

example : Usable (exGP "zero") ∧ Usable (exGP "linear_predictor") ∧ Usable (exGP "parameterized") :=
  ⟨Or.inl rfl, Or.inr (Or.inl rfl), Or.inr (Or.inr ⟨rfl, rfl, rfl⟩)⟩

example : Pointwise (exGP "linear_predictor") ![0, 0] (maternKernel 1 ![0, 0])
    (10 * Real.exp ((![0, 0] : Fin 2 → ℝ) 0) * 1) fun _ _ => 1 :=
  matern_pointwise 1 1 ![0, 0] (fun _ _ => 1) fun _ _ _ => rfl

/-- Leave-one-out of the three points against refitting, unknown constant mean. -/
example : ∃ zl s e, loo .numpy (exactLA .numpy) 5 (exGP "linear_predictor") exPts
      (.vec ![1, 2, 4]) true = .ok (zl, s, e) ∧ ∀ i : Fin (1 + 1 + 1),
      ("linear_predictor" = "linear_predictor" →
        FullRank (constMean (drop (n := 1 + 1) exPts i 1 (.nd .working)) (some ()))) →
      ∃ mean var lam, predict .numpy (exactLA .numpy) 5 (exGP "linear_predictor")
          (drop (n := 1 + 1) exPts i 1 (.nd .working))
          (.vec (without (n := 1 + 1) ![1, 2, 4] i)) (single exPts i 2 (.nd .working)) false true =
            .ok (mean, var, lam) ∧
        zl i = mean 0 ∧ s i = var 0 + 10 * Real.exp ((![0, 0] : Fin 2 → ℝ) 0) * 1 ∧
        e i = (![1, 2, 4] : Fin 3 → ℝ) i - mean 0 :=
  matern_loo_refit (r := 1) (exactLA_contract .numpy) 1 ![0, 0] (fun _ _ => 1) (fun _ _ _ => rfl) _ rfl
    (Or.inr (Or.inl rfl)) exPts (Or.inl one_pos) ![1, 2, 4] (fun _ b hb => by
      have := congrFun hb 0
      ext i
      fin_cases i
      simpa [constMean, mulVec, dotProduct] using this) true 5 1 2 _ _ (by decide) (by decide) (by decide)

/-- On torch with numpy arrays the three data are not returned. -/
example (v : Fin (1 + 2) → ℝ) (lam : Mat (1 + 2) (1 + 2)) :
    predict .torch (exactLA .torch) 5 (exGP "zero") exPts (.vec ![1, 2, 4]) exPts true true ≠
      .ok (![1, 2, 4], v, lam) :=
  predict_at_data_false (exactLA_contract .torch) 1 one_pos ![0, 0] constMean (some ()) exPts _ rfl _
    (fun h => by have := congrFun h 0; simp at this) true 5 v lam

/-- **C206** Sample paths of a Matérn model: the normal draws times a square root of the covariance matrix
with the nugget, whatever object holds the points. -/
theorem matern_paths {np : ℕ} (hla : la.Sound be) (k : ℝ → ℝ) (eps : ℝ) (mtype : String)
    (mean : {n : ℕ} → Pts n d → Option M → Mat n q) (mp : Option M) (θ : Fin (d + 1) → ℝ) (f : ℕ) (xt : Pts n d)
    (hK : (Kernel.cov k eps θ xt.val .same).PosDef) :
    ∃ C : Mat n n, C * Cᵀ = Kernel.cov k eps θ xt.val .same ∧
      ∀ E : Mat n np, samplePaths be la f (matern k eps mtype mean mp (some θ)) xt E = .ok (C * E) := by
  obtain ⟨C, hC, h⟩ := samplePathsChol_spec (m := np) hla hK
  refine ⟨C, hC, fun E => ?_⟩
  have hv : (asarray be f xt).val = xt.val := by unfold asarray; split <;> rfl
  have hm : maternMat k eps (asarray be f xt) (asarray be f xt) θ = Kernel.cov k eps θ xt.val .same := by
    rw [maternMat_self, hv]
  simp only [samplePaths, GP.theta, matern, bind, Except.bind, hm]
  exact h E

end Verif.Core.Obj
