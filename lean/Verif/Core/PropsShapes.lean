import Verif.Core.Shapes
import Verif.Core.Contract
import Mathlib.Tactic.FinCases
import Mathlib.Tactic.NormNum

/-!
# Theorems: observations as vectors, columns and other shapes (C209–C211)
-/

set_option autoImplicit false

namespace Verif.Core.Sh

open Verif Verif.Data Matrix

variable {n q r : ℕ}

/-! ## Specification -/

/-- The array is the vector `v`. -/
def IsVec (a : Nd) (v : Fin n → ℝ) : Prop := a.shape = [n] ∧ ∀ i : Fin n, a.val [(i : ℕ)] = v i

/-- The array is the matrix `X`. -/
def IsMat {c : ℕ} (a : Nd) (X : Mat n c) : Prop :=
  a.shape = [n, c] ∧ ∀ (i : Fin n) (j : Fin c), a.val [(i : ℕ), (j : ℕ)] = X i j

/-- The observations as a vector or as a column. -/
def Obs (z : Fin n → ℝ) (a : Nd) : Prop := IsVec a z ∨ IsMat a (colVec z)

/-! ## Lemmas -/

theorem entry_fin {c : ℕ} (X : Mat n c) (i : Fin n) (j : Fin c) : entry X i j = X i j := by
  simp [entry]

theorem ofVec_isVec (v : Fin n → ℝ) : IsVec (ofVec v) v :=
  ⟨rfl, fun i => by simp [ofVec, entry, colVec]⟩

theorem ofMat_isMat {c : ℕ} (X : Mat n c) : IsMat (ofMat X) X :=
  ⟨rfl, fun i j => by simp [ofMat, entry]⟩

theorem bcast_self (be : Backend) (n : ℕ) : bcast be [n] [n] = .ok [n] := by
  simp [bcast, bcRev, bdim, bind, Except.bind, pure, Except.pure]

theorem zip_ok {be : Backend} (op : ℝ → ℝ → ℝ) {a b : Nd} {s : List ℕ} (h : bcast be a.shape b.shape = .ok s) :
    zip be op a b = .ok ⟨s, fun idx => op (a.val (bidx a.shape idx)) (b.val (bidx b.shape idx))⟩ := by
  simp only [zip, h, bind, Except.bind, pure, Except.pure]

theorem zip_err {be : Backend} (op : ℝ → ℝ → ℝ) {a b : Nd} {e : PyErr} (h : bcast be a.shape b.shape = .error e) :
    zip be op a b = .error e := by
  simp only [zip, h, bind, Except.bind]

theorem bidx_one (i : Fin n) : bidx [n] [(i : ℕ)] = [(i : ℕ)] := by
  have hi : (if n = 1 then 0 else (i : ℕ)) = i := by split <;> omega
  simp [bidx, hi]

/-- Vectors entry by entry. -/
theorem zip_vec (be : Backend) (op : ℝ → ℝ → ℝ) {u v : Fin n → ℝ} {a b : Nd} (ha : IsVec a u) (hb : IsVec b v) :
    ∃ c, zip be op a b = .ok c ∧ IsVec c (fun i => op (u i) (v i)) := by
  refine ⟨_, zip_ok op (by rw [ha.1, hb.1]; exact bcast_self be n), rfl, fun i => ?_⟩
  simp only [ha.1, hb.1, bidx_one, ha.2, hb.2]

/-- Solving with a vector or a column, both backends. -/
theorem cholSolve_obs (be : Backend) (la : LA) (K : Mat n n) {z : Fin n → ℝ} {a : Nd} (h : Obs z a) :
    (∃ e, la.chol K = .error e ∧ cholSolve be la K a = .error e ∧ choleskySolve la K (colVec z) = .error e) ∨
    ∃ x C b, la.chol K = .ok C ∧ choleskySolve la K (colVec z) = .ok (x, C) ∧ cholSolve be la K a = .ok (b, C) ∧
      (IsVec b (fun i => x i 0) ∨ IsMat b x) ∧ (IsMat a (colVec z) → IsMat b x) ∧
      (be = .torch → IsMat b x) ∧ (be = .numpy → IsVec a z → IsVec b (fun i => x i 0)) := by
  rcases hC : la.chol K with e | C
  · exact Or.inl ⟨e, rfl, by simp [cholSolve, hC, bind, Except.bind], by simp [choleskySolve, hC]⟩
  · right
    have hs : ∀ {m : ℕ} (b : Mat n m), choleskySolve la K b = .ok ((Cᵀ)⁻¹ * (C⁻¹ * b), C) := by
      intro m b; simp [choleskySolve, hC]
    rcases h with ⟨h1, h2⟩ | ⟨h1, h2⟩
    · have e1 : (colVec fun i : Fin n => a.val [(i : ℕ)]) = colVec z := by
        funext i j; simp [colVec, h2]
      cases be with
      | numpy =>
        refine ⟨_, C, ofVec (fun i => ((Cᵀ)⁻¹ * (C⁻¹ * colVec z)) i 0), rfl, hs _, ?_, Or.inl (ofVec_isVec _),
          fun h => absurd h.1 (by simp [h1]), (fun h => by cases h), fun _ _ => ofVec_isVec _⟩
        simp only [cholSolve, hC, bind, Except.bind, h1, if_true, e1, hs, pure, Except.pure]
      | torch =>
        refine ⟨_, C, ofMat ((Cᵀ)⁻¹ * (C⁻¹ * colVec z)), rfl, hs _, ?_, Or.inr (ofMat_isMat _),
          fun h => absurd h.1 (by simp [h1]), fun _ => ofMat_isMat _, fun h => by cases h⟩
        simp only [cholSolve, hC, bind, Except.bind, h1, if_true, e1, hs, pure, Except.pure]
    · have e1 : (Matrix.of fun (i : Fin n) (j : Fin 1) => a.val [(i : ℕ), (j : ℕ)]) = colVec z := by
        funext i j; exact h2 i j
      refine ⟨_, C, ofMat ((Cᵀ)⁻¹ * (C⁻¹ * colVec z)), rfl, hs _, ?_, ?_⟩
      · simp only [cholSolve, hC, bind, Except.bind, h1, if_true, e1, hs, pure, Except.pure]
      · exact ⟨Or.inr (ofMat_isMat _), fun _ => ofMat_isMat _, fun _ => ofMat_isMat _,
          fun _ h => absurd h.1 (by simp [h1])⟩

/-- The sum over the observations. -/
theorem einsumI_obs (be : Backend) {z x : Fin n → ℝ} {a b : Nd} (ha : Obs z a)
    (hb : Obs x b) : ∃ s, einsumI be a b = .ok s ∧ (s.shape = [] ∨ s.shape = [1]) ∧
      (s.shape = [] ↔ a.shape = [n] ∧ b.shape = [n]) ∧
      ∀ idx, idx.length = s.shape.length → s.val idx = ∑ i, z i * x i := by
  have hv : ∀ {y : Fin n → ℝ} {c : Nd} (t : List ℕ), Obs y c → c.shape = n :: t → (t = [] ∨ t = [1]) ∧
      ∀ (i : ℕ) (idx : List ℕ) (hi : i < n), idx.length ≤ 1 → (t = [1] → idx.length = 1) →
        c.val ((if n = 1 then 0 else i) :: bidx t idx) = y ⟨i, hi⟩ := by
    intro y c t hc ht
    rcases hc with ⟨h1, h2⟩ | ⟨h1, h2⟩
    · rw [h1] at ht
      have : t = [] := by simpa using ht.symm
      subst this
      refine ⟨Or.inl rfl, ?_⟩
      intro i idx hi _ _
      have e : (if n = 1 then 0 else i) = i := by split <;> omega
      rw [e]
      simpa [bidx] using h2 ⟨i, hi⟩
    · rw [h1] at ht
      have : t = [1] := by simpa using ht.symm
      subst this
      refine ⟨Or.inr rfl, ?_⟩
      intro i idx hi hl h1'
      have e : (if n = 1 then 0 else i) = i := by split <;> omega
      obtain ⟨k, rfl⟩ := List.length_eq_one_iff.mp (h1' rfl)
      rw [e]
      simpa [bidx, colVec] using h2 ⟨i, hi⟩ 0
  have shp : ∀ {y : Fin n → ℝ} {c : Nd}, Obs y c → ∃ t, c.shape = n :: t := by
    intro y c hc
    rcases hc with ⟨h1, _⟩ | ⟨h1, _⟩
    · exact ⟨[], h1⟩
    · exact ⟨[1], h1⟩
  obtain ⟨s, hs⟩ := shp ha
  obtain ⟨t, ht⟩ := shp hb
  obtain ⟨s1, s2⟩ := hv s ha hs
  obtain ⟨t1, t2⟩ := hv t hb ht
  have ho : ∃ o, bcast be s t = .ok o ∧ (o = [] ∨ o = [1]) ∧ (o = [] ↔ s = [] ∧ t = []) ∧
      (s = [1] ∨ t = [1] → o = [1]) := by
    rcases s1 with rfl | rfl <;> rcases t1 with rfl | rfl <;>
      simp [bcast, bcRev, bdim, bind, Except.bind, pure, Except.pure]
  obtain ⟨o, o1, o2, o3, o4⟩ := ho
  refine ⟨⟨o, fun idx => ∑ i ∈ Finset.range n, a.val ((if n = 1 then 0 else i) :: bidx s idx) *
    b.val ((if n = 1 then 0 else i) :: bidx t idx)⟩,
    by simp only [einsumI, hs, ht, bdim, if_true, bind, Except.bind, o1, pure, Except.pure], o2, ?_, ?_⟩
  · simp [hs, ht, o3]
  · intro idx hidx
    simp only at hidx ⊢
    rw [Finset.sum_range]
    refine Finset.sum_congr rfl fun i _ => ?_
    have hl : idx.length ≤ 1 := by rcases o2 with rfl | rfl <;> simp_all
    rw [s2 i idx i.2 hl (fun h => by rw [hidx, o4 (Or.inl h)]; rfl),
      t2 i idx i.2 hl (fun h => by rw [hidx, o4 (Or.inr h)]; rfl)]

theorem finish_ok (be : Backend) (m : ℕ) (C : Mat m m) (s : Nd) (v : ℝ) (hs : s.shape = [] ∨ s.shape = [1])
    (hv : ∀ idx, idx.length = s.shape.length → s.val idx = v) :
    finish be m C s = .ok (.finite (0.5 * (m * Real.log (2 * Real.pi) + 2 * ∑ i, Real.log (C i i) + v))) := by
  have hp : s.shape.prod = 1 := by rcases hs with h | h <;> simp [h]
  simp only [finish, scalar, hp, if_true, bind, Except.bind, pure, Except.pure]
  rw [hv _ (by simp)]

theorem IsMat.col {x : Mat n 1} {b : Nd} (h : IsMat b x) : IsMat b (colVec fun i => x i 0) :=
  ⟨h.1, fun i j => by rw [h.2, Subsingleton.elim j 0]; rfl⟩

theorem obs_of {x : Mat n 1} {b : Nd} (h : IsVec b (fun i => x i 0) ∨ IsMat b x) : Obs (fun i => x i 0) b :=
  h.imp id IsMat.col

/-! ## C209: columns -/

/-- **C209** The likelihood with zero mean takes a vector or a column, with the same value, on both
backends. -/
theorem nllZero_obs (be : Backend) (la : LA) (K : Mat n n) {z : Fin n → ℝ} {a : Nd} (h : Obs z a) :
    nllZero be la K a = nllZeroMean be la K z := by
  unfold nllZero nllZeroMean
  rcases cholSolve_obs be la K h with ⟨e, _, h1, h2⟩ | ⟨x, C, b, _, h1, h2, h3, _⟩
  · rw [h1, h2]
  · rw [h2, h1]
    obtain ⟨s, e1, e2, _, e4⟩ := einsumI_obs be h (obs_of h3)
    simp only [e1, bind, Except.bind]
    rw [finish_ok be n C s _ e2 e4]

theorem matmul_obs (be : Backend) {m : ℕ} (A : Mat m n) {z : Fin n → ℝ} {a : Nd} (h : Obs z a) :
    ∃ b, matmul be A a = .ok b ∧ Obs (A *ᵥ z) b ∧ (a.shape = [n] → b.shape = [m]) := by
  rcases h with ⟨h1, h2⟩ | ⟨h1, h2⟩
  · refine ⟨ofVec (A *ᵥ fun i => a.val [(i : ℕ)]), by simp [matmul, h1], ?_, fun _ => rfl⟩
    have : (fun i : Fin n => a.val [(i : ℕ)]) = z := funext h2
    rw [this]
    exact Or.inl (ofVec_isVec _)
  · have e1 : (Matrix.of fun (i : Fin n) (j : Fin 1) => a.val [(i : ℕ), (j : ℕ)]) = colVec z := by
      funext i j; exact h2 i j
    refine ⟨ofMat (A * colVec z), by simp only [matmul, h1, if_true, e1], Or.inr ?_, fun h => by
      rw [h1] at h; simp at h⟩
    have : A * colVec z = colVec (A *ᵥ z) := by
      funext i j; simp [colVec, Matrix.mul_apply, Matrix.mulVec, dotProduct]
    rw [this]
    exact ofMat_isMat _

/-- **C209** Likewise the restricted likelihood. -/
theorem nlrl_obs (be : Backend) (la : LA) (K : Mat (q + r) (q + r)) (P : Mat (q + r) q) {z : Fin (q + r) → ℝ}
    {a : Nd} (h : Obs z a) : nlrl be la K P a = reml be la K P z := by
  obtain ⟨b, h1, h2, _⟩ := matmul_obs be (contrastMatrix la P)ᵀ h
  simp only [nlrl, h1, bind, Except.bind, reml]
  rcases cholSolve_obs be la (contrastCov (contrastMatrix la P) K) h2 with ⟨e, _, g1, g2⟩ | ⟨x, C, b', _, g1, g2, g3, _⟩
  · rw [g1, g2]
  · rw [g2, g1]
    obtain ⟨s, e1, e2, _, e4⟩ := einsumI_obs be h2 (obs_of g3)
    simp only [e1]
    rw [finish_ok be r C s _ e2 e4]

/-- **C209** The likelihood with a given mean, for a vector. -/
theorem nllMean_vec (be : Backend) (la : LA) (K : Mat n n) (mi : Fin n → ℝ) {z : Fin n → ℝ} {a : Nd}
    (h : IsVec a z) : nllMean be la K mi a = nll be la K mi z := by
  obtain ⟨c, h1, h2⟩ := zip_vec be (· - ·) h (ofVec_isVec mi)
  simp only [nllMean, h1, bind, Except.bind, nll]
  exact nllZero_obs be la K (Or.inl h2)

/-- The array of differences of a column and a vector. -/
theorem sub_col (be : Backend) (op : ℝ → ℝ → ℝ) {mi z : Fin n → ℝ} {a b : Nd} (h : IsMat a (colVec z)) (hb : IsVec b mi) :
    ∃ c, zip be op a b = .ok c ∧ IsMat c (Matrix.of fun i j => op (z i) (mi j) : Mat n n) := by
  have e : bcast be a.shape b.shape = .ok [n, n] := by
    rw [h.1, hb.1]
    by_cases h1 : (1 : ℕ) = n
    · subst h1; simp [bcast, bcRev, bdim, bind, Except.bind, pure, Except.pure]
    · simp [bcast, bcRev, bdim, bind, Except.bind, pure, Except.pure, h1]
  refine ⟨_, zip_ok op e, rfl, fun i j => ?_⟩
  have hi : (if n = 1 then 0 else (i : ℕ)) = i := by split <;> omega
  have hj : (if n = 1 then 0 else (j : ℕ)) = j := by split <;> omega
  simp only [h.1, hb.1, bidx, List.length_cons, List.length_nil, List.drop, List.zipWith, hi, hj, Nat.sub_self,
    if_true]
  have := h.2 i 0
  simp only [Fin.coe_ofNat_eq_mod, Nat.zero_mod] at this
  simp [this, hb.2 j, colVec]

/-- **C209** is false for the likelihood with a given mean: a column of two or more observations raises,
since it becomes a square matrix. -/
theorem nllMean_col_false (be : Backend) (la : LA) (K : Mat n n) (hn : 2 ≤ n) {C : Mat n n}
    (hC : la.chol K = .ok C) (mi : Fin n → ℝ) {z : Fin n → ℝ} {a : Nd} (h : IsMat a (colVec z)) :
    nllMean be la K mi a = .error (errShape be) := by
  obtain ⟨c, h1, h2, h3⟩ := sub_col be (· - ·) h (ofVec_isVec mi)
  simp only [nllMean, h1, bind, Except.bind]
  have hs : ∀ {m : ℕ} (b : Mat n m), choleskySolve la K b = .ok ((Cᵀ)⁻¹ * (C⁻¹ * b), C) := by
    intro m b; simp [choleskySolve, hC]
  have e : ∃ x : Mat n n, cholSolve be la K c = .ok (ofMat x, C) :=
    ⟨(Cᵀ)⁻¹ * (C⁻¹ * Matrix.of fun (i : Fin n) (j : Fin n) => c.val [(i : ℕ), (j : ℕ)]),
      by simp only [cholSolve, hC, bind, Except.bind, h2, if_true, hs, pure, Except.pure]⟩
  obtain ⟨x, e⟩ := e
  have e2 : bcast be [n] [n] = .ok [n] := bcast_self be n
  have hn1 : n ≠ 1 := by omega
  simp only [nllZero, e, einsumI, h2, ofMat, bdim, if_true, bind, Except.bind, e2, pure, Except.pure, finish,
    scalar, List.prod_cons, List.prod_nil, mul_one, if_neg hn1]

/-- One observation: accepted. -/
theorem nllMean_col_one (be : Backend) (la : LA) (K : Mat 1 1) (mi : Fin 1 → ℝ) {z : Fin 1 → ℝ} {a : Nd}
    (h : IsMat a (colVec z)) : nllMean be la K mi a = nll be la K mi z := by
  obtain ⟨c, h1, h2, h3⟩ := sub_col be (· - ·) h (ofVec_isVec mi)
  simp only [nllMean, h1, bind, Except.bind, nll]
  refine nllZero_obs be la K (Or.inr ⟨h2, fun i j => ?_⟩)
  rw [h3 i j, Subsingleton.elim j i]
  rfl

/-- `reshape(-1)` of a vector or a column. -/
theorem ravel_obs {z : Fin n → ℝ} {a : Nd} (h : Obs z a) : IsVec (ravel a) z := by
  rcases h with ⟨h1, h2⟩ | ⟨h1, h2⟩
  · refine ⟨by simp [ravel, h1], fun i => ?_⟩
    simp only [ravel, h1, unravel, List.prod_nil, Nat.div_one, List.headD_cons]
    exact h2 i
  · refine ⟨by simp [ravel, h1], fun i => ?_⟩
    simp only [ravel, h1, unravel, List.prod_nil, List.prod_cons, Nat.div_one, List.headD_cons, mul_one, Nat.mod_one]
    exact h2 i 0

/-- **C209** Leave-one-out of a vector, zero mean: on both backends the arrays are those of the model. -/
theorem looZero_vec (be : Backend) (la : LA) (K : Mat n n) {z : Fin n → ℝ} {a : Nd} (h : IsVec a z) :
    (∀ e, looZeroMean la K z = .error e ↔ looZero be la K a = .error e) ∧
    ∀ zl s e, looZeroMean la K z = .ok (zl, s, e) →
      ∃ zl' s' e', looZero be la K a = .ok (zl', s', e') ∧ IsVec zl' zl ∧ IsVec s' s ∧ IsVec e' e := by
  rcases cholSolve_obs be la K (Or.inl h) with ⟨e, _, h1, h2⟩ | ⟨x, C, b, _, h1, h2, h3, _⟩
  · simp [looZeroMean, looZero, h1, h2, bind, Except.bind]
  · obtain ⟨c, c1, c2⟩ := zip_vec be (· / ·) (ravel_obs (obs_of h3)) (ofVec_isVec (diagKinvFromChol C true))
    obtain ⟨d, d1, d2⟩ := zip_vec be (· - ·) h c2
    have e1 : looZero be la K a = .ok (d, ⟨(ofVec (diagKinvFromChol C true)).shape,
        fun idx => 1 / (ofVec (diagKinvFromChol C true)).val idx⟩, c) := by
      simp only [looZero, h2, bind, Except.bind, c1, d1, pure, Except.pure]
    constructor
    · intro e
      rw [e1]
      simp [looZeroMean, h1, bind, Except.bind, pure, Except.pure]
    · intro zl s e he
      simp only [looZeroMean, h1, bind, Except.bind, pure, Except.pure, Except.ok.injEq, Prod.mk.injEq] at he
      obtain ⟨rfl, rfl, rfl⟩ := he
      refine ⟨_, _, _, e1, d2, ⟨rfl, fun i => ?_⟩, c2⟩
      simp only [(ofVec_isVec (diagKinvFromChol C true)).2 i]

/-- **C209** is false for the functions of `gpmp.core.loo`, which document columns: the predictions are a
square array whose diagonal has the leave-one-out predictions (zero mean). -/
theorem looZero_col_false (be : Backend) (la : LA) (K : Mat n n) {z zl s e : Fin n → ℝ} {a : Nd}
    (h : IsMat a (colVec z)) (hok : looZeroMean la K z = .ok (zl, s, e)) :
    ∃ zl' s' e', looZero be la K a = .ok (zl', s', e') ∧ IsVec s' s ∧ IsVec e' e ∧
      IsMat zl' (Matrix.of fun i j => z i - e j : Mat n n) ∧ zl'.shape ≠ [n] ∧ ∀ i : Fin n, zl'.val [(i : ℕ), (i : ℕ)] = zl i := by
  rcases cholSolve_obs be la K (Or.inr h) with ⟨e, _, h1, h2⟩ | ⟨x, C, b, _, h1, h2, h3, _⟩
  · simp [looZeroMean, h2, bind, Except.bind] at hok
  · obtain ⟨c, c1, c2⟩ := zip_vec be (· / ·) (ravel_obs (obs_of h3)) (ofVec_isVec (diagKinvFromChol C true))
    obtain ⟨d, d1, d2⟩ := sub_col be (· - ·) h c2
    have e1 : looZero be la K a = .ok (d, ⟨(ofVec (diagKinvFromChol C true)).shape,
        fun idx => 1 / (ofVec (diagKinvFromChol C true)).val idx⟩, c) := by
      simp only [looZero, h2, bind, Except.bind, c1, d1, pure, Except.pure]
    simp only [looZeroMean, h1, bind, Except.bind, pure, Except.pure, Except.ok.injEq, Prod.mk.injEq] at hok
    obtain ⟨rfl, rfl, rfl⟩ := hok
    refine ⟨_, _, _, e1, ⟨rfl, fun i => ?_⟩, c2, d2, by rw [d2.1]; simp, fun i => d2.2 i i⟩
    simp only [(ofVec_isVec (diagKinvFromChol C true)).2 i]

/-- **C209** Leave-one-out of a vector with a given mean: the arrays are those of the model. -/
theorem looMean_vec (be : Backend) (la : LA) (K : Mat n n) (mi : Fin n → ℝ) {z : Fin n → ℝ} {a : Nd}
    (h : IsVec a z) :
    (∀ e, looParameterized la K mi z = .error e ↔ looMean be la K mi a = .error e) ∧
    ∀ zl s e, looParameterized la K mi z = .ok (zl, s, e) →
      ∃ zl' s' e', looMean be la K mi a = .ok (zl', s', e') ∧ IsVec zl' zl ∧ IsVec s' s ∧ IsVec e' e := by
  obtain ⟨c, c1, c2⟩ := zip_vec be (· - ·) h (ofVec_isVec mi)
  obtain ⟨g1, g2⟩ := looZero_vec be la K c2
  cases hz : looZeroMean la K (fun i => z i - mi i) with
  | error e =>
    have := (g1 e).1 hz
    have hz' : looZeroMean la K (z - mi) = .error e := hz
    simp [looParameterized, hz', looMean, c1, this, bind, Except.bind]
  | ok r =>
    obtain ⟨zl, s, e⟩ := r
    obtain ⟨zl', s', e', h1, h2, h3, h4⟩ := g2 zl s e hz
    obtain ⟨d, d1, d2⟩ := zip_vec be (· + ·) h2 (ofVec_isVec mi)
    have e1 : looMean be la K mi a = .ok (d, s', e') := by
      simp only [looMean, c1, bind, Except.bind, h1, d1, pure, Except.pure]
    have hz' : looZeroMean la K (z - mi) = .ok (zl, s, e) := hz
    constructor
    · intro x
      rw [e1]
      simp [looParameterized, hz', bind, Except.bind, pure, Except.pure]
    · intro a1 a2 a3 ha
      simp only [looParameterized, hz', bind, Except.bind, pure, Except.pure, Except.ok.injEq, Prod.mk.injEq] at ha
      obtain ⟨rfl, rfl, rfl⟩ := ha
      exact ⟨_, _, _, e1, d2, h3, h4⟩

/-- **C209** With a parameterised mean a column of two or more raises. -/
theorem looMean_col_false (be : Backend) (la : LA) (K : Mat n n) (hn : 2 ≤ n) {C : Mat n n}
    (hC : la.chol K = .ok C) (mi : Fin n → ℝ) {z : Fin n → ℝ} {a : Nd} (h : IsMat a (colVec z)) :
    looMean be la K mi a = .error (errShape be) := by
  obtain ⟨c, h1, h2, h3⟩ := sub_col be (· - ·) h (ofVec_isVec mi)
  have hs : ∀ {m : ℕ} (b : Mat n m), choleskySolve la K b = .ok ((Cᵀ)⁻¹ * (C⁻¹ * b), C) := by
    intro m b; simp [choleskySolve, hC]
  have e : ∃ x : Mat n n, cholSolve be la K c = .ok (ofMat x, C) :=
    ⟨(Cᵀ)⁻¹ * (C⁻¹ * Matrix.of fun (i : Fin n) (j : Fin n) => c.val [(i : ℕ), (j : ℕ)]),
      by simp only [cholSolve, hC, bind, Except.bind, h2, if_true, hs, pure, Except.pure]⟩
  obtain ⟨x, e⟩ := e
  have hb : bcast be (ravel (ofMat x)).shape (ofVec (diagKinvFromChol C true)).shape = .error (errShape be) := by
    have n1 : n * n ≠ n := by intro h; have : 2 * n ≤ n * n := Nat.mul_le_mul_right n hn; omega
    have n2 : n * n ≠ 1 := by intro h; have : 2 * n ≤ n * n := Nat.mul_le_mul_right n hn; omega
    have n3 : n ≠ 1 := by omega
    simp [ravel, ofMat, ofVec, bcast, bcRev, bdim, bind, Except.bind, n1, n2, n3]
  simp only [looMean, h1, bind, Except.bind, looZero, e, zip_err (· / ·) hb]

theorem matmul_col (be : Backend) {m : ℕ} (A : Mat m n) {z : Fin n → ℝ} {a : Nd} (h : IsMat a (colVec z)) :
    ∃ b, matmul be A a = .ok b ∧ IsMat b (colVec (A *ᵥ z)) := by
  refine ⟨ofMat (A * (Matrix.of fun (i : Fin n) (j : Fin 1) => a.val [(i : ℕ), (j : ℕ)])),
    by simp only [matmul, h.1, if_true], ?_⟩
  have e : (Matrix.of fun (i : Fin n) (j : Fin 1) => a.val [(i : ℕ), (j : ℕ)]) = colVec z := by
    ext i j; exact h.2 i j
  rw [e]
  have : A * colVec z = colVec (A *ᵥ z) := by
    ext i j; simp [colVec, Matrix.mul_apply, Matrix.mulVec, dotProduct]
  rw [this]
  exact ofMat_isMat _

/-- A column and a square array. -/
theorem sub_col_mat (be : Backend) (op : ℝ → ℝ → ℝ) {m : ℕ} {z : Fin n → ℝ} {X : Mat n m} {a b : Nd}
    (h : IsMat a (colVec z)) (hb : IsMat b X) :
    ∃ c, zip be op a b = .ok c ∧ IsMat c (Matrix.of fun i j => op (z i) (X i j) : Mat n m) := by
  have e : bcast be a.shape b.shape = .ok [n, m] := by
    rw [h.1, hb.1]
    by_cases h1 : (1 : ℕ) = m
    · subst h1; simp [bcast, bcRev, bdim, bind, Except.bind, pure, Except.pure]
    · simp [bcast, bcRev, bdim, bind, Except.bind, pure, Except.pure, h1]
  refine ⟨_, zip_ok op e, rfl, fun i j => ?_⟩
  have hi : (if n = 1 then 0 else (i : ℕ)) = i := by split <;> omega
  have hj : (if m = 1 then 0 else (j : ℕ)) = j := by split <;> omega
  have h0 := h.2 i 0
  have hb0 := hb.2 i j
  simp only [Fin.val_zero] at h0
  simp [h.1, hb.1, bidx, hi, hj, h0, hb0, colVec]

/-- **C209** Leave-one-out with an unknown linear mean: for a vector, the arrays of the model; for a
column, square arrays. -/
theorem looLin_obs (be : Backend) (la : LA) (K : Mat (q + r) (q + r)) (P : Mat (q + r) q)
    {z zl s e : Fin (q + r) → ℝ} {a : Nd} (hok : looCpd la K P z = .ok (zl, s, e)) :
    (IsVec a z → ∃ zl' s' e', looLin be la K P a = .ok (zl', s', e') ∧ IsVec zl' zl ∧ IsVec s' s ∧ IsVec e' e) ∧
    (IsMat a (colVec z) → ∃ zl' s' e', looLin be la K P a = .ok (zl', s', e') ∧ IsVec s' s ∧
      e'.shape = [q + r, q + r] ∧ zl'.shape = [q + r, q + r] ∧
      ∀ i : Fin (q + r), e'.val [(i : ℕ), (i : ℕ)] = e i ∧ zl'.val [(i : ℕ), (i : ℕ)] = zl i) := by
  rcases hS : choleskySolve la (contrastCov (contrastMatrix la P) K) (contrastMatrix la P)ᵀ with err | ⟨S, C⟩
  · simp only [contrastCov, contrastMatrix] at hS
    simp only [looCpd, bind, Except.bind, hS] at hok
    cases hok
  have hok' : zl = (fun i => z i - (contrastMatrix la P *ᵥ (S *ᵥ z)) i / ∑ k, contrastMatrix la P i k * S k i) ∧
      s = (fun i => 1 / ∑ k, contrastMatrix la P i k * S k i) ∧
      e = (fun i => (contrastMatrix la P *ᵥ (S *ᵥ z)) i / ∑ k, contrastMatrix la P i k * S k i) := by
    simp only [contrastCov, contrastMatrix] at hS
    simp only [looCpd, hS, bind, Except.bind, pure, Except.pure, Except.ok.injEq, Prod.mk.injEq] at hok
    exact ⟨hok.1.symm, hok.2.1.symm, hok.2.2.symm⟩
  obtain ⟨rfl, rfl, rfl⟩ := hok'
  have hq := ofVec_isVec (fun i => ∑ k, contrastMatrix la P i k * S k i)
  constructor
  · intro h
    obtain ⟨u, u1, u2, u3⟩ := matmul_obs be S (Or.inl h)
    obtain ⟨w, w1, w2, w3⟩ := matmul_obs be (contrastMatrix la P) u2
    have w4 : IsVec w (contrastMatrix la P *ᵥ (S *ᵥ z)) := by
      rcases w2 with w2 | w2
      · exact w2
      · have := w3 (u3 h.1); rw [w2.1] at this; simp at this
    obtain ⟨c, c1, c2⟩ := zip_vec be (· / ·) w4 hq
    obtain ⟨d, d1, d2⟩ := zip_vec be (· - ·) h c2
    refine ⟨_, _, _, by simp only [looLin, hS, bind, Except.bind, u1, w1, c1, d1, pure, Except.pure]; rfl,
      d2, ⟨rfl, fun i => ?_⟩, c2⟩
    simp only [hq.2 i]
  · intro h
    obtain ⟨u, u1, u2, u3⟩ := matmul_col be S h
    obtain ⟨w, w1, w2⟩ := matmul_col be (contrastMatrix la P) ⟨u2, u3⟩
    obtain ⟨c, c1, c2⟩ := sub_col be (· / ·) w2 hq
    obtain ⟨d, d1, d2, d3⟩ := sub_col_mat be (· - ·) h c2
    refine ⟨_, _, _, by simp only [looLin, hS, bind, Except.bind, u1, w1, c1, d1, pure, Except.pure]; rfl,
      ⟨rfl, fun i => ?_⟩, c2.1, d2, fun i => ⟨c2.2 i i, d3 i i⟩⟩
    simp only [hq.2 i]

/-! ## C210: wrong lengths -/

/-- **C210** A wrong number of observations is refused by the restricted likelihood on both backends and
by the likelihood with zero mean on numpy. -/
theorem length_refused (la : LA) (K : Mat (q + r) (q + r)) (P : Mat (q + r) q) {C : Mat (q + r) (q + r)}
    (hC : la.chol K = .ok C) {a : Nd} {k : ℕ} (ha : a.shape = [k] ∨ a.shape = [k, 1]) (hk : k ≠ q + r) :
    (∀ be, nlrl be la K P a = .error (errShape be)) ∧ nllZero .numpy la K a = .error .valueError := by
  constructor
  · intro be
    rcases ha with h | h <;> simp [nlrl, matmul, h, hk, bind, Except.bind]
  · rcases ha with h | h <;>
      simp [nllZero, cholSolve, h, hk, hC, bind, Except.bind, onChol, errShape]

/-- **C210** is false on torch: the likelihood with zero mean takes the exception of the wrong length for
a failed factorisation and returns infinity. -/
theorem length_torch_false (la : LA) (K : Mat n n) {C : Mat n n} (hC : la.chol K = .ok C) {a : Nd} {k : ℕ}
    (ha : a.shape = [k] ∨ a.shape = [k, 1]) (hk : k ≠ n) : nllZero .torch la K a = .ok .inf := by
  rcases ha with h | h <;> simp [nllZero, cholSolve, h, hk, hC, bind, Except.bind, onChol, errShape]

/-- **C210** With a given mean other lengths than one and `n` are refused on both backends; a single
observation is repeated (so C210 is false). -/
theorem length_mean (be : Backend) (la : LA) (K : Mat n n) (mi : Fin n → ℝ) (hn : 2 ≤ n) {a : Nd} {k : ℕ}
    (ha : a.shape = [k]) :
    (k ≠ n → k ≠ 1 → nllMean be la K mi a = .error (errShape be)) ∧
    (k = 1 → nllMean be la K mi a = nll be la K mi fun _ => a.val [0]) := by
  constructor
  · intro h1 h2
    have n1 : n ≠ 1 := by omega
    have hb : bcast be a.shape (ofVec mi).shape = .error (errShape be) := by
      simp [ha, ofVec, bcast, bcRev, bdim, bind, Except.bind, h1, h2, n1]
    simp only [nllMean, zip_err (· - ·) hb, bind, Except.bind]
  · rintro rfl
    have n1 : (1 : ℕ) ≠ n := by omega
    have hb : bcast be a.shape (ofVec mi).shape = .ok [n] := by
      simp [ha, ofVec, bcast, bcRev, bdim, bind, Except.bind, n1, pure, Except.pure]
    simp only [nllMean, zip_ok (· - ·) hb, bind, Except.bind, nll]
    refine nllZero_obs be la K (Or.inl ⟨rfl, fun i => ?_⟩)
    simp only [ha]
    rw [show (ofVec mi).shape = [n] from rfl, bidx_one, (ofVec_isVec mi).2 i]
    simp [bidx]

/-- **C210** Several columns are refused by the likelihoods. -/
theorem columns_refused (be : Backend) (la : LA) (K : Mat (q + r) (q + r)) (P : Mat (q + r) q) {c : ℕ} (hc : c ≠ 1)
    {X : Mat (q + r) c} {a : Nd} (ha : IsMat a X) :
    (∀ C, la.chol K = .ok C → nllZero be la K a = .error (errShape be)) ∧
    (∀ C, la.chol (contrastCov (contrastMatrix la P) K) = .ok C → nlrl be la K P a = .error (errShape be)) := by
  have key : ∀ {n : ℕ} (K : Mat n n) (C : Mat n n) (a : Nd), la.chol K = .ok C → a.shape = [n, c] →
      ∃ x : Mat n c, cholSolve be la K a = .ok (ofMat x, C) := by
    intro n K C a hC h
    have hs : ∀ {m : ℕ} (b : Mat n m), choleskySolve la K b = .ok ((Cᵀ)⁻¹ * (C⁻¹ * b), C) := by
      intro m b; simp [choleskySolve, hC]
    exact ⟨(Cᵀ)⁻¹ * (C⁻¹ * Matrix.of fun (i : Fin n) (j : Fin c) => a.val [(i : ℕ), (j : ℕ)]),
      by simp only [cholSolve, hC, bind, Except.bind, h, if_true, hs, pure, Except.pure]⟩
  constructor
  · intro C hC
    obtain ⟨x, hx⟩ := key K C a hC ha.1
    simp [nllZero, hx, einsumI, ha.1, ofMat, bdim, bind, Except.bind, bcast_self, pure, Except.pure, finish, scalar, hc]
  · intro C hC
    have hm : matmul be (contrastMatrix la P)ᵀ a = .ok (ofMat ((contrastMatrix la P)ᵀ *
        (Matrix.of fun (i : Fin (q + r)) (j : Fin c) => a.val [(i : ℕ), (j : ℕ)]))) := by
      simp only [matmul, ha.1, if_true]
    obtain ⟨x, hx⟩ := key (contrastCov (contrastMatrix la P) K) C (ofMat ((contrastMatrix la P)ᵀ *
        (Matrix.of fun (i : Fin (q + r)) (j : Fin c) => a.val [(i : ℕ), (j : ℕ)]))) hC rfl
    simp only [nlrl, hm, hx, bind, Except.bind]
    simp [einsumI, ofMat, bdim, bind, Except.bind, bcast_self, pure, Except.pure, finish, scalar, hc]

/-! ## C211: shapes of the results -/

/-- **C211** The squared norm with zero mean: the value is right for vectors and columns; the result is a
number only for vectors on numpy, else an array with one entry. -/
theorem normZero_obs (be : Backend) (la : LA) (K : Mat n n) {z : Fin n → ℝ} {a : Nd} (h : Obs z a) :
    (∀ e, normKSqrdZeroMean la K z = .error e → normZero be la K a = .error e) ∧
    ∀ v, normKSqrdZeroMean la K z = .ok v → ∃ s, normZero be la K a = .ok s ∧ scalar be s = .ok v ∧
      (s.shape = [] ∨ s.shape = [1]) ∧ (s.shape = [] ↔ be = .numpy ∧ a.shape = [n]) := by
  rcases cholSolve_obs be la K h with ⟨e, _, h1, h2⟩ | ⟨x, C, b, _, h1, h2, h3, h4, h5, h6⟩
  · simp [normKSqrdZeroMean, normZero, h1, h2, bind, Except.bind]
  · obtain ⟨s, e1, e2, e3, e4⟩ := einsumI_obs be h (obs_of h3)
    refine ⟨fun e he => by simp [normKSqrdZeroMean, h1, bind, Except.bind, pure, Except.pure] at he, ?_⟩
    intro v hv
    simp only [normKSqrdZeroMean, h1, bind, Except.bind, pure, Except.pure, Except.ok.injEq] at hv
    refine ⟨s, by simp only [normZero, h2, bind, Except.bind, e1], ?_, e2, ?_⟩
    · have hp : s.shape.prod = 1 := by rcases e2 with h | h <;> simp [h]
      simp only [scalar, hp, if_true]
      rw [e4 _ (by simp), hv]
    · rw [e3]
      constructor
      · rintro ⟨g1, g2⟩
        refine ⟨?_, g1⟩
        cases be with
        | numpy => rfl
        | torch => have := (h5 rfl).1; rw [g2] at this; simp at this
      · rintro ⟨rfl, g⟩
        refine ⟨g, ?_⟩
        rcases h with h | h
        · exact (h6 rfl h).1
        · rw [h.1] at g; simp at g

/-- **C211** is false: `norm_k_sqrd_with_zero_mean` of a vector is an array with one axis on torch. -/
theorem normZero_shape_false (la : LA) (K : Mat n n) {z : Fin n → ℝ} {a : Nd} (h : IsVec a z) {v : ℝ}
    (hv : normKSqrdZeroMean la K z = .ok v) : ∃ s, normZero .torch la K a = .ok s ∧ s.shape = [1] := by
  obtain ⟨s, h1, _, h2, h3⟩ := (normZero_obs .torch la K (Or.inl h)).2 v hv
  refine ⟨s, h1, h2.resolve_left fun h => ?_⟩
  cases (h3.mp h).1

/-- **C211** The same for the restricted norm. -/
theorem norm_obs (be : Backend) (la : LA) (K : Mat (q + r) (q + r)) (P : Mat (q + r) q) {z : Fin (q + r) → ℝ}
    {a : Nd} (h : Obs z a) :
    (∀ e, normKSqrd la K P z = .error e → norm be la K P a = .error e) ∧
    ∀ v, normKSqrd la K P z = .ok v → ∃ s, norm be la K P a = .ok s ∧ scalar be s = .ok v ∧
      (s.shape = [] ∨ s.shape = [1]) ∧ (be = .torch → s.shape = [1]) ∧
      (be = .numpy → IsVec a z → s.shape = []) := by
  obtain ⟨b, b1, b2, b3⟩ := matmul_obs be (contrastMatrix la P)ᵀ h
  have hn : norm be la K P a = normZero be la (contrastCov (contrastMatrix la P) K) b := by
    simp only [norm, b1, bind, Except.bind, normZero]
  have hs : normKSqrd la K P z = normKSqrdZeroMean la (contrastCov (contrastMatrix la P) K)
      ((contrastMatrix la P)ᵀ *ᵥ z) := rfl
  rw [hn, hs]
  obtain ⟨g1, g2⟩ := normZero_obs be la (contrastCov (contrastMatrix la P) K) b2
  refine ⟨g1, fun v hv => ?_⟩
  obtain ⟨s, s1, s2, s3, s4⟩ := g2 v hv
  refine ⟨s, s1, s2, s3, ?_, ?_⟩
  · rintro rfl
    exact s3.resolve_left fun h => by cases (s4.mp h).1
  · rintro rfl ha
    exact s4.mpr ⟨rfl, b3 ha.1⟩

/-- The product of a matrix and a vector or a column by `einsum`: a vector in both cases. -/
theorem einsumMat_obs (be : Backend) (A : Mat n n) {z : Fin n → ℝ} {a : Nd} (h : Obs z a) :
    ∃ c, einsumMat be A a = .ok c ∧ IsVec c (A *ᵥ z) := by
  have hif : ∀ i : Fin n, (if n = 1 then 0 else (i : ℕ)) = i := by intro i; split <;> omega
  have hb : ∀ t : List ℕ, t = [] ∨ t = [1] → bcast be [n] t = .ok [n] := by
    rintro t (rfl | rfl)
    · simp [bcast, bcRev, bind, Except.bind, pure, Except.pure]
    · by_cases h1 : n = 1
      · subst h1; simp [bcast, bcRev, bdim, bind, Except.bind, pure, Except.pure]
      · simp [bcast, bcRev, bdim, bind, Except.bind, pure, Except.pure, h1]
  rcases h with ⟨h1, h2⟩ | ⟨h1, h2⟩
  · refine ⟨⟨[n], fun idx => ∑ i ∈ Finset.range n,
      entry A ((bidx [n] idx).headD 0) (if n = 1 then 0 else i) * a.val ((if n = 1 then 0 else i) :: bidx [] idx)⟩,
      by simp only [einsumMat, h1, bdim, if_true, bind, Except.bind, hb [] (Or.inl rfl), pure, Except.pure], rfl,
      fun j => ?_⟩
    simp only [bidx_one, List.headD_cons, Matrix.mulVec, dotProduct]
    rw [Finset.sum_range]
    refine Finset.sum_congr rfl fun i _ => ?_
    rw [hif i, entry_fin]
    congr 1
    exact h2 i
  · refine ⟨⟨[n], fun idx => ∑ i ∈ Finset.range n,
      entry A ((bidx [n] idx).headD 0) (if n = 1 then 0 else i) * a.val ((if n = 1 then 0 else i) :: bidx [1] idx)⟩,
      by simp only [einsumMat, h1, bdim, if_true, bind, Except.bind, hb [1] (Or.inr rfl), pure, Except.pure], rfl,
      fun j => ?_⟩
    simp only [bidx_one, List.headD_cons, Matrix.mulVec, dotProduct]
    rw [Finset.sum_range]
    refine Finset.sum_congr rfl fun i _ => ?_
    rw [hif i, entry_fin]
    congr 1
    simpa [bidx, colVec] using h2 i 0

/-- **C211** `k_inverses`: the values for vectors and columns; the two solutions are vectors in both
cases, although the documentation says columns for columns; `zᵀK⁻¹z` has one axis for a column. -/
theorem kInverses_obs (be : Backend) (la : LA) (K : Mat n n) {z : Fin n → ℝ} {a : Nd} (h : Obs z a) :
    (∀ e, Core.kInverses la K z = .error e → kInverses be la K a = .error e) ∧
    ∀ v K1 Kz, Core.kInverses la K z = .ok (v, K1, Kz) → ∃ s c1 cz, kInverses be la K a = .ok (s, c1, cz) ∧
      IsVec c1 K1 ∧ IsVec cz Kz ∧ scalar be s = .ok v ∧ (s.shape = [] ∨ s.shape = [1]) ∧
      (s.shape = [] ↔ a.shape = [n]) := by
  rcases hi : la.inv K with e | A
  · simp [Core.kInverses, kInverses, hi, bind, Except.bind]
  · refine ⟨fun e he => by simp [Core.kInverses, hi, bind, Except.bind, pure, Except.pure] at he, ?_⟩
    intro v K1 Kz hv
    simp only [Core.kInverses, hi, bind, Except.bind, pure, Except.pure, Except.ok.injEq, Prod.mk.injEq] at hv
    obtain ⟨rfl, rfl, rfl⟩ := hv
    have h1 : Obs (fun _ : Fin n => (1 : ℝ)) ⟨a.shape, fun _ => 1⟩ := by
      rcases h with h | h
      · exact Or.inl ⟨h.1, fun _ => rfl⟩
      · exact Or.inr ⟨h.1, fun _ _ => rfl⟩
    obtain ⟨cz, z1, z2⟩ := einsumMat_obs be A h
    obtain ⟨c1, o1, o2⟩ := einsumMat_obs be A h1
    obtain ⟨s, e1, e2, e3, e4⟩ := einsumI_obs be h (Or.inl z2)
    refine ⟨s, c1, cz, by simp only [kInverses, hi, bind, Except.bind, z1, o1, e1, pure, Except.pure], o2, z2, ?_, e2, ?_⟩
    · have hp : s.shape.prod = 1 := by rcases e2 with h | h <;> simp [h]
      simp only [scalar, hp, if_true]
      rw [e4 _ (by simp)]
    · rw [e3]; exact ⟨And.left, fun h => ⟨h, z2.1⟩⟩

/-- **C211** As many columns as points: the two solutions are one vector each, the diagonal of the
matrix of solutions, and no error. -/
theorem kInverses_square (be : Backend) (la : LA) (K A X : Mat n n) (hi : la.inv K = .ok A) {a : Nd}
    (h : IsMat a X) : ∃ s c1 cz, kInverses be la K a = .ok (s, c1, cz) ∧ IsVec cz (fun j => (A * X) j j) := by
  have hif : ∀ i : Fin n, (if n = 1 then 0 else (i : ℕ)) = i := by intro i; split <;> omega
  have em : ∀ b : Nd, b.shape = [n, n] → einsumMat be A b = .ok ⟨[n], fun idx => ∑ i ∈ Finset.range n,
      entry A ((bidx [n] idx).headD 0) (if n = 1 then 0 else i) * b.val ((if n = 1 then 0 else i) :: bidx [n] idx)⟩ := by
    intro b hb
    simp only [einsumMat, hb, bdim, if_true, bind, Except.bind, bcast_self, pure, Except.pure]
  have hs : ∀ c : Nd, c.shape = [n] → ∃ s, einsumI be a c = .ok s := by
    intro c hc
    refine ⟨_, by
      simp only [einsumI, h.1, hc, bdim, if_true, bind, Except.bind,
        show bcast be [n] [] = .ok [n] from by simp [bcast, bcRev, bind, Except.bind, pure, Except.pure],
        pure, Except.pure]; rfl⟩
  obtain ⟨s, hs⟩ := hs ⟨[n], fun idx => ∑ i ∈ Finset.range n,
      entry A ((bidx [n] idx).headD 0) (if n = 1 then 0 else i) * a.val ((if n = 1 then 0 else i) :: bidx [n] idx)⟩ rfl
  refine ⟨s, _, _, by
    simp only [kInverses, hi, bind, Except.bind, em a h.1, em ⟨a.shape, fun _ => 1⟩ h.1, hs, pure, Except.pure]; rfl,
    rfl, fun j => ?_⟩
  simp only [bidx_one, List.headD_cons, Matrix.mul_apply]
  rw [Finset.sum_range]
  refine Finset.sum_congr rfl fun i _ => ?_
  rw [hif i, entry_fin, h.2 i j]

/-! ## C209: conditional sample paths -/

theorem ravelCol_obs {z : Fin n → ℝ} {a : Nd} (h : Obs z a) : IsMat (ravelCol a) (colVec z) := by
  rcases h with ⟨h1, h2⟩ | ⟨h1, h2⟩
  · refine ⟨by simp [ravelCol, h1], fun i j => ?_⟩
    simp only [ravelCol, h1, unravel, List.prod_nil, Nat.div_one, List.headD_cons]
    exact h2 i
  · refine ⟨by simp [ravelCol, h1], fun i j => ?_⟩
    simp only [ravelCol, h1, unravel, List.prod_nil, List.prod_cons, Nat.div_one, List.headD_cons, mul_one, Nat.mod_one]
    exact h2 i 0

theorem zip_mat (be : Backend) (op : ℝ → ℝ → ℝ) {m : ℕ} {X Y : Mat n m} {a b : Nd}
    (h : IsMat a X) (hb : IsMat b Y) :
    ∃ c, zip be op a b = .ok c ∧ IsMat c (Matrix.of fun i j => op (X i j) (Y i j) : Mat n m) := by
  have e : bcast be a.shape b.shape = .ok [n, m] := by
    rw [h.1, hb.1]
    simp [bcast, bcRev, bdim, bind, Except.bind, pure, Except.pure]
  refine ⟨_, zip_ok op e, rfl, fun i j => ?_⟩
  have hi : (if n = 1 then 0 else (i : ℕ)) = i := by split <;> omega
  have hj : (if m = 1 then 0 else (j : ℕ)) = j := by split <;> omega
  simp [h.1, hb.1, bidx, hi, hj, h.2 i j, hb.2 i j]

theorem zip_mat_col (be : Backend) (op : ℝ → ℝ → ℝ) {m : ℕ} {z : Fin n → ℝ} {X : Mat n m} {a b : Nd}
    (hb : IsMat b X) (h : IsMat a (colVec z)) :
    ∃ c, zip be op b a = .ok c ∧ IsMat c (Matrix.of fun i j => op (X i j) (z i) : Mat n m) := by
  have e : bcast be b.shape a.shape = .ok [n, m] := by
    rw [h.1, hb.1]
    by_cases h1 : m = 1
    · subst h1; simp [bcast, bcRev, bdim, bind, Except.bind, pure, Except.pure]
    · simp [bcast, bcRev, bdim, bind, Except.bind, pure, Except.pure, h1]
  refine ⟨_, zip_ok op e, rfl, fun i j => ?_⟩
  have hi : (if n = 1 then 0 else (i : ℕ)) = i := by split <;> omega
  have hj : (if m = 1 then 0 else (j : ℕ)) = j := by split <;> omega
  have h0 := h.2 i 0
  have hb0 := hb.2 i j
  simp only [Fin.val_zero] at h0
  simp [h.1, hb.1, bidx, hi, hj, h0, hb0, colVec]

theorem einsumLam_mat (be : Backend) {ni nt np : ℕ} (lam : Mat ni nt) {D : Mat ni np} {d : Nd} (h : IsMat d D) :
    ∃ c, einsumLam be lam d = .ok c ∧ IsMat c (Matrix.of fun j k => ∑ i, lam i j * D i k : Mat nt np) := by
  refine ⟨_, by simp only [einsumLam, h.1, bdim, if_true, bind, Except.bind, pure, Except.pure]; rfl, rfl, fun j k => ?_⟩
  have hif : ∀ i : Fin ni, (if ni = 1 then 0 else (i : ℕ)) = i := by intro i; split <;> omega
  simp only [Matrix.of_apply]
  rw [Finset.sum_range]
  refine Finset.sum_congr rfl fun i _ => ?_
  rw [hif i]
  have := h.2 i k
  simp only [List.getD_cons_zero, List.getD_cons_succ, entry_fin, this]

variable {N ni nt np : ℕ}

/-- **C209** Conditional paths take a vector or a column, with the same result. -/
theorem condPaths_obs (be : Backend) (ztsim : Mat N np) (xiInd : Fin ni → Fin N) {z : Fin ni → ℝ} {a : Nd}
    (h : Obs z a) (xtInd : Fin nt → Fin N) (lam : Mat ni nt) :
    ∃ c, condPaths be ztsim xiInd a xtInd lam = .ok c ∧ IsMat c (Core.condPaths ztsim xiInd z xtInd lam) := by
  obtain ⟨d, d1, d2⟩ := sub_col_mat be (· - ·) (ravelCol_obs h) (ofMat_isMat (ztsim.submatrix xiInd id))
  obtain ⟨l, l1, l2⟩ := einsumLam_mat be lam d2
  obtain ⟨c, c1, c2⟩ := zip_mat be (· + ·) (ofMat_isMat (ztsim.submatrix xtInd id)) l2
  exact ⟨c, by simp only [condPaths, d1, bind, Except.bind, l1, c1], c2⟩

/-- **C209** Conditional paths with a parameterised mean, vectors. -/
theorem condPathsMean_vec (be : Backend) (ztsim : Mat N np) (mi : Fin ni → ℝ) (xiInd : Fin ni → Fin N)
    {z : Fin ni → ℝ} {a : Nd} (h : IsVec a z) (mt : Fin nt → ℝ) (xtInd : Fin nt → Fin N) (lam : Mat ni nt) :
    ∃ c, condPathsMean be ztsim mi xiInd a mt xtInd lam = .ok c ∧
      IsMat c (Core.condPathsMean ztsim mi xiInd z mt xtInd lam) := by
  obtain ⟨u, u1, u2⟩ := zip_vec be (· - ·) h (ofVec_isVec mi)
  obtain ⟨d, d1, d2⟩ := sub_col_mat be (· - ·) (ravelCol_obs (Or.inl u2)) (ofMat_isMat (ztsim.submatrix xiInd id))
  obtain ⟨l, l1, l2⟩ := einsumLam_mat be lam d2
  obtain ⟨c, c1, c2⟩ := zip_mat be (· + ·) (ofMat_isMat (ztsim.submatrix xtInd id)) l2
  obtain ⟨o, o1, o2⟩ := zip_mat_col be (· + ·) c2 (ofMat_isMat (colVec mt))
  exact ⟨o, by simp only [condPathsMean, u1, d1, bind, Except.bind, l1, c1, o1], o2⟩

/-- **C209** is false for conditional paths with a parameterised mean: a column of two or more raises. -/
theorem condPathsMean_col_false (be : Backend) (ztsim : Mat N np) (mi : Fin ni → ℝ) (xiInd : Fin ni → Fin N)
    (hn : 2 ≤ ni) {z : Fin ni → ℝ} {a : Nd} (h : IsMat a (colVec z)) (mt : Fin nt → ℝ) (xtInd : Fin nt → Fin N)
    (lam : Mat ni nt) : condPathsMean be ztsim mi xiInd a mt xtInd lam = .error (errShape be) := by
  obtain ⟨u, u1, u2, _⟩ := sub_col be (· - ·) h (ofVec_isVec mi)
  have n1 : ni * ni ≠ ni := by intro h; have : 2 * ni ≤ ni * ni := Nat.mul_le_mul_right ni hn; omega
  have n2 : ni * ni ≠ 1 := by intro h; have : 2 * ni ≤ ni * ni := Nat.mul_le_mul_right ni hn; omega
  have n3 : ni ≠ 1 := by omega
  have hb : bcast be (ravelCol u).shape (ofMat (ztsim.submatrix xiInd id)).shape = .error (errShape be) := by
    by_cases hp : (1 : ℕ) = np
    · subst hp
      simp [ravelCol, u2, ofMat, bcast, bcRev, bdim, bind, Except.bind, n1, n2, n3]
    · simp [ravelCol, u2, ofMat, bcast, bcRev, bdim, bind, Except.bind, n1, n2, n3, hp]
  simp only [condPathsMean, u1, bind, Except.bind, zip_err (· - ·) hb]

/-- **C210** is false for conditional paths: a single observation is repeated for all the points. -/
theorem condPaths_single_false (be : Backend) (ztsim : Mat N np) (xiInd : Fin ni → Fin N) {a : Nd} (ha : a.shape = [1])
    (xtInd : Fin nt → Fin N) (lam : Mat ni nt) :
    ∃ c, condPaths be ztsim xiInd a xtInd lam = .ok c ∧
      IsMat c (Core.condPaths ztsim xiInd (fun _ => a.val [0]) xtInd lam) := by
  have hd : ∃ d, zip be (· - ·) (ravelCol a) (ofMat (ztsim.submatrix xiInd id)) = .ok d ∧
      IsMat d (Matrix.of fun i k => a.val [0] - ztsim (xiInd i) k : Mat ni np) := by
    have e : bcast be (ravelCol a).shape (ofMat (ztsim.submatrix xiInd id)).shape = .ok [ni, np] := by
      by_cases h1 : (1 : ℕ) = ni <;> by_cases h2 : (1 : ℕ) = np <;> try subst h1
      all_goals try subst h2
      all_goals simp [ravelCol, ha, ofMat, bcast, bcRev, bdim, bind, Except.bind, pure, Except.pure, *]
    refine ⟨_, zip_ok _ e, rfl, fun i k => ?_⟩
    have hi : (if ni = 1 then 0 else (i : ℕ)) = i := by split <;> omega
    have hk : (if np = 1 then 0 else (k : ℕ)) = k := by split <;> omega
    simp [ravelCol, ha, bidx, unravel, ofMat, hi, hk, entry_fin]
  obtain ⟨d, d1, d2⟩ := hd
  obtain ⟨l, l1, l2⟩ := einsumLam_mat be lam d2
  obtain ⟨c, c1, c2⟩ := zip_mat be (· + ·) (ofMat_isMat (ztsim.submatrix xtInd id)) l2
  exact ⟨c, by simp only [condPaths, d1, bind, Except.bind, l1, c1], c2⟩

/-- **C210** Other lengths than one and `ni` are refused. -/
theorem condPaths_refused (be : Backend) (ztsim : Mat N np) (xiInd : Fin ni → Fin N) {a : Nd} {k : ℕ}
    (ha : a.shape = [k] ∨ a.shape = [k, 1]) (h1 : k ≠ ni) (h2 : k ≠ 1) (h3 : ni ≠ 1)
    (xtInd : Fin nt → Fin N) (lam : Mat ni nt) :
    condPaths be ztsim xiInd a xtInd lam = .error (errShape be) := by
  have hb : bcast be (ravelCol a).shape (ofMat (ztsim.submatrix xiInd id)).shape = .error (errShape be) := by
    by_cases hp : (1 : ℕ) = np <;> rcases ha with ha | ha <;> try subst hp
    all_goals simp [ravelCol, ha, ofMat, bcast, bcRev, bdim, bind, Except.bind, *]
  simp only [condPaths, bind, Except.bind, zip_err (· - ·) hb]

/-! ## Examples -/

/-- A column of two observations with the identity as covariance. -/
example (be : Backend) :
    nllMean be (exactLA be) (1 : Mat 2 2) ![0, 0] (ofMat (colVec ![1, 2])) = .error (errShape be) := by
  obtain ⟨C, hC, _⟩ := (exactLA_contract be).chol_ok (1 : Mat 2 2) Matrix.PosDef.one
  exact nllMean_col_false be _ _ le_rfl hC _ (ofMat_isMat _)

/-- Three observations for two points. -/
example : nllZero .torch (exactLA .torch) (1 : Mat 2 2) (ofVec ![1, 2, 3]) = .ok .inf ∧
    nllZero .numpy (exactLA .numpy) (1 : Mat 2 2) (ofVec ![1, 2, 3]) = .error .valueError := by
  obtain ⟨C, hC, _⟩ := (exactLA_contract .torch).chol_ok (1 : Mat 2 2) Matrix.PosDef.one
  obtain ⟨D, hD, _⟩ := (exactLA_contract .numpy).chol_ok (1 : Mat 2 2) Matrix.PosDef.one
  exact ⟨length_torch_false _ _ hC (Or.inl rfl) (by decide),
    (length_refused (q := 0) (r := 2) _ _ 0 hD (Or.inl rfl) (by decide)).2⟩

/-- One observation for two points. -/
example (be : Backend) : nllMean be (exactLA be) (1 : Mat 2 2) ![0, 0] (ofVec ![5]) =
    nll be (exactLA be) (1 : Mat 2 2) ![0, 0] ![5, 5] := by
  rw [((length_mean be (exactLA be) (1 : Mat 2 2) ![0, 0] le_rfl (k := 1) (a := ofVec ![5]) rfl).2 rfl)]
  congr 1
  ext i
  fin_cases i <;> simp [ofVec, entry, colVec]

/-- Conditional paths, two points and two paths. -/
example (be : Backend) : ∃ c, condPaths be (!![5, 6; 7, 8] : Mat 2 2) ![0] (ofMat (colVec ![9])) ![0, 1]
    (!![1, 0] : Mat 1 2) = .ok c ∧ IsMat c (!![9, 9; 7, 8] : Mat 2 2) := by
  obtain ⟨c, h1, h2⟩ := condPaths_obs be (!![5, 6; 7, 8] : Mat 2 2) ![0] (Or.inr (ofMat_isMat (colVec ![9])))
    ![0, 1] (!![1, 0] : Mat 1 2)
  refine ⟨c, h1, h2.1, fun i j => (h2.2 i j).trans ?_⟩
  fin_cases i <;> fin_cases j <;> simp [Core.condPaths]

end Verif.Core.Sh
