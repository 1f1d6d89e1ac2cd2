import Mathlib.Tactic.Linarith
import Verif.Misc.ScoreArrays
import Verif.Misc.PropsScoreE
import Verif.Misc.PropsScoreT

/-!
# C275: scoring rules on arrays
-/

set_option autoImplicit false

namespace Verif.Score

open Verif Verif.Backend.Elem

/-- The array stands for the `n` numbers `f`: a vector, or one number. -/
def Is (n : ℕ) (a : Arr) (f : ℕ → Flt) : Prop :=
  (a.shape = [n] ∧ ∀ i < n, a.val [i] = f i) ∨ (a.shape = [] ∧ ∀ i < n, a.val [] = f i)

theorem zip_is {n : ℕ} {x y : Arr} {f g : ℕ → Flt} (op : Flt → Flt → Flt) (hx : Is n x f) (hy : Is n y g) :
    ∃ r, x.zip op y = .ok r ∧ Is n r (fun i => op (f i) (g i)) ∧
      (r.shape = [n] ∨ r.shape = []) ∧ (x.shape = [n] ∨ y.shape = [n] → r.shape = [n]) := by
  have key : ∀ i < n, (if n = 1 then 0 else i) = i := by
    intro i hi
    split
    · omega
    · rfl
  rcases hx with ⟨hs, hx⟩ | ⟨hs, hx⟩ <;> rcases hy with ⟨ht, hy⟩ | ⟨ht, hy⟩
  · have hb : broadcast x.shape y.shape = some [n] := by simp [broadcast, hs, ht, bcR, axisLen]
    refine ⟨_, by simp only [Arr.zip, hb]; rfl, Or.inl ⟨rfl, fun i hi => ?_⟩, Or.inl rfl, fun _ => rfl⟩
    simp [pull, pullR, hs, ht, key i hi, hx i hi, hy i hi]
  · have hb : broadcast x.shape y.shape = some [n] := by simp [broadcast, hs, ht, bcR]
    refine ⟨_, by simp only [Arr.zip, hb]; rfl, Or.inl ⟨rfl, fun i hi => ?_⟩, Or.inl rfl, fun _ => rfl⟩
    simp [pull, pullR, hs, ht, key i hi, hx i hi, hy i hi]
  · have hb : broadcast x.shape y.shape = some [n] := by simp [broadcast, hs, ht, bcR]
    refine ⟨_, by simp only [Arr.zip, hb]; rfl, Or.inl ⟨rfl, fun i hi => ?_⟩, Or.inl rfl, fun _ => rfl⟩
    simp [pull, pullR, hs, ht, key i hi, hx i hi, hy i hi]
  · have hb : broadcast x.shape y.shape = some [] := by simp [broadcast, hs, ht, bcR]
    refine ⟨_, by simp only [Arr.zip, hb]; rfl, Or.inr ⟨rfl, fun i hi => ?_⟩, Or.inr rfl, fun h => ?_⟩
    · simp [pull, pullR, hs, ht, hx i hi, hy i hi]
    · rw [hs, ht] at h
      simp at h

theorem map_is {n : ℕ} {x : Arr} {f : ℕ → Flt} (φ : Flt → Flt) (hx : Is n x f) :
    Is n (x.map φ) (fun i => φ (f i)) := by
  rcases hx with ⟨hs, hx⟩ | ⟨hs, hx⟩
  · exact Or.inl ⟨hs, fun i hi => by simp [Arr.map, hx i hi]⟩
  · exact Or.inr ⟨hs, fun i hi => by simp [Arr.map, hx i hi]⟩

theorem is_vec {n : ℕ} {x : Arr} {f : ℕ → Flt} (hx : Is n x f) (hs : x.shape = [n]) :
    ∀ i < n, x.val [i] = f i := by
  rcases hx with ⟨-, hx⟩ | ⟨h, -⟩
  · exact hx
  · rw [hs] at h; cases h

/-- The array is a vector with the entries `f`. -/
def Vec (n : ℕ) (a : Arr) (f : ℕ → Flt) : Prop := a.shape = [n] ∧ ∀ i < n, a.val [i] = f i

theorem Vec.is {n : ℕ} {a : Arr} {f : ℕ → Flt} (h : Vec n a f) : Is n a f := Or.inl h

theorem zip_vec {n : ℕ} {x y : Arr} {f g : ℕ → Flt} (op : Flt → Flt → Flt) (hx : Is n x f) (hy : Is n y g)
    (h : x.shape = [n] ∨ y.shape = [n]) :
    ∃ r, x.zip op y = .ok r ∧ Vec n r (fun i => op (f i) (g i)) := by
  obtain ⟨r, h1, h2, -, h4⟩ := zip_is op hx hy
  exact ⟨r, h1, h4 h, is_vec h2 (h4 h)⟩

theorem Vec.map {n : ℕ} {a : Arr} {f : ℕ → Flt} (φ : Flt → Flt) (h : Vec n a f) :
    Vec n (a.map φ) (fun i => φ (f i)) :=
  ⟨h.1, fun i hi => by simp [Arr.map, h.2 i hi]⟩

/-- `t` is computed, and is a vector if one of the arguments is. -/
theorem quot_vec {n : ℕ} {x y s : Arr} {f g σ : ℕ → ℝ} (hx : Is n x fun i => Flt.fin (f i))
    (hy : Is n y fun i => Flt.fin (g i)) (hs : Is n s fun i => Flt.fin (σ i))
    (h : x.shape = [n] ∨ y.shape = [n] ∨ s.shape = [n]) :
    ∃ d t, x.zip Flt.sub y = .ok d ∧ d.zip Flt.div s = .ok t ∧
      Vec n t (fun i => Flt.div (Flt.fin (f i - g i)) (Flt.fin (σ i))) := by
  obtain ⟨d, h1, h2, -, h4⟩ := zip_is Flt.sub hx hy
  obtain ⟨t, e1, e2⟩ := zip_vec Flt.div h2 hs (by
    rcases h with h | h | h
    · exact Or.inl (h4 (Or.inl h))
    · exact Or.inl (h4 (Or.inr h))
    · exact Or.inr h)
  exact ⟨d, t, h1, e1, by simpa using e2⟩

variable {n : ℕ} {mu sigma z : Arr} {m σ v : ℕ → ℝ}

/-- **C275** `ei1_up` works entry by entry on vectors; numbers are used for all entries. -/
theorem ei1A_vec (hm : Is n mu fun i => Flt.fin (m i)) (hs : Is n sigma fun i => Flt.fin (σ i))
    (hz : Is n z fun i => Flt.fin (v i)) (h : mu.shape = [n] ∨ z.shape = [n] ∨ sigma.shape = [n]) :
    ∃ r, ei1A mu sigma z = .ok r ∧ Vec n r (fun i => ei1 (m i) (σ i) (v i)) := by
  obtain ⟨d, t, e1, e2, ht⟩ := quot_vec hm hz hs h
  obtain ⟨r, e3, hr⟩ := zip_vec Flt.mul hs (ht.map h1).is (Or.inr ht.1)
  exact ⟨r, by simp only [ei1A, e1, e2, bind, Except.bind]; exact e3, hr⟩

theorem cdf2_is (bvn : Bvn) (C : Matrix (Fin 2) (Fin 2) ℝ) (n : ℕ) (c0 c1 : ℕ → Flt) :
    Is n (cdf2 bvn C n c0 c1) (fun i => bvn (c0 i) (c1 i) C) := by
  unfold cdf2
  by_cases h : n = 1
  · rw [if_pos h]
    refine Or.inr ⟨rfl, fun i hi => ?_⟩
    obtain rfl : i = 0 := by omega
    rfl
  · rw [if_neg h]
    exact Or.inl ⟨rfl, fun i _ => rfl⟩

/-- The end of `ei2_up`, once `t` is a vector. -/
theorem ei2_tail (bvn : Bvn) {t : Arr} {f : ℕ → Flt} {σ : ℕ → Flt} (ht : Vec n t f) (hs : Is n sigma σ) :
    ∃ a b c r, (t.map (Flt.mul (Flt.fin 2))).zip Flt.mul (cdf2 bvn (D2 * D2.transpose) t.shape.prod
        (fun k => t.val (unravel t.shape k)) (fun _ => Flt.fin 0)) = .ok a ∧
      a.zip Flt.add (t.map fun a => (Flt.mul (Flt.fin 2) (npdf a)).mul (ncdf a.neg)) = .ok b ∧
      b.zip Flt.add (t.map fun a => (Flt.div (Flt.fin 1) (Flt.fin √Real.pi)).mul
        (ncdf (Flt.div a (Flt.fin √(1 / 2))))) = .ok c ∧
      sigma.zip Flt.mul c = .ok r ∧
      Vec n r (fun i => (σ i).mul ((((Flt.fin 2).mul (f i)).mul (bvn (f i) (Flt.fin 0) (D2 * D2.transpose))).add
        (((Flt.fin 2).mul (npdf (f i))).mul (ncdf (f i).neg)) |>.add
        ((Flt.div (Flt.fin 1) (Flt.fin √Real.pi)).mul (ncdf (Flt.div (f i) (Flt.fin √(1 / 2))))))) := by
  have hp : t.shape.prod = n := by simp [ht.1]
  have hc := cdf2_is bvn (D2 * D2.transpose) n (fun k => t.val (unravel t.shape k)) (fun _ => Flt.fin 0)
  have hc' : Is n (cdf2 bvn (D2 * D2.transpose) n (fun k => t.val (unravel t.shape k)) (fun _ => Flt.fin 0))
      (fun i => bvn (f i) (Flt.fin 0) (D2 * D2.transpose)) := by
    have e : ∀ i < n, t.val (unravel t.shape i) = f i := by
      intro i hi
      rw [ht.1, ← ht.2 i hi]
      simp [unravel]
    rcases hc with ⟨h1, h2⟩ | ⟨h1, h2⟩
    · exact Or.inl ⟨h1, fun i hi => by rw [h2 i hi]; simp only [e i hi]⟩
    · exact Or.inr ⟨h1, fun i hi => by rw [h2 i hi]; simp only [e i hi]⟩
  rw [hp]
  obtain ⟨a, e1, ha⟩ := zip_vec Flt.mul (ht.map (Flt.mul (Flt.fin 2))).is hc' (Or.inl ht.1)
  obtain ⟨b, e2, hb⟩ := zip_vec Flt.add ha.is
    (ht.map fun a => (Flt.mul (Flt.fin 2) (npdf a)).mul (ncdf a.neg)).is (Or.inl ha.1)
  obtain ⟨c, e3, hc⟩ := zip_vec Flt.add hb.is (ht.map fun a => (Flt.div (Flt.fin 1) (Flt.fin √Real.pi)).mul
    (ncdf (Flt.div a (Flt.fin √(1 / 2))))).is (Or.inl hb.1)
  obtain ⟨r, e4, hr⟩ := zip_vec Flt.mul hs hc.is (Or.inr hc.1)
  exact ⟨a, b, c, r, e1, e2, e3, e4, hr⟩

/-- **C275** `ei2_up` works entry by entry on vectors (also of length one). -/
theorem ei2A_vec (bvn : Bvn) (hm : Is n mu fun i => Flt.fin (m i)) (hs : Is n sigma fun i => Flt.fin (σ i))
    (hz : Is n z fun i => Flt.fin (v i)) (h : mu.shape = [n] ∨ z.shape = [n] ∨ sigma.shape = [n]) :
    ∃ r, ei2A bvn mu sigma z = .ok r ∧ Vec n r (fun i => ei2 bvn (m i) (σ i) (v i)) := by
  obtain ⟨d, t, e1, e2, ht⟩ := quot_vec hm hz hs h
  obtain ⟨a, b, c, r, h1, h2, h3, h4, hr⟩ := ei2_tail bvn ht hs
  have hne : t.shape ≠ [] := by rw [ht.1]; simp
  have hp : ¬ (t.shape.prod ≠ t.shape.headD 0) := by rw [ht.1]; simp
  refine ⟨r, ?_, hr⟩
  simp only [ei2A, e1, e2, bind, Except.bind, if_neg hne, if_neg hp]
  rw [h1]
  simp only []
  rw [h2]
  simp only []
  rw [h3]
  exact h4

/-- **C275** `ei2_up` of numbers is an array with one entry, not a number. -/
theorem ei2A_number (bvn : Bvn) (m σ v : ℝ) :
    ∃ r, ei2A bvn ⟨[], fun _ => Flt.fin m⟩ ⟨[], fun _ => Flt.fin σ⟩ ⟨[], fun _ => Flt.fin v⟩ = .ok r ∧
      r.shape = [1] ∧ r.val [0] = ei2 bvn m σ v := by
  have hs : Is 1 (⟨[], fun _ => Flt.fin σ⟩ : Arr) (fun _ => Flt.fin σ) := Or.inr ⟨rfl, fun _ _ => rfl⟩
  have ht : Vec 1 (⟨[1], fun _ => Flt.div (Flt.fin (m - v)) (Flt.fin σ)⟩ : Arr)
      (fun _ => Flt.div (Flt.fin (m - v)) (Flt.fin σ)) := ⟨rfl, fun _ _ => rfl⟩
  obtain ⟨a, b, c, r, h1, h2, h3, h4, hr⟩ := ei2_tail bvn ht hs
  refine ⟨r, ?_, hr.1, hr.2 0 (by omega)⟩
  have e1 : (⟨[], fun _ => Flt.fin m⟩ : Arr).zip Flt.sub ⟨[], fun _ => Flt.fin v⟩ =
      .ok ⟨[], fun _ => Flt.fin (m - v)⟩ := by
    simp [Arr.zip, broadcast, bcR]
  have e2 : (⟨[], fun _ => Flt.fin (m - v)⟩ : Arr).zip Flt.div ⟨[], fun _ => Flt.fin σ⟩ =
      .ok ⟨[], fun _ => Flt.div (Flt.fin (m - v)) (Flt.fin σ)⟩ := by
    simp [Arr.zip, broadcast, bcR]
  have hp : ¬ ((([1] : List ℕ)).prod ≠ ([1] : List ℕ).headD 0) := by simp
  simp only [ei2A, e1, e2, bind, Except.bind, if_true, if_neg hp]
  rw [h1]
  simp only []
  rw [h2]
  simp only []
  rw [h3]
  exact h4

/-- **C275** `crps_gaussian` works entry by entry on vectors. -/
theorem crpsA_vec (hm : Is n mu fun i => Flt.fin (m i)) (hs : Is n sigma fun i => Flt.fin (σ i))
    (hz : Is n z fun i => Flt.fin (v i)) (h : mu.shape = [n] ∨ z.shape = [n] ∨ sigma.shape = [n]) :
    ∃ r, crpsA mu sigma z = .ok r ∧ Vec n r (fun i => crps (m i) (σ i) (v i)) := by
  obtain ⟨d, t, e1, e2, ht⟩ := quot_vec hz hm hs (by tauto)
  obtain ⟨a, e3, ha⟩ := zip_vec Flt.add (ht.map fun a => a.mul ((Flt.mul (Flt.fin 2) (ncdf a)).sub (Flt.fin 1))).is
    (ht.map fun a => Flt.mul (Flt.fin 2) (npdf a)).is (Or.inl ht.1)
  obtain ⟨r, e4, hr⟩ := zip_vec Flt.mul hs
    (ha.map fun a => a.sub (Flt.div (Flt.fin 1) (Flt.fin √Real.pi))).is (Or.inr ha.1)
  refine ⟨r, ?_, hr⟩
  simp only [crpsA, e1, e2, e3, bind, Except.bind]
  exact e4

/-! ## Truncated scores -/

theorem larger_fin (a b : ℝ) : larger (Flt.fin a) (Flt.fin b) = Flt.fin (max a b) := by
  simp only [larger, Flt.fin]
  rcases le_total a b with h | h
  · rw [max_eq_right h, max_eq_right (by exact_mod_cast h)]
  · rw [max_eq_left h, max_eq_left (by exact_mod_cast h)]

theorem smaller_fin (a b : ℝ) : smaller (Flt.fin a) (Flt.fin b) = Flt.fin (min a b) := by
  simp only [smaller, Flt.fin]
  rcases le_total a b with h | h
  · rw [min_eq_left h, min_eq_left (by exact_mod_cast h)]
  · rw [min_eq_right h, min_eq_right (by exact_mod_cast h)]

theorem number_is (a : ℝ) : Is n ⟨[], fun _ => Flt.fin a⟩ (fun _ => Flt.fin a) :=
  Or.inr ⟨rfl, fun _ _ => rfl⟩

theorem whereLe_vec {b x : Arr} {u : ℕ → ℝ} {g : ℕ → Flt} (hz : Is n z fun i => Flt.fin (v i))
    (hb : Is n b fun i => Flt.fin (u i)) (hx : Vec n x g) :
    ∃ r, whereLe z b x = .ok r ∧ Vec n r (fun i => if v i ≤ u i then g i else Flt.fin 0) := by
  classical
  obtain ⟨c, e1, hc, -, -⟩ := zip_is (fun u v => if Flt.le u v then Flt.fin 1 else Flt.fin 0) hz hb
  obtain ⟨r, e2, hr⟩ := zip_vec (fun u v => if u = Flt.fin 1 then v else Flt.fin 0) hc hx.is (Or.inr hx.1)
  refine ⟨r, ?_, hr.1, fun i hi => ?_⟩
  · simp only [whereLe]
    have e1' : z.zip (fun u v => open Classical in if Flt.le u v then Flt.fin 1 else Flt.fin 0) b = .ok c := by
      convert e1
    rw [e1']
    simp only [bind, Except.bind]
    convert e2
  · rw [hr.2 i hi]
    have h10 : Flt.fin 0 ≠ Flt.fin 1 := fun h => zero_ne_one (Flt.fin_inj.mp h)
    by_cases h : v i ≤ u i <;> simp [h, h10]

theorem is_map_neg {f : ℕ → ℝ} {x : Arr} (h : Is n x fun i => Flt.fin (f i)) :
    Is n (x.map Flt.neg) fun i => Flt.fin (-f i) := by
  have := map_is Flt.neg h
  simpa using this

theorem tcrpsUpperA_vec (bvn : Bvn) (hm : Is n mu fun i => Flt.fin (m i)) (hs : Is n sigma fun i => Flt.fin (σ i))
    (hz : Is n z fun i => Flt.fin (v i)) (b : ℝ)
    (h : mu.shape = [n] ∨ sigma.shape = [n]) :
    ∃ r, tcrpsUpperA bvn mu sigma z ⟨[], fun _ => Flt.fin b⟩ = .ok r ∧
      Vec n r (fun i => tcrpsUpper bvn (m i) (σ i) (v i) b) := by
  have hb := number_is (n := n) b
  obtain ⟨t1, e1, ht1, -, -⟩ := zip_is smaller hb hz
  obtain ⟨a2, e2, ha2⟩ := ei2A_vec bvn hm hs hb (by tauto)
  obtain ⟨mm, e3, hmm, -, -⟩ := zip_is Flt.add hm (map_is (fun u => u.div (Flt.fin √Real.pi)) hs)
  obtain ⟨t2, e4, ht2⟩ := zip_vec Flt.sub ha2.is hmm (Or.inl ha2.1)
  obtain ⟨b1, e5, hb1⟩ := ei1A_vec hm hs hb (by tauto)
  obtain ⟨z1, e6, hz1⟩ := ei1A_vec hm hs hz (by tauto)
  obtain ⟨d1, e7, hd1⟩ := zip_vec Flt.sub hb1.is hz1.is (Or.inl hb1.1)
  obtain ⟨w, e8, hw⟩ := whereLe_vec hz hb hd1
  obtain ⟨s, e9, hs'⟩ := zip_vec Flt.add ht1 ht2.is (Or.inr ht2.1)
  obtain ⟨r, e10, hr⟩ := zip_vec Flt.add hs'.is (hw.map (Flt.mul (Flt.fin (-2)))).is (Or.inl hs'.1)
  refine ⟨r, ?_, hr.1, fun i hi => ?_⟩
  · simp only [tcrpsUpperA, bind, Except.bind, e1, e2, e3, e4, e5, e6, e7, e8, e9]
    exact e10
  · rw [hr.2 i hi]
    simp only [smaller_fin]
    rfl

theorem tcrpsBothA_vec (bvn : Bvn) (hm : Is n mu fun i => Flt.fin (m i)) (hs : Is n sigma fun i => Flt.fin (σ i))
    (hz : Is n z fun i => Flt.fin (v i)) (a b : ℝ)
    (h : mu.shape = [n] ∨ sigma.shape = [n]) :
    ∃ r, tcrpsBothA bvn mu sigma z ⟨[], fun _ => Flt.fin a⟩ ⟨[], fun _ => Flt.fin b⟩ = .ok r ∧
      Vec n r (fun i => tcrpsBoth bvn (m i) (σ i) (v i) a b) := by
  have hb := number_is (n := n) b
  have ha := number_is (n := n) a
  obtain ⟨t0, e0, ht0, -, -⟩ := zip_is smaller hb hz
  obtain ⟨t1, e1, ht1, -, -⟩ := zip_is Flt.sub ht0 ha
  obtain ⟨a2, e2, ha2⟩ := ei2A_vec bvn hm hs hb (by tauto)
  obtain ⟨a3, e3, ha3⟩ := ei2A_vec bvn hm hs ha (by tauto)
  obtain ⟨t2, e4, ht2⟩ := zip_vec Flt.sub ha2.is ha3.is (Or.inl ha2.1)
  obtain ⟨b1, e5, hb1⟩ := ei1A_vec hm hs hb (by tauto)
  obtain ⟨az, e6, haz, -, -⟩ := zip_is larger ha hz
  simp only [larger_fin] at haz
  obtain ⟨z1, e6', hz1⟩ := ei1A_vec hm hs haz (by tauto)
  obtain ⟨d1, e7, hd1⟩ := zip_vec Flt.sub hb1.is hz1.is (Or.inl hb1.1)
  obtain ⟨w, e8, hw⟩ := whereLe_vec hz hb hd1
  obtain ⟨s, e9, hs'⟩ := zip_vec Flt.add (map_is (fun u => larger u (Flt.fin 0)) ht1) ht2.is (Or.inr ht2.1)
  obtain ⟨r, e10, hr⟩ := zip_vec Flt.add hs'.is (hw.map (Flt.mul (Flt.fin (-2)))).is (Or.inl hs'.1)
  refine ⟨r, ?_, hr.1, fun i hi => ?_⟩
  · simp only [tcrpsBothA, bind, Except.bind, e0, e1, e2, e3, e4, e5, e6, e6', e7, e8, e9]
    exact e10
  · rw [hr.2 i hi]
    simp only [smaller_fin, Flt.sub_fin, larger_fin]
    rfl

theorem finite?_none {a : Flt} (h : finite? a = none) : a = .nan ∨ a = .num ⊤ ∨ a = .num ⊥ := by
  cases a with
  | nan => exact Or.inl rfl
  | num x =>
    right
    by_contra hc
    push Not at hc
    have : ¬ (x = ⊤ ∨ x = ⊥) := by
      rintro (rfl | rfl)
      · exact hc.1 rfl
      · exact hc.2 rfl
    simp [finite?, this] at h

theorem finite?_some {a : Flt} {r : ℝ} (h : finite? a = some r) : a = Flt.fin r := by
  cases a with
  | nan => simp [finite?] at h
  | num x =>
    unfold finite? at h
    by_cases hx : x = ⊤ ∨ x = ⊥
    · simp [hx] at h
    · simp only [if_neg hx] at h
      push Not at hx
      rw [← Option.some.inj h, Flt.fin, EReal.coe_toReal hx.1 hx.2]

/-- **C275** `tcrps_gaussian` with numbers as bounds works entry by entry on vectors of predictions. -/
theorem tcrpsA_vec (bvn : Bvn) (hm : Is n mu fun i => Flt.fin (m i)) (hs : Is n sigma fun i => Flt.fin (σ i))
    (hz : Is n z fun i => Flt.fin (v i)) (a b : Flt) (h : mu.shape = [n] ∨ sigma.shape = [n]) :
    ∃ r, tcrpsA bvn mu sigma z ⟨[], fun _ => a⟩ ⟨[], fun _ => b⟩ = .ok r ∧
      Vec n r (fun i => tcrps bvn (m i) (σ i) (v i) a b) := by
  have ta : ∀ a : Flt, truthFinite ⟨[], fun _ => a⟩ = .ok (finite? a).isSome := by
    intro a; simp [truthFinite]
  simp only [tcrpsA, ta, bind, Except.bind, tcrps]
  cases ha : finite? a with
  | none =>
    cases hb : finite? b with
    | none => exact crpsA_vec hm hs hz (by tauto)
    | some b' =>
      rw [finite?_some hb]
      exact tcrpsUpperA_vec bvn hm hs hz b' h
  | some a' =>
    cases hb : finite? b with
    | none =>
      rw [finite?_some ha]
      have e : (Arr.map Flt.neg ⟨[], fun _ => Flt.fin a'⟩) = ⟨[], fun _ => Flt.fin (-a')⟩ := by
        simp [Arr.map]
      simp only [Option.isSome_some, Option.isSome_none, e]
      exact tcrpsUpperA_vec bvn (is_map_neg hm) hs (is_map_neg hz) (-a') h
    | some b' =>
      rw [finite?_some ha, finite?_some hb]
      exact tcrpsBothA_vec bvn hm hs hz a' b' h

/-! ## Other shapes -/

/-- A column of numbers. -/
def col (n : ℕ) (f : ℕ → ℝ) : Arr := ⟨[n, 1], fun l => Flt.fin (f (l.headD 0))⟩

/-- A number. -/
def number (a : ℝ) : Arr := ⟨[], fun _ => Flt.fin a⟩

/-- **C275** `ei2_up` of a column of `n ≥ 2` means is an `n` by `n` matrix: the diagonal has the
expected improvements, entry `(i, j)` multiplies the argument of `i` by the probability of `j`. -/
theorem ei2A_column_false (bvn : Bvn) {n : ℕ} (hn : 2 ≤ n) (m : ℕ → ℝ) {σ : ℝ} (hσ : σ ≠ 0) (v : ℝ) :
    ∃ r, ei2A bvn (col n m) (number σ) (number v) = .ok r ∧ r.shape = [n, n] ∧
      (∀ i < n, r.val [i, i] = ei2 bvn (m i) σ v) ∧
      (∀ i < n, ∀ j < n, r.val [i, j] = (Flt.fin σ).mul
        ((((Flt.fin 2).mul (Flt.fin ((m i - v) / σ))).mul
            (bvn (Flt.fin ((m j - v) / σ)) (Flt.fin 0) (D2 * D2.transpose))).add
          (((Flt.fin 2).mul (npdf (Flt.fin ((m i - v) / σ)))).mul (ncdf (Flt.fin ((m i - v) / σ)).neg)) |>.add
          ((Flt.div (Flt.fin 1) (Flt.fin √Real.pi)).mul
            (ncdf (Flt.div (Flt.fin ((m i - v) / σ)) (Flt.fin √(1 / 2))))))) := by
  have hn1 : n ≠ 1 := by omega
  have e1 : (col n m).zip Flt.sub (number v) = .ok ⟨[n, 1], fun l => Flt.fin (m ((pull [n, 1] l).headD 0) - v)⟩ := by
    simp [Arr.zip, broadcast, bcR, col, number]
  have e2 : (⟨[n, 1], fun l => Flt.fin (m ((pull [n, 1] l).headD 0) - v)⟩ : Arr).zip Flt.div (number σ) =
      .ok ⟨[n, 1], fun l => Flt.fin ((m ((pull [n, 1] (pull [n, 1] l)).headD 0) - v) / σ)⟩ := by
    simp [Arr.zip, broadcast, bcR, number, Flt.div_fin hσ]
  have hb1 : broadcast [n, 1] [n] = some [n, n] := by
    simp [broadcast, bcR, axisLen, hn1.symm]
  have hb2 : broadcast [n, n] [n, 1] = some [n, n] := by
    simp [broadcast, bcR, axisLen, hn1]
  have hb3 : broadcast [] [n, n] = some [n, n] := by
    simp [broadcast, bcR]
  have hp : ¬ (([n, 1] : List ℕ).prod ≠ ([n, 1] : List ℕ).headD 0) := by simp
  have hprod : ([n, 1] : List ℕ).prod = n := by simp
  have main : ∃ r, ei2A bvn (col n m) (number σ) (number v) = .ok r ∧ r.shape = [n, n] ∧
      (∀ i < n, ∀ j < n, r.val [i, j] = (Flt.fin σ).mul
        ((((Flt.fin 2).mul (Flt.fin ((m i - v) / σ))).mul
            (bvn (Flt.fin ((m j - v) / σ)) (Flt.fin 0) (D2 * D2.transpose))).add
          (((Flt.fin 2).mul (npdf (Flt.fin ((m i - v) / σ)))).mul (ncdf (Flt.fin ((m i - v) / σ)).neg)) |>.add
          ((Flt.div (Flt.fin 1) (Flt.fin √Real.pi)).mul
            (ncdf (Flt.div (Flt.fin ((m i - v) / σ)) (Flt.fin √(1 / 2))))))) := by
    simp only [ei2A, e1, e2, bind, Except.bind]
    simp only [reduceCtorEq, if_false, ne_eq, hprod, List.headD_cons, not_true_eq_false, cdf2, if_neg hn1, Arr.zip, Arr.map, hb1, hb2, number, hb3]
    refine ⟨_, rfl, rfl, ?_⟩
    intro i hi j hj
    simp [pull, pullR, unravel, hn1]
  obtain ⟨r, h1, h2, h3⟩ := main
  refine ⟨r, h1, h2, fun i hi => ?_, h3⟩
  rw [h3 i hi i hi, ei2, Flt.div_fin hσ]

/-- **C275** `ei2_up` refuses a matrix of means with two or more columns. -/
theorem ei2A_matrix_false (bvn : Bvn) {n k : ℕ} (hn : 1 ≤ n) (hk : 2 ≤ k) (f : List ℕ → Flt) (σ v : ℝ) :
    ei2A bvn ⟨[n, k], f⟩ (number σ) (number v) = .error .valueError := by
  have hp : ([n, k] : List ℕ).prod ≠ ([n, k] : List ℕ).headD 0 := by
    simp only [List.prod_cons, List.prod_nil, mul_one, List.headD_cons]
    nlinarith
  have e1 : ∃ g, (⟨[n, k], f⟩ : Arr).zip Flt.sub (number v) = .ok ⟨[n, k], g⟩ := by
    simp [Arr.zip, broadcast, bcR, number]
  obtain ⟨g, e1⟩ := e1
  have e2 : ∃ h, (⟨[n, k], g⟩ : Arr).zip Flt.div (number σ) = .ok ⟨[n, k], h⟩ := by
    simp [Arr.zip, broadcast, bcR, number]
  obtain ⟨h, e2⟩ := e2
  simp only [ei2A, e1, e2, bind, Except.bind, reduceCtorEq, if_false, if_pos hp]

/-- **C275** `tcrps_gaussian` refuses arrays of bounds, which its documentation allows. -/
theorem tcrpsA_bounds_false (bvn : Bvn) (mu sigma z a b : Arr) (h : a.shape.prod ≠ 1) :
    tcrpsA bvn mu sigma z a b = .error .valueError := by
  simp [tcrpsA, truthFinite, h, bind, Except.bind]

/-! ## Concrete cases -/

/-- Two predictions and one threshold. -/
example (bvn : Bvn) : ∃ r, ei2A bvn ⟨[2], fun l => Flt.fin (l.headD 0)⟩ (number 1) (number 3) = .ok r ∧
    r.shape = [2] ∧ r.val [1] = ei2 bvn 1 1 3 := by
  obtain ⟨r, h1, h2, h3⟩ := ei2A_vec (n := 2) (mu := ⟨[2], fun l => Flt.fin (l.headD 0)⟩) (sigma := number 1)
    (z := number 3) (m := fun i => i) (σ := fun _ => 1) (v := fun _ => 3) bvn (Or.inl ⟨rfl, fun i _ => by simp⟩)
    (Or.inr ⟨rfl, fun _ _ => rfl⟩) (Or.inr ⟨rfl, fun _ _ => rfl⟩) (Or.inl rfl)
  exact ⟨r, h1, h2, by simpa using h3 1 (by omega)⟩

/-- Two predictions, two observations, a finite lower bound. -/
example (bvn : Bvn) : ∃ r, tcrpsA bvn ⟨[2], fun l => Flt.fin (l.headD 0)⟩ (number 1)
    ⟨[2], fun l => Flt.fin (2 * l.headD 0)⟩ (number 0) ⟨[], fun _ => .num ⊤⟩ = .ok r ∧
    r.shape = [2] ∧ r.val [1] = tcrps bvn 1 1 2 (Flt.fin 0) (.num ⊤) := by
  obtain ⟨r, h1, h2, h3⟩ := tcrpsA_vec (n := 2) (mu := ⟨[2], fun l => Flt.fin (l.headD 0)⟩) (sigma := number 1)
    (z := ⟨[2], fun l => Flt.fin (2 * l.headD 0)⟩) (m := fun i => i) (σ := fun _ => 1) (v := fun i => 2 * i) bvn
    (Or.inl ⟨rfl, fun i _ => by simp⟩) (Or.inr ⟨rfl, fun _ _ => rfl⟩) (Or.inl ⟨rfl, fun i _ => by simp⟩)
    (Flt.fin 0) (.num ⊤) (Or.inl rfl)
  exact ⟨r, h1, h2, by simpa using h3 1 (by omega)⟩

example (bvn : Bvn) : tcrpsA bvn (number 0) (number 1) (number 0) ⟨[2], fun _ => Flt.fin 0⟩ (number 1) =
    .error .valueError :=
  tcrpsA_bounds_false bvn _ _ _ _ _ (by simp)

theorem broadcast_lengths {a b : ℕ} (h : a ≠ b) (ha : a ≠ 1) (hb : b ≠ 1) : broadcast [a] [b] = none := by
  simp [broadcast, bcR, axisLen, h, ha, hb]

/-- **C275** Vectors of predictions and observations, or of predictions and standard deviations, of different lengths (none of them
one) are refused by all scores. -/
theorem scores_lengths (bvn : Bvn) {mu sigma z : Arr} {a b : ℕ} (h : a ≠ b) (ha : a ≠ 1) (hb : b ≠ 1) (hm : mu.shape = [a])
    (hc : z.shape = [b] ∨ z.shape = [a] ∧ sigma.shape = [b]) :
    crpsA mu sigma z = .error .valueError ∧ ei1A mu sigma z = .error .valueError ∧ ei2A bvn mu sigma z = .error .valueError := by
  have e1 := broadcast_lengths h ha hb
  have e2 := broadcast_lengths h.symm hb ha
  have e3 : broadcast [a] [a] = some [a] := by simp [broadcast, bcR, axisLen]
  rcases hc with hz | ⟨hz, hs⟩
  · have k1 : ∀ op, mu.zip op z = .error .valueError := fun op => by simp only [Arr.zip, hm, hz, e1]
    have k2 : ∀ op, z.zip op mu = .error .valueError := fun op => by simp only [Arr.zip, hm, hz, e2]
    exact ⟨by rw [crpsA, k2]; rfl, by rw [ei1A, k1]; rfl, by rw [ei2A, k1]; rfl⟩
  · have k1 : ∀ op, ∃ d, mu.zip op z = .ok d ∧ ∀ op', d.zip op' sigma = .error .valueError := fun op =>
      ⟨_, by simp only [Arr.zip, hm, hz, e3]; rfl, fun op' => by simp only [Arr.zip, hs, e1]⟩
    have k2 : ∀ op, ∃ d, z.zip op mu = .ok d ∧ ∀ op', d.zip op' sigma = .error .valueError := fun op =>
      ⟨_, by simp only [Arr.zip, hm, hz, e3]; rfl, fun op' => by simp only [Arr.zip, hs, e1]⟩
    obtain ⟨d, h1, h2⟩ := k1 Flt.sub
    obtain ⟨d', h3, h4⟩ := k2 Flt.sub
    refine ⟨?_, ?_, ?_⟩
    · rw [crpsA, h3]
      change (Bind.bind (d'.zip Flt.div sigma) _ : Py Arr) = _
      rw [h4]; rfl
    · rw [ei1A, h1]
      change (Bind.bind (d.zip Flt.div sigma) _ : Py Arr) = _
      rw [h2]; rfl
    · rw [ei2A, h1]
      change (Bind.bind (d.zip Flt.div sigma) _ : Py Arr) = _
      rw [h2]; rfl

/-- Three predictions and two observations. -/
example (bvn : Bvn) : crpsA ⟨[3], fun _ => Flt.fin 0⟩ ⟨[3], fun _ => Flt.fin 1⟩ ⟨[2], fun _ => Flt.fin 0⟩ = .error .valueError :=
  (scores_lengths bvn (a := 3) (b := 2) (by decide) (by decide) (by decide) rfl (Or.inl rfl)).1

end Verif.Score
