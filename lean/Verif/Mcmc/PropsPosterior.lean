import Verif.Mcmc.Posterior
import Verif.Mcmc.PropsMH
import Verif.Mcmc.PropsMHRun
import Mathlib.Tactic.Linarith
import Mathlib.Tactic.NormNum

/-!
# Posterior samplers: choice of the criterion, initial states, density (C63)
-/

set_option autoImplicit false

namespace Verif.Posterior

open Verif
open Verif.MH (bind_ok)
open Verif.SVGD (Bound)

/-! ## Which criterion -/

/-- **C63** The criterion used: the argument when only it is given; from `info`, the
differentiable one when gradients are needed and otherwise the gradient-free one if there
is one.  All other cases are `ValueError`s: both or none given, a missing or uncallable
attribute. -/
theorem resolve_iff (info : Option Info) (sel : Option Crit) (diff : Bool) (f : Crit) :
    (resolve info sel diff = .ok f ↔
      (info = none ∧ sel = some f) ∨
      (sel = none ∧ ∃ i, info = some i ∧
        ((diff = true ∧ i.crit = .fn f) ∨
          (diff = false ∧ (i.critNograd = .fn f ∨ (i.critNograd = .absent ∧ i.crit = .fn f)))))) ∧
    (∀ e, resolve info sel diff = .error e → e = .valueError) := by
  cases info with
  | none => cases sel <;> simp [resolve]
  | some i =>
    cases sel with
    | some g => simp [resolve]
    | none =>
      obtain ⟨cp, c, ng⟩ := i
      cases diff <;> cases c <;> cases ng <;> simp [resolve, Info.pick]

/-- A gradient-free criterion is preferred only when no gradient is needed; an uncallable
one hides the other. -/
example (f g : Crit) (cp : PArr) :
    resolve (some ⟨cp, .fn f, .fn g⟩) none false = .ok g ∧
    resolve (some ⟨cp, .fn f, .fn g⟩) none true = .ok f ∧
    resolve (some ⟨cp, .fn f, .notCallable⟩) none false = .error .valueError ∧
    resolve (some ⟨cp, .absent, .fn g⟩) none true = .error .valueError := by
  simp [resolve, Info.pick]

/-! ## The density -/

/-- Outside of a box. -/
def Outside {d : ℕ} (box : Option (Pt d × Pt d)) (p : Pt d) : Prop :=
  ∃ lo hi, box = some (lo, hi) ∧ ∃ j, p j < lo j ∨ hi j < p j

theorem outside_iff {d : ℕ} (box : Option (Pt d × Pt d)) (p : Pt d) :
    (∃ b ∈ box, (∃ j, p j < b.1 j) ∨ (∃ j, b.2 j < p j)) ↔ Outside box p := by
  constructor
  · rintro ⟨⟨lo, hi⟩, hb, h⟩
    refine ⟨lo, hi, hb, ?_⟩
    rcases h with ⟨j, hj⟩ | ⟨j, hj⟩
    · exact ⟨j, Or.inl hj⟩
    · exact ⟨j, Or.inr hj⟩
  · rintro ⟨lo, hi, rfl, j, hj | hj⟩
    · exact ⟨(lo, hi), rfl, Or.inl ⟨j, hj⟩⟩
    · exact ⟨(lo, hi), rfl, Or.inr ⟨j, hj⟩⟩

/-- **C63** The log-density never raises.  It is `-inf` outside of the box and where the
criterion raises; elsewhere it is minus the criterion divided by the temperature (NaN for
NaN, `-inf` for an infinite criterion).  Temperatures that are not positive are refused. -/
theorem logProb_spec {d : ℕ} (f : Crit) (box : Option (Pt d × Pt d)) (T : ℝ) :
    (T ≤ 0 → logProb f box T = .error .valueError) ∧
    (0 < T → ∃ lp : Pt d → Py Flt, logProb f box T = .ok lp ∧
      (∀ p, Outside box p → lp p = .ok (.num ⊥)) ∧
      ∀ p, ¬ Outside box p →
        (∀ e, f d p = .error e → lp p = .ok (.num ⊥)) ∧
        (∀ v : ℝ, f d p = .ok (.fin v) → lp p = .ok (.fin (-v / T))) ∧
        (f d p = .ok .nan → lp p = .ok .nan) ∧
        (f d p = .ok (.num ⊤) → lp p = .ok (.num ⊥))) := by
  classical
  constructor
  · intro h; unfold logProb; rw [if_pos h]
  intro hT
  unfold logProb
  rw [if_neg (not_le.mpr hT)]
  refine ⟨_, rfl, ?_, ?_⟩
  · intro p hp
    rw [if_pos ((outside_iff box p).mpr hp)]
  · intro p hp
    have hn : ¬ ∃ b ∈ box, (∃ j, p j < b.1 j) ∨ (∃ j, b.2 j < p j) := fun h => hp ((outside_iff box p).mp h)
    refine ⟨fun e he => ?_, fun v hv => ?_, fun hv => ?_, fun hv => ?_⟩
    · rw [if_neg hn, he]
    · rw [if_neg hn, hv]
      change Except.ok ((Flt.fin (-v)).div (.fin T)) = _
      rw [Flt.div_fin hT.ne']
    · rw [if_neg hn, hv]; rfl
    · rw [if_neg hn, hv]
      have hT0 : (T : EReal) ≠ 0 := by exact_mod_cast hT.ne'
      simp [Flt.neg, Flt.div, Flt.fin, hT0, EReal.bot_div_of_pos_ne_top (by exact_mod_cast hT) (EReal.coe_ne_top T)]

/-- A point where the log-density is neither `-inf` nor NaN is in the box and the criterion
has a value there. -/
theorem logProb_proper {d : ℕ} {f : Crit} {box : Option (Pt d × Pt d)} {T : ℝ}
    {lp : Pt d → Py Flt} (h : logProb f box T = .ok lp) {p : Pt d} {v : EReal}
    (hp : lp p = .ok (.num v)) (hv : v ≠ ⊥) : ¬ Outside box p ∧ ∃ w, f d p = .ok w ∧ w ≠ .nan := by
  classical
  unfold logProb at h
  by_cases hT : T ≤ 0
  · rw [if_pos hT] at h; cases h
  rw [if_neg hT] at h
  injection h with h
  subst h
  dsimp only at hp
  by_cases ho : ∃ b ∈ box, (∃ j, p j < b.1 j) ∨ (∃ j, b.2 j < p j)
  · rw [if_pos ho] at hp
    injection hp with hp
    injection hp with hp
    exact absurd hp.symm hv
  · rw [if_neg ho] at hp
    refine ⟨fun h => ho ((outside_iff box p).mpr h), ?_⟩
    cases hf : f d p with
    | error e =>
      rw [hf] at hp
      injection hp with hp
      injection hp with hp
      exact absurd hp.symm hv
    | ok w =>
      refine ⟨w, rfl, ?_⟩
      rintro rfl
      rw [hf] at hp
      injection hp with hp
      cases hp

/-- Half of a criterion on the unit square. -/
example : ∃ lp : Pt 2 → Py Flt,
    logProb (fun _ _ => .ok (.fin 6)) (some (fun _ => 0, fun _ => 1)) 2 = .ok lp ∧
      lp ![0, 1] = .ok (.fin (-3)) ∧ lp ![0, 2] = .ok (.num ⊥) := by
  obtain ⟨lp, h, h1, h2⟩ := (logProb_spec (d := 2) (fun _ _ => .ok (.fin 6))
    (some (fun _ => 0, fun _ => 1)) 2).2 (by norm_num)
  refine ⟨lp, h, ?_, ?_⟩
  · have := (h2 ![0, 1] (by
      rintro ⟨lo, hi, hb, j, hj⟩
      injection hb with hb
      injection hb with h3 h4
      subst h3 h4
      fin_cases j <;> norm_num at hj)).2.1 6 rfl
    rw [this]; norm_num
  · exact h1 _ ⟨_, _, rfl, 1, Or.inr (by norm_num)⟩

/-! ## Dimension and initial states -/

/-- The preparation succeeds exactly when all its parts do. -/
theorem setup_iff (a : Args) (diff : Bool) (m : ℕ) (u : ∀ d, Fin m → Pt d) (s : Setup m) :
    setup a diff m u = .ok s ↔
      resolve a.info a.sel diff = .ok s.crit ∧ inferDim a.info a.init a.dimBox = .ok s.d ∧
      (∃ ib, SVGD.normBox a.initBox s.d = .ok ib ∧ a.states m s.d ib (u s.d) = .ok s.theta0) ∧
      SVGD.normBox a.samplingBox s.d = .ok s.box := by
  constructor
  · intro h
    unfold setup at h
    obtain ⟨f, hf, h⟩ := bind_ok h
    obtain ⟨d, hd, h⟩ := bind_ok h
    obtain ⟨ib, hib, h⟩ := bind_ok h
    obtain ⟨sb, hsb, h⟩ := bind_ok h
    obtain ⟨x, hx, h⟩ := bind_ok h
    injection h with h
    subst h
    exact ⟨hf, hd, ⟨ib, hib, hx⟩, hsb⟩
  · rintro ⟨hf, hd, ⟨ib, hib, hx⟩, hsb⟩
    unfold setup
    simp only [hf, hd, hib, hsb, hx, bind, Except.bind, pure, Except.pure]

/-- **C63** The accepted initial states, for a parameter of dimension `d` and `m` chains:
a vector of length `d` or a `(1, d)` array starts all chains at that point, an `(m, d)`
array gives each chain its row, and a scalar is a point of dimension 1. -/
theorem setup_accepts (a : Args) (diff : Bool) (m d : ℕ) (u : ∀ d, Fin m → Pt d) (f : Crit)
    (hf : resolve a.info a.sel diff = .ok f) (hr : a.randomInit = false)
    (hib : ∃ b, SVGD.normBox a.initBox d = .ok b) (sb : Option (Pt d × Pt d))
    (hsb : SVGD.normBox a.samplingBox d = .ok sb) :
    (∀ x, a.init = some (.one d x) → setup a diff m u = .ok ⟨d, f, sb, fun _ j => x j⟩) ∧
    (∀ x, a.init = some (.two 1 d x) → setup a diff m u = .ok ⟨d, f, sb, fun _ j => x 0 j⟩) ∧
    (∀ x, a.init = some (.two m d x) → setup a diff m u = .ok ⟨d, f, sb, fun c j => x c j⟩) ∧
    (∀ v, a.init = some (.zero v) → d = 1 → setup a diff m u = .ok ⟨d, f, sb, fun _ _ => v⟩) := by
  obtain ⟨b, hb⟩ := hib
  refine ⟨fun x hx => ?_, fun x hx => ?_, fun x hx => ?_, fun v hx hd => ?_⟩ <;>
    refine (setup_iff a diff m u _).mpr ⟨hf, ?_, ⟨b, hb, ?_⟩, hsb⟩
  · simp [inferDim, hx, dimOf]
  · simp [Args.states, hr, normStates, hx]
  · simp [inferDim, hx, dimOf]
  · simp only [Args.states, hr, normStates, hx, Bool.false_eq_true, if_false]
    by_cases h : 1 = m ∧ True
    · rw [if_pos h]
      congr 1
      funext i j
      have : (i : ℕ) = 0 := by have := i.2; omega
      rw [this]
    · rw [if_neg h, if_pos ⟨trivial, trivial⟩]
  · simp [inferDim, hx, dimOf]
  · simp [Args.states, hr, normStates, hx]
  · simp [inferDim, hx, dimOf, hd]
  · simp [Args.states, hr, normStates, hx, hd]

/-- **C63** Without initial states all chains start at the parameters of `info`. -/
theorem setup_info (a : Args) (diff : Bool) (m d : ℕ) (u : ∀ d, Fin m → Pt d) (f : Crit) (i : Info)
    (x : ℕ → ℝ) (hi : a.info = some i) (hc : i.covparam = .one d x) (h0 : a.init = none)
    (hf : resolve a.info a.sel diff = .ok f) (hr : a.randomInit = false)
    (hib : ∃ b, SVGD.normBox a.initBox d = .ok b) (sb : Option (Pt d × Pt d))
    (hsb : SVGD.normBox a.samplingBox d = .ok sb) :
    setup a diff m u = .ok ⟨d, f, sb, fun _ j => x j⟩ := by
  obtain ⟨b, hb⟩ := hib
  refine (setup_iff a diff m u _).mpr ⟨hf, ?_, ⟨b, hb, ?_⟩, hsb⟩
  · simp [inferDim, h0, hi, hc]
  · simp [Args.states, hr, normStates, h0, infoStates, hi, hc]

/-- **C63** What a two-dimensional array of initial states can mean: its number of columns is
taken as the dimension, so it is read row by row, never transposed; and a vector is always
one point, never one value for each chain. -/
theorem setup_reads {a : Args} {diff : Bool} {m : ℕ} {u : ∀ d, Fin m → Pt d} {s : Setup m}
    (hr : a.randomInit = false) (h : setup a diff m u = .ok s) :
    (∀ r c x, a.init = some (.two r c x) → s.d = c ∧
      ((r = m ∧ ∀ i j, s.theta0 i j = x i j) ∨ (r = 1 ∧ ∀ i j, s.theta0 i j = x 0 j))) ∧
    (∀ n x, a.init = some (.one n x) → s.d = n ∧ ∀ i j, s.theta0 i j = x j) := by
  obtain ⟨_, hd, ⟨ib, _, hx⟩, _⟩ := (setup_iff a diff m u s).mp h
  constructor
  · intro r c x hi
    simp only [inferDim, hi, dimOf] at hd
    injection hd with hd
    refine ⟨hd.symm, ?_⟩
    simp only [Args.states, hr, normStates, hi, Bool.false_eq_true, if_false] at hx
    split_ifs at hx with h1 h2 h3
    · injection hx with hx
      exact Or.inl ⟨h1.1, fun i j => by rw [← hx]⟩
    · injection hx with hx
      exact Or.inr ⟨h2.1, fun i j => by rw [← hx]⟩
    · exact absurd ⟨by omega, hd⟩ h1
  · intro n x hi
    simp only [inferDim, hi, dimOf] at hd
    injection hd with hd
    refine ⟨hd.symm, ?_⟩
    simp only [Args.states, hr, normStates, hi, Bool.false_eq_true, if_false] at hx
    rw [if_pos hd] at hx
    injection hx with hx
    exact fun i j => by rw [← hx]

/-- **C63** A scalar stands for the initial states of all chains in dimension one only. -/
theorem normStates_scalar (info : Option Info) (x : ℝ) (m d : ℕ) :
    (d = 1 → normStates info (some (.zero x)) m d = .ok fun _ _ => x) ∧
    (d ≠ 1 → normStates info (some (.zero x)) m d = .error .valueError) :=
  ⟨fun h => by simp [normStates, h], fun h => by simp [normStates, h]⟩

/-- **C63** The documented shape `(dim, n_chains)` is not accepted: for `m` chains and
parameters of dimension `d` with `d ≠ m` and `d ≠ 1` it is refused, whatever the other
arguments. -/
theorem setup_transposed_false (a : Args) (diff : Bool) (m d : ℕ) (u : ∀ d, Fin m → Pt d)
    (x : ℕ → ℕ → ℝ) (hi : a.init = some (.two d m x)) (hr : a.randomInit = false) (hm : d ≠ m)
    (h1 : d ≠ 1) : ∀ s, setup a diff m u ≠ .ok s := by
  intro s h
  rcases ((setup_reads hr h).1 d m x hi).2 with ⟨h2, _⟩ | ⟨h2, _⟩
  · exact hm h2
  · exact h1 h2

/-- **C63** For a one-dimensional parameter, three starting values for three chains given in
the documented shape `(dim, n_chains) = (1, 3)`, or as a vector, are read as one point of
dimension 3 from which all chains start. -/
theorem setup_misread_false (f : Crit) (u : ∀ d, Fin 3 → Pt d) (x : ℕ → ℝ) :
    setup ⟨none, some f, some (.two 1 3 fun _ j => x j), false, none, none⟩ false 3 u =
      .ok ⟨3, f, none, fun _ j => x j⟩ ∧
    setup ⟨none, some f, some (.one 3 x), false, none, none⟩ false 3 u =
      .ok ⟨3, f, none, fun _ j => x j⟩ := by
  constructor
  · exact (setup_accepts ⟨none, some f, some (.two 1 3 fun _ j => x j), false, none, none⟩ false 3 3 u f
      rfl rfl ⟨none, rfl⟩ none rfl).2.1 _ rfl
  · exact (setup_accepts ⟨none, some f, some (.one 3 x), false, none, none⟩ false 3 3 u f
      rfl rfl ⟨none, rfl⟩ none rfl).1 _ rfl

/-- **C63** Random initial states are in `init_box`, which is then necessary, with increasing
bounds. -/
theorem setup_random {a : Args} {diff : Bool} {m : ℕ} {u : ∀ d, Fin m → Pt d} {s : Setup m}
    (hr : a.randomInit = true) (hu : ∀ d c j, 0 ≤ u d c j ∧ u d c j < 1)
    (h : setup a diff m u = .ok s) :
    ∃ box lo hi, a.initBox = some box ∧ SVGD.normBounds box s.d = .ok (lo, hi) ∧
      (∀ j, lo j < hi j) ∧ ∀ c j, lo j ≤ s.theta0 c j ∧ s.theta0 c j < hi j := by
  obtain ⟨_, hd, ⟨ib, hib, hx⟩, _⟩ := (setup_iff a diff m u s).mp h
  simp only [Args.states, hr, if_true] at hx
  cases hbx : a.initBox with
  | none =>
    rw [hbx] at hib
    injection hib with hib
    subst hib
    cases hx
  | some box =>
    rw [hbx] at hib
    obtain ⟨⟨lo, hi⟩, hb, hib⟩ := bind_ok hib
    injection hib with hib
    subst hib
    refine ⟨box, lo, hi, rfl, hb, ?_⟩
    simp only [randomStates, SVGD.randunif] at hx
    split_ifs at hx with hc
    injection hx with hx
    push Not at hc
    refine ⟨hc, fun c j => ?_⟩
    rw [← hx]
    obtain ⟨h0, h1⟩ := hu s.d c j
    have := hc j
    constructor <;> nlinarith

/-- Two chains in the unit square. -/
example (f : Crit) (u : ∀ d, Fin 2 → Pt d) : ∃ s,
    setup ⟨none, some f, none, true, some [.vec [0, 0], .scalar 1], none⟩ false 2 u = .ok s ∧
      s.d = 2 := by
  refine ⟨⟨2, f, none, u 2⟩, (setup_iff _ _ _ _ _).mpr ⟨rfl, rfl, ⟨some (fun _ => 0, fun _ => 1), ?_, ?_⟩,
    rfl⟩, rfl⟩
  · simp only [SVGD.normBox, SVGD.normBounds, SVGD.Bound.flat, SVGD.tile1, bind, Except.bind, pure,
      Except.pure]
    norm_num
    constructor <;> funext i <;> fin_cases i <;> rfl
  · simp [Args.states, randomStates, SVGD.randunif]

end Verif.Posterior
