import Verif.Backend.Convert
import Mathlib.Tactic.Linarith
import Mathlib.Tactic.NormNum
import Mathlib.Data.List.Infix

/-!
# C218-C221: conversions of the two backends
-/

set_option autoImplicit false

namespace Verif.Backend.Conv

open Verif

/-! ## Specification -/

/-- In memory `h`, the object `x` holds the numbers `l` with element type `d`. -/
def Holds (h : Heap) : Val → El → List ℝ → Prop
  | .int k, d, l => d = .int64 ∧ l = [(k : ℝ)]
  | .float v, d, l => d = .float64 ∧ l = [v]
  | .list e m, d, l => d = e ∧ l = m
  | .nd a, d, l => h[a]? = some ⟨d, l⟩
  | .tensor a, d, l => h[a]? = some ⟨d, l⟩

/-- The memory of an object, if it is an array. -/
def Val.addr : Val → Option ℕ
  | .nd a => some a
  | .tensor a => some a
  | _ => none

/-- The type that is used when none is asked for. -/
def wide (d : El) : El := if d.floating then .float64 else d

/-- The type that a request leads to. -/
def want (dtype : Option El) (d : El) : El := match dtype with | some t => t | none => wide d

/-- `f` converts to the type `t d` without touching existing arrays: whatever existed still
exists with the same contents, and the result holds the numbers of the argument, converted if
the type changes. -/
def Converts (M : Machine) (f : Heap → Val → Py (Val × Heap)) (t : El → El) : Prop :=
  ∀ h x d l y h', Holds h x d l → f h x = .ok (y, h') →
    h <+: h' ∧ Holds h' y (t d) (if t d = d then l else l.map (store M (t d)))

/-- `f` raises no error on the objects satisfying `P`. -/
def TotalOn (f : Heap → Val → Py (Val × Heap)) (P : Val → Prop) : Prop :=
  ∀ h x d l, Holds h x d l → P x → ∃ r, f h x = .ok r

/-- The result has memory of its own: writing through it changes no array that existed before,
and writing through any of those leaves it alone. -/
def Independent (M : Machine) (f : Heap → Val → Py (Val × Heap)) : Prop :=
  ∀ h x d l y h', Holds h x d l → f h x = .ok (y, h') →
    ∃ b, y.addr = some b ∧ ∀ a, a < h.length → ∀ ws,
      (writes M h' b ws)[a]? = h[a]? ∧ (writes M h' a ws)[b]? = h'[b]?

/-- The result is the argument's own memory when that has the right type already, and memory of
its own otherwise. -/
def SharesIff (f : Heap → Val → Py (Val × Heap)) (t : El → El) : Prop :=
  ∀ h x d l y h' a, Holds h x d l → x.addr = some a → f h x = .ok (y, h') →
    if t d = d then y.addr = some a ∧ h' = h
    else ∃ b, y.addr = some b ∧ h.length ≤ b ∧ b < h'.length

/-- Not a tensor: what the numpy backend is given. -/
def NoTensor (x : Val) : Prop := ∀ a, x ≠ .tensor a

/-! ## Lemmas -/

theorem recast_ok {M : Machine} {h : Heap} {dt : El} {a b : ℕ} {h2 : Heap}
    (hr : recast M h dt a = .ok (b, h2)) :
    ∃ c, h[a]? = some c ∧ ((c.dt = dt ∧ b = a ∧ h2 = h) ∨
      (c.dt ≠ dt ∧ b = h.length ∧ h2 = h ++ [⟨dt, c.vals.map (store M dt)⟩])) := by
  unfold recast at hr
  cases hc : h[a]? with
  | none => rw [hc] at hr; simp at hr
  | some c =>
    rw [hc] at hr
    refine ⟨c, rfl, ?_⟩
    by_cases hd : c.dt = dt
    · simp only [hd, if_true, Except.ok.injEq, Prod.mk.injEq] at hr
      exact Or.inl ⟨hd, hr.1.symm, hr.2.symm⟩
    · simp only [if_neg hd, alloc, Except.ok.injEq, Prod.mk.injEq] at hr
      exact Or.inr ⟨hd, hr.1.symm, hr.2.symm⟩

/-- `recast` converts what is at an address. -/
theorem recast_spec {M : Machine} {h : Heap} {dt d : El} {a b : ℕ} {l : List ℝ} {h2 : Heap}
    (ha : h[a]? = some ⟨d, l⟩) (hr : recast M h dt a = .ok (b, h2)) :
    h <+: h2 ∧ h2[b]? = some ⟨dt, if dt = d then l else l.map (store M dt)⟩ ∧
      (dt = d → b = a ∧ h2 = h) ∧ (dt ≠ d → b = h.length ∧ b < h2.length) := by
  obtain ⟨c, hc, h1 | h1⟩ := recast_ok hr
  · obtain ⟨e1, rfl, rfl⟩ := h1
    rw [ha] at hc
    obtain rfl := Option.some.inj hc
    have e1' : d = dt := e1
    subst e1'
    exact ⟨List.prefix_refl _, by simpa using ha, fun _ => ⟨rfl, rfl⟩, fun hn => absurd rfl hn⟩
  · obtain ⟨e1, rfl, rfl⟩ := h1
    rw [ha] at hc
    obtain rfl := Option.some.inj hc
    have e1' : d ≠ dt := e1
    refine ⟨List.prefix_append _ _, ?_, fun e => absurd e.symm e1', fun _ => ⟨rfl, by simp⟩⟩
    simp [if_neg (Ne.symm e1')]

theorem recast_total {M : Machine} {h : Heap} {dt : El} {a : ℕ} {c : Cell} (ha : h[a]? = some c) :
    ∃ r, recast M h dt a = .ok r := by
  unfold recast
  rw [ha]
  exact ⟨_, rfl⟩

theorem widen_eq {M : Machine} {h : Heap} {a : ℕ} {d : El} {l : List ℝ} (ha : h[a]? = some ⟨d, l⟩) :
    widen M h a = recast M h (wide d) a := by
  unfold widen wide recast
  rw [ha]
  by_cases hf : d.floating = true
  · simp [hf]
  · simp [hf]

theorem build_spec {h : Heap} {x : Val} {d : El} {l : List ℝ} {a : ℕ} {h1 : Heap}
    (hx : Holds h x d l) (hb : build h x = .ok (a, h1)) :
    a = h.length ∧ h1 = h ++ [⟨d, l⟩] := by
  cases x with
  | int k =>
    obtain ⟨rfl, rfl⟩ := hx
    simp only [build, alloc, Except.ok.injEq, Prod.mk.injEq] at hb
    exact ⟨hb.1.symm, hb.2.symm⟩
  | float v =>
    obtain ⟨rfl, rfl⟩ := hx
    simp only [build, alloc, Except.ok.injEq, Prod.mk.injEq] at hb
    exact ⟨hb.1.symm, hb.2.symm⟩
  | list e m =>
    obtain ⟨rfl, rfl⟩ := hx
    simp only [build, alloc, Except.ok.injEq, Prod.mk.injEq] at hb
    exact ⟨hb.1.symm, hb.2.symm⟩
  | nd b =>
    have hx' : h[b]? = some ⟨d, l⟩ := hx
    simp only [build, hx', alloc, Except.ok.injEq, Prod.mk.injEq] at hb
    exact ⟨hb.1.symm, hb.2.symm⟩
  | tensor b => simp [build] at hb

theorem build_total {h : Heap} {x : Val} {d : El} {l : List ℝ} (hx : Holds h x d l)
    (ht : ∀ a, x ≠ .tensor a) : build h x = .ok (h.length, h ++ [⟨d, l⟩]) := by
  cases x with
  | int k => obtain ⟨rfl, rfl⟩ := hx; rfl
  | float v => obtain ⟨rfl, rfl⟩ := hx; rfl
  | list e m => obtain ⟨rfl, rfl⟩ := hx; rfl
  | nd b => have hx' : h[b]? = some ⟨d, l⟩ := hx; simp [build, hx', alloc]
  | tensor b => exact absurd rfl (ht b)

theorem build_fresh {h : Heap} {x : Val} {a : ℕ} {h1 : Heap} (hb : build h x = .ok (a, h1)) :
    ∃ d l, a = h.length ∧ h1 = h ++ [⟨d, l⟩] := by
  cases x with
  | int k =>
    simp only [build, alloc, Except.ok.injEq, Prod.mk.injEq] at hb
    exact ⟨_, _, hb.1.symm, hb.2.symm⟩
  | float v =>
    simp only [build, alloc, Except.ok.injEq, Prod.mk.injEq] at hb
    exact ⟨_, _, hb.1.symm, hb.2.symm⟩
  | list e m =>
    simp only [build, alloc, Except.ok.injEq, Prod.mk.injEq] at hb
    exact ⟨_, _, hb.1.symm, hb.2.symm⟩
  | nd b =>
    cases hc : h[b]? with
    | none => simp [build, hc] at hb
    | some c =>
      simp only [build, hc, alloc, Except.ok.injEq, Prod.mk.injEq] at hb
      exact ⟨c.dt, c.vals, hb.1.symm, hb.2.symm⟩
  | tensor b => simp [build] at hb

theorem typed_eq {M : Machine} {h : Heap} {a : ℕ} {d : El} {l : List ℝ} (dtype : Option El)
    (ha : h[a]? = some ⟨d, l⟩) : typed M h a dtype = recast M h (want dtype d) a := by
  cases dtype with
  | some dt => rfl
  | none => exact widen_eq ha

/-- What a source of memory for an object does: the object's own memory if it is an array,
new memory otherwise. -/
theorem own_spec {h : Heap} {x : Val} {d : El} {l : List ℝ} (hx : Holds h x d l)
    (ht : ∀ a, x ≠ .tensor a) :
    ∃ a h1, own h x = .ok (a, h1) ∧ h <+: h1 ∧ h1[a]? = some ⟨d, l⟩ ∧
      (∀ b, x.addr = some b → a = b ∧ h1 = h) ∧ (x.addr = none → h.length ≤ a) := by
  cases x with
  | nd b =>
    exact ⟨b, h, rfl, List.prefix_refl _, hx, fun c hc => ⟨Option.some.inj hc, rfl⟩, fun hc => by cases hc⟩
  | tensor b => exact absurd rfl (ht b)
  | _ =>
    refine ⟨h.length, h ++ [⟨d, l⟩], ?_, List.prefix_append _ _, by simp, ?_, fun _ => le_rfl⟩
    · exact build_total hx ht
    · intro b hb; cases hb

theorem wrap_spec {h : Heap} {x : Val} {d : El} {l : List ℝ} (hx : Holds h x d l) :
    ∃ a h1, wrap h x = .ok (a, h1) ∧ h <+: h1 ∧ h1[a]? = some ⟨d, l⟩ ∧
      (∀ b, x.addr = some b → a = b ∧ h1 = h) ∧ (x.addr = none → h.length ≤ a) := by
  cases x with
  | nd b =>
    exact ⟨b, h, rfl, List.prefix_refl _, hx, fun c hc => ⟨Option.some.inj hc, rfl⟩, fun hc => by cases hc⟩
  | tensor b =>
    exact ⟨b, h, rfl, List.prefix_refl _, hx, fun c hc => ⟨Option.some.inj hc, rfl⟩, fun hc => by cases hc⟩
  | _ =>
    refine ⟨h.length, h ++ [⟨d, l⟩], ?_, List.prefix_append _ _, by simp, ?_, fun _ => le_rfl⟩
    · exact build_total hx (fun a => by simp)
    · intro b hb; cases hb

/-- What a conversion gives: the numbers in the new type, the old memory when nothing was to be
done, new memory otherwise. -/
structure Gives (M : Machine) (h : Heap) (x : Val) (d : El) (l : List ℝ) (t : El) (b : ℕ) (h' : Heap) :
    Prop where
  keep : h <+: h'
  cell : h'[b]? = some ⟨t, if t = d then l else l.map (store M t)⟩
  same : ∀ a, x.addr = some a → t = d → b = a ∧ h' = h
  fresh : (x.addr = none ∨ t ≠ d) → h.length ≤ b ∧ b < h'.length

theorem gives_recast {M : Machine} {h h1 : Heap} {x : Val} {d t : El} {l : List ℝ} {a : ℕ}
    (hp : h <+: h1) (ha : h1[a]? = some ⟨d, l⟩) (hs : ∀ b, x.addr = some b → a = b ∧ h1 = h)
    (hn : x.addr = none → h.length ≤ a) :
    ∃ b h', recast M h1 t a = .ok (b, h') ∧ Gives M h x d l t b h' := by
  obtain ⟨⟨b, h'⟩, hr⟩ := recast_total (M := M) (dt := t) ha
  obtain ⟨q1, q2, q3, q4⟩ := recast_spec ha hr
  refine ⟨b, h', hr, hp.trans q1, q2, ?_, ?_⟩
  · intro c hc ht
    obtain ⟨rfl, rfl⟩ := hs c hc
    exact q3 ht
  · have hlt : b < h'.length := (List.getElem?_eq_some_iff.mp q2).1
    intro hc
    refine ⟨?_, hlt⟩
    by_cases ht : t = d
    · rcases hc with hc | hc
      · rw [(q3 ht).1]; exact hn hc
      · exact absurd ht hc
    · rw [(q4 ht).1]; exact hp.length_le

theorem asarrayNp_gives (M : Machine) {h : Heap} {x : Val} {d : El} {l : List ℝ} (dtype : Option El)
    (hx : Holds h x d l) (ht : ∀ a, x ≠ .tensor a) :
    ∃ b h', asarrayNp M h x dtype = .ok (.nd b, h') ∧ Gives M h x d l (want dtype d) b h' := by
  obtain ⟨a, h1, e, hp, ha, hs, hn⟩ := own_spec hx ht
  obtain ⟨b, h', hr, hg⟩ := gives_recast (M := M) (t := want dtype d) hp ha hs hn
  refine ⟨b, h', ?_, hg⟩
  simp [asarrayNp, e, bind, Except.bind, typed_eq dtype ha, hr, pure, Except.pure]

theorem asarrayTorch_gives (M : Machine) {h : Heap} {x : Val} {d : El} {l : List ℝ} (dtype : Option El)
    (hx : Holds h x d l) :
    ∃ b h', asarrayTorch M h x dtype = .ok (.tensor b, h') ∧ Gives M h x d l (want dtype d) b h' := by
  obtain ⟨a, h1, e, hp, ha, hs, hn⟩ := wrap_spec hx
  obtain ⟨b, h', hr, hg⟩ := gives_recast (M := M) (t := want dtype d) hp ha hs hn
  refine ⟨b, h', ?_, hg⟩
  simp [asarrayTorch, e, bind, Except.bind, typed_eq dtype ha, hr, pure, Except.pure]

theorem asintNp_gives (M : Machine) {h : Heap} {x : Val} {d : El} {l : List ℝ}
    (hx : Holds h x d l) (ht : ∀ a, x ≠ .tensor a) :
    ∃ b h', asintNp M h x = .ok (.nd b, h') ∧ Gives M h x d l .int64 b h' := by
  obtain ⟨a, h1, e, hp, ha, hs, hn⟩ := own_spec hx ht
  obtain ⟨b, h', hr, hg⟩ := gives_recast (M := M) (t := .int64) hp ha hs hn
  refine ⟨b, h', ?_, hg⟩
  simp [asintNp, e, bind, Except.bind, hr, pure, Except.pure]

theorem arrayNp_gives (M : Machine) {h : Heap} {x : Val} {d : El} {l : List ℝ} (dtype : Option El)
    (hx : Holds h x d l) (ht : ∀ a, x ≠ .tensor a) :
    ∃ b h', arrayNp M h x dtype = .ok (.nd b, h') ∧ h <+: h' ∧ h.length ≤ b ∧ b < h'.length ∧
      h'[b]? = some ⟨want dtype d, if want dtype d = d then l else l.map (store M (want dtype d))⟩ := by
  have hb := build_total hx ht
  have ha : (h ++ [⟨d, l⟩] : Heap)[h.length]? = some ⟨d, l⟩ := by simp
  obtain ⟨⟨b, h'⟩, hr⟩ := recast_total (M := M) (dt := want dtype d) ha
  obtain ⟨q1, q2, q3, q4⟩ := recast_spec ha hr
  refine ⟨b, h', ?_, (List.prefix_append _ _).trans q1, ?_, (List.getElem?_eq_some_iff.mp q2).1, q2⟩
  · simp [arrayNp, hb, bind, Except.bind, typed_eq dtype ha, hr, pure, Except.pure]
  · by_cases hw : want dtype d = d
    · exact (q3 hw).1.ge
    · rw [(q4 hw).1]; simp

theorem copyTorch_gives (M : Machine) {h : Heap} {x : Val} {d : El} {l : List ℝ} (hx : Holds h x d l) :
    ∃ b h', copyTorch M h x = .ok (.tensor b, h') ∧ h <+: h' ∧ h.length ≤ b ∧ b < h'.length ∧
      h'[b]? = some ⟨wide d, if wide d = d then l else l.map (store M (wide d))⟩ := by
  obtain ⟨a, h1, e, hg⟩ := asarrayTorch_gives M none hx
  refine ⟨h1.length, h1 ++ [⟨wide d, if wide d = d then l else l.map (store M (wide d))⟩], ?_,
    hg.keep.trans (List.prefix_append _ _), hg.keep.length_le, by simp, by simp⟩
  simp only [copyTorch, e, bind, Except.bind]
  rw [hg.cell]
  rfl

theorem map_store64 (M : Machine) (l : List ℝ) : l.map (store M .float64) = l :=
  (List.map_congr_left fun _ _ => rfl).trans (List.map_id l)

theorem store_wide (M : Machine) (d : El) (l : List ℝ) :
    (if wide d = d then l else l.map (store M (wide d))) = l := by
  cases d <;> simp [wide, El.floating, map_store64]

theorem thenTo_gives (M : Machine) {h : Heap} {x : Val} {d : El} {l : List ℝ} (t : El) (hx : Holds h x d l) :
    ∃ b h', thenTo M h x t = .ok (.tensor b, h') ∧ h <+: h' ∧
      h'[b]? = some ⟨t, if t = wide d then l else l.map (store M t)⟩ ∧
      (∀ a, x.addr = some a → t = d → wide d = d → b = a ∧ h' = h) ∧
      ((x.addr = none ∨ wide d ≠ d ∨ t ≠ d) → h.length ≤ b ∧ b < h'.length) := by
  obtain ⟨a, h1, e, hg⟩ := asarrayTorch_gives M none hx
  have hc : h1[a]? = some ⟨wide d, l⟩ :=
    hg.cell.trans (congrArg (fun l => some (Cell.mk (wide d) l)) (store_wide M d l))
  obtain ⟨⟨b, h'⟩, hr⟩ := recast_total (M := M) (dt := t) hc
  obtain ⟨q1, q2, q3, q4⟩ := recast_spec hc hr
  refine ⟨b, h', ?_, hg.keep.trans q1, q2, ?_, ?_⟩
  · simp [thenTo, e, bind, Except.bind, hr, pure, Except.pure]
  · intro c h1' h2 h3
    obtain ⟨rfl, rfl⟩ := hg.same c h1' h3
    exact q3 (h2.trans h3.symm)
  · intro hh
    refine ⟨?_, (List.getElem?_eq_some_iff.mp q2).1⟩
    by_cases hw : t = wide d
    · obtain ⟨rfl, rfl⟩ := q3 hw
      refine (hg.fresh ?_).1
      rcases hh with hh | hh | hh
      · exact Or.inl hh
      · exact Or.inr hh
      · exact Or.inr fun e => hh (hw.trans e)
    · rw [(q4 hw).1]; exact hg.keep.length_le

theorem np_refuses (M : Machine) (h : Heap) (a : ℕ) (dtype : Option El) :
    asarrayNp M h (.tensor a) dtype = .error .typeError ∧ arrayNp M h (.tensor a) dtype = .error .typeError ∧
    asintNp M h (.tensor a) = .error .typeError ∧ copyNp h (.tensor a) = .error .typeError :=
  ⟨rfl, rfl, rfl, rfl⟩

theorem noTensor_or (x : Val) : NoTensor x ∨ ∃ a, x = .tensor a := by
  cases x with
  | tensor a => exact Or.inr ⟨a, rfl⟩
  | _ => exact Or.inl fun a => by simp

theorem converts_of {M : Machine} {f : Heap → Val → Py (Val × Heap)} {t : El → El}
    (hf : ∀ h x d l, Holds h x d l → (∃ e, f h x = .error e) ∨
      ∃ b h', (f h x = .ok (.nd b, h') ∨ f h x = .ok (.tensor b, h')) ∧ h <+: h' ∧
        h'[b]? = some ⟨t d, if t d = d then l else l.map (store M (t d))⟩) : Converts M f t := by
  intro h x d l y h' hx he
  rcases hf h x d l hx with ⟨e, h1⟩ | ⟨b, h1, hy, hp, hc⟩
  · rw [h1] at he; cases he
  · rcases hy with hy | hy <;>
    · rw [hy] at he
      obtain ⟨rfl, rfl⟩ := Prod.mk.inj (Except.ok.inj he)
      exact ⟨hp, hc⟩

/-! ## C218: contents and types -/

/-- **C218** None of the conversions changes an existing array, and each gives the numbers of
its argument in the type it promises: `array` and `asarray` the type asked for, or double
precision for floating types and the same type otherwise; `copy` the same on torch and the
unchanged type on numpy; `asdouble` double precision; `asint` 64-bit integers on numpy and 32-bit
ones on torch. -/
theorem conversions_spec (M : Machine) (dtype : Option El) :
    Converts M (arrayNp M · · dtype) (want dtype) ∧
    Converts M (asarrayNp M · · dtype) (want dtype) ∧
    Converts M copyNp id ∧
    Converts M (asdoubleNp M) (fun _ => .float64) ∧
    Converts M (asintNp M) (fun _ => .int64) ∧
    Converts M toNpNp id ∧
    Converts M (arrayTorch M · · dtype) (want dtype) ∧
    Converts M (asarrayTorch M · · dtype) (want dtype) ∧
    Converts M (copyTorch M) wide ∧
    Converts M (asdoubleTorch M) (fun _ => .float64) ∧
    Converts M (asintTorch M) (fun _ => .int32) ∧
    Converts M toNpTorch id := by
  have hnp : ∀ dtype, Converts M (asarrayNp M · · dtype) (want dtype) := by
    intro dtype
    refine converts_of fun h x d l hx => ?_
    rcases noTensor_or x with hn | ⟨a, rfl⟩
    · obtain ⟨b, h', e, hg⟩ := asarrayNp_gives M dtype hx hn
      exact Or.inr ⟨b, h', Or.inl e, hg.keep, hg.cell⟩
    · exact Or.inl ⟨_, rfl⟩
  have hto : Converts M (asarrayTorch M · · dtype) (want dtype) := by
    refine converts_of fun h x d l hx => ?_
    obtain ⟨b, h', e, hg⟩ := asarrayTorch_gives M dtype hx
    exact Or.inr ⟨b, h', Or.inr e, hg.keep, hg.cell⟩
  have hthen : ∀ t, t = .float64 ∨ t = .int32 → Converts M (thenTo M · · t) (fun _ => t) := by
    intro t ht
    refine converts_of fun h x d l hx => ?_
    obtain ⟨b, h', e, hp, hc, -⟩ := thenTo_gives M t hx
    refine Or.inr ⟨b, h', Or.inr e, hp, hc.trans ?_⟩
    rcases ht with rfl | rfl <;> cases d <;> simp [wide, El.floating, map_store64]
  refine ⟨?_, hnp dtype, ?_, hnp (some .float64), ?_, ?_, hto, hto, ?_, hthen _ (Or.inl rfl),
    hthen _ (Or.inr rfl), ?_⟩
  · refine converts_of fun h x d l hx => ?_
    rcases noTensor_or x with hn | ⟨a, rfl⟩
    · obtain ⟨b, h', e, hp, -, -, hc⟩ := arrayNp_gives M dtype hx hn
      exact Or.inr ⟨b, h', Or.inl e, hp, hc⟩
    · exact Or.inl ⟨_, rfl⟩
  · refine converts_of fun h x d l hx => ?_
    rcases noTensor_or x with hn | ⟨a, rfl⟩
    · refine Or.inr ⟨h.length, h ++ [⟨d, l⟩], Or.inl ?_, List.prefix_append _ _, by simp⟩
      simp [copyNp, build_total hx hn, bind, Except.bind, pure, Except.pure]
    · exact Or.inl ⟨_, rfl⟩
  · refine converts_of fun h x d l hx => ?_
    rcases noTensor_or x with hn | ⟨a, rfl⟩
    · obtain ⟨b, h', e, hg⟩ := asintNp_gives M hx hn
      exact Or.inr ⟨b, h', Or.inl e, hg.keep, hg.cell⟩
    · exact Or.inl ⟨_, rfl⟩
  · intro h x d l y h' hx he
    obtain ⟨rfl, rfl⟩ := Prod.mk.inj (Except.ok.inj he)
    exact ⟨List.prefix_refl _, by simpa using hx⟩
  · refine converts_of fun h x d l hx => ?_
    obtain ⟨b, h', e, hp, -, -, hc⟩ := copyTorch_gives M hx
    exact Or.inr ⟨b, h', Or.inr e, hp, hc⟩
  · intro h x d l y h' hx he
    cases x with
    | tensor a =>
      obtain ⟨rfl, rfl⟩ := Prod.mk.inj (Except.ok.inj he)
      exact ⟨List.prefix_refl _, by simpa [Holds] using hx⟩
    | _ =>
      obtain ⟨rfl, rfl⟩ := Prod.mk.inj (Except.ok.inj he)
      exact ⟨List.prefix_refl _, by simpa using hx⟩

/-- **C218** None of them fails, on anything but tensors for numpy and on anything at all for
torch. -/
theorem conversions_total (M : Machine) (dtype : Option El) :
    TotalOn (arrayNp M · · dtype) NoTensor ∧ TotalOn (asarrayNp M · · dtype) NoTensor ∧
    TotalOn copyNp NoTensor ∧ TotalOn (asdoubleNp M) NoTensor ∧ TotalOn (asintNp M) NoTensor ∧
    TotalOn (arrayTorch M · · dtype) (fun _ => True) ∧
    TotalOn (asarrayTorch M · · dtype) (fun _ => True) ∧
    TotalOn (copyTorch M) (fun _ => True) ∧ TotalOn (asdoubleTorch M) (fun _ => True) ∧
    TotalOn (asintTorch M) (fun _ => True) := by
  refine ⟨?_, ?_, ?_, ?_, ?_, ?_, ?_, ?_, ?_, ?_⟩ <;> intro h x d l hx hn
  · obtain ⟨b, h', e, -⟩ := arrayNp_gives M dtype hx hn; exact ⟨_, e⟩
  · obtain ⟨b, h', e, -⟩ := asarrayNp_gives M dtype hx hn; exact ⟨_, e⟩
  · exact ⟨_, by simp only [copyNp, build_total hx hn, bind, Except.bind]; rfl⟩
  · obtain ⟨b, h', e, -⟩ := asarrayNp_gives M (some .float64) hx hn; exact ⟨_, e⟩
  · obtain ⟨b, h', e, -⟩ := asintNp_gives M hx hn; exact ⟨_, e⟩
  · obtain ⟨b, h', e, -⟩ := asarrayTorch_gives M dtype hx; exact ⟨_, e⟩
  · obtain ⟨b, h', e, -⟩ := asarrayTorch_gives M dtype hx; exact ⟨_, e⟩
  · obtain ⟨b, h', e, -⟩ := copyTorch_gives M hx; exact ⟨_, e⟩
  · obtain ⟨b, h', e, -⟩ := thenTo_gives M .float64 hx; exact ⟨_, e⟩
  · obtain ⟨b, h', e, -⟩ := thenTo_gives M .int32 hx; exact ⟨_, e⟩

/-- **C218** On each backend the result of `asarray` is an array of that backend; `to_np` makes a
tensor a numpy array; `to_scalar` gives back the number in a number or in an array with one entry,
and refuses every other array. -/
theorem arrays_spec (M : Machine) (h : Heap) (x : Val) (d : El) (l : List ℝ) (dtype : Option El)
    (hx : Holds h x d l) :
    (∀ y h', asarrayNp M h x dtype = .ok (y, h') → isarrayNp y = true ∧ toNpNp h' y = .ok (y, h')) ∧
    (∀ y h', asarrayTorch M h x dtype = .ok (y, h') → isarrayTorch y = true ∧
      ∃ a, y.addr = some a ∧ toNpTorch h' y = .ok (.nd a, h')) ∧
    ((∀ e m, x ≠ .list e m) → (∀ v, toScalarTorch h x = .ok v ↔ l = [v]) ∧
      (NoTensor x → ∀ v, toScalarNp h x = .ok v ↔ l = [v])) := by
  refine ⟨?_, ?_, ?_⟩
  · intro y h' he
    rcases noTensor_or x with hn | ⟨a, rfl⟩
    · obtain ⟨b, h1, e, -⟩ := asarrayNp_gives M dtype hx hn
      rw [e] at he
      obtain ⟨rfl, rfl⟩ := Prod.mk.inj (Except.ok.inj he)
      exact ⟨rfl, rfl⟩
    · rw [(np_refuses M h a dtype).1] at he; cases he
  · intro y h' he
    obtain ⟨b, h1, e, -⟩ := asarrayTorch_gives M dtype hx
    rw [e] at he
    obtain ⟨rfl, rfl⟩ := Prod.mk.inj (Except.ok.inj he)
    exact ⟨rfl, b, rfl, rfl⟩
  · intro hne
    have key : ∀ a (er : PyErr), h[a]? = some ⟨d, l⟩ → ∀ v, item h er a = .ok v ↔ l = [v] := by
      intro a er ha v
      unfold item
      rw [ha]
      rcases l with _ | ⟨w, _ | ⟨u, l⟩⟩ <;> simp
    cases x with
    | int k =>
      obtain ⟨-, rfl⟩ := hx
      exact ⟨fun v => by simp [toScalarTorch], fun _ v => by simp [toScalarNp]⟩
    | float w =>
      obtain ⟨-, rfl⟩ := hx
      exact ⟨fun v => by simp [toScalarTorch], fun _ v => by simp [toScalarNp]⟩
    | list e m => exact absurd rfl (hne e m)
    | nd a => exact ⟨key a _ hx, fun _ => key a _ hx⟩
    | tensor a => exact ⟨key a _ hx, fun hn => absurd rfl (hn a)⟩

/-- **C218** (negative) `to_np` does not turn everything into a numpy array: a list is returned as
it is, by both backends. -/
theorem toNp_list_false (h : Heap) (e : El) (m : List ℝ) :
    toNpNp h (.list e m) = .ok (.list e m, h) ∧ toNpTorch h (.list e m) = .ok (.list e m, h) ∧
    isarrayNp (.list e m) = false := ⟨rfl, rfl, rfl⟩

/-! ## C219: shared memory -/

theorem write_get (M : Machine) (h : Heap) (a b i : ℕ) (v : ℝ) (hne : a ≠ b) :
    (write M h a i v)[b]? = h[b]? := by
  unfold write
  rw [List.getElem?_modify]
  simp [hne]

theorem writes_get (M : Machine) (ws : List (ℕ × ℝ)) (h : Heap) (a b : ℕ) (hne : a ≠ b) :
    (writes M h a ws)[b]? = h[b]? := by
  induction ws generalizing h with
  | nil => rfl
  | cons w ws ih => rw [writes, ih, write_get M h a b _ _ hne]

theorem independent_of {M : Machine} {f : Heap → Val → Py (Val × Heap)}
    (hf : ∀ h x d l, Holds h x d l → (∃ e, f h x = .error e) ∨
      ∃ b h', (f h x = .ok (.nd b, h') ∨ f h x = .ok (.tensor b, h')) ∧ h <+: h' ∧ h.length ≤ b) :
    Independent M f := by
  intro h x d l y h' hx he
  rcases hf h x d l hx with ⟨e, h1⟩ | ⟨b, h1, hy, hp, hc⟩
  · rw [h1] at he; cases he
  · have : y.addr = some b ∧ h' = h1 := by
      rcases hy with hy | hy <;>
      · rw [hy] at he
        obtain ⟨rfl, rfl⟩ := Prod.mk.inj (Except.ok.inj he)
        exact ⟨rfl, rfl⟩
    obtain ⟨hy', rfl⟩ := this
    refine ⟨b, hy', fun a ha ws => ⟨?_, ?_⟩⟩
    · rw [writes_get M ws h' b a (by omega)]
      obtain ⟨t, rfl⟩ := hp
      rw [List.getElem?_append_left ha]
    · exact writes_get M ws h' a b (by omega)

/-- **C219** The results of `copy` (both backends) and of numpy's `array` have memory of their
own: writing into them changes no array that existed before, and the other way round. -/
theorem copy_independent (M : Machine) (dtype : Option El) :
    Independent M copyNp ∧ Independent M (copyTorch M) ∧ Independent M (arrayNp M · · dtype) := by
  refine ⟨?_, ?_, ?_⟩
  · refine independent_of fun h x d l hx => ?_
    rcases noTensor_or x with hn | ⟨a, rfl⟩
    · refine Or.inr ⟨h.length, h ++ [⟨d, l⟩], Or.inl ?_, List.prefix_append _ _, le_rfl⟩
      simp [copyNp, build_total hx hn, bind, Except.bind, pure, Except.pure]
    · exact Or.inl ⟨_, rfl⟩
  · refine independent_of fun h x d l hx => ?_
    obtain ⟨b, h', e, hp, hb, -⟩ := copyTorch_gives M hx
    exact Or.inr ⟨b, h', Or.inr e, hp, hb⟩
  · refine independent_of fun h x d l hx => ?_
    rcases noTensor_or x with hn | ⟨a, rfl⟩
    · obtain ⟨b, h', e, hp, hb, -⟩ := arrayNp_gives M dtype hx hn
      exact Or.inr ⟨b, h', Or.inl e, hp, hb⟩
    · exact Or.inl ⟨_, rfl⟩

/-- **C219** `asarray` shares memory with an array argument exactly when that has the right type,
on both backends; so does torch's `array`. -/
theorem asarray_shares (M : Machine) (dtype : Option El) :
    SharesIff (asarrayNp M · · dtype) (want dtype) ∧ SharesIff (asarrayTorch M · · dtype) (want dtype) ∧
    SharesIff (arrayTorch M · · dtype) (want dtype) ∧
    (∀ h a h' y, asarrayTorch M h (.nd a) dtype = .ok (y, h') → ∀ d l, h[a]? = some ⟨d, l⟩ →
      want dtype d = d → toNpTorch h' y = .ok (.nd a, h)) := by
  have key : SharesIff (asarrayTorch M · · dtype) (want dtype) := by
    intro h x d l y h' a hx ha he
    obtain ⟨b, h1, e, hg⟩ := asarrayTorch_gives M dtype hx
    simp only at he
    rw [e] at he
    obtain ⟨rfl, rfl⟩ := Prod.mk.inj (Except.ok.inj he)
    split
    · rename_i hw
      obtain ⟨rfl, rfl⟩ := hg.same a ha hw
      exact ⟨rfl, rfl⟩
    · rename_i hw
      exact ⟨b, rfl, hg.fresh (Or.inr hw)⟩
  refine ⟨?_, key, key, ?_⟩
  · intro h x d l y h' a hx ha he
    rcases noTensor_or x with hn | ⟨c, rfl⟩
    · obtain ⟨b, h1, e, hg⟩ := asarrayNp_gives M dtype hx hn
      simp only at he
      rw [e] at he
      obtain ⟨rfl, rfl⟩ := Prod.mk.inj (Except.ok.inj he)
      split
      · rename_i hw
        obtain ⟨rfl, rfl⟩ := hg.same a ha hw
        exact ⟨rfl, rfl⟩
      · rename_i hw
        exact ⟨b, rfl, hg.fresh (Or.inr hw)⟩
    · simp only at he
      rw [(np_refuses M h c dtype).1] at he; cases he
  · intro h a h' y he d l ha hw
    have hx : Holds h (.nd a) d l := ha
    obtain ⟨b, h1, e, hg⟩ := asarrayTorch_gives M dtype hx
    rw [e] at he
    obtain ⟨rfl, rfl⟩ := Prod.mk.inj (Except.ok.inj he)
    obtain ⟨rfl, rfl⟩ := hg.same a rfl hw
    rfl

/-- **C219** (negative) `array` of torch is not a copy: writing into the result changes the
argument. -/
theorem array_copy_false (M : Machine) :
    ¬ Independent M (arrayTorch M · · none) ∧
    ∃ y h', arrayTorch M [⟨.float64, [1, 2]⟩] (.nd 0) none = .ok (y, h') ∧ y.addr = some 0 ∧
      (writes M h' 0 [(1, 7)])[0]? = some ⟨.float64, [1, 7]⟩ := by
  have e : arrayTorch M [⟨.float64, [1, 2]⟩] (.nd 0) none =
      .ok (.tensor 0, [⟨.float64, [1, 2]⟩]) := by
    simp [arrayTorch, asarrayTorch, wrap, typed, widen, recast, El.floating, bind, Except.bind, pure,
      Except.pure]
  have hw : (writes M [⟨.float64, [1, 2]⟩] 0 [(1, 7)])[0]? = some ⟨.float64, [1, 7]⟩ := by
    simp [writes, write, store]
  refine ⟨?_, _, _, e, rfl, hw⟩
  intro hi
  obtain ⟨b, hb, hh⟩ := hi [⟨.float64, [1, 2]⟩] (.nd 0) .float64 [1, 2] _ _ rfl e
  obtain rfl : 0 = b := Option.some.inj hb
  have := (hh 0 (by simp) [(1, 7)]).1
  rw [hw] at this
  simp at this

/-! ## C220: names of types -/

/-- Types that a name stands for in numpy, as far as the code names them, and others. -/
inductive NpType where
  | known (dt : El)
  | other

/-- numpy's reading of a type name. -/
def npName (s : String) : Option NpType :=
  if s = "float32" ∨ s = "single" then some (.known .float32)
  else if s = "float64" ∨ s = "double" ∨ s = "float" then some (.known .float64)
  else if s = "int64" ∨ s = "long" ∨ s = "int" then some (.known .int64)
  else if s = "int32" ∨ s = "intc" then some (.known .int32)
  else if s = "bool" then some (.known .bool)
  else if s = "uint64" ∨ s = "uint32" ∨ s = "float16" ∨ s = "int8" ∨ s = "longdouble" ∨ s = "ulong" then
    some .other
  else none

/-- **C220** (partial) The names that the code knows are read as numpy reads them, alone and in
the printed form of the numpy and torch types; Python's `float`, `int`, `bool` are double
precision, 64-bit integers and booleans; no type means no conversion request. -/
theorem resolve_partial :
    (∀ s ∈ ["float32", "float64", "double", "int64", "long", "int32", "bool"],
      ∃ dt, npName s = some (.known dt) ∧ resolve (.named s) = .inl (some dt)) ∧
    resolve (.named "<class 'numpy.float64'>") = .inl (some .float64) ∧
    resolve (.named "<class 'numpy.float32'>") = .inl (some .float32) ∧
    resolve (.named "<class 'numpy.int64'>") = .inl (some .int64) ∧
    resolve (.named "<class 'numpy.int32'>") = .inl (some .int32) ∧
    resolve (.named "<class 'numpy.bool'>") = .inl (some .bool) ∧
    resolve .pyFloat = .inl (some .float64) ∧ resolve .pyInt = .inl (some .int64) ∧
    resolve .pyBool = .inl (some .bool) ∧ resolve .none = .inl none ∧
    (∀ dt, resolve (.torch dt) = .inl (some dt)) := by
  refine ⟨?_, by simp [npName, resolve, contains, hasSub], by simp [npName, resolve, contains, hasSub], by simp [npName, resolve, contains, hasSub], by simp [npName, resolve, contains, hasSub], by simp [npName, resolve, contains, hasSub], rfl, rfl, rfl, rfl, fun _ => rfl⟩
  intro s hs
  simp only [List.mem_cons, List.not_mem_nil, or_false] at hs
  rcases hs with rfl | rfl | rfl | rfl | rfl | rfl | rfl
  · exact ⟨.float32, by simp [npName, resolve, contains, hasSub], by simp [npName, resolve, contains, hasSub]⟩
  · exact ⟨.float64, by simp [npName, resolve, contains, hasSub], by simp [npName, resolve, contains, hasSub]⟩
  · exact ⟨.float64, by simp [npName, resolve, contains, hasSub], by simp [npName, resolve, contains, hasSub]⟩
  · exact ⟨.int64, by simp [npName, resolve, contains, hasSub], by simp [npName, resolve, contains, hasSub]⟩
  · exact ⟨.int64, by simp [npName, resolve, contains, hasSub], by simp [npName, resolve, contains, hasSub]⟩
  · exact ⟨.int32, by simp [npName, resolve, contains, hasSub], by simp [npName, resolve, contains, hasSub]⟩
  · exact ⟨.bool, by simp [npName, resolve, contains, hasSub], by simp [npName, resolve, contains, hasSub]⟩

theorem hasSub_iff (sub s : List Char) : hasSub sub s = true ↔ sub <:+: s := by
  induction s with
  | nil => simp [hasSub]
  | cons c t ih => simp [hasSub, ih, List.infix_cons_iff, List.isPrefixOf_iff_prefix]

/-- **C220** A name is refused exactly when none of the seven words occurs in it, and then
`asarray` raises `TypeError` whatever the argument. -/
theorem resolve_refuses (M : Machine) (s : String) (h : Heap) (x : Val) :
    (resolve (.named s) = .inr s ↔
      ∀ w ∈ ["float32", "float64", "double", "int64", "long", "int32", "bool"], ¬ w.toList <:+: s.toList) ∧
    (resolve (.named s) = .inr s → asarrayTorchArg M h x (.named s) = .error .typeError) := by
  constructor
  · have e : ∀ w : String, (w.toList <:+: s.toList) ↔ contains s w = true := fun w => (hasSub_iff _ _).symm
    simp only [List.forall_mem_cons, e, resolve, List.not_mem_nil, false_implies, implies_true, and_true]
    cases contains s "float32" <;> cases contains s "float64" <;> cases contains s "double" <;>
      cases contains s "int64" <;> cases contains s "long" <;> cases contains s "int32" <;>
      cases contains s "bool" <;> simp
  · intro hr
    simp [asarrayTorchArg, hr]

/-- **C220** (negative) Names that numpy accepts as double precision or 64-bit integers are
refused by torch's `asarray` (`"float"`, `"int"`, `"single"`), and unsigned types are read as signed
ones. -/
theorem resolve_false (M : Machine) (h : Heap) (x : Val) :
    (npName "float" = some (.known .float64) ∧ asarrayTorchArg M h x (.named "float") = .error .typeError) ∧
    (npName "int" = some (.known .int64) ∧ asarrayTorchArg M h x (.named "int") = .error .typeError) ∧
    (npName "single" = some (.known .float32) ∧ asarrayTorchArg M h x (.named "single") = .error .typeError) ∧
    (npName "uint64" = some .other ∧ resolve (.named "uint64") = .inl (some .int64)) ∧
    (npName "uint32" = some .other ∧ resolve (.named "uint32") = .inl (some .int32)) ∧
    (npName "longdouble" = some .other ∧ resolve (.named "longdouble") = .inl (some .float64)) := by
  have r : ∀ s, resolve (.named s) = .inr s → asarrayTorchArg M h x (.named s) = .error .typeError :=
    fun s => (resolve_refuses M s h x).2
  exact ⟨⟨by simp [npName, resolve, contains, hasSub], r _ (by simp [npName, resolve, contains, hasSub])⟩, ⟨by simp [npName, resolve, contains, hasSub], r _ (by simp [npName, resolve, contains, hasSub])⟩, ⟨by simp [npName, resolve, contains, hasSub], r _ (by simp [npName, resolve, contains, hasSub])⟩,
    ⟨by simp [npName, resolve, contains, hasSub], by simp [npName, resolve, contains, hasSub]⟩, ⟨by simp [npName, resolve, contains, hasSub], by simp [npName, resolve, contains, hasSub]⟩, ⟨by simp [npName, resolve, contains, hasSub], by simp [npName, resolve, contains, hasSub]⟩⟩

/-! ## C221: `asint` -/

/-- The numbers of the result of a conversion. -/
def ResultIs (r : Py (Val × Heap)) (l : List ℝ) : Prop :=
  ∃ y h' d, r = .ok (y, h') ∧ Holds h' y d l

/-- **C221** (partial) `asint` drops the fractional part of every number (booleans, floats, and
integers, which stay as they are); the backends agree as long as the results fit in 32 bits. -/
theorem asint_partial (M : Machine) (h : Heap) (x : Val) (d : El) (l : List ℝ) (hx : Holds h x d l)
    (hn : NoTensor x) (hint : d = .int64 ∨ d = .int32 → ∀ v ∈ l, ∃ k : ℤ, v = k) :
    ResultIs (asintNp M h x) (l.map fun v => (trunc v : ℝ)) ∧
    ((∀ v ∈ l, -2 ^ 31 ≤ trunc v ∧ trunc v < 2 ^ 31) →
      ResultIs (asintTorch M h x) (l.map fun v => (trunc v : ℝ))) := by
  have hid : d = .int64 ∨ d = .int32 → l.map (fun v => (trunc v : ℝ)) = l := by
    intro hd
    refine (List.map_congr_left fun v hv => ?_).trans (List.map_id l)
    obtain ⟨k, rfl⟩ := hint hd v hv
    simp [trunc]
  constructor
  · obtain ⟨b, h', e, hg⟩ := asintNp_gives M hx hn
    refine ⟨_, _, .int64, e, ?_⟩
    refine hg.cell.trans (congrArg (fun l => some (Cell.mk .int64 l)) ?_)
    split
    · rename_i hd; exact (hid (Or.inl hd.symm)).symm
    · rfl
  · intro hr
    obtain ⟨b, h', e, hp, hc, -⟩ := thenTo_gives M .int32 hx
    refine ⟨_, _, .int32, e, ?_⟩
    refine hc.trans (congrArg (fun l => some (Cell.mk .int32 l)) ?_)
    split
    · rename_i hd
      have : d = .int32 := by revert hd; cases d <;> simp [wide, El.floating]
      exact (hid (Or.inr this)).symm
    · refine List.map_congr_left fun v hv => ?_
      simp only [store]
      rw [M.w32_id _ (hr v hv).1 (hr v hv).2]

/-- **C221** (negative) On torch `asint` cannot hold 2³¹: whatever the machine does, the result
differs from the number, and from what numpy gives. -/
theorem asint_range_false (M : Machine) :
    ResultIs (asintNp M [] (.float (2 ^ 31))) [2 ^ 31] ∧
    ∃ v : ℝ, v ≠ 2 ^ 31 ∧ ResultIs (asintTorch M [] (.float (2 ^ 31))) [v] := by
  have ht : trunc (2 ^ 31 : ℝ) = 2 ^ 31 := by
    unfold trunc
    rw [if_pos (by positivity)]
    have : ((2 ^ 31 : ℝ)) = ((2 ^ 31 : ℤ) : ℝ) := by norm_num
    rw [this, Int.floor_intCast]
  have hx : Holds [] (.float (2 ^ 31)) .float64 [2 ^ 31] := ⟨rfl, rfl⟩
  constructor
  · have := (asint_partial M [] (.float (2 ^ 31)) .float64 [2 ^ 31] hx (fun a => by simp)
      (by rintro (h | h) <;> cases h)).1
    rw [List.map_singleton, ht] at this
    exact_mod_cast this
  · obtain ⟨b, h', e, hp, hc, -⟩ := thenTo_gives M .int32 hx
    refine ⟨(M.w32 (2 ^ 31) : ℝ), ?_, _, _, .int32, e, ?_⟩
    · intro he
      have h2 := (M.w32_range (2 ^ 31)).2
      have : M.w32 (2 ^ 31) = 2 ^ 31 := by exact_mod_cast he
      omega
    · refine hc.trans (congrArg (fun l => some (Cell.mk .int32 l)) ?_)
      rw [if_neg (by simp [wide, El.floating]), List.map_singleton]
      simp only [store, ht]

/-- Such machines exist. -/
noncomputable def sampleMachine : Machine where
  r32 := fun v => v
  w32 := fun k => if -2 ^ 31 ≤ k ∧ k < 2 ^ 31 then k else -2 ^ 31
  r32_idem := fun _ => rfl
  w32_range := fun k => by split <;> omega
  w32_id := fun k h1 h2 => if_pos ⟨h1, h2⟩

/-- The case of `asint` at a negative number with a fractional part: rounded towards zero. -/
example : ResultIs (asintNp sampleMachine [⟨.float64, [-1.5, 2.5]⟩] (.nd 0)) [-1, 2] := by
  have h := (asint_partial sampleMachine [⟨.float64, [-1.5, 2.5]⟩] (.nd 0) .float64 [-1.5, 2.5] rfl
    (fun a => by simp) (by rintro (h | h) <;> cases h)).1
  have h1 : trunc (-1.5) = -1 := by
    unfold trunc; rw [if_neg (by norm_num), Int.ceil_eq_iff]; norm_num
  have h2 : trunc 2.5 = 2 := by
    unfold trunc; rw [if_pos (by norm_num), Int.floor_eq_iff]; norm_num
  simp only [List.map_cons, List.map_nil, h1, h2] at h
  exact_mod_cast h

/-- **C218** Without a type, `asarray` of both backends gives single and double precision numbers
as double precision ones, and booleans and integers as they are; the numbers do not change. -/
theorem asarray_types (M : Machine) {h h' : Heap} {x y : Val} {d : El} {l : List ℝ} (hx : Holds h x d l) :
    let t : El := match d with | .float32 => .float64 | .float64 => .float64 | .int32 => .int32 | .int64 => .int64 | .bool => .bool
    (asarrayNp M h x none = .ok (y, h') → Holds h' y t l) ∧ (asarrayTorch M h x none = .ok (y, h') → Holds h' y t l) := by
  intro t
  have e : want none d = t := by cases d <;> rfl
  have e2 : (if t = d then l else l.map (store M t)) = l := by
    cases d
    all_goals first | exact if_pos rfl | exact map_store64 M l
  obtain ⟨-, h2, -, -, -, -, -, h8, -⟩ := conversions_spec M none
  constructor
  · intro he
    have := (h2 h x d l y h' hx he).2
    rw [e, e2] at this
    exact this
  · intro he
    have := (h8 h x d l y h' hx he).2
    rw [e, e2] at this
    exact this

/-- What a number becomes in an array of the given type, where this does not depend on the
machine. -/
def Becomes (v : ℝ) : El → ℝ → Prop
  | .bool, w => (v = 0 → w = 0) ∧ (v ≠ 0 → w = 1)
  | .int64, w => ∃ k : ℤ, w = k ∧ |v - k| < 1 ∧ |w| ≤ |v|
  | .float64, w => w = v
  | _, _ => True

/-- **C218** Asking for booleans gives 1 for every nonzero number and 0 for zero, for 64-bit
integers the numbers without their fractional part, for double precision the numbers themselves. -/
theorem store_becomes (M : Machine) (t : El) (v : ℝ) : Becomes v t (store M t v) := by
  cases t
  all_goals simp only [Becomes, store]
  · exact ⟨fun h => if_pos h, fun h => if_neg h⟩
  · refine ⟨trunc v, rfl, ?_, ?_⟩
    · unfold trunc
      split
      · rw [abs_of_nonneg (by linarith [Int.floor_le v])]
        linarith [Int.lt_floor_add_one v]
      · rw [abs_lt]
        constructor <;> linarith [Int.le_ceil v, Int.ceil_lt_add_one v]
    · unfold trunc
      split
      · rename_i h
        rw [abs_of_nonneg (by exact_mod_cast Int.floor_nonneg.mpr h), abs_of_nonneg h]
        exact Int.floor_le v
      · rename_i h
        have hv := not_le.mp h
        rw [abs_of_nonpos (by exact_mod_cast Int.ceil_le.mpr (by simpa using hv.le)), abs_of_neg hv]
        linarith [Int.le_ceil v]

/-- **C218** Asking `asarray` for another type gives each number as it is in that type. -/
theorem dtype_becomes (M : Machine) {h h' : Heap} {x y : Val} {d t : El} {l : List ℝ} (hx : Holds h x d l)
    (hne : t ≠ d) :
    (asarrayNp M h x (some t) = .ok (y, h') → ∃ m, Holds h' y t m ∧ List.Forall₂ (fun v w => Becomes v t w) l m) ∧
    (asarrayTorch M h x (some t) = .ok (y, h') → ∃ m, Holds h' y t m ∧ List.Forall₂ (fun v w => Becomes v t w) l m) := by
  have hm : List.Forall₂ (fun v w => Becomes v t w) l (l.map (store M t)) := by
    rw [List.forall₂_map_right_iff]
    exact List.forall₂_same.mpr fun v _ => store_becomes M t v
  obtain ⟨-, h2, -, -, -, -, -, h8, -⟩ := conversions_spec M (some t)
  constructor
  · intro he
    have := (h2 h x d l y h' hx he).2
    rw [show want (some t) d = t from rfl, if_neg hne] at this
    exact ⟨_, this, hm⟩
  · intro he
    have := (h8 h x d l y h' hx he).2
    rw [show want (some t) d = t from rfl, if_neg hne] at this
    exact ⟨_, this, hm⟩

/-- **C218** An assignment to an entry keeps the type and length of the array, converts the number
and leaves the other entries alone. -/
theorem write_becomes (M : Machine) {h : Heap} {a i : ℕ} {d : El} {l : List ℝ} (ha : h[a]? = some ⟨d, l⟩)
    (v : ℝ) : ∃ w, Becomes v d w ∧ (write M h a i v)[a]? = some ⟨d, l.set i w⟩ := by
  refine ⟨store M d v, store_becomes M d v, ?_⟩
  simp [write, ha]

/-- **C218** Each backend knows its own arrays only: `isarray` holds of numpy arrays on numpy and of
tensors on torch, and `to_scalar` of numpy refuses tensors and lists. -/
theorem isarray_own (x : Val) (h : Heap) :
    (isarrayNp x = true ↔ ∃ a, x = .nd a) ∧ (isarrayTorch x = true ↔ ∃ a, x = .tensor a) ∧
    ((∃ a, x = .tensor a) ∨ (∃ e m, x = .list e m) → toScalarNp h x = .error .attributeError) := by
  refine ⟨?_, ?_, ?_⟩
  · cases x <;> simp [isarrayNp]
  · cases x <;> simp [isarrayTorch]
  · rintro (⟨a, rfl⟩ | ⟨e, m, rfl⟩) <;> rfl

/-- **C220** A name with several of the words is read by the first of: `float32`; `float64` or
`double`; `int64` or `long`; `int32`; `bool`. -/
theorem resolve_first (s : String) :
    let has := fun w : String => w.toList <:+: s.toList
    (has "float32" → resolve (.named s) = .inl (some .float32)) ∧
    (¬has "float32" → has "float64" ∨ has "double" → resolve (.named s) = .inl (some .float64)) ∧
    (¬has "float32" → ¬has "float64" → ¬has "double" → has "int64" ∨ has "long" →
      resolve (.named s) = .inl (some .int64)) ∧
    (¬has "float32" → ¬has "float64" → ¬has "double" → ¬has "int64" → ¬has "long" → has "int32" →
      resolve (.named s) = .inl (some .int32)) ∧
    (¬has "float32" → ¬has "float64" → ¬has "double" → ¬has "int64" → ¬has "long" → ¬has "int32" → has "bool" →
      resolve (.named s) = .inl (some .bool)) := by
  intro has
  have e : ∀ w : String, has w ↔ contains s w = true := fun w => (hasSub_iff _ _).symm
  simp only [e, resolve]
  cases contains s "float32" <;> cases contains s "float64" <;> cases contains s "double" <;>
      cases contains s "int64" <;> cases contains s "long" <;> cases contains s "int32" <;>
      cases contains s "bool" <;> simp

/-- Single precision numbers as an array, as booleans and assigned to an integer entry. -/
example (M : Machine) : (∃ y h', asarrayTorch M [⟨.float32, [2, 0]⟩] (.nd 0) none = .ok (y, h') ∧ Holds h' y .float64 [2, 0]) ∧
    ∃ w, Becomes 2.5 .int64 w ∧ (write M [⟨.int64, [7, 8]⟩] 0 1 2.5)[0]? = some ⟨.int64, [7, 8].set 1 w⟩ := by
  constructor
  · obtain ⟨b, h', e, hg⟩ := asarrayTorch_gives M (h := [⟨.float32, [2, 0]⟩]) (x := .nd 0) none (d := .float32) (l := [2, 0]) rfl
    exact ⟨_, _, e, (asarray_types M (h := [⟨.float32, [2, 0]⟩]) (x := .nd 0) (d := .float32) (l := [2, 0]) rfl).2 e⟩
  · exact write_becomes M rfl _

end Verif.Backend.Conv
