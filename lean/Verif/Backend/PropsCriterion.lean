import Verif.Backend.Criterion
import Verif.Data.PropsBatch
import Mathlib.Analysis.Calculus.FDeriv.Add
import Mathlib.Analysis.Calculus.FDeriv.Mul
import Mathlib.LinearAlgebra.Matrix.Symmetric
import Mathlib.Data.Matrix.Basic
import Mathlib.Tactic.Linarith

/-!
# C168-C171: the criterion objects and their gradients
-/

set_option autoImplicit false

namespace Verif.Backend

open Verif Verif.Data

/-! ## C168: gradients of `DifferentiableSelectionCriterion` -/

section Crit

variable {P G : Type} [DecidableEq P]

/-- Spec: the point of the last `evaluate_pre_grad` of a history. -/
def lastPre (ops : List (CritOp P)) : Option P :=
  ops.foldl (fun a o => match o with | .preGrad p => some p | _ => a) none

/-- What the object remembers. -/
def CritInv (c : Crit P G) (last : Option P) (st : CritState P) : Prop :=
  (st.pValue.map Prod.snd = last) ∧ (∀ k q, st.pValue = some (k, q) → k < st.next) ∧
  (∀ l a b, st.fValue = some (.graph l a b) →
    l < st.next ∧ (∃ v, c.value a = .ok v) ∧ ∀ q, st.pValue = some (l, q) → q = a) ∧
  (st.fValue.isSome → st.pValue.isSome)

theorem critInv_init (c : Crit P G) : CritInv c none (CritState.init P) := by
  refine ⟨rfl, ?_, ?_, ?_⟩ <;> simp [CritState.init]

theorem critInv_preGrad (c : Crit P G) (p : P) {last : Option P} {st : CritState P}
    (h : CritInv c last st) : CritInv c (some p) (critPreGrad c p st).2 := by
  obtain ⟨-, h2, h3, -⟩ := h
  unfold critPreGrad
  cases hv : c.value p with
  | ok v =>
    refine ⟨rfl, ?_, ?_, ?_⟩
    · intro k q hk; simp at hk; simp; omega
    · intro l a b hl
      simp at hl
      obtain ⟨rfl, rfl, rfl⟩ := hl
      refine ⟨by simp, ⟨v, hv⟩, ?_⟩
      intro q hq; simp at hq; exact hq.symm
    · simp
  | error e =>
    by_cases he : e = .linAlgError
    · simp only [he, if_true]
      refine ⟨rfl, ?_, ?_, ?_⟩
      · intro k q hk; simp at hk; simp; omega
      · intro l a b hl; simp at hl
      · simp
    · simp only [he, if_false]
      refine ⟨rfl, ?_, ?_, ?_⟩
      · intro k q hk; simp at hk; simp; omega
      · intro l a b hl
        obtain ⟨g1, g2, g3⟩ := h3 l a b hl
        refine ⟨by simp; omega, g2, ?_⟩
        intro q hq; simp at hq; omega
      · simp

theorem critInv_gradient (c : Crit P G) (rf : Bool) (p : P) (r : Bool) {last : Option P}
    {st : CritState P} (h : CritInv c last st) :
    CritInv c last (critGradient c rf p r st).2 := by
  have hkeep : ∀ l a b b', st.fValue = some (.graph l a b) →
      CritInv c last { st with fValue := some (.graph l a b') } := by
    intro l a b b' hl
    obtain ⟨h1, h2, h3, h4⟩ := h
    refine ⟨h1, h2, ?_, ?_⟩
    · intro l' a' b'' hl'
      simp at hl'
      obtain ⟨rfl, rfl, rfl⟩ := hl'
      exact h3 l a b hl
    · intro _; exact h4 (by simp [hl])
  unfold critGradient
  split
  · exact h
  · exact h
  · rename_i nd k q hf hp
    split
    · exact h
    · cases nd with
      | inf => exact h
      | graph l a b =>
        simp only
        split
        · exact h
        · split
          · exact hkeep l a b _ hf
          · split <;> exact hkeep l a b _ hf

theorem critInv_run (c : Crit P G) (rf : Bool) (ops : List (CritOp P)) :
    CritInv c (lastPre ops) (ops.foldl (critStep c rf) (CritState.init P)) := by
  unfold lastPre
  generalize hl : (none : Option P) = last
  generalize hst : CritState.init P = st
  have h0 : CritInv c last st := by rw [← hl, ← hst]; exact critInv_init c
  clear hl hst
  induction ops generalizing last st with
  | nil => exact h0
  | cons o ops ih =>
    simp only [List.foldl_cons]
    apply ih
    cases o with
    | evaluate p => exact h0
    | noGrad p => exact h0
    | preGrad p => exact critInv_preGrad c p h0
    | gradient p r => exact critInv_gradient c rf p r h0

/-- **C168** Never a wrong gradient: after any sequence of calls, if `gradient(p)` returns
`g`, then `p` is the point of the last `evaluate_pre_grad`, the criterion succeeded there,
and `g` is its gradient at `p`. -/
theorem gradient_sound (c : Crit P G) (rf : Bool) (ops : List (CritOp P)) (p : P) (r : Bool)
    (g : G) (h : (critGradient c rf p r (ops.foldl (critStep c rf) (CritState.init P))).1 = .ok g) :
    lastPre ops = some p ∧ (∃ v, c.value p = .ok v) ∧ c.grad p = some g := by
  obtain ⟨h1, h2, h3, h4⟩ := critInv_run c rf ops
  generalize ops.foldl (critStep c rf) (CritState.init P) = st at *
  unfold critGradient at h
  split at h
  · simp at h
  · simp at h
  · rename_i nd k q hf hp
    split at h
    · simp at h
    · rename_i hpq
      have hpq' : p = q := by simpa using hpq
      subst hpq'
      cases nd with
      | inf => simp at h
      | graph l a b =>
        simp only at h
        split at h
        · simp at h
        · split at h
          · simp at h
          · rename_i hlk
            have hlk' : l = k := by simpa using hlk
            subst hlk'
            obtain ⟨-, g2, g3⟩ := h3 _ _ _ hf
            have hpa := g3 p hp
            subst hpa
            split at h
            · simp at h
            · rename_i g' hg
              simp at h
              subst h
              exact ⟨by rw [← h1, hp]; rfl, g2, hg⟩

/-- **C168** The intended use: after any history, `evaluate_pre_grad(p)` followed by
`gradient(p)` returns the value and the gradient at `p` whenever the criterion succeeds and
is differentiated by autograd, whatever value-only calls come in between. -/
theorem gradient_after_value (c : Crit P G) (rf : Bool) (ops mid : List (CritOp P)) (p : P)
    (r : Bool) (v : Flt) (g : G) (hv : c.value p = .ok v) (hg : c.grad p = some g)
    (hmid : ∀ o ∈ mid, ∃ q, o = .evaluate q ∨ o = .noGrad q) :
    let st := ops.foldl (critStep c rf) (CritState.init P)
    (critPreGrad c p st).1 = .ok v ∧
    (critGradient c rf p r (mid.foldl (critStep c rf) (critPreGrad c p st).2)).1 = .ok g := by
  intro st
  have hm : ∀ s : CritState P, mid.foldl (critStep c rf) s = s := by
    intro s
    induction mid generalizing s with
    | nil => rfl
    | cons o mid ih =>
      have ho : critStep c rf s o = s := by
        obtain ⟨q, h | h⟩ := hmid o (by simp) <;> subst h <;> rfl
      rw [List.foldl_cons, ho]
      exact ih (fun o ho => hmid o (by simp [ho])) s
  rw [hm]
  unfold critPreGrad critGradient
  simp [hv, hg]

/-- **C168** `gradient` before any `evaluate_pre_grad` raises `ValueError`, and so does
`gradient` at another point than the last one evaluated successfully. -/
theorem gradient_other_point (c : Crit P G) (rf : Bool) (ops : List (CritOp P)) (p : P) (r : Bool)
    (h : lastPre ops = none ∨ ∃ q v, lastPre ops = some q ∧ c.value q = .ok v ∧ q ≠ p) :
    ∃ e, (critGradient c rf p r (ops.foldl (critStep c rf) (CritState.init P))).1 = .error e ∧
      e = .valueError := by
  obtain ⟨h1, h2, h3, h4⟩ := critInv_run c rf ops
  generalize ops.foldl (critStep c rf) (CritState.init P) = st at *
  unfold critGradient
  rcases h with h | ⟨q, v, hq, -, hne⟩
  · have hp : st.pValue = none := by
      rw [h] at h1; simpa using h1
    have hf : st.fValue = none := by
      cases hf : st.fValue with
      | none => rfl
      | some x => have := h4 (by simp [hf]); simp [hp] at this
    simp [hf]
  · obtain ⟨⟨k, q'⟩, hp, hq'⟩ : ∃ y, st.pValue = some y ∧ y.2 = q := by
      rw [hq] at h1; simpa using h1
    simp only at hq'
    subst hq'
    cases hf : st.fValue with
    | none => simp
    | some nd => simp [hp, Ne.symm hne]

/-- **C168** A gradient is delivered once: unless `retain=True` was passed, asking again
raises `RuntimeError` (for graphs that saved buffers); with `retain=True` it can be asked
again. -/
theorem gradient_again (c : Crit P G) (p : P) (v : Flt) (g : G) (st : CritState P)
    (hv : c.value p = .ok v) (hg : c.grad p = some g) (r : Bool) :
    let s1 := (critPreGrad c p st).2
    let s2 := (critGradient c false p r s1).2
    (critGradient c false p r s1).1 = .ok g ∧
    (critGradient c false p false s2).1 = if r then .ok g else .error .runtimeError := by
  unfold critPreGrad critGradient
  cases r <;> simp [hv, hg]

/-! ## C169: numerical failures during gradient-based selection -/

/-- **C169** Values on failure: a linear-algebra failure gives `+inf` in
`evaluate_pre_grad` on both backends, every other exception is re-raised. -/
theorem preGrad_values (c : Crit P G) (p : P) (st : CritState P) :
    (critPreGrad c p st).1 = critPreGradNumpy c p ∧
    (c.value p = .error .linAlgError → critPreGradNumpy c p = .ok (.num ⊤)) ∧
    (∀ v, c.value p = .ok v → critPreGradNumpy c p = .ok v) ∧
    (∀ e, c.value p = .error e → e ≠ .linAlgError → critPreGradNumpy c p = .error e) := by
  refine ⟨?_, ?_, ?_, ?_⟩
  · unfold critPreGrad critPreGradNumpy
    cases hv : c.value p with
    | ok v => rfl
    | error e =>
      by_cases he : e = .linAlgError <;> simp [he]
  · intro h; simp [critPreGradNumpy, h]
  · intro v h; simp [critPreGradNumpy, h]
  · intro e h he; simp [critPreGradNumpy, h, he]

/-- **C169** (negative) On torch the gradient at a point where the criterion failed in
linear algebra raises `RuntimeError`, after any history. -/
theorem gradient_after_failure (c : Crit P G) (rf : Bool) (st : CritState P) (p : P) (r : Bool)
    (h : c.value p = .error .linAlgError) :
    (critPreGrad c p st).1 = .ok (.num ⊤) ∧
    (critGradient c rf p r (critPreGrad c p st).2).1 = .error .runtimeError := by
  unfold critPreGrad critGradient
  simp [h]

/-- An optimiser that asks for the gradient only directly after the value at the same
point, and only where the criterion succeeded. -/
inductive Polite (c : Crit P G) : Option P → GSolver P G → Prop
  | stop (o : Option P) (x : P) (f : Flt) : Polite c o (.stop x f)
  | value (o : Option P) (p : P) (k : Flt → GSolver P G) (v : Flt) (h : c.value p = .ok v)
      (hk : Polite c (some p) (k v)) : Polite c o (.askF p k)
  | failed (o : Option P) (p : P) (k : Flt → GSolver P G) (h : c.value p = .error .linAlgError)
      (hk : Polite c none (k (.num ⊤))) : Polite c o (.askF p k)
  | grad (p : P) (k : G → GSolver P G) (g : G) (h : c.grad p = some g)
      (hk : Polite c none (k g)) : Polite c (some p) (.askG p k)

/-- **C169** (the part that holds) With such an optimiser the selection runs to the end
on torch, linear-algebra failures included. -/
theorem runG_polite_partial (c : Crit P G) (rf : Bool) (sv : GSolver P G) (o : Option P)
    (h : Polite c o sv) (st : CritState P)
    (ho : ∀ p, o = some p → ∃ k, st.pValue = some (k, p) ∧ st.fValue = some (.graph k p false)) :
    ∃ x f, runG c rf sv st = .ok (x, f) := by
  induction h generalizing st with
  | stop o x f => exact ⟨x, f, rfl⟩
  | value o p k v hv hk ih =>
    unfold runG critPreGrad
    simp only [hv]
    apply ih
    intro q hq
    simp at hq
    subst hq
    exact ⟨st.next, rfl, rfl⟩
  | failed o p k hv hk ih =>
    unfold runG critPreGrad
    simp only [hv, if_true]
    apply ih
    simp
  | grad p k g hg hk ih =>
    obtain ⟨j, hp, hf⟩ := ho p rfl
    unfold runG critGradient
    simp only [hp, hf]
    simp only [ne_eq, not_true_eq_false, if_false, Bool.false_and, Bool.false_eq_true, hg]
    apply ih
    simp

/-- **C169** (negative) A single linear-algebra failure at a point where the optimiser
also wants the gradient aborts the selection with `RuntimeError`, though the value
reported for that point is `+inf` and the criterion is differentiable elsewhere. -/
theorem runG_failure_false : ∃ (c : Crit ℤ ℤ) (sv : GSolver ℤ ℤ),
    (∀ p, p ≠ 1 → c.value p = .ok (Flt.fin (p : ℝ)) ∧ c.grad p = some 1) ∧
    c.value 1 = .error .linAlgError ∧
    ∀ rf, runG c rf sv (CritState.init ℤ) = .error .runtimeError := by
  refine ⟨⟨fun p => if p = 1 then .error .linAlgError else .ok (Flt.fin (p : ℝ)),
      fun _ => some 1⟩,
    .askF 0 fun _ => .askG 0 fun g => .askF g fun _ => .askG g fun _ => .stop 0 (Flt.fin 0),
    ?_, ?_, ?_⟩
  · intro p hp; simp [hp]
  · simp
  · intro rf
    simp [runG, critPreGrad, critGradient, CritState.init]

/-- **C169** (negative) Diagnostics after the selection: on numpy `evaluate_no_grad`
raises the linear-algebra error that torch turns into `+inf`. -/
theorem noGrad_backends_false : ∃ c : Crit ℤ ℤ,
    critNoGrad c 0 = .ok (.num ⊤) ∧ critNoGradNumpy c 0 = .error .linAlgError :=
  ⟨⟨fun _ => .error .linAlgError, fun _ => none⟩, by simp [critNoGrad], rfl⟩

end Crit

/-! ## C170: gradients of `BatchDifferentiableSelectionCriterion` -/

section Batch

variable {B V : Type} [AddCommGroup V] [Module ℝ V]

/-- Spec: the gradient an evaluation over the batches `l` should leave. -/
noncomputable def gradSpec (size : B → ℕ) (γ : B → V) (red : Reduction) (l : List B) : V :=
  match red with
  | .sum => (l.map fun b => (size b : ℝ) • γ b).sum
  | .mean => (((l.map size).sum : ℕ) : ℝ)⁻¹ • (l.map fun b => (size b : ℝ) • γ b).sum

/-- Accumulation of an optional gradient. -/
def addOpt (a : Option V) (s : V) : V := match a with | none => s | some x => x + s

theorem foldBatchesG_ok (size : B → ℕ) (φ : B → ℝ) (γ : B → V) (l : List B) (t : ℝ) (n : ℕ)
    (a : Option V) :
    foldBatchesG size (fun b => .ok (φ b, some (γ b))) ((t, n), a) l =
      .ok ((t + (l.map fun b => φ b * size b).sum, n + (l.map size).sum),
        if l = [] then a else some (addOpt a (l.map fun b => (size b : ℝ) • γ b).sum)) := by
  induction l generalizing t n a with
  | nil => simp [foldBatchesG]
  | cons b l ih =>
    simp only [foldBatchesG, ih, List.map_cons, List.sum_cons, add_assoc]
    cases l with
    | nil => cases a <;> simp [addOpt]
    | cons c l => cases a <;> simp [addOpt, add_assoc]

theorem drawFoldG_ok (src : ℕ → List B) (hne : ∀ k, src k ≠ []) (size : B → ℕ) (φ : B → ℝ)
    (γ : B → V) (k : ℕ) : ∀ (t : ℝ) (n : ℕ) (a : Option V) (st : IterState B), ∃ l st',
      drawFold src size (fun b => .ok (φ b)) k (t, n) st =
        (.ok (t + (l.map fun b => φ b * size b).sum, n + (l.map size).sum), st') ∧
      l.length = k ∧
      (∀ N, k ≤ N → l <+: st.rest ++ epochs src st.calls N) ∧
      drawFoldG src size (fun b => .ok (φ b, some (γ b))) k ((t, n), a) st =
        (.ok ((t + (l.map fun b => φ b * size b).sum, n + (l.map size).sum),
          if l = [] then a else some (addOpt a (l.map fun b => (size b : ℝ) • γ b).sum)), st') := by
  induction k with
  | zero => intro t n a st; exact ⟨[], st, by simp [drawFold], rfl, by simp, by simp [drawFoldG]⟩
  | succ k ih =>
    intro t n a st
    obtain ⟨b, st1, h1, _, h3, h4⟩ := nextBatch_stream src hne st 1 (le_refl _)
    obtain ⟨l, st2, g1, g2, g3, g4⟩ := ih (t + φ b * size b) (n + size b)
      (some (match a with | none => (size b : ℝ) • γ b | some a => a + (size b : ℝ) • γ b)) st1
    refine ⟨b :: l, st2, ?_, by simp [g2], ?_, ?_⟩
    · simp only [drawFold, h1, g1, List.map_cons, List.sum_cons, add_assoc]
    · intro N hN
      obtain ⟨b', st1', h1', h2', _, _⟩ := nextBatch_stream src hne st N (by omega)
      rw [h1] at h1'
      obtain ⟨rfl, rfl⟩ : b = b' ∧ st1 = st1' := by
        simp only [Prod.mk.injEq, Except.ok.injEq] at h1'; exact h1'
      rw [h2', List.cons_prefix_cons]
      exact ⟨rfl, g3 _ (by omega)⟩
    · simp only [drawFoldG, h1]
      refine Eq.trans (by cases a <;> rfl) (g4.trans ?_)
      simp only [List.map_cons, List.sum_cons, add_assoc]
      cases l with
      | nil => cases a <;> simp [addOpt]
      | cons c l => cases a <;> simp [addOpt, add_assoc]

/-- **C170** Value and gradient come from the same batches: for batches that are never
empty there is a list `l` of batches (the whole epoch, or the next `batches_per_eval` of the
stream) such that `evaluate_pre_grad` returns the size-weighted reduction of the criterion
over `l` and `gradient`, whatever its argument, the same reduction of the batch
gradients. -/
theorem batch_preGrad_spec {P : Type} (src : ℕ → List B) (hne : ∀ k, src k ≠ []) (size : B → ℕ)
    (hs : ∀ b, 0 < size b) (φ : B → ℝ) (γ : B → V) (red : Reduction) (bpe : ℕ)
    (st : BatchState B V) (q : P) :
    ∃ l : List B, l ≠ [] ∧ (bpe = 0 → l = src st.iter.calls) ∧
      (0 < bpe → l.length = bpe ∧ ∀ N, bpe ≤ N → l <+: st.iter.rest ++ epochs src st.iter.calls N) ∧
      (batchPreGrad src size (fun b => .ok (φ b, some (γ b))) red bpe st).1 =
        .ok (evalSpec size φ red l) ∧
      batchGradient q (batchPreGrad src size (fun b => .ok (φ b, some (γ b))) red bpe st).2 =
        .ok (gradSpec size γ red l) := by
  by_cases hb : bpe = 0
  · refine ⟨src st.iter.calls, hne _, fun _ => rfl, fun h => absurd hb h.ne', ?_⟩
    have hn := pos_sum_of_pos size hs _ (hne st.iter.calls)
    unfold batchPreGrad
    simp only [hb, if_true, foldBatchesG_ok]
    cases red <;> simp [hn, hne, evalSpec, gradSpec, addOpt, batchGradient]
  · obtain ⟨l, st', g1, g2, g3, g4⟩ := drawFoldG_ok src hne size φ γ bpe 0 0 none st.iter
    have hl : l ≠ [] := by rintro rfl; simp at g2; omega
    refine ⟨l, hl, fun h => absurd h hb, fun _ => ⟨g2, g3⟩, ?_⟩
    have hn := pos_sum_of_pos size hs l hl
    unfold batchPreGrad
    simp only [hb, if_false, g4]
    cases red <;> simp [hn, hl, evalSpec, gradSpec, addOpt, batchGradient]

/-- **C170** So the delivered gradient is the derivative of the delivered value, seen as a
function of the parameter with the batches held fixed. -/
theorem batch_gradient_derivative {E : Type} [NormedAddCommGroup E] [NormedSpace ℝ E]
    (size : B → ℕ) (φ : E → B → ℝ) (γ : B → E →L[ℝ] ℝ) (p : E) (l : List B)
    (h : ∀ b ∈ l, HasFDerivAt (fun t => φ t b) (γ b) p) (red : Reduction) :
    HasFDerivAt (fun t => evalSpec size (φ t) red l) (gradSpec size γ red l) p := by
  have hsum : HasFDerivAt (fun t => (l.map fun b => φ t b * size b).sum)
      ((l.map fun b => (size b : ℝ) • γ b).sum) p := by
    induction l with
    | nil => simpa using hasFDerivAt_const (0 : ℝ) p
    | cons b l ih =>
      simp only [List.map_cons, List.sum_cons]
      refine HasFDerivAt.add ?_ (ih fun c hc => h c (by simp [hc]))
      exact (h b (by simp)).mul_const _
  cases red with
  | sum => exact hsum
  | mean =>
    simp only [evalSpec, gradSpec, div_eq_mul_inv]
    exact hsum.mul_const _

/-- **C170** The constructor refuses unknown reductions, negative counts and empty loaders
with `ValueError`; right after construction `gradient` raises `RuntimeError`. -/
theorem batchInit_spec {P : Type} (src : ℕ → List B) (known : Bool) (bpe : ℤ) (len : ℕ) :
    ((known = false ∨ bpe < 0 ∨ len = 0) →
      batchInit (V := V) src known bpe len = .error .valueError) ∧
    (known = true → 0 ≤ bpe → len ≠ 0 →
      ∃ st, batchInit (V := V) src known bpe len = .ok st ∧ st.iter = initIter src bpe.toNat ∧
        ∀ q : P, batchGradient q st = .error .runtimeError) := by
  constructor
  · rintro (h | h | h) <;> unfold batchInit
    · simp [h]
    · cases known <;> simp [h]
    · cases known <;> simp [h]
  · intro h1 h2 h3
    exact ⟨⟨initIter src bpe.toNat, none⟩, by simp [batchInit, h1, h2, h3], rfl, fun _ => rfl⟩

/-- **C170** (negative) The object does not remember the point: `gradient(q)` after
`evaluate_pre_grad(p)` silently returns the gradient at `p`, and after an
`evaluate_pre_grad(q)` that raised it still returns the one at `p`. -/
theorem batch_gradient_stale_false : ∃ (φ : ℝ → Unit → Py (ℝ × Option ℝ)),
    (∀ p, p ≠ 3 → φ p () = .ok (p ^ 2, some (2 * p))) ∧ φ 3 () = .error .linAlgError ∧
    let ev := fun p => batchPreGrad (fun _ => [()]) (fun _ => 1) (φ p) .mean 0
    let st0 : BatchState Unit ℝ := ⟨⟨[], 0⟩, none⟩
    let st1 := (ev 1 st0).2
    batchGradient (2 : ℝ) st1 = .ok 2 ∧
    (ev 3 st1).1 = .error .linAlgError ∧ batchGradient (3 : ℝ) (ev 3 st1).2 = .ok 2 := by
  refine ⟨fun p _ => if p = 3 then .error .linAlgError else .ok (p ^ 2, some (2 * p)), ?_, ?_, ?_⟩
  · intro p hp; simp [hp]
  · simp
  · simp [batchPreGrad, foldBatchesG, batchGradient]

/-- **C170** (negative) Evaluating changes the caller's tensor: after `evaluate_no_grad` a
leaf tensor that required gradients no longer does, after `evaluate_pre_grad` any tensor
does; arrays, lists and numbers are not affected. -/
theorem prepareParam_mutates_false :
    (prepareParam .tensor true true false = .ok false ∧
      prepareParam .tensor false true true = .ok true ∧
      prepareParam .tensor true false false = .error .runtimeError) ∧
    (∀ flag leaf, prepareParam .tensor flag leaf true = .ok true) ∧
    ∀ flag leaf req, prepareParam .other flag leaf req = .ok flag :=
  ⟨⟨rfl, rfl, rfl⟩, fun _ leaf => by cases leaf <;> rfl, fun _ _ _ => rfl⟩

end Batch

/-! ## C171: `SecondOrderDifferentiableFunction` -/

section Fun2

variable {n : ℕ}

/-- Spec: the point of the last `evaluate`. -/
def lastEval (ops : List (Fun2Op n)) : Option (Fin n → ℝ) :=
  ops.foldl (fun a o => match o with | .evaluate x => some x | .gradient => a) none

/-- What the object remembers. -/
def Fun2Inv (f : Fun2 n) (last : Option (Fin n → ℝ)) (st : Fun2State n) : Prop :=
  (st.x.map Prod.snd = last) ∧ (∀ k a, st.x = some (k, a) → k < st.next) ∧
  (∀ k a, st.y = some (k, a) → k < st.next ∧ (∃ v, f.value a = .ok v) ∧
    ∀ b, st.x = some (k, b) → b = a) ∧
  (∀ k a, st.grad = some (k, a) → k < st.next ∧ (∃ v, f.value a = .ok v) ∧
    (∃ g, f.grad a = some g) ∧ ∀ b, st.x = some (k, b) → b = a)

theorem fun2Inv_step (f : Fun2 n) {last : Option (Fin n → ℝ)} {st : Fun2State n}
    (h : Fun2Inv f last st) (o : Fun2Op n) :
    Fun2Inv f (match o with | .evaluate x => some x | .gradient => last) (fun2Step f st o) := by
  obtain ⟨h1, h2, h3, h4⟩ := h
  have hg : ∀ (x : Fin n → ℝ) k a, st.grad = some (k, a) →
      k < st.next + 1 ∧ (∃ v, f.value a = .ok v) ∧ (∃ g, f.grad a = some g) ∧
      ∀ b, some (st.next, x) = some (k, b) → b = a := by
    intro x k a hk
    obtain ⟨g1, g2, g3, -⟩ := h4 k a hk
    refine ⟨by omega, g2, g3, ?_⟩
    intro b hb; simp at hb; omega
  cases o with
  | evaluate x =>
    simp only [fun2Step, fun2Eval]
    cases hv : f.value x with
    | ok v =>
      refine ⟨rfl, ?_, ?_, hg x⟩
      · intro k a hk; simp at hk; simp; omega
      · intro k a hk
        simp at hk
        obtain ⟨rfl, rfl⟩ := hk
        exact ⟨by simp, ⟨v, hv⟩, fun b hb => by simp at hb; exact hb.symm⟩
    | error e =>
      refine ⟨rfl, ?_, ?_, hg x⟩
      · intro k a hk; simp at hk; simp; omega
      · intro k a hk
        obtain ⟨g1, g2, -⟩ := h3 k a hk
        exact ⟨by simp; omega, g2, fun b hb => by simp at hb; omega⟩
  | gradient =>
    simp only [fun2Step, fun2Grad]
    split
    · rename_i k a j b hy hx
      split
      · exact ⟨h1, h2, h3, h4⟩
      · rename_i hkj
        split
        · exact ⟨h1, h2, h3, h4⟩
        · rename_i g hgr
          refine ⟨h1, h2, h3, ?_⟩
          intro k' a' hk'
          simp at hk'
          obtain ⟨rfl, rfl⟩ := hk'
          obtain ⟨g1, g2, g3⟩ := h3 _ _ hy
          exact ⟨g1, g2, ⟨g, hgr⟩, g3⟩
    · exact ⟨h1, h2, h3, h4⟩

theorem fun2Inv_run (f : Fun2 n) (ops : List (Fun2Op n)) :
    Fun2Inv f (lastEval ops) (ops.foldl (fun2Step f) (Fun2State.init n)) := by
  unfold lastEval
  generalize hl : (none : Option (Fin n → ℝ)) = last
  generalize hst : Fun2State.init n = st
  have h0 : Fun2Inv f last st := by
    subst hl hst
    refine ⟨rfl, ?_, ?_, ?_⟩ <;> simp [Fun2State.init]
  clear hl hst
  induction ops generalizing last st with
  | nil => exact h0
  | cons o ops ih =>
    simp only [List.foldl_cons]
    exact ih _ _ (fun2Inv_step f h0 o)

/-- **C171** Never a wrong Hessian: after any sequence of calls, a returned Hessian is
symmetric and is the symmetric part of the second derivatives at the point of the last
`evaluate`. -/
theorem hessian_sound (f : Fun2 n) (ops : List (Fun2Op n)) (H : Matrix (Fin n) (Fin n) ℝ)
    (h : fun2Hess f (ops.foldl (fun2Step f) (Fun2State.init n)) = .ok H) :
    H.IsSymm ∧ ∃ a H0, lastEval ops = some a ∧ f.hess a = some H0 ∧
      (∀ i j, H i j = (H0 i j + H0 j i) / 2) ∧ (H0.IsSymm → H = H0) := by
  obtain ⟨h1, h2, h3, h4⟩ := fun2Inv_run f ops
  generalize ops.foldl (fun2Step f) (Fun2State.init n) = st at *
  unfold fun2Hess at h
  split at h
  · rename_i k a j b hg hx
    split at h
    · simp at h
    · rename_i hkj
      have hkj' : k = j := by simpa using hkj
      subst hkj'
      obtain ⟨-, -, -, g4⟩ := h4 _ _ hg
      have hba := g4 b hx
      subst hba
      split at h
      · simp at h
      · rename_i H0 hH
        injection h with h
        have he : ∀ i j, H i j = (H0 i j + H0 j i) / 2 := by
          intro i j; rw [← h]; norm_num; ring
        refine ⟨?_, b, H0, by rw [← h1, hx]; rfl, hH, he, ?_⟩
        · ext i j
          rw [Matrix.transpose_apply, he, he]; ring
        · intro hs
          ext i j
          rw [he]
          have : H0 j i = H0 i j := hs.apply i j
          rw [this]; ring
  · simp at h

/-- **C171** The protocol `evaluate(x)`, `gradient()`, `hessian()` works after any history
at every point where the function has a value and autograd finds both derivatives. -/
theorem hessian_protocol (f : Fun2 n) (ops : List (Fun2Op n)) (x g : Fin n → ℝ) (v : ℝ)
    (H : Matrix (Fin n) (Fin n) ℝ) (hv : f.value x = .ok v) (hg : f.grad x = some g)
    (hH : f.hess x = some H) (hs : H.IsSymm) :
    let s1 := (fun2Eval f x (ops.foldl (fun2Step f) (Fun2State.init n))).2
    (fun2Grad f s1).1 = .ok g ∧ fun2Hess f (fun2Grad f s1).2 = .ok H := by
  intro s1
  have e1 : fun2Grad f s1 = (.ok g, { s1 with
        grad := some ((ops.foldl (fun2Step f) (Fun2State.init n)).next, x) }) := by
    simp only [s1, fun2Eval, hv, fun2Grad, hg]
    simp
  rw [e1]
  refine ⟨rfl, ?_⟩
  simp only [s1, fun2Eval, hv, fun2Hess, hH]
  simp only [ne_eq, not_true_eq_false, if_false]
  congr 1
  ext i j
  have : H j i = H i j := hs.apply i j
  rw [this]; norm_num; ring

/-- **C171** Out of order: `gradient()` or `hessian()` first, and `hessian()` when
`evaluate` was called again after the last `gradient()`, raise `RuntimeError`. -/
theorem hessian_order (f : Fun2 n) (ops : List (Fun2Op n)) (x : Fin n → ℝ) :
    (fun2Grad f (Fun2State.init n)).1 = .error .runtimeError ∧
    fun2Hess f (Fun2State.init n) = .error .runtimeError ∧
    fun2Hess f (fun2Eval f x (ops.foldl (fun2Step f) (Fun2State.init n))).2 =
      .error .runtimeError := by
  refine ⟨rfl, rfl, ?_⟩
  obtain ⟨-, -, -, h4⟩ := fun2Inv_run f ops
  generalize ops.foldl (fun2Step f) (Fun2State.init n) = st at *
  have key : ∀ s : Fun2State n, s.grad = st.grad → s.x = some (st.next, x) →
      fun2Hess f s = .error .runtimeError := by
    intro s hs hx
    unfold fun2Hess
    rw [hs, hx]
    cases hg : st.grad with
    | none => rfl
    | some y =>
      obtain ⟨k, a⟩ := y
      have := (h4 k a hg).1
      simp only
      rw [if_pos (by omega)]
  unfold fun2Eval
  cases f.value x <;> exact key _ rfl rfl

/-- **C171** (negative) The Hessian of an affine function, which is zero, is not returned:
autograd finds no dependence of the gradient on the point and `RuntimeError` is raised. -/
theorem hessian_affine_false (f : Fun2 n) (ops : List (Fun2Op n)) (hf : ∀ x, f.hess x = none) :
    fun2Hess f (ops.foldl (fun2Step f) (Fun2State.init n)) = .error .runtimeError := by
  unfold fun2Hess
  split
  · split
    · rfl
    · simp [hf]
  · rfl

end Fun2

/-! ## Concrete cases -/

/-- `p ↦ p²` on the integers: value and gradient at 3, then a stale request. -/
noncomputable def sqCrit : Crit ℤ ℤ := ⟨fun p => .ok (Flt.fin ((p : ℝ) ^ 2)), fun p => some (2 * p)⟩

example : (critGradient sqCrit false 3 false (critPreGrad sqCrit 3 (CritState.init ℤ)).2).1 = .ok 6 :=
  (gradient_after_value sqCrit false [] [] 3 false _ 6 rfl rfl (by simp)).2

example : (critGradient sqCrit false 4 false
    ([CritOp.preGrad 4, .preGrad 3].foldl (critStep sqCrit false) (CritState.init ℤ))).1 =
    .error .valueError := by
  obtain ⟨e, h, rfl⟩ := gradient_other_point sqCrit false [.preGrad 4, .preGrad 3] 4 false
    (.inr ⟨3, _, rfl, rfl, by decide⟩)
  exact h

/-- A polite solver exists. -/
example : Polite sqCrit none (.askF 3 fun _ => .askG 3 fun _ => .stop 3 (Flt.fin 9)) :=
  .value _ _ _ _ rfl (.grad _ _ 6 rfl (.stop _ _ _))

/-- Two batches of sizes 1 and 3 with gradients 2 and 6: the mean gradient is 5. -/
example : gradSpec (fun b : Bool => if b then 1 else 3) (fun b => if b then (2 : ℝ) else 6) .mean
    [true, false] = 5 := by
  simp [gradSpec]; norm_num

/-- `x ↦ 3 x` in one dimension: value and gradient are there, the Hessian is refused. -/
noncomputable def linFun : Fun2 1 := ⟨fun x => .ok (3 * x 0), fun _ => some fun _ => 3, fun _ => none⟩

example : (fun2Grad linFun (fun2Eval linFun ![5] (Fun2State.init 1)).2).1 = .ok (fun _ => 3) ∧
    fun2Hess linFun ([Fun2Op.evaluate ![5], .gradient].foldl (fun2Step linFun) (Fun2State.init 1)) =
      .error .runtimeError :=
  ⟨by simp [fun2Grad, fun2Eval, linFun], hessian_affine_false linFun _ fun _ => rfl⟩

/-- `x ↦ x²` in one dimension: Hessian 2. -/
noncomputable def sqFun : Fun2 1 :=
  ⟨fun x => .ok (x 0 ^ 2), fun x => some fun _ => 2 * x 0, fun _ => some fun _ _ => 2⟩

example : fun2Hess sqFun (fun2Grad sqFun (fun2Eval sqFun ![5] (Fun2State.init 1)).2).2 =
    .ok fun _ _ => 2 :=
  (hessian_protocol sqFun [] ![5] _ _ _ rfl rfl rfl (by ext i j; rfl)).2

end Verif.Backend
