/-
C40, C42, C43: autodiff plumbing.
-/
import Verif.Core.Model.Autodiff
import Verif.Core.Props.Problem
import Verif.Core.Witness

namespace Verif.Core
open Verif

variable {A : Type*}

/-! ### Examples for the problem class -/

/-- A point of a product with layout `(1, 2)` and its arrays (hypotheses of C32, C33). -/
example : Groups (A := ℝ) [1, 2] [.arr 5, .seq .tuple [.arr 6, .arr 7]] [.arr 5, .arr 6, .arr 7] :=
  .single 5 (.multi .tuple [.arr 6, .arr 7] (by simp) .nil)

/-- `C32_compound` on that point. -/
example (f : Fn ℝ) : wrapFunction (.compound [1, 2]) f
    (.seq .list [.arr 5, .seq .tuple [.arr 6, .arr 7]]) = f [.arr 5, .arr 6, .arr 7] :=
  C32_compound _ f _ _ _ (.single 5 (.multi .tuple [.arr 6, .arr 7] (by simp) .nil))

/-- `C32_malformed`: two arrays where three are due. -/
example (f : Fn ℝ) : wrapFunction (.compound [1, 3]) f
    (.seq .list [.arr 5, .seq .tuple [.arr 6, .arr 7]]) = .error .assertion := by
  refine C32_malformed _ f _ _ ?_ ?_
  · intro i n v h1 h2 h3
    match i with
    | 0 => simp at h1; exact absurd h1.symm h3
    | 1 => simp at h2; exact ⟨_, by rw [← h2]; rfl⟩
    | i + 2 => simp at h1
  · rintro ⟨-, h⟩
    have := h 1 3 (.seq .tuple [.arr 6, .arr 7]) rfl rfl
    simp [GroupFits, Val.items] at this

/-- `C34_gradient`: two values for the layout `(1, 2)` are rejected. -/
example : wrapGradient (A := ℝ) (.compound [1, 2]) (fun _ => .ok (.seq .tuple [.arr 0, .arr 1]))
    (.seq .list [.arr 5, .seq .tuple [.arr 6, .arr 7]]) = .error .valueError := by
  refine ((C34_gradient [1, 2] _ _ _ (C32_compound _ _ _ _ _
    (.single 5 (.multi .tuple [.arr 6, .arr 7] (by simp) .nil)))).1).2 ?_
  rintro ⟨k, l, h, hl⟩
  injection h with _ h
  subst h
  simp at hl

/-- Hypotheses of C36 and C37: a backend whose generators return operators; requesting the
Riemannian gradient twice generates one gradient operator. -/
noncomputable example : (accesses (A := ℝ) ⟨.int 1, fun _ v => .ok v, fun _ g => .ok g, fun _ _ h _ => .ok h⟩
    ⟨fun _ => .ok fun l => .ok (.seq .list l), fun _ => .ok fun l => .ok (.seq .list l)⟩
    (initState .none .none .none .none) [.callRG (.arr 1), .callRG (.arr 2)]).fn.gradientCalls = 1 :=
  rfl

/-! ### Generated operators -/

/-- The library's reverse pass returns one value per argument. -/
def OneValuePerArgument (n : ℕ) (raw : List (Val A) → Except PyErr (List (Val A))) : Prop :=
  ∀ args, args.length = n → ∃ l, raw args = .ok l ∧ l.length = n

/-- C40 fails for a product of one manifold with one array per point: the generated gradient
operator unpacks its single result and the problem then rejects it, at every well-formed point. -/
theorem C40_single_factor_raises [PyArr A] (raw : List (Val A) → Except PyErr (List (Val A)))
    (hraw : OneValuePerArgument 1 raw)
    (hflat : ∀ args l, raw args = .ok l → ∀ v ∈ l, v.isListOrTuple = false)
    (k : SeqKind) (a : A) :
    wrapGradient (.compound [1]) (gradientOperator raw (Layout.compound [1]).numValues)
      (.seq k [.arr a]) = .error .valueError := by
  obtain ⟨l, hl, hlen⟩ := hraw [.arr a] rfl
  have hg : Groups [1] [.arr a] [.arr a] := .single a .nil
  match l, hlen with
  | [v], _ =>
    have hv := hflat _ _ hl v (by simp)
    have : wrapFunction (.compound [1]) (gradientOperator raw (Layout.compound [1]).numValues)
        (.seq k [.arr a]) = .ok v := by
      rw [C32_compound _ _ _ _ _ hg]
      simp [gradientOperator, hl, Layout.numValues, unpackSingleton]
    cases v with
    | arr b => simp [wrapGradient, this, groupReturnValues]
    | seq k' l' => simp [Val.isListOrTuple] at hv

/-- C40 for all other products: the generated gradient has one group per factor. -/
theorem C40_partial [PyArr A] (sig : List ℕ) (hsig : sig.sum ≠ 1)
    (raw : List (Val A) → Except PyErr (List (Val A)))
    (hraw : OneValuePerArgument sig.sum raw) (k : SeqKind) (vs flat : List (Val A))
    (h : Groups sig vs flat) :
    ∃ gs, wrapGradient (.compound sig) (gradientOperator raw (Layout.compound sig).numValues)
      (.seq k vs) = .ok (.seq .list gs) ∧ gs.length = sig.length := by
  obtain ⟨l, hl, hlen⟩ := hraw flat h.flat_length
  have : wrapFunction (.compound sig) (gradientOperator raw (Layout.compound sig).numValues)
      (.seq k vs) = .ok (.seq .list l) := by
    rw [C32_compound _ _ _ _ _ h]
    simp [gradientOperator, hl, Layout.numValues, hsig]
  exact (C34_gradient sig _ _ _ this).2 ⟨.list, l, rfl, hlen⟩

/-- C40 outside products: for an integer layout `n` the generated gradient is the bare array for
`n = 1` and a list of `n` arrays otherwise. -/
theorem C40_integer_layout [PyArr A] (n : ℕ) (raw : List (Val A) → Except PyErr (List (Val A)))
    (hraw : OneValuePerArgument n raw) :
    (n = 1 → ∀ x, ∃ v, raw [x] = .ok [v] ∧
      wrapGradient (.int n) (gradientOperator raw n) x = .ok v) ∧
    (n ≠ 1 → ∀ k l, l.length = n → ∃ gs, raw l = .ok gs ∧ gs.length = n ∧
      wrapGradient (.int n) (gradientOperator raw n) (.seq k l) = .ok (.seq .list gs)) := by
  constructor
  · rintro rfl x
    obtain ⟨l, hl, hlen⟩ := hraw [x] rfl
    match l, hlen with
    | [v], _ =>
      exact ⟨v, hl, by simp [wrapGradient, wrapFunction, gradientOperator, hl, unpackSingleton]⟩
  · intro hn k l hl
    obtain ⟨gs, hgs, hlen⟩ := hraw l hl
    exact ⟨gs, hgs, hlen, by simp [wrapGradient, wrapFunction, hn, Val.items, gradientOperator, hgs]⟩

/-- Hypotheses of C40: the gradient of `(x, y) ↦ (x² + y²)/2`. -/
example : OneValuePerArgument (A := ℝ) 2 fun l => .ok l := fun l h => ⟨l, rfl, h⟩

/-- C42: the decorator accepts exactly the signatures with named positional parameters or `*args`,
not both, without keyword parameters. -/
theorem C42_decorator (isManifold callable available : Bool) (spec : ArgSpec) :
    (decorate isManifold callable available spec = .ok () ↔
      isManifold ∧ callable ∧ available ∧
      ((0 < spec.args ∧ spec.varargs = false) ∨ (spec.args = 0 ∧ spec.varargs = true)) ∧
      spec.varkw = false ∧ spec.kwonlyargs = 0) ∧
    (isManifold = false → decorate isManifold callable available spec = .error .typeError) ∧
    (isManifold → callable →
      (¬ (((0 < spec.args ∧ spec.varargs = false) ∨ (spec.args = 0 ∧ spec.varargs = true)) ∧
        spec.varkw = false ∧ spec.kwonlyargs = 0) ↔
      decorate isManifold callable available spec = .error .valueError)) ∧
    (isManifold → callable →
      (((0 < spec.args ∧ spec.varargs = false) ∨ (spec.args = 0 ∧ spec.varargs = true)) ∧
        spec.varkw = false ∧ spec.kwonlyargs = 0) → available = false →
      decorate isManifold callable available spec = .error .runtime) := by
  obtain ⟨a, va, vk, kw⟩ := spec
  rcases Nat.eq_zero_or_pos a with ha | ha <;> rcases Nat.eq_zero_or_pos kw with hk | hk <;>
    have ha' := ha <;> have hk' := hk <;>
    cases isManifold <;> cases callable <;> cases available <;> cases va <;> cases vk <;>
    simp [decorate, Nat.pos_iff_ne_zero] at ha' hk' ⊢ <;> simp_all

theorem bisect_append {α : Type*} (l m : List α) (h : l.length = m.length) :
    bisect (l ++ m) = .ok (l, m) := by
  have h1 : (l ++ m).length = 2 * l.length := by simp; omega
  have h2 : ¬ (l ++ m).length % 2 = 1 := by omega
  have h3 : (l ++ m).length / 2 = l.length := by omega
  simp only [bisect, h2, if_false, h3]
  simp

/-- C43: a generated Hessian operator called with `n` arrays of a point followed by `n` arrays of a
direction passes the former as arguments and the latter as vectors, and returns the `n` values, or
the bare value for `n = 1`. -/
theorem C43_hessian_operator (n : ℕ)
    (raw : List (Val A) → List (Val A) → Except PyErr (List (Val A))) (point vector r : List (Val A))
    (hp : point.length = n) (hv : vector.length = n) (hraw : raw point vector = .ok r)
    (hr : r.length = n) :
    (n ≠ 1 → hessianOperator raw n (point ++ vector) = .ok (.seq .list r)) ∧
    (∀ v, r = [v] → hessianOperator raw n (point ++ vector) = .ok v) := by
  have hb := bisect_append point vector (by omega)
  constructor
  · intro hn
    simp [hessianOperator, hb, hraw, hn]
  · rintro v rfl
    have hn : n = 1 := by simpa using hr.symm
    simp [hessianOperator, hb, hraw, hn, unpackSingleton]

/-- C43: an odd number of arrays raises `ValueError`, an even number never does by itself. -/
theorem C43_odd (n : ℕ) (raw : List (Val A) → List (Val A) → Except PyErr (List (Val A)))
    (args : List (Val A)) (h : args.length % 2 = 1) :
    hessianOperator raw n args = .error .valueError := by
  simp [hessianOperator, bisect, h]

/-- C43: for functions of one argument the generated operators return the one array the library
computed, and nothing else: any other number of arrays raises `ValueError`. -/
theorem C43_single (raw : List (Val A) → List (Val A) → Except PyErr (List (Val A)))
    (raw' : List (Val A) → Except PyErr (List (Val A))) (point vector : Val A) (r : List (Val A)) :
    (raw [point] [vector] = .ok r → hessianOperator raw 1 [point, vector] =
      if h : r.length = 1 then .ok r[0] else .error .valueError) ∧
    (raw' [point] = .ok r → gradientOperator raw' 1 [point] =
      if h : r.length = 1 then .ok r[0] else .error .valueError) := by
  constructor <;> intro h <;> match r, h with
  | [], h => simp [hessianOperator, gradientOperator, bisect, h, unpackSingleton]
  | [v], h => simp [hessianOperator, gradientOperator, bisect, h, unpackSingleton]
  | _ :: _ :: _, h => simp [hessianOperator, gradientOperator, bisect, h, unpackSingleton]

/-- C43 through the problem class: the Euclidean Hessian of a problem on a product calls the
library with the arrays of the point and the arrays of the vector. -/
theorem C43_compound [PyArr A] (sig : List ℕ) (hsig : sig.sum ≠ 1)
    (raw : List (Val A) → List (Val A) → Except PyErr (List (Val A)))
    (k k' : SeqKind) (ps vs fp fv r : List (Val A)) (hp : Groups sig ps fp)
    (hv : Groups sig vs fv) (hraw : raw fp fv = .ok r) (hr : r.length = sig.sum) :
    wrapHessianCore (.compound sig) (hessianOperator raw sig.sum) (.seq k ps) (.seq k' vs) =
      groupReturnValues sig (.seq .list r) := by
  have h1 : flattenArguments (.seq k ps) sig = .ok fp := by
    simp [flattenArguments, Val.items, hp.length_eq, flattenGroups_of_groups hp]
  have h2 : flattenArguments (.seq k' vs) sig = .ok fv := by
    simp [flattenArguments, Val.items, hv.length_eq, flattenGroups_of_groups hv]
  have h3 := (C43_hessian_operator sig.sum raw fp fv r hp.flat_length hv.flat_length hraw hr).1 hsig
  simp [wrapHessianCore, h1, h2, h3]

/-- Hypotheses of C43: the Hessian of `(x² + y²)/2` along `(3, 4)`. -/
example : hessianOperator (A := ℝ) (fun _ v => .ok v) 2 ([.arr 1, .arr 2] ++ [.arr 3, .arr 4]) =
    .ok (.seq .list [.arr 3, .arr 4]) :=
  (C43_hessian_operator 2 _ _ _ _ rfl rfl rfl rfl).1 (by norm_num)

end Verif.Core
