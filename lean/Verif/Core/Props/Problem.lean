/-
C32–C38: the problem class.
-/
import Verif.Core.Model.Problem
import Mathlib.Tactic.Linarith

namespace Verif.Core
open Verif

variable {A : Type*} [PyArr A]

/-! ### Specification of point layouts -/

/-- `Groups sig groups flat`: a point whose groups are `groups` is well formed for the layout `sig`
and `flat` lists its arrays in order: a group of size one is a single value that is no list or
tuple, a group of size `n ≠ 1` a sequence of `n` values. -/
inductive Groups {A : Type*} : List ℕ → List (Val A) → List (Val A) → Prop
  | nil : Groups [] [] []
  | single {sig vs flat} (a : A) (h : Groups sig vs flat) :
      Groups (1 :: sig) (.arr a :: vs) (.arr a :: flat)
  | multi {sig vs flat} (k : SeqKind) (l : List (Val A)) (hl : l.length ≠ 1)
      (h : Groups sig vs flat) :
      Groups (l.length :: sig) (.seq k l :: vs) (l ++ flat)

/-- A group has the size the layout demands. -/
def GroupFits (n : ℕ) (v : Val A) : Prop :=
  if n = 1 then v.isListOrTuple = false else ∃ l, v.items = .ok l ∧ l.length = n

omit [PyArr A] in
theorem Groups.length_eq {sig : List ℕ} {vs flat : List (Val A)} (h : Groups sig vs flat) :
    vs.length = sig.length := by
  induction h <;> simp_all

omit [PyArr A] in
theorem Groups.flat_length {sig : List ℕ} {vs flat : List (Val A)} (h : Groups sig vs flat) :
    flat.length = sig.sum := by
  induction h with
  | nil => rfl
  | single a h ih => simp [ih]; omega
  | multi k l hl h ih => simp [ih]

theorem flattenGroups_of_groups {sig : List ℕ} {vs flat : List (Val A)}
    (h : Groups sig vs flat) : flattenGroups sig vs = .ok flat := by
  induction h with
  | nil => rfl
  | single a h ih => simp [flattenGroups, flattenGroup, Val.isListOrTuple, ih]
  | multi k l hl h ih => simp [flattenGroups, flattenGroup, hl, Val.items, ih]

/-- C32, layout 1: the function receives the point itself. -/
theorem C32_single (f : Fn A) (point : Val A) :
    wrapFunction (.int 1) f point = f [point] := rfl

/-- C32, integer layout `n > 1`: the function receives the components of the point. -/
theorem C32_tuple (n : ℕ) (hn : 1 < n) (f : Fn A) (k : SeqKind) (l : List (Val A)) :
    wrapFunction (.int n) f (.seq k l) = f l := by
  have : n ≠ 1 := by omega
  simp [wrapFunction, this, Val.items]

/-- C32, compound layout: the function receives the components of all factors in order. -/
theorem C32_compound (sig : List ℕ) (f : Fn A) (k : SeqKind) (vs flat : List (Val A))
    (h : Groups sig vs flat) :
    wrapFunction (.compound sig) f (.seq k vs) = f flat := by
  simp [wrapFunction, flattenArguments, Val.items, h.length_eq, flattenGroups_of_groups h]

theorem flattenGroups_malformed {sig : List ℕ} {vs : List (Val A)}
    (hlen : vs.length = sig.length)
    (hsized : ∀ (i n : ℕ) (v : Val A), sig[i]? = some n → vs[i]? = some v → n ≠ 1 → ∃ l, v.items = .ok l)
    (hbad : ¬ ∀ (i n : ℕ) (v : Val A), sig[i]? = some n → vs[i]? = some v → GroupFits n v) :
    flattenGroups sig vs = .error .assertion := by
  induction sig generalizing vs with
  | nil => exact absurd (fun i n v h => by simp at h) hbad
  | cons n sig ih =>
    match vs, hlen with
    | v :: vs, hlen =>
      have hlen' : vs.length = sig.length := by simpa using hlen
      have hsized' : ∀ (i n : ℕ) (v : Val A), sig[i]? = some n → vs[i]? = some v → n ≠ 1 →
          ∃ l, v.items = .ok l := fun i n w h1 h2 => hsized (i + 1) n w h1 h2
      by_cases hv : GroupFits n v
      · have hrest : ¬ ∀ (i n : ℕ) (v : Val A), sig[i]? = some n → vs[i]? = some v → GroupFits n v := by
          intro hall
          refine hbad fun i m w h1 h2 => ?_
          cases i with
          | zero => simp at h1 h2; subst h1 h2; exact hv
          | succ i => exact hall i m w h1 h2
        have := ih hlen' hsized' hrest
        simp only [flattenGroups, this]
        unfold GroupFits at hv
        by_cases h1 : n = 1
        · simp [h1] at hv; simp [flattenGroup, h1, hv]
        · simp only [h1, if_false] at hv
          obtain ⟨l, hl, hl'⟩ := hv
          simp [flattenGroup, h1, hl, hl']
      · have : flattenGroup n v = .error .assertion := by
          unfold GroupFits at hv
          by_cases h1 : n = 1
          · simp [h1] at hv; simp [flattenGroup, h1, hv]
          · simp only [h1, if_false] at hv
            obtain ⟨l, hl⟩ := hsized 0 n v rfl rfl h1
            have : l.length ≠ n := fun h => hv ⟨l, hl, h⟩
            simp [flattenGroup, h1, hl, this]
        simp [flattenGroups, this]

/-- C32, malformed points: a point with the wrong number of groups, or with a group of the wrong
size, raises `AssertionError`, and the function is not called.  (0-d arrays have no size; they
raise `TypeError`.) -/
theorem C32_malformed (sig : List ℕ) (f : Fn A) (k : SeqKind) (vs : List (Val A))
    (hsized : ∀ (i n : ℕ) (v : Val A), sig[i]? = some n → vs[i]? = some v → n ≠ 1 → ∃ l, v.items = .ok l)
    (hbad : ¬ (vs.length = sig.length ∧
      ∀ (i n : ℕ) (v : Val A), sig[i]? = some n → vs[i]? = some v → GroupFits n v)) :
    wrapFunction (.compound sig) f (.seq k vs) = .error .assertion := by
  by_cases hlen : vs.length = sig.length
  · have := flattenGroups_malformed hlen hsized (fun h => hbad ⟨hlen, h⟩)
    simp [wrapFunction, flattenArguments, Val.items, hlen, this]
  · simp [wrapFunction, flattenArguments, Val.items, hlen]

/-! ### Grouping -/

/-- Two groups with the same items; grouping may turn a tuple into a list. -/
def SameItems (v w : Val A) : Prop :=
  v = w ∨ ∃ k k' l, v = .seq k l ∧ w = .seq k' l

omit [PyArr A] in
theorem groupLoop_of_groups {sig : List ℕ} {vs flat : List (Val A)} (k : SeqKind)
    (h : Groups sig vs flat) (pre : List (Val A)) :
    ∃ ws, groupLoop k (pre ++ flat) sig pre.length = .ok ws ∧ List.Forall₂ SameItems vs ws := by
  induction h generalizing pre with
  | nil => exact ⟨[], rfl, .nil⟩
  | @single sig vs flat a h ih =>
    obtain ⟨ws, hw, hs⟩ := ih (pre ++ [.arr a])
    simp only [List.append_assoc, List.singleton_append, List.length_append,
      List.length_cons, List.length_nil] at hw
    exact ⟨.arr a :: ws, by simp [groupLoop, hw], .cons (.inl rfl) hs⟩
  | @multi sig vs flat k' l hl h ih =>
    obtain ⟨ws, hw, hs⟩ := ih (pre ++ l)
    simp only [List.append_assoc, List.length_append] at hw
    exact ⟨.seq k l :: ws, by simp [groupLoop, hl, hw], .cons (.inr ⟨k', k, l, rfl, rfl⟩) hs⟩

omit [PyArr A] in
/-- C33: grouping the flat list of a well-formed point returns the groups of the point, item by
item. -/
theorem C33_group_flatten (sig : List ℕ) (vs flat : List (Val A)) (k : SeqKind)
    (h : Groups sig vs flat) :
    ∃ ws, groupReturnValues sig (.seq k flat) = .ok (.seq .list ws) ∧
      List.Forall₂ SameItems vs ws := by
  obtain ⟨ws, hw, hs⟩ := groupLoop_of_groups k.slice h []
  refine ⟨ws, ?_, hs⟩
  simp only [List.nil_append, List.length_nil] at hw
  simp [groupReturnValues, h.flat_length, hw]

omit [PyArr A] in
theorem groupLoop_groups {sig : List ℕ} (k : SeqKind) (flat : List A)
    (hlen : flat.length = sig.sum) (pre : List (Val A)) :
    ∃ ws, groupLoop k (pre ++ flat.map .arr) sig pre.length = .ok ws ∧
      Groups sig ws (flat.map .arr) := by
  induction sig generalizing flat pre with
  | nil =>
    have : flat = [] := by simpa using hlen
    subst this
    exact ⟨[], rfl, .nil⟩
  | cons n sig ih =>
    by_cases h1 : n = 1
    · subst h1
      match flat, hlen with
      | [], hlen => simp at hlen; omega
      | a :: flat, hlen =>
        have hlen' : flat.length = sig.sum := by simp at hlen; omega
        obtain ⟨ws, hw, hg⟩ := ih flat hlen' (pre ++ [.arr a])
        simp only [List.append_assoc, List.singleton_append, List.length_append,
          List.length_cons, List.length_nil] at hw
        exact ⟨.arr a :: ws, by simp [groupLoop, hw], .single a hg⟩
    · have hle : n ≤ flat.length := by simp at hlen; omega
      have hlen' : (flat.drop n).length = sig.sum := by simp at hlen ⊢; omega
      obtain ⟨ws, hw, hg⟩ := ih (flat.drop n) hlen' (pre ++ (flat.take n).map .arr)
      have e1 : pre ++ (flat.take n).map Val.arr ++ (flat.drop n).map Val.arr
          = pre ++ flat.map .arr := by
        rw [List.append_assoc, ← List.map_append, List.take_append_drop]
      have e2 : (pre ++ (flat.take n).map (Val.arr (A := A))).length = pre.length + n := by
        simp [hle]
      rw [e1, e2] at hw
      have hl : ((flat.take n).map (Val.arr (A := A))).length = n := by simp [hle]
      refine ⟨.seq k ((flat.take n).map .arr) :: ws, ?_, ?_⟩
      · simp only [groupLoop, h1, if_false, hw]
        simp [List.map_take]
      · have := Groups.multi k ((flat.take n).map .arr) (by rw [hl]; exact h1) hg
        rw [hl, ← List.map_append, List.take_append_drop] at this
        exact this

/-- C33: flattening the grouped arrays returns the flat list. -/
theorem C33_flatten_group (sig : List ℕ) (flat : List A) (k : SeqKind)
    (hlen : flat.length = sig.sum) :
    ∃ ws, groupReturnValues sig (.seq k (flat.map .arr)) = .ok (.seq .list ws) ∧
      flattenArguments (.seq .list ws) sig = .ok (flat.map .arr) := by
  obtain ⟨ws, hw, hg⟩ := groupLoop_groups k.slice flat hlen []
  simp only [List.nil_append, List.length_nil] at hw
  refine ⟨ws, by simp [groupReturnValues, hlen, hw], ?_⟩
  simp [flattenArguments, Val.items, hg.length_eq, flattenGroups_of_groups hg]

omit [PyArr A] in
theorem groupLoop_kinds (k : SeqKind) (r : List (Val A)) (sig : List ℕ) (i : ℕ) (ws : List (Val A))
    (h : groupLoop k r sig i = .ok ws) (j : ℕ) (w : Val A) (hw : ws[j]? = some w)
    (hj : sig[j]? ≠ some 1) : ∃ l, w = .seq k l := by
  induction sig generalizing i ws j with
  | nil =>
    simp only [groupLoop, Except.ok.injEq] at h
    subst h
    simp at hw
  | cons n sig ih =>
    simp only [groupLoop] at h
    split at h
    · cases h
    · rename_i g hg
      split at h
      · cases h
      · rename_i gs hgs
        cases h
        cases j with
        | zero =>
          simp only [List.getElem?_cons_zero, Option.some.injEq] at hw hj
          rw [if_neg fun hn => hj (congrArg some hn)] at hg
          cases hg
          exact ⟨_, hw.symm⟩
        | succ j => exact ih _ _ hgs j (by simpa using hw) (by simpa using hj)

/-- C33: the groups of several values that regrouping forms are plain lists or tuples, also when the
function returned a tangent vector: they cannot be negated. -/
theorem C33_plain (sig : List ℕ) (v : Val A) (ws : List (Val A))
    (h : groupReturnValues sig v = .ok (.seq .list ws)) (j : ℕ) (w : Val A) (hw : ws[j]? = some w)
    (hj : sig[j]? ≠ some 1) : w.neg = .error .typeError := by
  cases v with
  | arr a => simp [groupReturnValues] at h
  | seq k r =>
    simp only [groupReturnValues] at h
    split at h
    · cases h
    · split at h
      · cases h
      · rename_i gs hgs
        cases h
        obtain ⟨l, rfl⟩ := groupLoop_kinds _ _ _ _ _ hgs j w hw hj
        cases k <;> rfl

omit [PyArr A] in
theorem groupLoop_ok (k : SeqKind) (r : List (Val A)) (sig : List ℕ) (i : ℕ)
    (h : i + sig.sum ≤ r.length) : ∃ gs, groupLoop k r sig i = .ok gs ∧ gs.length = sig.length := by
  induction sig generalizing i with
  | nil => exact ⟨[], rfl, rfl⟩
  | cons n sig ih =>
    simp only [List.sum_cons] at h
    obtain ⟨gs, hgs, hl⟩ := ih (i + n) (by omega)
    by_cases h1 : n = 1
    · subst h1
      have hi : i < r.length := by omega
      exact ⟨r[i] :: gs, by simp [groupLoop, hi, hgs], by simp [hl]⟩
    · exact ⟨.seq k ((r.drop i).take n) :: gs, by simp [groupLoop, h1, hgs], by simp [hl]⟩

/-- C34: on a compound layout a gradient function's return value is rejected with `ValueError`
exactly when it is no list or tuple or has the wrong number of elements; otherwise one group per
factor is returned; exceptions of the function itself are passed on. -/
theorem C34_gradient (sig : List ℕ) (f : Fn A) (point v : Val A)
    (hv : wrapFunction (.compound sig) f point = .ok v) :
    (wrapGradient (.compound sig) f point = .error .valueError ↔
      ¬ ∃ k l, v = .seq k l ∧ l.length = sig.sum) ∧
    ((∃ k l, v = .seq k l ∧ l.length = sig.sum) →
      ∃ gs, wrapGradient (.compound sig) f point = .ok (.seq .list gs) ∧
        gs.length = sig.length) := by
  have key : (∃ k l, v = .seq k l ∧ l.length = sig.sum) →
      ∃ gs, wrapGradient (.compound sig) f point = .ok (.seq .list gs) ∧
        gs.length = sig.length := by
    rintro ⟨k, l, rfl, hl⟩
    obtain ⟨gs, hgs, hlen⟩ := groupLoop_ok k.slice l sig 0 (by omega)
    exact ⟨gs, by simp [wrapGradient, hv, groupReturnValues, hl, hgs], hlen⟩
  refine ⟨⟨fun h hex => ?_, fun h => ?_⟩, key⟩
  · obtain ⟨gs, hgs, -⟩ := key hex
    rw [hgs] at h
    cases h
  · cases v with
    | arr a => simp [wrapGradient, hv, groupReturnValues]
    | seq k l =>
      have : l.length ≠ sig.sum := fun hl => h ⟨k, l, rfl, hl⟩
      simp [wrapGradient, hv, groupReturnValues, this]

/-- C34 for Hessian functions. -/
theorem C34_hessian (sig : List ℕ) (f : Fn A) (point vector : Val A) (ps vs : List (Val A))
    (v : Val A) (hp : flattenArguments point sig = .ok ps)
    (hq : flattenArguments vector sig = .ok vs) (hv : f (ps ++ vs) = .ok v) :
    (wrapHessianCore (.compound sig) f point vector = .error .valueError ↔
      ¬ ∃ k l, v = .seq k l ∧ l.length = sig.sum) ∧
    ((∃ k l, v = .seq k l ∧ l.length = sig.sum) →
      ∃ gs, wrapHessianCore (.compound sig) f point vector = .ok (.seq .list gs) ∧
        gs.length = sig.length) := by
  have key : (∃ k l, v = .seq k l ∧ l.length = sig.sum) →
      ∃ gs, wrapHessianCore (.compound sig) f point vector = .ok (.seq .list gs) ∧
        gs.length = sig.length := by
    rintro ⟨k, l, rfl, hl⟩
    obtain ⟨gs, hgs, hlen⟩ := groupLoop_ok k.slice l sig 0 (by omega)
    exact ⟨gs, by simp [wrapHessianCore, hp, hq, hv, groupReturnValues, hl, hgs], hlen⟩
  refine ⟨⟨fun h hex => ?_, fun h => ?_⟩, key⟩
  · obtain ⟨gs, hgs, -⟩ := key hex
    rw [hgs] at h
    cases h
  · cases v with
    | arr a => simp [wrapHessianCore, hp, hq, hv, groupReturnValues]
    | seq k l =>
      have : l.length ≠ sig.sum := fun hl => h ⟨k, l, rfl, hl⟩
      simp [wrapHessianCore, hp, hq, hv, groupReturnValues, this]

/-- C34: exceptions of the gradient function are passed on unchanged. -/
theorem C34_passes_exceptions (sig : List ℕ) (f : Fn A) (point : Val A) (e : PyErr)
    (he : wrapFunction (.compound sig) f point = .error e) :
    wrapGradient (.compound sig) f point = .error e := by
  simp [wrapGradient, he]

/-! ### Constructor -/

omit [PyArr A] in
/-- C35: construction raises `ValueError` exactly when some supplied function is not decorated, or
both gradients, or both Hessians are supplied, and succeeds otherwise. -/
theorem C35_constructor (cost eg rg eh rh : Arg A) :
    (validateProblem cost eg rg eh rh = .error .valueError ↔
      (∃ a ∈ [cost, eg, rg, eh, rh], a = .other) ∨ (eg ≠ .none ∧ rg ≠ .none) ∨
        (eh ≠ .none ∧ rh ≠ .none)) ∧
    (¬ ((∃ a ∈ [cost, eg, rg, eh, rh], a = .other) ∨ (eg ≠ .none ∧ rg ≠ .none) ∨
        (eh ≠ .none ∧ rh ≠ .none)) → validateProblem cost eg rg eh rh = .ok ()) := by
  cases cost <;> cases eg <;> cases rg <;> cases eh <;> cases rh <;>
    simp [validateProblem, validateFunction, Arg.isSome]

/-! ### Lazily created operators -/

section Lazy

/-- Value of the Euclidean gradient the documentation promises: the user's function, else the
backend's. -/
def eucGradSpec (M : PMfd A) (eg : Option (Fn A)) (gen : Except PyErr (Fn A)) (x : Val A) :
    Except PyErr (Val A) :=
  match eg with
  | some f => wrapGradient M.layout f x
  | none => gen.bind fun f => wrapGradient M.layout f x

/-- Riemannian gradient: the user's function, else the conversion of the Euclidean gradient. -/
def rieGradSpec (M : PMfd A) (eg rg : Option (Fn A)) (gen : Except PyErr (Fn A)) (x : Val A) :
    Except PyErr (Val A) :=
  match rg with
  | some f => wrapGradient M.layout f x
  | none => (eucGradSpec M eg gen x).bind fun g => M.e2rg x g

/-- Euclidean Hessian: the user's function, else the backend's, on the embedded vector. -/
def eucHessSpec (M : PMfd A) (eh : Option (Fn A)) (gen : Except PyErr (Fn A)) (x v : Val A) :
    Except PyErr (Val A) :=
  match eh with
  | some f => (M.embedding x v).bind fun w => wrapHessianCore M.layout f x w
  | none => gen.bind fun f => (M.embedding x v).bind fun w => wrapHessianCore M.layout f x w

/-- Riemannian Hessian: the user's function, else the conversion of Euclidean gradient and
Hessian. -/
def rieHessSpec (M : PMfd A) (eg eh rh : Option (Fn A)) (genG genH : Except PyErr (Fn A))
    (x v : Val A) : Except PyErr (Val A) :=
  match rh with
  | some f => wrapHessianCore M.layout f x v
  | none => (eucGradSpec M eg genG x).bind fun g =>
      (eucHessSpec M eh genH x v).bind fun h => M.e2rh x g h v

/-- Reachable states of a problem whose backend behaves the same on every call. -/
structure LazyInv (eg rg eh rh : Option (Fn A)) (genG genH : Except PyErr (Fn A))
    (s : ProbState A) : Prop where
  fnG : s.fn.gradient = none ∨ ∃ f, genG = .ok f ∧ s.fn.gradient = some f
  fnH : s.fn.hessian = none ∨ ∃ f, genH = .ok f ∧ s.fn.hessian = some f
  eg_some : ∀ f, eg = some f → s.eg = some (.wrapped f)
  eg_none : eg = none → s.eg = none ∨ ∃ f, genG = .ok f ∧ s.eg = some (.wrapped f)
  rg_some : ∀ f, rg = some f → s.rg = some (.wrapped f)
  rg_none : rg = none → s.rg = none ∨ s.rg = some .converted
  eh_some : ∀ f, eh = some f → s.eh = some (.wrapped true f)
  eh_none : eh = none → s.eh = none ∨ ∃ f, genH = .ok f ∧ s.eh = some (.wrapped true f)
  rh_some : ∀ f, rh = some f → s.rh = some (.wrapped false f)
  rh_none : rh = none → s.rh = none ∨ s.rh = some .converted

variable {eg rg eh rh : Option (Fn A)} {genG genH : Except PyErr (Fn A)} {B : Backend A}
  {s : ProbState A}

omit [PyArr A] in
theorem getGradientOperator_inv (hB : ∀ k, B.genGradient k = genG)
    (h : LazyInv eg rg eh rh genG genH s) :
    (getGradientOperator B s.fn).1 = genG ∧
    LazyInv eg rg eh rh genG genH { s with fn := (getGradientOperator B s.fn).2 } := by
  unfold getGradientOperator
  rcases h.fnG with h0 | ⟨f, hf, h0⟩
  · simp only [h0, hB]
    cases genG with
    | error e => exact ⟨rfl, { h with fnG := .inl rfl }⟩
    | ok f => exact ⟨rfl, { h with fnG := .inr ⟨f, rfl, rfl⟩ }⟩
  · simp only [h0]
    exact ⟨hf.symm, h⟩

omit [PyArr A] in
theorem getHessianOperator_inv (hB : ∀ k, B.genHessian k = genH)
    (h : LazyInv eg rg eh rh genG genH s) :
    (getHessianOperator B s.fn).1 = genH ∧
    LazyInv eg rg eh rh genG genH { s with fn := (getHessianOperator B s.fn).2 } := by
  unfold getHessianOperator
  rcases h.fnH with h0 | ⟨f, hf, h0⟩
  · simp only [h0, hB]
    cases genH with
    | error e => exact ⟨rfl, { h with fnH := .inl rfl }⟩
    | ok f => exact ⟨rfl, { h with fnH := .inr ⟨f, rfl, rfl⟩ }⟩
  · simp only [h0]
    exact ⟨hf.symm, h⟩

omit [PyArr A] in
theorem getEG_inv (hB : ∀ k, B.genGradient k = genG) (h : LazyInv eg rg eh rh genG genH s) :
    ((getEG B s).1 = match (generalizing := false) eg with
      | some f => .ok (.wrapped f)
      | none => genG.map GradOp.wrapped) ∧
    LazyInv eg rg eh rh genG genH (getEG B s).2 := by
  unfold getEG
  cases eg with
  | some f => simp only [h.eg_some f rfl]; exact ⟨by trivial, h⟩
  | none =>
    rcases h.eg_none rfl with h0 | ⟨f, hf, h0⟩
    · obtain ⟨h1, h2⟩ := getGradientOperator_inv hB h
      simp only [h0]
      rcases hg : getGradientOperator B s.fn with ⟨r, fn⟩
      rw [hg] at h1 h2
      simp only at h1 h2
      subst h1
      cases r with
      | error e =>
        exact ⟨by trivial, { h2 with eg_some := fun f hf => (by cases hf), eg_none := fun _ => .inl rfl }⟩
      | ok f =>
        refine ⟨by trivial, { h2 with eg_some := ?_, eg_none := ?_ }⟩
        · intro f' hf'; cases hf'
        · intro _; exact .inr ⟨f, rfl, rfl⟩
    · simp only [h0]
      subst hf
      exact ⟨by trivial, h⟩

omit [PyArr A] in
theorem getEH_inv (hB : ∀ k, B.genHessian k = genH) (h : LazyInv eg rg eh rh genG genH s) :
    ((getEH B s).1 = match (generalizing := false) eh with
      | some f => .ok (.wrapped true f)
      | none => genH.map (HessOp.wrapped true)) ∧
    LazyInv eg rg eh rh genG genH (getEH B s).2 := by
  unfold getEH
  cases eh with
  | some f => simp only [h.eh_some f rfl]; exact ⟨by trivial, h⟩
  | none =>
    rcases h.eh_none rfl with h0 | ⟨f, hf, h0⟩
    · obtain ⟨h1, h2⟩ := getHessianOperator_inv hB h
      simp only [h0]
      rcases hg : getHessianOperator B s.fn with ⟨r, fn⟩
      rw [hg] at h1 h2
      simp only at h1 h2
      subst h1
      cases r with
      | error e =>
        exact ⟨by trivial, { h2 with eh_some := fun f hf => (by cases hf), eh_none := fun _ => .inl rfl }⟩
      | ok f =>
        refine ⟨by trivial, { h2 with eh_some := ?_, eh_none := ?_ }⟩
        · intro f' hf'; cases hf'
        · intro _; exact .inr ⟨f, rfl, rfl⟩
    · simp only [h0]
      subst hf
      exact ⟨by trivial, h⟩

omit [PyArr A] in
theorem getRG_inv (h : LazyInv eg rg eh rh genG genH s) :
    ((getRG s).1 = match (generalizing := false) rg with | some f => .wrapped f | none => .converted) ∧
    LazyInv eg rg eh rh genG genH (getRG s).2 := by
  unfold getRG
  cases rg with
  | some f => simp only [h.rg_some f rfl]; exact ⟨by trivial, h⟩
  | none =>
    rcases h.rg_none rfl with h0 | h0
    · simp only [h0]
      refine ⟨by trivial, { h with rg_some := ?_, rg_none := fun _ => .inr rfl }⟩
      intro f hf; cases hf
    · simp only [h0]; exact ⟨by trivial, h⟩

omit [PyArr A] in
theorem getRH_inv (h : LazyInv eg rg eh rh genG genH s) :
    ((getRH s).1 = match (generalizing := false) rh with | some f => .wrapped false f | none => .converted) ∧
    LazyInv eg rg eh rh genG genH (getRH s).2 := by
  unfold getRH
  cases rh with
  | some f => simp only [h.rh_some f rfl]; exact ⟨by trivial, h⟩
  | none =>
    rcases h.rh_none rfl with h0 | h0
    · simp only [h0]
      refine ⟨by trivial, { h with rh_some := ?_, rh_none := fun _ => .inr rfl }⟩
      intro f hf; cases hf
    · simp only [h0]; exact ⟨by trivial, h⟩

theorem callRG_inv {M : PMfd A} (hB : ∀ k, B.genGradient k = genG)
    (h : LazyInv eg rg eh rh genG genH s) (x : Val A) :
    (callRG M B (getRG s).1 x (getRG s).2).1 = rieGradSpec M eg rg genG x ∧
    LazyInv eg rg eh rh genG genH (callRG M B (getRG s).1 x (getRG s).2).2 := by
  obtain ⟨h1, h2⟩ := getRG_inv h
  rw [h1]
  unfold rieGradSpec
  cases rg with
  | some f => exact ⟨rfl, h2⟩
  | none =>
    obtain ⟨h3, h4⟩ := getEG_inv hB h2
    simp only [callRG]
    rcases hg : getEG B (getRG s).2 with ⟨r, s'⟩
    rw [hg] at h3 h4
    simp only at h3 h4
    unfold eucGradSpec
    cases eg with
    | some f =>
      simp only at h3; subst h3
      simp only [callEG]
      cases wrapGradient M.layout f x <;> exact ⟨rfl, h4⟩
    | none =>
      simp only at h3; subst h3
      cases genG with
      | error e => exact ⟨rfl, h4⟩
      | ok f =>
        simp only [Except.map, callEG, Except.bind]
        cases wrapGradient M.layout f x <;> exact ⟨rfl, h4⟩

theorem callEG_eq {M : PMfd A} (hB : ∀ k, B.genGradient k = genG)
    (h : LazyInv eg rg eh rh genG genH s) (x : Val A) :
    (access M B s (.callEG x)).1 = (eucGradSpec M eg genG x).map some ∧
    LazyInv eg rg eh rh genG genH (access M B s (.callEG x)).2 := by
  obtain ⟨h3, h4⟩ := getEG_inv hB h
  simp only [access]
  rcases hg : getEG B s with ⟨r, s'⟩
  rw [hg] at h3 h4
  simp only at h3 h4
  unfold eucGradSpec
  cases eg with
  | some f => simp only at h3; subst h3; exact ⟨rfl, h4⟩
  | none =>
    simp only at h3; subst h3
    cases genG with
    | error e => exact ⟨rfl, h4⟩
    | ok f => exact ⟨rfl, h4⟩

theorem wrapHessian_embed {M : PMfd A} (f : Fn A) (x v : Val A) :
    wrapHessian M true f x v =
      (M.embedding x v).bind fun w => wrapHessianCore M.layout f x w := by
  simp only [wrapHessian, if_true]
  cases M.embedding x v <;> rfl

theorem callEH_eq {M : PMfd A} (hB : ∀ k, B.genHessian k = genH)
    (h : LazyInv eg rg eh rh genG genH s) (x v : Val A) :
    (access M B s (.callEH x v)).1 = (eucHessSpec M eh genH x v).map some ∧
    LazyInv eg rg eh rh genG genH (access M B s (.callEH x v)).2 := by
  obtain ⟨h3, h4⟩ := getEH_inv hB h
  simp only [access]
  rcases hg : getEH B s with ⟨r, s'⟩
  rw [hg] at h3 h4
  simp only at h3 h4
  unfold eucHessSpec
  cases eh with
  | some f =>
    simp only at h3; subst h3
    exact ⟨by simp only [callEH, wrapHessian_embed], h4⟩
  | none =>
    simp only at h3; subst h3
    cases genH with
    | error e => exact ⟨rfl, h4⟩
    | ok f => exact ⟨by simp only [Except.map, Except.bind, callEH, wrapHessian_embed], h4⟩

theorem finishRH_inv {M : PMfd A} (hB' : ∀ k, B.genHessian k = genH)
    (h : LazyInv eg rg eh rh genG genH s) (x v gr : Val A) :
    (finishRH M B x v gr s).1 = ((eucHessSpec M eh genH x v).bind fun h => M.e2rh x gr h v) ∧
    LazyInv eg rg eh rh genG genH (finishRH M B x v gr s).2 := by
  obtain ⟨h5, h6⟩ := getEH_inv hB' h
  unfold finishRH
  rcases hg' : getEH B s with ⟨r', s''⟩
  rw [hg'] at h5 h6
  simp only at h5 h6
  unfold eucHessSpec
  cases eh with
  | some f =>
    simp only at h5; subst h5
    simp only [callEH, wrapHessian_embed]
    generalize ((M.embedding x v).bind fun w => wrapHessianCore M.layout f x w) = q
    cases q <;> exact ⟨rfl, h6⟩
  | none =>
    simp only at h5; subst h5
    cases genH with
    | error e => exact ⟨rfl, h6⟩
    | ok f =>
      simp only [Except.map, callEH, wrapHessian_embed]
      change _ = Except.bind ((M.embedding x v).bind fun w => wrapHessianCore M.layout f x w) _ ∧ _
      generalize ((M.embedding x v).bind fun w => wrapHessianCore M.layout f x w) = q
      cases q <;> exact ⟨rfl, h6⟩

theorem callRH_inv {M : PMfd A} (hB : ∀ k, B.genGradient k = genG)
    (hB' : ∀ k, B.genHessian k = genH) (h : LazyInv eg rg eh rh genG genH s) (x v : Val A) :
    (callRH M B (getRH s).1 x v (getRH s).2).1 = rieHessSpec M eg eh rh genG genH x v ∧
    LazyInv eg rg eh rh genG genH (callRH M B (getRH s).1 x v (getRH s).2).2 := by
  obtain ⟨h1, h2⟩ := getRH_inv h
  rw [h1]
  unfold rieHessSpec
  cases rh with
  | some f => exact ⟨by simp [callRH, wrapHessian], h2⟩
  | none =>
    obtain ⟨h3, h4⟩ := getEG_inv hB h2
    simp only [callRH]
    rcases hg : getEG B (getRH s).2 with ⟨r, s'⟩
    rw [hg] at h3 h4
    simp only at h3 h4
    unfold eucGradSpec
    cases eg with
    | some f =>
      simp only at h3; subst h3
      simp only [callEG]
      cases wrapGradient M.layout f x with
      | error e => exact ⟨rfl, h4⟩
      | ok gr => exact finishRH_inv hB' h4 x v gr
    | none =>
      simp only at h3; subst h3
      cases genG with
      | error e => exact ⟨rfl, h4⟩
      | ok f =>
        simp only [Except.map, callEG]
        simp only [Except.bind]
        cases wrapGradient M.layout f x with
        | error e => exact ⟨rfl, h4⟩
        | ok gr => exact finishRH_inv hB' h4 x v gr

theorem access_inv {M : PMfd A} (hB : ∀ k, B.genGradient k = genG)
    (hB' : ∀ k, B.genHessian k = genH) (h : LazyInv eg rg eh rh genG genH s) (a : Access A) :
    LazyInv eg rg eh rh genG genH (access M B s a).2 := by
  cases a with
  | fetchEG =>
    have := (getEG_inv hB h).2
    simp only [access]
    rcases hg : getEG B s with ⟨r, s'⟩
    rw [hg] at this
    cases r <;> exact this
  | fetchRG => exact (getRG_inv h).2
  | fetchEH =>
    have := (getEH_inv hB' h).2
    simp only [access]
    rcases hg : getEH B s with ⟨r, s'⟩
    rw [hg] at this
    cases r <;> exact this
  | fetchRH => exact (getRH_inv h).2
  | callEG x => exact (callEG_eq hB h x).2
  | callRG x => exact (callRG_inv hB h x).2
  | callEH x v => exact (callEH_eq hB' h x v).2
  | callRH x v => exact (callRH_inv hB hB' h x v).2

theorem accesses_inv {M : PMfd A} (hB : ∀ k, B.genGradient k = genG)
    (hB' : ∀ k, B.genHessian k = genH) (history : List (Access A))
    (h : LazyInv eg rg eh rh genG genH s) :
    LazyInv eg rg eh rh genG genH (accesses M B s history) := by
  induction history generalizing s with
  | nil => exact h
  | cons a as ih => exact ih (access_inv hB hB' h a)

omit [PyArr A] in
theorem initState_inv (eg rg eh rh : Arg A) :
    LazyInv eg.toOption rg.toOption eh.toOption rh.toOption genG genH
      (initState eg rg eh rh) where
  fnG := .inl rfl
  fnH := .inl rfl
  eg_some := by intro f hf; simp [initState, hf]
  eg_none := by intro hf; simp [initState, hf]
  rg_some := by intro f hf; simp [initState, hf]
  rg_none := by intro hf; simp [initState, hf]
  eh_some := by intro f hf; simp [initState, hf]
  eh_none := by intro hf; simp [initState, hf]
  rh_some := by intro f hf; simp [initState, hf]
  rh_none := by intro hf; simp [initState, hf]

/-- C36: whatever was fetched or called before, each derivative operator of a problem computes the
user's function if one was supplied, and otherwise the documented composition of the manifold's
conversion with the Euclidean operators (the user's, else the backend's).  `genG`, `genH` are the
outcomes of the backend's generators. -/
theorem C36_operators (M : PMfd A) (B : Backend A) (genG genH : Except PyErr (Fn A))
    (hB : ∀ k, B.genGradient k = genG) (hB' : ∀ k, B.genHessian k = genH)
    (eg rg eh rh : Arg A) (history : List (Access A)) (x v : Val A) :
    let s := accesses M B (initState eg rg eh rh) history
    (access M B s (.callEG x)).1 = (eucGradSpec M eg.toOption genG x).map some ∧
    (access M B s (.callRG x)).1 = (rieGradSpec M eg.toOption rg.toOption genG x).map some ∧
    (access M B s (.callEH x v)).1 = (eucHessSpec M eh.toOption genH x v).map some ∧
    (access M B s (.callRH x v)).1 =
      (rieHessSpec M eg.toOption eh.toOption rh.toOption genG genH x v).map some := by
  intro s
  have h := accesses_inv (M := M) hB hB' history
    (initState_inv (genG := genG) (genH := genH) eg rg eh rh)
  exact ⟨(callEG_eq hB h x).1, congrArg (Except.map some) (callRG_inv hB h x).1,
    (callEH_eq hB' h x v).1, congrArg (Except.map some) (callRH_inv hB hB' h x v).1⟩

end Lazy

/-! ### Generators are called at most once -/

/-- Reachable states of a decorated function: after `n` generator calls either all of them raised
and nothing is cached, or the last one, and only it, succeeded and its operator is cached. -/
def OnceOK (gen : ℕ → Except PyErr (Fn A)) (calls : ℕ) (cache : Option (Fn A)) : Prop :=
  (cache = none ∧ ∀ j < calls, ∃ e, gen j = .error e) ∨
  (∃ n f, calls = n + 1 ∧ gen n = .ok f ∧ cache = some f ∧ ∀ j < n, ∃ e, gen j = .error e)

/-- What an access does to the decorated function: nothing, or requests of operators. -/
inductive FnSteps (B : Backend A) : FunState A → FunState A → Prop
  | refl (s) : FnSteps B s s
  | grad {s t} : FnSteps B (getGradientOperator B s).2 t → FnSteps B s t
  | hess {s t} : FnSteps B (getHessianOperator B s).2 t → FnSteps B s t

omit [PyArr A] in
theorem FnSteps.trans {B : Backend A} {s t u : FunState A} (h : FnSteps B s t)
    (h' : FnSteps B t u) : FnSteps B s u := by
  induction h with
  | refl => exact h'
  | grad _ ih => exact .grad (ih h')
  | hess _ ih => exact .hess (ih h')

omit [PyArr A] in
theorem getGradientOperator_once {B : Backend A} {s : FunState A}
    (h : OnceOK B.genGradient s.gradientCalls s.gradient) :
    OnceOK B.genGradient (getGradientOperator B s).2.gradientCalls
      (getGradientOperator B s).2.gradient ∧
    (∀ f, s.gradient = some f → (getGradientOperator B s).2 = s ∧
      (getGradientOperator B s).1 = .ok f) ∧
    ((getGradientOperator B s).2.hessianCalls = s.hessianCalls ∧
      (getGradientOperator B s).2.hessian = s.hessian) := by
  unfold getGradientOperator
  rcases h with ⟨h0, hall⟩ | ⟨n, f, hn, hf, h0, hall⟩
  · simp only [h0]
    cases hg : B.genGradient s.gradientCalls with
    | error e =>
      refine ⟨.inl ⟨rfl, fun j hj => ?_⟩, by simp, rfl, rfl⟩
      rcases Nat.lt_succ_iff_lt_or_eq.mp hj with hj | rfl
      · exact hall j hj
      · exact ⟨e, hg⟩
    | ok f => exact ⟨.inr ⟨_, f, rfl, hg, rfl, hall⟩, by simp, rfl, rfl⟩
  · simp only [h0]
    exact ⟨.inr ⟨n, f, hn, hf, rfl, hall⟩, by simp, by trivial, by trivial⟩

omit [PyArr A] in
theorem getHessianOperator_once {B : Backend A} {s : FunState A}
    (h : OnceOK B.genHessian s.hessianCalls s.hessian) :
    OnceOK B.genHessian (getHessianOperator B s).2.hessianCalls
      (getHessianOperator B s).2.hessian ∧
    (∀ f, s.hessian = some f → (getHessianOperator B s).2 = s ∧
      (getHessianOperator B s).1 = .ok f) ∧
    ((getHessianOperator B s).2.gradientCalls = s.gradientCalls ∧
      (getHessianOperator B s).2.gradient = s.gradient) := by
  unfold getHessianOperator
  rcases h with ⟨h0, hall⟩ | ⟨n, f, hn, hf, h0, hall⟩
  · simp only [h0]
    cases hg : B.genHessian s.hessianCalls with
    | error e =>
      refine ⟨.inl ⟨rfl, fun j hj => ?_⟩, by simp, rfl, rfl⟩
      rcases Nat.lt_succ_iff_lt_or_eq.mp hj with hj | rfl
      · exact hall j hj
      · exact ⟨e, hg⟩
    | ok f => exact ⟨.inr ⟨_, f, rfl, hg, rfl, hall⟩, by simp, rfl, rfl⟩
  · simp only [h0]
    exact ⟨.inr ⟨n, f, hn, hf, rfl, hall⟩, by simp, by trivial, by trivial⟩

omit [PyArr A] in
theorem FnSteps.once {B : Backend A} {s t : FunState A} (h : FnSteps B s t)
    (hG : OnceOK B.genGradient s.gradientCalls s.gradient)
    (hH : OnceOK B.genHessian s.hessianCalls s.hessian) :
    OnceOK B.genGradient t.gradientCalls t.gradient ∧
    OnceOK B.genHessian t.hessianCalls t.hessian ∧
    (∀ f, s.gradient = some f → t.gradient = some f ∧ t.gradientCalls = s.gradientCalls) ∧
    (∀ f, s.hessian = some f → t.hessian = some f ∧ t.hessianCalls = s.hessianCalls) := by
  induction h with
  | refl => exact ⟨hG, hH, fun f hf => ⟨hf, rfl⟩, fun f hf => ⟨hf, rfl⟩⟩
  | @grad s t _ ih =>
    obtain ⟨h1, h2, h3, h4⟩ := getGradientOperator_once hG
    obtain ⟨i1, i2, i3, i4⟩ := ih h1 (by rw [h3, h4]; exact hH)
    refine ⟨i1, i2, fun f hf => ?_, fun f hf => ?_⟩
    · have := (h2 f hf).1
      rw [this] at i3
      exact i3 f hf
    · rw [h3, h4] at i4
      exact i4 f hf
  | @hess s t _ ih =>
    obtain ⟨h1, h2, h3, h4⟩ := getHessianOperator_once hH
    obtain ⟨i1, i2, i3, i4⟩ := ih (by rw [h3, h4]; exact hG) h1
    refine ⟨i1, i2, fun f hf => ?_, fun f hf => ?_⟩
    · rw [h3, h4] at i3
      exact i3 f hf
    · have := (h2 f hf).1
      rw [this] at i4
      exact i4 f hf

omit [PyArr A] in
theorem getEG_fn (B : Backend A) (s : ProbState A) : FnSteps B s.fn (getEG B s).2.fn := by
  unfold getEG
  cases s.eg with
  | some g => exact .refl _
  | none =>
    rcases hg : getGradientOperator B s.fn with ⟨r, fn⟩
    have : FnSteps B s.fn fn := .grad (by rw [hg]; exact .refl _)
    cases r <;> simpa using this

omit [PyArr A] in
theorem getEH_fn (B : Backend A) (s : ProbState A) : FnSteps B s.fn (getEH B s).2.fn := by
  unfold getEH
  cases s.eh with
  | some g => exact .refl _
  | none =>
    rcases hg : getHessianOperator B s.fn with ⟨r, fn⟩
    have : FnSteps B s.fn fn := .hess (by rw [hg]; exact .refl _)
    cases r <;> simpa using this

omit [PyArr A] in
theorem getRG_fn (s : ProbState A) : (getRG s).2.fn = s.fn := by
  unfold getRG; cases s.rg <;> rfl

omit [PyArr A] in
theorem getRH_fn (s : ProbState A) : (getRH s).2.fn = s.fn := by
  unfold getRH; cases s.rh <;> rfl

theorem callRG_fn (M : PMfd A) (B : Backend A) (g : GradOp A) (x : Val A) (s : ProbState A) :
    FnSteps B s.fn (callRG M B g x s).2.fn := by
  unfold callRG
  cases g with
  | wrapped f => exact .refl _
  | converted =>
    have := getEG_fn B s
    simp only
    rcases hg : getEG B s with ⟨r, s'⟩
    rw [hg] at this
    cases r with
    | error e => exact this
    | ok eg => simp only; cases callEG M eg x <;> exact this

theorem finishRH_fn (M : PMfd A) (B : Backend A) (x v gr : Val A) (s : ProbState A) :
    FnSteps B s.fn (finishRH M B x v gr s).2.fn := by
  unfold finishRH
  have := getEH_fn B s
  rcases hg : getEH B s with ⟨r, s'⟩
  rw [hg] at this
  cases r with
  | error e => exact this
  | ok eh => simp only; cases callEH M eh x v <;> exact this

theorem callRH_fn (M : PMfd A) (B : Backend A) (g : HessOp A) (x v : Val A) (s : ProbState A) :
    FnSteps B s.fn (callRH M B g x v s).2.fn := by
  unfold callRH
  cases g with
  | wrapped b f => exact .refl _
  | converted =>
    have := getEG_fn B s
    simp only
    rcases hg : getEG B s with ⟨r, s'⟩
    rw [hg] at this
    cases r with
    | error e => exact this
    | ok eg =>
      simp only
      cases callEG M eg x with
      | error e => exact this
      | ok gr => exact this.trans (finishRH_fn M B x v gr s')

theorem access_fn (M : PMfd A) (B : Backend A) (s : ProbState A) (a : Access A) :
    FnSteps B s.fn (access M B s a).2.fn := by
  cases a with
  | fetchEG =>
    have := getEG_fn B s
    simp only [access]
    rcases hg : getEG B s with ⟨r, s'⟩
    rw [hg] at this
    cases r <;> exact this
  | fetchRG => simp only [access, getRG_fn]; exact .refl _
  | fetchEH =>
    have := getEH_fn B s
    simp only [access]
    rcases hg : getEH B s with ⟨r, s'⟩
    rw [hg] at this
    cases r <;> exact this
  | fetchRH => simp only [access, getRH_fn]; exact .refl _
  | callEG x =>
    have := getEG_fn B s
    simp only [access]
    rcases hg : getEG B s with ⟨r, s'⟩
    rw [hg] at this
    cases r <;> exact this
  | callRG x =>
    have := callRG_fn M B (getRG s).1 x (getRG s).2
    rw [getRG_fn] at this
    exact this
  | callEH x v =>
    have := getEH_fn B s
    simp only [access]
    rcases hg : getEH B s with ⟨r, s'⟩
    rw [hg] at this
    cases r <;> exact this
  | callRH x v =>
    have := callRH_fn M B (getRH s).1 x v (getRH s).2
    rw [getRH_fn] at this
    exact this

theorem accesses_fn (M : PMfd A) (B : Backend A) (s : ProbState A) (history : List (Access A)) :
    FnSteps B s.fn (accesses M B s history).fn := by
  induction history generalizing s with
  | nil => exact .refl _
  | cons a as ih => exact (access_fn M B s a).trans (ih _)

/-- C37: over every history of accesses to a problem whose backend may return a different outcome
on every call, a generator is called again only after a call that raised: at most one call
succeeds, it is the last one, and its operator is the one used from then on.  `fn` is the state in
which earlier problems sharing the cost function left it. -/
theorem C37_at_most_once (M : PMfd A) (B : Backend A) (eg rg eh rh : Arg A) (fn : FunState A)
    (hfn : FnSteps B {} fn) (history : List (Access A)) :
    let s := accesses M B (initState eg rg eh rh fn) history
    OnceOK B.genGradient s.fn.gradientCalls s.fn.gradient ∧
    OnceOK B.genHessian s.fn.hessianCalls s.fn.hessian := by
  intro s
  have h := hfn.trans (accesses_fn M B (initState eg rg eh rh fn) history)
  have := h.once (B := B) (.inl ⟨rfl, by simp⟩) (.inl ⟨rfl, by simp⟩)
  exact ⟨this.1, this.2.1⟩

/-- C37: if the backend's generators succeed, each is called at most once. -/
theorem C37_successful_backend (M : PMfd A) (B : Backend A) (eg rg eh rh : Arg A)
    (G H : Fn A) (hG : B.genGradient 0 = .ok G) (hH : B.genHessian 0 = .ok H)
    (history : List (Access A)) :
    let s := accesses M B (initState eg rg eh rh) history
    s.fn.gradientCalls ≤ 1 ∧ s.fn.hessianCalls ≤ 1 := by
  intro s
  obtain ⟨h1, h2⟩ := C37_at_most_once M B eg rg eh rh {} (.refl _) history
  change OnceOK _ s.fn.gradientCalls s.fn.gradient at h1
  change OnceOK _ s.fn.hessianCalls s.fn.hessian at h2
  constructor
  · rcases h1 with ⟨-, hall⟩ | ⟨n, f, hn, hf, -, hall⟩
    · by_contra hc
      obtain ⟨e, he⟩ := hall 0 (by omega)
      rw [hG] at he; cases he
    · by_contra hc
      obtain ⟨e, he⟩ := hall 0 (by omega)
      rw [hG] at he; cases he
  · rcases h2 with ⟨-, hall⟩ | ⟨n, f, hn, hf, -, hall⟩
    · by_contra hc
      obtain ⟨e, he⟩ := hall 0 (by omega)
      rw [hH] at he; cases he
    · by_contra hc
      obtain ⟨e, he⟩ := hall 0 (by omega)
      rw [hH] at he; cases he

/-- C37: once an operator has been generated it is never replaced and its generator never called
again. -/
theorem C37_stable (M : PMfd A) (B : Backend A) (eg rg eh rh : Arg A)
    (history more : List (Access A)) (G : Fn A)
    (hG : (accesses M B (initState eg rg eh rh) history).fn.gradient = some G) :
    let s := accesses M B (initState eg rg eh rh) history
    (accesses M B s more).fn.gradient = some G ∧
    (accesses M B s more).fn.gradientCalls = s.fn.gradientCalls ∧
    (getGradientOperator B (accesses M B s more).fn).1 = .ok G := by
  intro s
  obtain ⟨h1, h2⟩ := C37_at_most_once M B eg rg eh rh {} (.refl _) history
  have := ((accesses_fn M B s more).once h1 h2).2.2.1 G hG
  exact ⟨this.1, this.2, by simp [getGradientOperator, this.1]⟩

theorem accesses_fetch {M : PMfd A} {B : Backend A} {s : ProbState A} {history : List (Access A)}
    (h : ∀ a ∈ history, a = .fetchRG ∨ a = .fetchRH) :
    (accesses M B s history).fn = s.fn := by
  induction history generalizing s with
  | nil => rfl
  | cons a as ih =>
    have := ih (s := (access M B s a).2) fun b hb => h b (List.mem_cons_of_mem _ hb)
    rw [accesses, this]
    rcases h a List.mem_cons_self with rfl | rfl
    · simp [access, getRG_fn]
    · simp [access, getRH_fn]

/-- C37: no generator runs before an operator that needs it is requested: creating the problem and
fetching its Riemannian operators calls none. -/
theorem C37_on_demand (M : PMfd A) (B : Backend A) (eg rg eh rh : Arg A)
    (history : List (Access A)) (h : ∀ a ∈ history, a = .fetchRG ∨ a = .fetchRH) :
    let s := accesses M B (initState eg rg eh rh) history
    s.fn.gradientCalls = 0 ∧ s.fn.hessianCalls = 0 := by
  intro s
  have : s.fn = {} := accesses_fetch h
  rw [this]
  exact ⟨rfl, rfl⟩

/-! ### Attributes -/

omit [PyArr A] in
theorem setAttr_locked {V : Type*} {d : Attrs V} {key : String} {m : V}
    (hk : key = "manifold" ∨ key = "preconditioner") (h : d key = some m) (k : String) (v : V) :
    (setAttr d k v).2 key = some m := by
  unfold setAttr
  split_ifs with h1 h2
  · exact h
  · exact h
  · have : key ≠ k := by
      rintro rfl
      apply h1
      rcases hk with rfl | rfl <;> simp [h]
    simp [Function.update_of_ne this, h]

omit [PyArr A] in
theorem setAttrs_locked {V : Type*} {d : Attrs V} {key : String} {m : V}
    (hk : key = "manifold" ∨ key = "preconditioner") (h : d key = some m)
    (l : List (String × V)) : setAttrs d l key = some m := by
  induction l generalizing d with
  | nil => exact h
  | cons a l ih => exact ih (setAttr_locked hk h a.1 a.2)

/-- C38: after construction and any sequence of assignments the manifold and the preconditioner are
those of the constructor, assigning either raises `AttributeError` and changes nothing, and every
other attribute that is not one of the read-only operator properties can be set. -/
theorem C38_immutable {V : Type*} (manifold cost wrappedCost eg eh rg rh preconditioner : V)
    (history : List (String × V)) :
    let d := setAttrs
      (initAttrs manifold cost wrappedCost eg eh rg rh preconditioner) history
    d "manifold" = some manifold ∧ d "preconditioner" = some preconditioner ∧
    (∀ v, setAttr d "manifold" v = (.error .attributeError, d)) ∧
    (∀ v, setAttr d "preconditioner" v = (.error .attributeError, d)) ∧
    (∀ k ∈ ["cost", "euclidean_gradient", "riemannian_gradient", "euclidean_hessian",
      "riemannian_hessian"], ∀ v, setAttr d k v = (.error .attributeError, d)) ∧
    (∀ k v, k ∉ ["manifold", "preconditioner", "cost", "euclidean_gradient", "riemannian_gradient",
        "euclidean_hessian", "riemannian_hessian"] →
      (setAttr d k v).1 = .ok () ∧ (setAttr d k v).2 k = some v ∧
      ∀ k', k' ≠ k → (setAttr d k v).2 k' = d k') := by
  intro d
  have h1 : d "manifold" = some manifold :=
    setAttrs_locked (.inl rfl) (by simp [initAttrs, setAttrs, setAttr, readOnly]) _
  have h2 : d "preconditioner" = some preconditioner :=
    setAttrs_locked (.inr rfl) (by simp [initAttrs, setAttrs, setAttr, readOnly]) _
  refine ⟨h1, h2, fun v => by simp [setAttr, h1], fun v => by simp [setAttr, h2], ?_, ?_⟩
  · intro k hk v
    replace hk : k ∈ readOnly := hk
    unfold setAttr
    split_ifs <;> rfl
  · intro k v hk
    have hm : k ≠ "manifold" := fun h => hk (by simp [h])
    have hp : k ≠ "preconditioner" := fun h => hk (by simp [h])
    have hr : k ∉ readOnly := fun h => hk (List.mem_cons_of_mem _ (List.mem_cons_of_mem _ h))
    simp [setAttr, hm, hp, hr]
    intro k' hk'
    simp [hk']

end Verif.Core
