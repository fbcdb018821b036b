/-
C39, C41, C44–C47, C105: manifold constructor, product manifolds, product tangent vectors.
-/
import Verif.Core.Model.Product
import Verif.Core.Props.Problem
import Verif.Core.Witness
import Mathlib.Algebra.BigOperators.Fin
import Mathlib.Algebra.Module.Pi

namespace Verif.Core
open Verif

variable {A : Type*}

/-! ### C44: manifold constructor -/

/-- Integer entries of a layout. -/
def Obj.isInt : Obj → Option ℤ
  | .int z => some z
  | .npInt z => some z
  | _ => none

theorem sequence_positive (l : List ℤ) :
    sequence ((l.map Obj.int).map Obj.positive) = .ok (l.map fun z => decide (0 < z)) := by
  induction l with
  | nil => rfl
  | cons z l ih => simp only [List.map_cons, sequence, ih, Obj.positive]

/-- C44, dimension: a dimension that is no integer raises `TypeError`, a negative one
`ValueError`, whatever the layout. -/
theorem C44_dimension (dimension layout : Obj) :
    (dimension.isInt = none → manifoldInit dimension layout = .error .typeError) ∧
    (∀ d, dimension.isInt = some d → d < 0 →
      manifoldInit dimension layout = .error .valueError) := by
  cases dimension <;> simp +contextual [Obj.isInt, manifoldInit]

/-- C44, layout, for a valid dimension: anything but an `int`, tuple or list raises `TypeError`;
an integer layout is accepted exactly when it is positive, a sequence of integers exactly when all
are positive, with `ValueError` otherwise. -/
theorem C44_layout (dimension : Obj) (d : ℤ) (hd : dimension.isInt = some d) (h0 : 0 ≤ d) :
    (∀ q z, manifoldInit dimension (.float q) = .error .typeError ∧
      manifoldInit dimension (.npInt z) = .error .typeError ∧
      manifoldInit dimension .other = .error .typeError) ∧
    (∀ z, manifoldInit dimension (.int z) =
      if 0 < z then .ok () else .error .valueError) ∧
    (∀ l : List ℤ, manifoldInit dimension (.tuple (l.map .int)) =
      if ∀ z ∈ l, 0 < z then .ok () else .error .valueError) ∧
    (∀ l : List ℤ, manifoldInit dimension (.list (l.map .int)) =
      if ∀ z ∈ l, 0 < z then .ok () else .error .valueError) := by
  have key : ∀ layout, manifoldInit dimension layout = checkLayout layout := by
    intro layout
    cases dimension <;> simp_all [Obj.isInt, manifoldInit, not_lt.mpr]
  have hall : ∀ l : List ℤ, ((l.map fun z => decide (0 < z)).all id = true) ↔ ∀ z ∈ l, 0 < z := by
    intro l; simp
  refine ⟨fun q z => ⟨by rw [key]; rfl, by rw [key]; rfl, by rw [key]; rfl⟩, ?_, ?_, ?_⟩
  · intro z
    rw [key]
    by_cases hz : 0 < z
    · simp [checkLayout, hz]
    · simp [checkLayout, hz, not_lt.mp hz]
  · intro l
    rw [key]
    simp only [checkLayout, sequence_positive, hall]
  · intro l
    rw [key]
    simp only [checkLayout, sequence_positive, hall]

/-- The value of an object that compares with integers. -/
def Obj.number : Obj → Option ℚ
  | .int z => some z
  | .npInt z => some z
  | .float x => some x
  | _ => none

theorem sequence_positive_iff (l : List Obj) :
    ((∀ o ∈ l, o.number ≠ none) → ∃ bs, sequence (l.map Obj.positive) = .ok bs ∧
      (bs.all id = true ↔ ∀ o ∈ l, ∀ q, o.number = some q → 0 < q)) ∧
    ((∃ o ∈ l, o.number = none) → sequence (l.map Obj.positive) = .error .typeError) := by
  induction l with
  | nil => simp [sequence]
  | cons o l ih =>
    have key : (∃ q, o.number = some q ∧ o.positive = .ok (decide (0 < q))) ∨
        (o.number = none ∧ o.positive = .error .typeError) := by
      cases o <;> simp [Obj.number, Obj.positive]
    rcases key with ⟨q, hq, hp⟩ | ⟨hq, hp⟩
    · constructor
      · intro h
        obtain ⟨bs, h1, h2⟩ := ih.1 fun o' ho' => h o' (by simp [ho'])
        refine ⟨decide (0 < q) :: bs, by simp only [List.map_cons, sequence, hp, h1], ?_⟩
        rw [List.all_cons, Bool.and_eq_true, h2]
        simp [hq]
      · rintro ⟨o', ho', hn⟩
        rcases List.mem_cons.1 ho' with rfl | ho'
        · rw [hq] at hn
          cases hn
        · simp only [List.map_cons, sequence, hp, ih.2 ⟨o', ho', hn⟩]
    · refine ⟨fun h => absurd hq (h o (by simp)), fun _ => ?_⟩
      simp only [List.map_cons, sequence, hp]

/-- C44, layouts that are sequences of arbitrary objects: `TypeError` if an entry is not a number,
otherwise accepted exactly if all entries are positive, with `ValueError` if not. -/
theorem C44_sequence (dimension : Obj) (d : ℤ) (hd : dimension.isInt = some d) (h0 : 0 ≤ d)
    (l : List Obj) (layout : Obj) (hl : layout = .tuple l ∨ layout = .list l) :
    ((∃ o ∈ l, o.number = none) → manifoldInit dimension layout = .error .typeError) ∧
    ((∀ o ∈ l, o.number ≠ none) →
      (manifoldInit dimension layout = .ok () ↔ ∀ o ∈ l, ∀ q, o.number = some q → 0 < q) ∧
      (manifoldInit dimension layout = .error .valueError ↔
        ∃ o ∈ l, ∃ q, o.number = some q ∧ q ≤ 0)) := by
  have key : manifoldInit dimension layout = checkLayout layout := by
    cases dimension <;> simp_all [Obj.isInt, manifoldInit, not_lt.mpr]
  have hc : checkLayout layout = match sequence (l.map Obj.positive) with
      | .error e => .error e
      | .ok bs => if bs.all id then .ok () else .error .valueError := by
    rcases hl with rfl | rfl <;> rfl
  rw [key, hc]
  obtain ⟨h1, h2⟩ := sequence_positive_iff l
  constructor
  · intro h
    rw [h2 h]
  · intro h
    obtain ⟨bs, h3, h4⟩ := h1 h
    rw [h3]
    simp only
    have h5 : (∃ o ∈ l, ∃ q, o.number = some q ∧ q ≤ 0) ↔
        ¬ ∀ o ∈ l, ∀ q, o.number = some q → 0 < q := by
      push Not
      rfl
    rw [h5, ← h4]
    by_cases hb : bs.all id = true
    · simp [hb]
    · simp [hb]

/-- C44, `num_values`: the number of arrays of every well-formed point. -/
theorem C44_num_values (sig : List ℕ) (vs flat : List (Val A)) (h : Groups sig vs flat) :
    (Layout.compound sig).numValues = flat.length ∧ ∀ n, (Layout.int n).numValues = n :=
  ⟨h.flat_length.symm, fun _ => rfl⟩

/-! ### C46: product constructor -/

/-- C46 fails for the empty product: `np.sum([])` is a float, so the dimension check raises
`TypeError`. -/
theorem C46_empty_raises : productInit ([] : List (PyMfd A)) = .error .typeError := rfl

/-- C45: nested products are rejected. -/
theorem C45_nested_rejected (ms : List (PyMfd A)) (h : ∃ M ∈ ms, M.isProduct = true) :
    productInit ms = .error .valueError := by
  have : ms.any PyMfd.isProduct = true := by simpa using h
  simp [productInit, this]

/-- C46 for non-empty products of manifolds with positive layouts, with the sum of the dimensions
as dimension. -/
theorem C46_partial (ms : List (PyMfd A)) (hne : ms ≠ []) (hp : ∀ M ∈ ms, M.isProduct = false)
    (hl : ∀ M ∈ ms, 0 < M.layout) :
    productInit ms = .ok () ∧ productDim ms = (ms.map PyMfd.dim).sum ∧
      (productLayout ms).numValues = (ms.map PyMfd.layout).sum := by
  have h1 : ms.any PyMfd.isProduct = false := by simpa using hp
  have h2 : 0 ≤ (ms.map fun M => (M.dim : ℤ)).sum := by
    apply List.sum_nonneg
    intro x hx
    simp only [List.mem_map] at hx
    obtain ⟨M, -, rfl⟩ := hx
    exact Int.natCast_nonneg _
  have h3 := (C44_layout (.npInt (ms.map fun M => (M.dim : ℤ)).sum) _ rfl h2).2.2.1
    (ms.map fun M => (M.layout : ℤ))
  have h4 : ∀ z ∈ ms.map fun M => (M.layout : ℤ), 0 < z := by
    intro z hz
    simp only [List.mem_map] at hz
    obtain ⟨M, hM, rfl⟩ := hz
    exact_mod_cast hl M hM
  rw [if_pos h4] at h3
  refine ⟨?_, rfl, rfl⟩
  simp only [productInit, h1, hne]
  simpa [List.map_map, Function.comp_def] using h3

/-! ### Dispatch -/

theorem sequence_ok_iff {α : Type*} (cs : List (Except PyErr α)) (l : List α) :
    sequence cs = .ok l ↔ cs = l.map .ok := by
  induction cs generalizing l with
  | nil => cases l <;> simp [sequence]
  | cons c cs ih =>
    cases c with
    | error e => cases l <;> simp [sequence]
    | ok a =>
      simp only [sequence]
      cases hs : sequence cs with
      | error e =>
        simp only [reduceCtorEq, false_iff]
        intro h
        cases l with
        | nil => simp at h
        | cons b l =>
          simp only [List.map_cons, List.cons.injEq, Except.ok.injEq] at h
          rw [(ih l).mpr h.2] at hs
          cases hs
      | ok as =>
        have := (ih as).mp hs
        subst this
        cases l with
        | nil => simp
        | cons b l =>
          simp only [Except.ok.injEq, List.cons.injEq, List.map_cons]
          constructor
          · rintro ⟨rfl, rfl⟩; exact ⟨rfl, rfl⟩
          · rintro ⟨rfl, h⟩
            refine ⟨rfl, ?_⟩
            exact List.map_injective_iff.mpr (fun _ _ h => by injection h) h

theorem zipArgs_length {α β : Type*} (xs : List α) (ls : List (List β))
    (h : ∀ l ∈ ls, l.length = xs.length) : (zipArgs xs ls).length = xs.length := by
  induction xs generalizing ls with
  | nil => rfl
  | cons x xs ih =>
    have h1 : ls.any List.isEmpty = false := by
      simp only [List.any_eq_false, List.isEmpty_iff]
      intro l hl he
      have := h l hl
      simp [he] at this
    simp only [zipArgs, h1, List.length_cons]
    simp
    apply ih
    intro l hl
    simp only [List.mem_map] at hl
    obtain ⟨m, hm, rfl⟩ := hl
    simp [h m hm]

theorem zipArgs_get {α β : Type*} (xs : List α) (ls : List (List β))
    (h : ∀ l ∈ ls, l.length = xs.length) (i : ℕ) :
    (zipArgs xs ls)[i]? = (xs[i]?).map fun x => (x, ls.filterMap fun l => l[i]?) := by
  induction xs generalizing ls i with
  | nil => rfl
  | cons x xs ih =>
    have h1 : ls.any List.isEmpty = false := by
      simp only [List.any_eq_false, List.isEmpty_iff]
      intro l hl he
      have := h l hl
      simp [he] at this
    simp only [zipArgs, h1]
    cases i with
    | zero =>
      simp only [Bool.false_eq_true, if_false, List.getElem?_cons_zero, Option.map_some]
      congr 2
      apply List.filterMap_congr
      intro l _
      simp [List.head?_eq_getElem?]
    | succ i =>
      have := ih (ls.map List.tail) (by
        intro l hl
        simp only [List.mem_map] at hl
        obtain ⟨m, hm, rfl⟩ := hl
        simp [h m hm]) i
      simp only [Bool.false_eq_true, if_false, List.getElem?_cons_succ, this]
      congr 1
      funext y
      congr 1
      rw [List.filterMap_map]
      apply List.filterMap_congr
      intro l _
      simp

/-- Results `rs` of a method applied factor by factor to the rows of `args`. -/
def Componentwise {β : Type*} (ms : List (PyMfd A)) (args : List (List (Val A)))
    (method : PyMfd A → List (Val A) → Except PyErr β) (rs : List β) : Prop :=
  rs.length = ms.length ∧
  ∀ (i : ℕ) (M : PyMfd A) (r : β), ms[i]? = some M → rs[i]? = some r → method M (args.filterMap fun l => l[i]?) = .ok r

theorem dispatch_ok_iff [PyArr A] {β : Type*} (ms : List (PyMfd A)) (args : List (Val A))
    (ls : List (List (Val A))) (hls : args.map Val.items = ls.map .ok)
    (hlen : ∀ l ∈ ls, l.length = ms.length)
    (method : PyMfd A → List (Val A) → Except PyErr β) (rs : List β) :
    dispatch ms args method = .ok rs ↔ Componentwise ms ls method rs := by
  have h1 : sequence (args.map Val.items) = .ok ls := (sequence_ok_iff _ _).mpr hls
  have hl := zipArgs_length ms ls hlen
  simp only [dispatch, h1, sequence_ok_iff]
  constructor
  · intro h
    have hlen' := congrArg List.length h
    simp only [List.length_map, hl] at hlen'
    refine ⟨hlen'.symm, fun i M r hM hr => ?_⟩
    have := congrArg (fun l => l[i]?) h
    simp only [List.getElem?_map, zipArgs_get ms ls hlen, hM, hr, Option.map_some] at this
    injection this
  · rintro ⟨hlen', hall⟩
    apply List.ext_getElem?
    intro i
    simp only [List.getElem?_map, zipArgs_get ms ls hlen]
    rcases lt_or_ge i ms.length with hi | hi
    · have hi' : i < rs.length := by omega
      have := hall i ms[i] rs[i] (List.getElem?_eq_getElem hi) (List.getElem?_eq_getElem hi')
      simp [List.getElem?_eq_getElem hi, List.getElem?_eq_getElem hi', this]
    · simp [List.getElem?_eq_none hi, List.getElem?_eq_none (show rs.length ≤ i by omega)]

/-- `f` applied to factor `i` and the components `i` of two arguments gives component `i` of
`rs`. -/
def Componentwise2 {β : Type*} (ms : List (PyMfd A)) (ps vs : List (Val A))
    (f : PyMfd A → Val A → Val A → Except PyErr β) (rs : List β) : Prop :=
  rs.length = ms.length ∧ ∀ (i : ℕ) (M : PyMfd A) (p v : Val A) (r : β), ms[i]? = some M → ps[i]? = some p → vs[i]? = some v →
    rs[i]? = some r → f M p v = .ok r

/-- The same for one argument. -/
def Componentwise1 {β : Type*} (ms : List (PyMfd A)) (ps : List (Val A))
    (f : PyMfd A → Val A → Except PyErr β) (rs : List β) : Prop :=
  rs.length = ms.length ∧ ∀ (i : ℕ) (M : PyMfd A) (p : Val A) (r : β), ms[i]? = some M → ps[i]? = some p →
    rs[i]? = some r → f M p = .ok r

/-- The same for three arguments. -/
def Componentwise3 {β : Type*} (ms : List (PyMfd A)) (ps vs ws : List (Val A))
    (f : PyMfd A → Val A → Val A → Val A → Except PyErr β) (rs : List β) : Prop :=
  rs.length = ms.length ∧ ∀ (i : ℕ) (M : PyMfd A) (p v w : Val A) (r : β), ms[i]? = some M → ps[i]? = some p → vs[i]? = some v →
    ws[i]? = some w → rs[i]? = some r → f M p v w = .ok r

/-- The same for four arguments. -/
def Componentwise4 {β : Type*} (ms : List (PyMfd A)) (ps vs ws us : List (Val A))
    (f : PyMfd A → Val A → Val A → Val A → Val A → Except PyErr β) (rs : List β) : Prop :=
  rs.length = ms.length ∧ ∀ (i : ℕ) (M : PyMfd A) (p v w u : Val A) (r : β), ms[i]? = some M → ps[i]? = some p →
    vs[i]? = some v → ws[i]? = some w → us[i]? = some u → rs[i]? = some r → f M p v w u = .ok r

section
variable [PyArr A] {ms : List (PyMfd A)} {ps vs ws us : List (Val A)} {β : Type*}

theorem getElem?_of_length {α γ : Type*} {xs : List α} {ys : List γ} (h : ys.length = xs.length)
    {i : ℕ} {x : α} (hx : xs[i]? = some x) : ∃ y, ys[i]? = some y := by
  have hi : i < xs.length := (List.getElem?_eq_some_iff.mp hx).1
  exact ⟨ys[i], List.getElem?_eq_getElem (by omega)⟩

theorem dispatch1 (hp : ps.length = ms.length) (k : SeqKind)
    (f : PyMfd A → Val A → Except PyErr β) (rs : List β) :
    dispatch ms [.seq k ps] (fun M => call1 (f M)) = .ok rs ↔ Componentwise1 ms ps f rs := by
  rw [dispatch_ok_iff ms _ [ps] rfl (by simp [hp])]
  refine and_congr_right fun _ => ⟨fun h i M p r hM hp' hr => ?_, fun h i M r hM hr => ?_⟩
  · simpa [hp', call1] using h i M r hM hr
  · obtain ⟨p, hp'⟩ := getElem?_of_length hp hM
    simpa [hp', call1] using h i M p r hM hp' hr

theorem dispatch2 (hp : ps.length = ms.length) (hv : vs.length = ms.length) (k k' : SeqKind)
    (f : PyMfd A → Val A → Val A → Except PyErr β) (rs : List β) :
    dispatch ms [.seq k ps, .seq k' vs] (fun M => call2 (f M)) = .ok rs ↔
      Componentwise2 ms ps vs f rs := by
  rw [dispatch_ok_iff ms _ [ps, vs] rfl (by simp [hp, hv])]
  refine and_congr_right fun _ => ⟨fun h i M p v r hM hp' hv' hr => ?_, fun h i M r hM hr => ?_⟩
  · simpa [hp', hv', call2] using h i M r hM hr
  · obtain ⟨p, hp'⟩ := getElem?_of_length hp hM
    obtain ⟨v, hv'⟩ := getElem?_of_length hv hM
    simpa [hp', hv', call2] using h i M p v r hM hp' hv' hr

theorem dispatch3 (hp : ps.length = ms.length) (hv : vs.length = ms.length)
    (hw : ws.length = ms.length) (k k' k'' : SeqKind)
    (f : PyMfd A → Val A → Val A → Val A → Except PyErr β) (rs : List β) :
    dispatch ms [.seq k ps, .seq k' vs, .seq k'' ws] (fun M => call3 (f M)) = .ok rs ↔
      Componentwise3 ms ps vs ws f rs := by
  rw [dispatch_ok_iff ms _ [ps, vs, ws] rfl (by simp [hp, hv, hw])]
  refine and_congr_right fun _ =>
    ⟨fun h i M p v w r hM hp' hv' hw' hr => ?_, fun h i M r hM hr => ?_⟩
  · simpa [hp', hv', hw', call3] using h i M r hM hr
  · obtain ⟨p, hp'⟩ := getElem?_of_length hp hM
    obtain ⟨v, hv'⟩ := getElem?_of_length hv hM
    obtain ⟨w, hw'⟩ := getElem?_of_length hw hM
    simpa [hp', hv', hw', call3] using h i M p v w r hM hp' hv' hw' hr

theorem dispatch4 (hp : ps.length = ms.length) (hv : vs.length = ms.length)
    (hw : ws.length = ms.length) (hu : us.length = ms.length) (k k' k'' k''' : SeqKind)
    (f : PyMfd A → Val A → Val A → Val A → Val A → Except PyErr β) (rs : List β) :
    dispatch ms [.seq k ps, .seq k' vs, .seq k'' ws, .seq k''' us] (fun M => call4 (f M)) = .ok rs ↔
      Componentwise4 ms ps vs ws us f rs := by
  rw [dispatch_ok_iff ms _ [ps, vs, ws, us] rfl (by simp [hp, hv, hw, hu])]
  refine and_congr_right fun _ =>
    ⟨fun h i M p v w u r hM hp' hv' hw' hu' hr => ?_, fun h i M r hM hr => ?_⟩
  · simpa [hp', hv', hw', hu', call4] using h i M r hM hr
  · obtain ⟨p, hp'⟩ := getElem?_of_length hp hM
    obtain ⟨v, hv'⟩ := getElem?_of_length hv hM
    obtain ⟨w, hw'⟩ := getElem?_of_length hw hM
    obtain ⟨u, hu'⟩ := getElem?_of_length hu hM
    simpa [hp', hv', hw', hu', call4] using h i M p v w u r hM hp' hv' hw' hu' hr

omit [PyArr A] in
theorem map_ok_iff {α γ : Type*} (x : Except PyErr α) (g : α → γ) (y : γ) :
    x.map g = .ok y ↔ ∃ a, x = .ok a ∧ y = g a := by
  cases x with
  | error e => simp [Except.map]
  | ok a => simp [Except.map, eq_comm]

/-- C45, methods that return tangent vectors or points: each result is the list of the factors'
results on the components, as a tangent vector resp. a list. -/
theorem C45_componentwise (hp : ps.length = ms.length) (hv : vs.length = ms.length)
    (k k' : SeqKind) (out : Val A) :
    (prodProjection ms (.seq k ps) (.seq k' vs) = .ok out ↔
      ∃ rs, Componentwise2 ms ps vs PyMfd.projection rs ∧ out = .seq .productTV rs) ∧
    (prodToTangentSpace ms (.seq k ps) (.seq k' vs) = .ok out ↔
      ∃ rs, Componentwise2 ms ps vs PyMfd.toTangentSpace rs ∧ out = .seq .productTV rs) ∧
    (prodE2rg ms (.seq k ps) (.seq k' vs) = .ok out ↔
      ∃ rs, Componentwise2 ms ps vs PyMfd.e2rg rs ∧ out = .seq .productTV rs) ∧
    (prodExp ms (.seq k ps) (.seq k' vs) = .ok out ↔
      ∃ rs, Componentwise2 ms ps vs PyMfd.exp rs ∧ out = .seq .list rs) ∧
    (prodRetraction ms (.seq k ps) (.seq k' vs) = .ok out ↔
      ∃ rs, Componentwise2 ms ps vs PyMfd.retraction rs ∧ out = .seq .list rs) ∧
    (prodLog ms (.seq k ps) (.seq k' vs) = .ok out ↔
      ∃ rs, Componentwise2 ms ps vs PyMfd.log rs ∧ out = .seq .productTV rs) ∧
    (prodPairMean ms (.seq k ps) (.seq k' vs) = .ok out ↔
      ∃ rs, Componentwise2 ms ps vs PyMfd.pairMean rs ∧ out = .seq .list rs) ∧
    (prodZeroVector ms (.seq k ps) = .ok out ↔
      ∃ rs, Componentwise1 ms ps PyMfd.zeroVector rs ∧ out = .seq .productTV rs) := by
  refine ⟨?_, ?_, ?_, ?_, ?_, ?_, ?_, ?_⟩
  all_goals
    first
    | exact (map_ok_iff _ _ _).trans (exists_congr fun rs => and_congr_left fun _ =>
        dispatch2 hp hv k k' _ rs)
    | exact (map_ok_iff _ _ _).trans (exists_congr fun rs => and_congr_left fun _ =>
        dispatch1 hp k _ rs)

/-- C45, methods of three and four arguments. -/
theorem C45_componentwise_more (hp : ps.length = ms.length) (hv : vs.length = ms.length)
    (hw : ws.length = ms.length) (hu : us.length = ms.length) (k k' k'' k''' : SeqKind)
    (out : Val A) :
    (prodTransport ms (.seq k ps) (.seq k' vs) (.seq k'' ws) = .ok out ↔
      ∃ rs, Componentwise3 ms ps vs ws PyMfd.transport rs ∧ out = .seq .productTV rs) ∧
    (prodE2rh ms (.seq k ps) (.seq k' vs) (.seq k'' ws) (.seq k''' us) = .ok out ↔
      ∃ rs, Componentwise4 ms ps vs ws us PyMfd.e2rh rs ∧ out = .seq .productTV rs) :=
  ⟨(map_ok_iff _ _ _).trans (exists_congr fun rs => and_congr_left fun _ =>
      dispatch3 hp hv hw k k' k'' _ rs),
    (map_ok_iff _ _ _).trans (exists_congr fun rs => and_congr_left fun _ =>
      dispatch4 hp hv hw hu k k' k'' k''' _ rs)⟩

/-- C45, random points: one random point per factor. -/
theorem C45_random_point (out : Val A) :
    prodRandomPoint ms = .ok out ↔
      ∃ rs, out = .seq .list rs ∧ ms.map PyMfd.randomPoint = rs.map .ok := by
  have hz : ∀ ms : List (PyMfd A), zipArgs ms ([] : List (List (Val A))) = ms.map fun M => (M, []) := by
    intro ms
    induction ms with
    | nil => rfl
    | cons M ms ih => simp [zipArgs, ih]
  unfold prodRandomPoint asList
  rw [map_ok_iff]
  refine exists_congr fun rs => ?_
  simp only [dispatch, List.map_nil, sequence, hz, List.map_map, sequence_ok_iff]
  exact ⟨fun h => ⟨h.2, h.1⟩, fun h => ⟨h.2, h.1⟩⟩

/-- C45, metric: the inner product is the sum of the factors', the norm its square root, the
distance the root of the sum of squared distances. -/
theorem C45_metric (hp : ps.length = ms.length) (hv : vs.length = ms.length)
    (hw : ws.length = ms.length) (k k' k'' : SeqKind) (x : ℝ) :
    (prodInner ms (.seq k ps) (.seq k' vs) (.seq k'' ws) = .ok x ↔
      ∃ rs, Componentwise3 ms ps vs ws PyMfd.inner rs ∧ x = rs.sum) ∧
    (prodNorm ms (.seq k ps) (.seq k' vs) = .ok x ↔
      ∃ rs, Componentwise3 ms ps vs vs PyMfd.inner rs ∧ x = Real.sqrt rs.sum) ∧
    (prodDist ms (.seq k ps) (.seq k' vs) = .ok x ↔
      ∃ rs, Componentwise2 ms ps vs PyMfd.dist rs ∧
        x = Real.sqrt (rs.map fun d => d ^ 2).sum) := by
  refine ⟨?_, ?_, ?_⟩
  · exact (map_ok_iff _ _ _).trans (exists_congr fun rs => and_congr_left fun _ =>
      dispatch3 hp hv hw k k' k'' _ rs)
  · unfold prodNorm
    rw [map_ok_iff]
    constructor
    · rintro ⟨a, ha, rfl⟩
      obtain ⟨rs, hrs, rfl⟩ := (map_ok_iff _ _ _).mp ha
      exact ⟨rs, (dispatch3 hp hv hv k k' k' _ rs).mp hrs, rfl⟩
    · rintro ⟨rs, hrs, rfl⟩
      exact ⟨rs.sum, (map_ok_iff _ _ _).mpr ⟨rs, (dispatch3 hp hv hv k k' k' _ rs).mpr hrs, rfl⟩,
        rfl⟩
  · unfold prodDist
    rw [map_ok_iff]
    have hc : ∀ (M : PyMfd A) l, (call2 M.dist l).map (· ^ 2) =
        call2 (fun p q => (M.dist p q).map (· ^ 2)) l := by
      intro M l
      match l with
      | [a, b] => rfl
      | [] => rfl
      | [_] => rfl
      | _ :: _ :: _ :: _ => rfl
    simp only [hc]
    simp only [dispatch2 hp hv k k' (fun M p q => (M.dist p q).map (· ^ 2))]
    constructor
    · rintro ⟨qs, ⟨hlen, h⟩, rfl⟩
      have hex : ∀ i : Fin ms.length, ∃ d : ℝ, qs[i]'(by omega) = d ^ 2 ∧
          ms[i].dist (ps[i]'(by omega)) (vs[i]'(by omega)) = .ok d := by
        intro i
        have := h i ms[i] (ps[i]'(by omega)) (vs[i]'(by omega)) (qs[i]'(by omega))
          (by simp) (List.getElem?_eq_getElem _) (List.getElem?_eq_getElem _)
          (List.getElem?_eq_getElem _)
        obtain ⟨d, hd, hq⟩ := (map_ok_iff _ _ _).mp this
        exact ⟨d, hq, hd⟩
      choose d hd1 hd2 using hex
      have hq : qs = (List.ofFn d).map fun d => d ^ 2 := by
        apply List.ext_getElem
        · simp [hlen]
        · intro i h1 h2
          simp at h2
          simpa using hd1 ⟨i, h2⟩
      refine ⟨List.ofFn d, ⟨by simp, ?_⟩, by rw [hq]⟩
      intro i M p v r hM hp' hv' hr
      obtain ⟨hi, rfl⟩ := List.getElem?_eq_some_iff.mp hM
      obtain ⟨_, rfl⟩ := List.getElem?_eq_some_iff.mp hp'
      obtain ⟨_, rfl⟩ := List.getElem?_eq_some_iff.mp hv'
      obtain ⟨_, rfl⟩ := List.getElem?_eq_some_iff.mp hr
      simpa using hd2 ⟨i, hi⟩
    · rintro ⟨rs, ⟨hlen, h⟩, rfl⟩
      refine ⟨rs.map (· ^ 2), ⟨by simp [hlen], ?_⟩, rfl⟩
      intro i M p v r hM hp' hv' hr
      simp only [List.getElem?_map, Option.map_eq_some_iff] at hr
      obtain ⟨d, hd, rfl⟩ := hr
      show Except.map _ (M.dist p v) = _
      rw [h i M p v d hM hp' hv' hd]
      rfl

/-- C101 for products: if random tangent vectors of the factors have norm one then so have those of
the product, for every number of factors. -/
theorem C101_product (hne : ms ≠ []) (hp : ps.length = ms.length) (k : SeqKind)
    (hunit : ∀ M ∈ ms, ∀ p v, M.randomTangent p = .ok v → M.inner p v v = .ok 1)
    (hscale : ∀ M ∈ ms, ∀ (p v w : Val A) (c x : ℝ), v.smul c = .ok w → M.inner p v v = .ok x →
      M.inner p w w = .ok (c ^ 2 * x))
    (out : Val A) (hout : prodRandomTangent ms (.seq k ps) = .ok out) :
    prodNorm ms (.seq k ps) out = .ok 1 := by
  obtain ⟨rs, hrs, rfl⟩ := (map_ok_iff _ _ _).mp hout
  have hrs' : dispatch ms [.seq k ps] (fun M => call1 (fun p => match M.randomTangent p with
      | .error e => .error e
      | .ok v => Val.smul (1 / Real.sqrt ms.length) v)) = .ok rs := by
    rw [← hrs]
    congr 1
    funext M l
    match l with
    | [a] => rfl
    | [] => rfl
    | _ :: _ :: _ => rfl
  obtain ⟨hlen, h⟩ := (dispatch1 hp k _ rs).mp hrs'
  have hpos : (0 : ℝ) < ms.length := by
    exact_mod_cast List.length_pos_iff.mpr hne
  refine ((C45_metric hp hlen hlen k .productTV .productTV 1).2.1).mpr
    ⟨List.replicate ms.length (1 / (ms.length : ℝ)), ⟨by simp, ?_⟩, ?_⟩
  · intro i M p v w r hM hp' hv' hw' hr
    obtain rfl : v = w := Option.some_inj.mp (hv'.symm.trans hw')
    have hi := h i M p v hM hp' hv'
    beta_reduce at hi
    have hr' : r = 1 / (ms.length : ℝ) := by
      obtain ⟨h1, h2⟩ := List.getElem?_eq_some_iff.mp hr
      simpa using h2.symm
    have hMm := List.mem_of_getElem? hM
    cases hrt : M.randomTangent p with
    | error e => rw [hrt] at hi; cases hi
    | ok u =>
      rw [hrt] at hi
      have := hscale M hMm p u v _ 1 hi (hunit M hMm p u hrt)
      rw [this, hr', div_pow, Real.sq_sqrt hpos.le]
      congr 1
      ring
  · rw [List.sum_replicate, nsmul_eq_mul, mul_one_div_cancel hpos.ne', Real.sqrt_one]

/-- C45, consequence: if in every factor `exp` inverts `log`, so it does in the product. -/
theorem C45_exp_log (hp : ps.length = ms.length) (hv : vs.length = ms.length) (k k' : SeqKind)
    (hinv : ∀ M ∈ ms, ∀ a b v, M.log a b = .ok v → M.exp a v = .ok b) (w : Val A)
    (hw : prodLog ms (.seq k ps) (.seq k' vs) = .ok w) :
    prodExp ms (.seq k ps) w = .ok (.seq .list vs) := by
  obtain ⟨rs, ⟨hlen, h⟩, rfl⟩ := ((C45_componentwise hp hv k k' w).2.2.2.2.2.1).mp hw
  refine ((C45_componentwise hp hlen k .productTV _).2.2.2.1).mpr ⟨vs, ⟨hv, ?_⟩, rfl⟩
  intro i M p r v hM hp' hr hv'
  exact hinv M (List.mem_of_getElem? hM) p v r (h i M p v r hM hp' hv' hr)

/-- C105 fails: components beyond the number of factors are ignored silently. -/
theorem C105_extra_components_ignored (hp : ps.length = ms.length) (hv : vs.length = ms.length)
    (extra : List (Val A)) (k k' : SeqKind) :
    prodExp ms (.seq k ps) (.seq k' (vs ++ extra)) = prodExp ms (.seq k ps) (.seq k' vs) := by
  have hz : ∀ (ms : List (PyMfd A)) (ps vs : List (Val A)), ps.length = ms.length →
      vs.length = ms.length → zipArgs ms [ps, vs ++ extra] = zipArgs ms [ps, vs] := by
    intro ms
    induction ms with
    | nil => intros; rfl
    | cons M ms ih =>
      intro ps vs hp hv
      match ps, vs, hp, hv with
      | p :: ps, v :: vs, hp, hv =>
        simp [zipArgs]
        exact ih ps vs (by simpa using hp) (by simpa using hv)
  simp only [prodExp, dispatch, List.map_cons, List.map_nil, Val.items, sequence,
    hz ms ps vs hp hv]

/-- C105 fails: missing components are not noticed either, the result is merely shorter, and a
point of a product of two manifolds with one component is moved to a list of one component. -/
theorem C105_missing_components_ignored (M N : PyMfd A) (k k' : SeqKind) (p q v r : Val A)
    (h : M.exp p v = .ok r) :
    prodExp [M, N] (.seq k [p, q]) (.seq k' [v]) = .ok (.seq .list [r]) := by
  simp [prodExp, dispatch, Val.items, sequence, zipArgs, call2, h, asList, Except.map]

theorem items_error {a : Val A} {e : PyErr} (h : a.items = .error e) : e = .typeError := by
  unfold Val.items at h
  split at h
  · split at h <;> cases h
    rfl
  · cases h

theorem dispatch_no_components {a : A} (ha : PyArr.rows a = none)
    (f : PyMfd A → List (Val A) → Except PyErr β) (args : List (Val A)) (hmem : .arr a ∈ args) :
    dispatch ms args f = .error .typeError := by
  have h0 : (Val.arr a).items = .error .typeError := by simp [Val.items, ha]
  have h2 : sequence (args.map Val.items) = .error .typeError := by
    induction args with
    | nil => cases hmem
    | cons b l ih =>
      rcases hb : b.items with e | m
      · simp [sequence, hb, items_error hb]
      · have : .arr a ∈ l := by
          rcases List.mem_cons.1 hmem with h | h
          · rw [← h, h0] at hb
            cases hb
          · exact h
        simp [sequence, hb, ih this]
  unfold dispatch
  rw [h2]

/-- C105: what is rejected are arguments without components (numbers and arrays of dimension
zero). -/
theorem C105_partial {a : A} (ha : PyArr.rows a = none) (p q : Val A) :
    prodDist ms (.arr a) p = .error .typeError ∧ prodDist ms p (.arr a) = .error .typeError ∧
    prodExp ms (.arr a) p = .error .typeError ∧ prodExp ms p (.arr a) = .error .typeError ∧
    prodRetraction ms (.arr a) p = .error .typeError ∧
    prodRetraction ms p (.arr a) = .error .typeError ∧
    prodLog ms (.arr a) p = .error .typeError ∧ prodLog ms p (.arr a) = .error .typeError ∧
    prodProjection ms (.arr a) p = .error .typeError ∧
    prodProjection ms p (.arr a) = .error .typeError ∧
    prodInner ms (.arr a) p q = .error .typeError ∧ prodInner ms p (.arr a) q = .error .typeError ∧
    prodInner ms p q (.arr a) = .error .typeError := by
  refine ⟨?_, ?_, ?_, ?_, ?_, ?_, ?_, ?_, ?_, ?_, ?_, ?_, ?_⟩
  all_goals
    simp [prodDist, prodExp, prodRetraction, prodLog, prodProjection, prodInner, asList, asTV,
      dispatch_no_components ha, Except.map]

end

/-! ### C39: embedding -/

/-- C39 on every manifold other than a product: Euclidean Hessians get the embedded vector,
Riemannian Hessians the vector itself. -/
theorem C39_partial [PyArr A] (M : PyMfd A) (f : Fn A) (x v : Val A) :
    (wrapHessian M.toPMfd true f x v =
      (M.embedding x v).bind fun w => wrapHessianCore (.int M.layout) f x w) ∧
    (wrapHessian M.toPMfd false f x v = wrapHessianCore (.int M.layout) f x v) ∧
    (M.layout = 1 → ∀ w, M.embedding x v = .ok w →
      wrapHessian M.toPMfd true f x v = f [x, w]) := by
  have h := wrapHessian_embed (M := M.toPMfd) f x v
  refine ⟨h, by simp [wrapHessian, PyMfd.toPMfd], ?_⟩
  intro hl w hw
  rw [h]
  simp [PyMfd.toPMfd, hw, Except.bind, wrapHessianCore, hl]

/-- C39 for problems: whatever was accessed before, `problem.euclidean_hessian` calls the user's
Hessian, or else the generated one, with the point and the embedding of the vector, and
`problem.riemannian_hessian` calls the user's with the vector itself.  Missing: products
(`C39_product_violated`). -/
theorem C39_problem_partial [PyArr A] (M : PyMfd A) (hl : M.layout = 1) (B : Backend A)
    (genG genH : Except PyErr (Fn A)) (hB : ∀ k, B.genGradient k = genG)
    (hB' : ∀ k, B.genHessian k = genH) (eg rg eh rh : Arg A) (history : List (Access A))
    (x v w : Val A) (hw : M.embedding x v = .ok w) :
    let s := accesses M.toPMfd B (initState eg rg eh rh) history
    (∀ f, eh.toOption = some f → (access M.toPMfd B s (.callEH x v)).1 = (f [x, w]).map some) ∧
    (∀ f, eh.toOption = none → genH = .ok f →
      (access M.toPMfd B s (.callEH x v)).1 = (f [x, w]).map some) ∧
    (∀ f, rh.toOption = some f → (access M.toPMfd B s (.callRH x v)).1 = (f [x, v]).map some) := by
  intro s
  obtain ⟨-, -, h3, h4⟩ := C36_operators M.toPMfd B genG genH hB hB' eg rg eh rh history x v
  have hw' : M.toPMfd.embedding x v = .ok w := hw
  have hl' : M.toPMfd.layout = .int 1 := by simp [PyMfd.toPMfd, hl]
  refine ⟨fun f hf => ?_, fun f hf hg => ?_, fun f hf => ?_⟩
  · refine h3.trans ?_
    rw [hf]
    simp [eucHessSpec, hw', hl', Except.bind, wrapHessianCore]
  · refine h3.trans ?_
    rw [hf, hg]
    simp [eucHessSpec, hw', hl', Except.bind, wrapHessianCore]
  · refine h4.trans ?_
    rw [hf]
    simp [rieHessSpec, hl', wrapHessianCore]

/-- On products the Euclidean Hessian gets the tangent vector as it is. -/
theorem C39_product_not_embedded [PyArr A] (ms : List (PyMfd A)) (f : Fn A) (x v : Val A) :
    wrapHessian (productPMfd ms) true f x v = wrapHessianCore (productLayout ms) f x v := by
  simp [wrapHessian, productPMfd, prodEmbedding]

/-- A manifold on the real line whose tangent vectors are stored as half of their ambient
value. -/
noncomputable def scaledLine : PyMfd ℝ where
  isProduct := false
  dim := 1
  layout := 1
  typicalDist := .ok 1
  inner _ v w := match v, w with | .arr v, .arr w => .ok (v * w) | _, _ => .error .typeError
  dist p q := match p, q with | .arr p, .arr q => .ok |p - q| | _, _ => .error .typeError
  projection _ v := .ok v
  toTangentSpace _ v := .ok v
  e2rg _ g := .ok g
  e2rh _ _ h _ := .ok h
  exp p v := Val.add p v
  retraction p v := Val.add p v
  log p q := Val.sub q p
  randomPoint := .ok (.arr 0)
  randomTangent _ := .ok (.arr 1)
  transport _ _ v := .ok v
  pairMean p _ := .ok p
  zeroVector _ := .ok (.arr 0)
  embedding _ v := Val.smul 2 v

/-- A manifold where embedding changes the vector meets the hypotheses of `C39_problem_partial`. -/
example : scaledLine.layout = 1 ∧ scaledLine.embedding (.arr 0) (.arr 1) = .ok (.arr 2) := by
  simp [scaledLine, Val.smul, PyArr.smul]

/-- C39 fails on products: there are a product, a Euclidean Hessian and arguments for which it is
not called with the embedding of the vector in each factor. -/
theorem C39_product_violated :
    ∃ (ms : List (PyMfd ℝ)) (f : Fn ℝ) (p v w : Val ℝ),
      asTV (dispatch ms [p, v] fun M => call2 M.embedding) = .ok w ∧
      wrapHessian (productPMfd ms) true f p v ≠ wrapHessianCore (productLayout ms) f p w := by
  refine ⟨[scaledLine, scaledLine], fun l => .ok (.seq .list (l.drop 2)), .seq .list [.arr 0, .arr 0],
    .seq .productTV [.arr 1, .arr 1], .seq .productTV [.arr 2, .arr 2], ?_, ?_⟩
  · simp [dispatch, sequence, Val.items, zipArgs, call2, scaledLine, Val.smul, PyArr.smul, asTV,
      Except.map]
  · rw [C39_product_not_embedded]
    simp [productLayout, scaledLine, wrapHessianCore, flattenArguments, Val.items, flattenGroups,
      flattenGroup, Val.isListOrTuple, groupReturnValues, groupLoop]

/-- C39 on products whose factors all store tangent vectors as ambient vectors. -/
theorem C39_product_trivial_embedding [PyArr A] (ms : List (PyMfd A)) (f : Fn A) (ps vs : List (Val A))
    (hp : ps.length = ms.length) (hv : vs.length = ms.length)
    (hemb : ∀ M ∈ ms, ∀ x v, M.embedding x v = .ok v) (k : SeqKind) :
    asTV (dispatch ms [.seq k ps, .seq .productTV vs] fun M => call2 M.embedding) =
      .ok (.seq .productTV vs) ∧
    wrapHessian (productPMfd ms) true f (.seq k ps) (.seq .productTV vs) =
      wrapHessianCore (productLayout ms) f (.seq k ps) (.seq .productTV vs) := by
  refine ⟨(map_ok_iff _ _ _).mpr ⟨vs, (dispatch2 hp hv k _ PyMfd.embedding vs).mpr ⟨hv, ?_⟩, rfl⟩,
    C39_product_not_embedded ms f _ _⟩
  intro i M p v r hM _ hv' hr
  rw [hv'] at hr
  injection hr with hr
  subst hr
  exact hemb M (List.mem_of_getElem? hM) p v

/-! ### C41: user-supplied Riemannian gradients -/

theorem groupReturnValues_list {sig : List ℕ} {v w : Val A}
    (h : groupReturnValues sig v = .ok w) : ∃ l, w = .seq .list l := by
  unfold groupReturnValues at h
  split at h
  · cases h
  · split at h
    · cases h
    · split at h
      · cases h
      · injection h with h
        exact ⟨_, h.symm⟩

/-- C41 fails: on a product manifold a user-supplied Riemannian gradient is turned into a plain
list whatever it returns, and negating or scaling it, the first thing the gradient optimizers do,
raises `TypeError`. -/
theorem C41_user_gradient_is_list [PyArr A] (ms : List (PyMfd A)) (B : Backend A)
    (f : Fn A) (eh rh : Arg A) (history : List (Access A)) (x g : Val A)
    (hg : (access (productPMfd ms) B (accesses (productPMfd ms) B
      (initState .none (.function f) eh rh) history) (.callRG x)).1 = .ok (some g))
    (hB : ∃ G, ∀ k, B.genGradient k = G) (hB' : ∃ H, ∀ k, B.genHessian k = H) :
    (∃ l, g = .seq .list l) ∧ g.neg = .error .typeError ∧
      ∀ c, Val.smul c g = .error .typeError := by
  obtain ⟨G, hG⟩ := hB
  obtain ⟨H, hH⟩ := hB'
  have := (C36_operators (productPMfd ms) B G H hG hH .none (.function f) eh rh history x x).2.1
  rw [hg] at this
  simp only [Arg.toOption, rieGradSpec] at this
  obtain ⟨w, hw, hw'⟩ := (map_ok_iff _ _ _).mp this.symm
  injection hw' with hw'
  subst hw'
  have hlist : ∃ l, g = .seq .list l := by
    unfold wrapGradient at hw
    cases hf : wrapFunction (productPMfd ms).layout f x with
    | error e => rw [hf] at hw; cases hw
    | ok v =>
      rw [hf] at hw
      simp only [productPMfd, productLayout] at hw
      exact groupReturnValues_list hw
  obtain ⟨l, rfl⟩ := hlist
  exact ⟨⟨l, rfl⟩, rfl, fun _ => rfl⟩

/-- Hypotheses of `C41_user_gradient_is_list`: a product of two lines, the user's Riemannian
gradient returns two arrays. -/
example : (access (A := ℝ) (productPMfd [scaledLine, scaledLine])
    ⟨fun _ => .error .notImplemented, fun _ => .error .notImplemented⟩
    (initState .none (.function fun _ => .ok (.seq .tuple [.arr 1, .arr 2])) .none .none)
    (.callRG (.seq .list [.arr 0, .arr 0]))).1 = .ok (some (.seq .list [.arr 1, .arr 2])) := by
  simp [access, initState, getRG, callRG, Arg.toOption, wrapGradient, productPMfd, productLayout,
    scaledLine, wrapFunction, flattenArguments, Val.items, flattenGroups, flattenGroup,
    Val.isListOrTuple, groupReturnValues, groupLoop, Except.map]

/-- `C105_partial`: real numbers have no components. -/
example : prodDist (A := ℝ) [scaledLine, scaledLine] (.arr 1) (.seq .list [.arr 1, .arr 2]) =
    .error .typeError := (C105_partial rfl _ (.arr 0)).1

/-- **C36** on a product: after any history of accesses the Riemannian gradient of a problem with a
Euclidean gradient `f` is the factors' conversion of the components of `f`, and the Riemannian Hessian
of a problem with a Euclidean gradient `f` and a Euclidean Hessian `h` that of the components of
both. -/
theorem C36_product [PyArr A] (ms : List (PyMfd A)) (B : Backend A) (f h : Fn A)
    (rh : Arg A) (history : List (Access A)) {ps gs hs vs : List (Val A)} {k k' k'' : SeqKind}
    (hp : ps.length = ms.length) (hg : gs.length = ms.length)
    (hf : wrapGradient (productLayout ms) f (.seq k ps) = .ok (.seq k' gs))
    (hB : ∃ G, ∀ k, B.genGradient k = G) (hB' : ∃ H, ∀ k, B.genHessian k = H) (out : Val A) :
    ((access (productPMfd ms) B (accesses (productPMfd ms) B
        (initState (.function f) .none (.function h) rh) history) (.callRG (.seq k ps))).1 =
          .ok (some out) ↔
      ∃ rs, Componentwise2 ms ps gs PyMfd.e2rg rs ∧ out = .seq .productTV rs) ∧
    (hs.length = ms.length → vs.length = ms.length →
      wrapHessianCore (productLayout ms) h (.seq k ps) (.seq .productTV vs) = .ok (.seq k'' hs) →
      ((access (productPMfd ms) B (accesses (productPMfd ms) B
          (initState (.function f) .none (.function h) .none) history)
          (.callRH (.seq k ps) (.seq .productTV vs))).1 = .ok (some out) ↔
        ∃ rs, Componentwise4 ms ps gs hs vs PyMfd.e2rh rs ∧ out = .seq .productTV rs)) := by
  obtain ⟨G, hG⟩ := hB
  obtain ⟨H, hH⟩ := hB'
  have hsome : ∀ r : Except PyErr (Val A), r.map some = .ok (some out) ↔ r = .ok out := by
    intro r
    cases r <;> simp [Except.map]
  constructor
  · rw [(C36_operators (productPMfd ms) B G H hG hH (.function f) .none (.function h) rh history
      (.seq k ps) (.seq k ps)).2.1, hsome]
    simp only [Arg.toOption, rieGradSpec, eucGradSpec]
    rw [show (productPMfd ms).layout = productLayout ms from rfl, hf]
    exact (C45_componentwise hp hg k k' out).2.2.1
  · intro hhs hvs hh
    rw [(C36_operators (productPMfd ms) B G H hG hH (.function f) .none (.function h) .none history
      (.seq k ps) (.seq .productTV vs)).2.2.2, hsome]
    simp only [Arg.toOption, rieHessSpec, eucGradSpec, eucHessSpec]
    rw [show (productPMfd ms).layout = productLayout ms from rfl, hf]
    change ((Except.ok _).bind fun w => wrapHessianCore (productLayout ms) h (.seq k ps) w).bind _ =
      _ ↔ _
    simp only [Except.bind]
    rw [hh]
    exact (C45_componentwise_more hp hg hhs hvs k k' k'' .productTV out).2

/-- Hypotheses of `C36_product`: a product of two lines. -/
example : wrapGradient (A := ℝ) (productLayout [scaledLine, scaledLine])
      (fun _ => .ok (.seq .tuple [.arr 1, .arr 2])) (.seq .list [.arr 0, .arr 0]) =
        .ok (.seq .list [.arr 1, .arr 2]) ∧
    wrapHessianCore (A := ℝ) (productLayout [scaledLine, scaledLine])
      (fun l => .ok (.seq .list (l.drop 2)))
      (.seq .list [.arr 0, .arr 0]) (.seq .productTV [.arr 3, .arr 4]) =
        .ok (.seq .list [.arr 3, .arr 4]) := by
  constructor
  · simp [wrapGradient, productLayout, scaledLine, wrapFunction, flattenArguments, Val.items,
      flattenGroups, flattenGroup, Val.isListOrTuple, groupReturnValues, groupLoop]
  · simp [productLayout, scaledLine, wrapHessianCore, flattenArguments, Val.items, flattenGroups,
      flattenGroup, Val.isListOrTuple, groupReturnValues, groupLoop]

/-- A component supports negation: an array, or a fixed-rank tangent vector of arrays. -/
def Negatable (v : Val A) : Prop :=
  (∃ a, v = .arr a) ∨ ∃ l : List A, v = .seq .fixedRankTV (l.map .arr)

theorem negList_arr [PyArr A] (l : List A) :
    negList (l.map Val.arr) = .ok (l.map fun a => .arr (PyArr.neg a)) := by
  induction l with
  | nil => rfl
  | cons a l ih => simp [negList, Val.neg, ih]

/-- C41 without a user-supplied Riemannian gradient: the converted gradient of a product can be
negated when the factors return arrays or fixed-rank tangent vectors. -/
theorem C41_partial [PyArr A] (ms : List (PyMfd A)) (ps gs : List (Val A)) (k k' : SeqKind)
    (hp : ps.length = ms.length) (hg : gs.length = ms.length)
    (hneg : ∀ M ∈ ms, ∀ p g r, M.e2rg p g = .ok r → Negatable r) (out : Val A)
    (hout : prodE2rg ms (.seq k ps) (.seq k' gs) = .ok out) :
    ∃ l, out.neg = .ok (.seq .productTV l) ∧ l.length = ms.length := by
  obtain ⟨rs, ⟨hlen, h⟩, rfl⟩ := ((C45_componentwise hp hg k k' out).2.2.1).mp hout
  have hall : ∀ r ∈ rs, Negatable r := by
    intro r hr
    obtain ⟨i, hi⟩ := List.mem_iff_getElem?.mp hr
    have hi' : i < ms.length := by
      have := (List.getElem?_eq_some_iff.mp hi).1
      omega
    exact hneg ms[i] (List.getElem_mem _) (ps[i]'(by omega)) (gs[i]'(by omega)) r
      (h i _ _ _ _ (List.getElem?_eq_getElem hi') (List.getElem?_eq_getElem _)
        (List.getElem?_eq_getElem _) hi)
  have : ∃ l, negList rs = .ok l ∧ l.length = rs.length := by
    clear h hlen hout
    induction rs with
    | nil => exact ⟨[], rfl, rfl⟩
    | cons r rs ih =>
      obtain ⟨l, hl, hl'⟩ := ih fun r hr => hall r (List.mem_cons_of_mem _ hr)
      rcases hall r List.mem_cons_self with ⟨a, rfl⟩ | ⟨m, rfl⟩
      · exact ⟨.arr (PyArr.neg a) :: l, by simp [negList, Val.neg, hl], by simp [hl']⟩
      · exact ⟨.seq .fixedRankTV (m.map fun a => .arr (PyArr.neg a)) :: l,
          by simp [negList, Val.neg, negList_arr, hl], by simp [hl']⟩
  obtain ⟨l, hl, hl'⟩ := this
  exact ⟨l, by simp [Val.neg, hl], by omega⟩

/-! ### C47: product tangent vectors -/

/-- Arrays of a fixed shape form a real vector space and numpy computes its operations. -/
class LawfulPyArr (A : Type*) [AddCommGroup A] [Module ℝ A] [PyArr A] : Prop where
  neg_eq (a : A) : PyArr.neg a = -a
  add_eq (a b : A) : PyArr.add a b = .ok (a + b)
  sub_eq (a b : A) : PyArr.sub a b = .ok (a - b)
  smul_eq (c : ℝ) (a : A) : PyArr.smul c a = c • a
  div_eq (a : A) (c : ℝ) : PyArr.div a c = c⁻¹ • a

/-- A component of a product tangent vector: an array (`none`), or a fixed-rank tangent vector of
`m` arrays (`some m`), with its data. -/
def compVal (s : Option ℕ) (v : Fin (s.getD 1) → A) : Val A :=
  match s with
  | none => .arr (v ⟨0, Nat.one_pos⟩)
  | some _ => .seq .fixedRankTV (List.ofFn fun i => .arr (v i))

/-- A product tangent vector with components of shapes `s`. -/
def tv {n : ℕ} (s : Fin n → Option ℕ) (v : (i : Fin n) → Fin ((s i).getD 1) → A) : Val A :=
  .seq .productTV (List.ofFn fun i => compVal (s i) (v i))

section
variable [AddCommGroup A] [Module ℝ A] [PyArr A]

omit [AddCommGroup A] [Module ℝ A] in
theorem negList_ofFn {n : ℕ} (f g : Fin n → Val A) (h : ∀ i, (f i).neg = .ok (g i)) :
    negList (List.ofFn f) = .ok (List.ofFn g) := by
  induction n with
  | zero => rfl
  | succ n ih => simp [List.ofFn_succ, negList, h, ih _ _ fun i => h i.succ]

omit [AddCommGroup A] [Module ℝ A] in
theorem smulList_ofFn {n : ℕ} (c : ℝ) (f g : Fin n → Val A) (h : ∀ i, (f i).smul c = .ok (g i)) :
    smulList c (List.ofFn f) = .ok (List.ofFn g) := by
  induction n with
  | zero => rfl
  | succ n ih => simp [List.ofFn_succ, smulList, h, ih _ _ fun i => h i.succ]

omit [AddCommGroup A] [Module ℝ A] in
theorem divList_ofFn {n : ℕ} (c : ℝ) (f g : Fin n → Val A) (h : ∀ i, (f i).div c = .ok (g i)) :
    divList c (List.ofFn f) = .ok (List.ofFn g) := by
  induction n with
  | zero => rfl
  | succ n ih => simp [List.ofFn_succ, divList, h, ih _ _ fun i => h i.succ]

omit [AddCommGroup A] [Module ℝ A] in
theorem lift2List_ofFn {n : ℕ} (op : A → A → Except PyErr A) (f f' g : Fin n → Val A)
    (h : ∀ i, Val.lift2 op (f i) (f' i) = .ok (g i)) :
    lift2List op (List.ofFn f) (List.ofFn f') = .ok (List.ofFn g) := by
  induction n with
  | zero => simp [lift2List]
  | succ n ih => simp [List.ofFn_succ, lift2List, h, ih _ _ _ fun i => h i.succ]

variable [LawfulPyArr A]

/-- C47: on product tangent vectors with components of the same shapes (arrays and fixed-rank
tangent vectors in any arrangement) `+`, `-`, `*`, `/` and unary minus are the operations of the
vector space of families of arrays; they keep the shapes.  All vector-space laws follow from those
of that space. -/
theorem C47_vector_space {n : ℕ} (s : Fin n → Option ℕ)
    (v w : (i : Fin n) → Fin ((s i).getD 1) → A) (c : ℝ) :
    Val.add (tv s v) (tv s w) = .ok (tv s (v + w)) ∧
    Val.sub (tv s v) (tv s w) = .ok (tv s (v - w)) ∧
    Val.smul c (tv s v) = .ok (tv s (c • v)) ∧
    Val.div c (tv s v) = .ok (tv s (c⁻¹ • v)) ∧
    Val.neg (tv s v) = .ok (tv s (-v)) := by
  refine ⟨?_, ?_, ?_, ?_, ?_⟩
  · have : lift2List PyArr.add (List.ofFn fun i => compVal (s i) (v i))
        (List.ofFn fun i => compVal (s i) (w i)) =
        .ok (List.ofFn fun i => compVal (s i) ((v + w) i)) := by
      apply lift2List_ofFn
      intro i
      simp only [Pi.add_apply]
      generalize v i = a
      generalize w i = b
      revert a b
      cases s i with
      | none => intro a b; simp [compVal, Val.lift2, LawfulPyArr.add_eq]
      | some m =>
        intro a b
        have := lift2List_ofFn (A := A) PyArr.add (fun j : Fin m => .arr (a j))
          (fun j => .arr (b j)) (fun j => .arr (a j + b j))
          (fun j => by simp [Val.lift2, LawfulPyArr.add_eq])
        simp only [compVal, Val.lift2, Val.items]
        rw [show (List.ofFn fun i : Fin ((some m).getD 1) => Val.arr (a i)) =
          List.ofFn fun j : Fin m => Val.arr (a j) from rfl]
        erw [this]
        simp
    simp [Val.add, tv, Val.lift2, Val.items, this]
  · have : lift2List PyArr.sub (List.ofFn fun i => compVal (s i) (v i))
        (List.ofFn fun i => compVal (s i) (w i)) =
        .ok (List.ofFn fun i => compVal (s i) ((v - w) i)) := by
      apply lift2List_ofFn
      intro i
      simp only [Pi.sub_apply]
      generalize v i = a
      generalize w i = b
      revert a b
      cases s i with
      | none => intro a b; simp [compVal, Val.lift2, LawfulPyArr.sub_eq]
      | some m =>
        intro a b
        have := lift2List_ofFn (A := A) PyArr.sub (fun j : Fin m => .arr (a j))
          (fun j => .arr (b j)) (fun j => .arr (a j - b j))
          (fun j => by simp [Val.lift2, LawfulPyArr.sub_eq])
        simp only [compVal, Val.lift2, Val.items]
        rw [show (List.ofFn fun i : Fin ((some m).getD 1) => Val.arr (a i)) =
          List.ofFn fun j : Fin m => Val.arr (a j) from rfl]
        erw [this]
        simp
    simp [Val.sub, tv, Val.lift2, Val.items, this]
  · have : smulList c (List.ofFn fun i => compVal (s i) (v i)) =
        .ok (List.ofFn fun i => compVal (s i) ((c • v) i)) := by
      apply smulList_ofFn
      intro i
      simp only [Pi.smul_apply]
      generalize v i = a
      revert a
      cases s i with
      | none => intro a; simp [compVal, Val.smul, LawfulPyArr.smul_eq]
      | some m =>
        intro a
        have := smulList_ofFn (A := A) c (fun j : Fin m => .arr (a j)) (fun j => .arr (c • a j))
          (fun j => by simp [Val.smul, LawfulPyArr.smul_eq])
        simp only [compVal, Val.smul]
        rw [show (List.ofFn fun i : Fin ((some m).getD 1) => Val.arr (a i)) =
          List.ofFn fun j : Fin m => Val.arr (a j) from rfl]
        erw [this]
        simp
    simp [tv, Val.smul, this]
  · have : divList c (List.ofFn fun i => compVal (s i) (v i)) =
        .ok (List.ofFn fun i => compVal (s i) ((c⁻¹ • v) i)) := by
      apply divList_ofFn
      intro i
      simp only [Pi.smul_apply]
      generalize v i = a
      revert a
      cases s i with
      | none => intro a; simp [compVal, Val.div, LawfulPyArr.div_eq]
      | some m =>
        intro a
        have := divList_ofFn (A := A) c (fun j : Fin m => .arr (a j)) (fun j => .arr (c⁻¹ • a j))
          (fun j => by simp [Val.div, LawfulPyArr.div_eq])
        simp only [compVal, Val.div]
        rw [show (List.ofFn fun i : Fin ((some m).getD 1) => Val.arr (a i)) =
          List.ofFn fun j : Fin m => Val.arr (a j) from rfl]
        erw [this]
        simp
    simp [tv, Val.div, this]
  · have : negList (List.ofFn fun i => compVal (s i) (v i)) =
        .ok (List.ofFn fun i => compVal (s i) ((-v) i)) := by
      apply negList_ofFn
      intro i
      simp only [Pi.neg_apply]
      generalize v i = a
      revert a
      cases s i with
      | none => intro a; simp [compVal, Val.neg, LawfulPyArr.neg_eq]
      | some m =>
        intro a
        have := negList_ofFn (A := A) (fun j : Fin m => .arr (a j)) (fun j => .arr (-a j))
          (fun j => by simp [Val.neg, LawfulPyArr.neg_eq])
        simp only [compVal, Val.neg]
        rw [show (List.ofFn fun i : Fin ((some m).getD 1) => Val.arr (a i)) =
          List.ofFn fun j : Fin m => Val.arr (a j) from rfl]
        erw [this]
        simp
    simp [tv, Val.neg, this]

omit [AddCommGroup A] [Module ℝ A] [LawfulPyArr A] in
/-- C47: adding or subtracting sequences of different length raises `ValueError`. -/
theorem C47_length_mismatch (l : List (Val A)) (k : SeqKind) (m : List (Val A))
    (h : l.length ≠ m.length) :
    Val.add (.seq .productTV l) (.seq k m) = .error .valueError ∧
    Val.sub (.seq .productTV l) (.seq k m) = .error .valueError := by
  simp [Val.add, Val.sub, Val.lift2, Val.items, h]

omit [AddCommGroup A] [Module ℝ A] [LawfulPyArr A] in
theorem lift2List_append (op : A → A → Except PyErr A) (l m extra : List (Val A))
    (h : m.length = l.length) : lift2List op l (m ++ extra) = lift2List op l m := by
  induction l generalizing m with
  | nil =>
    cases m with
    | nil => simp [lift2List]
    | cons => cases h
  | cons v l ih =>
    cases m with
    | nil => cases h
    | cons w m => simp [lift2List, ih m (by simpa using h)]

omit [AddCommGroup A] [Module ℝ A] [LawfulPyArr A] in
theorem lift2List_length {op : A → A → Except PyErr A} {l m r : List (Val A)}
    (h : lift2List op l m = .ok r) : r.length = min l.length m.length := by
  induction l generalizing m r with
  | nil =>
    simp [lift2List] at h
    simp [h]
  | cons v l ih =>
    cases m with
    | nil =>
      simp [lift2List] at h
      simp [h]
    | cons w m =>
      unfold lift2List at h
      split at h
      · cases h
      · split at h
        · cases h
        · rename_i h2
          cases h
          simp [ih h2]

omit [AddCommGroup A] [Module ℝ A] [LawfulPyArr A] in
/-- C47 on fixed-rank tangent vectors: adding or subtracting a longer sequence is not noticed, its
further items are ignored; a shorter one never gives a result. -/
theorem C47_fixedRank_mismatch (l m extra : List (Val A)) (k : SeqKind)
    (h : m.length = l.length) :
    Val.add (.seq .fixedRankTV l) (.seq k (m ++ extra)) =
      Val.add (.seq .fixedRankTV l) (.seq k m) ∧
    Val.sub (.seq .fixedRankTV l) (.seq k (m ++ extra)) =
      Val.sub (.seq .fixedRankTV l) (.seq k m) ∧
    ∀ short : List (Val A), short.length < l.length →
      (∃ e, Val.add (.seq .fixedRankTV l) (.seq k short) = .error e) ∧
      ∃ e, Val.sub (.seq .fixedRankTV l) (.seq k short) = .error e := by
  refine ⟨?_, ?_, ?_⟩
  · simp [Val.add, Val.lift2, Val.items, lift2List_append _ l m extra h]
  · simp [Val.sub, Val.lift2, Val.items, lift2List_append _ l m extra h]
  · intro short hs
    have key : ∀ op : A → A → Except PyErr A, ∃ e,
        Val.lift2 op (.seq .fixedRankTV l) (.seq k short) = .error e := by
      intro op
      simp only [Val.lift2, Val.items]
      rcases hr : lift2List op l short with e | r
      · exact ⟨e, rfl⟩
      · have := lift2List_length hr
        have hne : r.length ≠ l.length := by omega
        exact ⟨.typeError, by simp [hne]⟩
    exact ⟨key _, key _⟩

/-- `C47_fixedRank_mismatch`: three numbers plus four numbers. -/
example : Val.add (A := ℝ) (.seq .fixedRankTV [.arr 1, .arr 2, .arr 3])
    (.seq .tuple ([.arr 1, .arr 1, .arr 1] ++ [.arr 7])) =
      .ok (.seq .fixedRankTV [.arr (1 + 1), .arr (2 + 1), .arr (3 + 1)]) := by
  rw [(C47_fixedRank_mismatch [.arr 1, .arr 2, .arr 3] [.arr 1, .arr 1, .arr 1] _ _ rfl).1]
  simp [Val.add, Val.lift2, Val.items, lift2List, PyArr.add]

end

/-- Real numbers are lawful arrays (hypotheses of C47). -/
instance : LawfulPyArr ℝ where
  neg_eq _ := rfl
  add_eq _ _ := rfl
  sub_eq _ _ := rfl
  smul_eq _ _ := rfl
  div_eq a c := by simp [PyArr.div, div_eq_inv_mul]

/-- C45 on two lines: `exp` adds the components. -/
example : prodExp (A := ℝ) [scaledLine, scaledLine] (.seq .list [.arr 1, .arr 2])
    (.seq .productTV [.arr 3, .arr 4]) = .ok (.seq .list [.arr (1 + 3), .arr (2 + 4)]) := by
  simp [prodExp, dispatch, Val.items, sequence, zipArgs, call2, scaledLine, Val.add, Val.lift2,
    PyArr.add, asList, Except.map]

/-- The hypotheses of `C101_product` hold for lines. -/
example : prodNorm (A := ℝ) [scaledLine, scaledLine] (.seq .list [.arr 1, .arr 2])
    (.seq .productTV [.arr (1 / Real.sqrt 2 * 1), .arr (1 / Real.sqrt 2 * 1)]) = .ok 1 := by
  refine C101_product (by simp) rfl .list ?_ ?_ _ ?_
  · rintro M hM p v h
    simp only [List.mem_cons, List.not_mem_nil, or_false, or_self] at hM
    subst hM
    cases h
    simp [scaledLine]
  · rintro M hM p (a | ⟨k, l⟩) w c x h1 h2
    · simp only [List.mem_cons, List.not_mem_nil, or_false, or_self] at hM
      subst hM
      simp only [Val.smul, PyArr.smul, Except.ok.injEq] at h1
      subst h1
      simp only [scaledLine, Except.ok.injEq] at h2 ⊢
      subst h2
      ring
    · simp only [List.mem_cons, List.not_mem_nil, or_false, or_self] at hM
      subst hM
      cases h2
  · simp [prodRandomTangent, dispatch, Val.items, sequence, zipArgs, call1, Val.smul, scaledLine,
      asTV, Except.map, PyArr.smul]

/-- C46 on two lines. -/
example : productInit [scaledLine, scaledLine] = .ok () :=
  (C46_partial _ (by simp) (by simp [scaledLine]) (by simp [scaledLine])).1

end Verif.Core
