/-
`/repo/src/pymanopt/core/problem.py` and the point layouts of
`/repo/src/pymanopt/manifolds/manifold.py`.
-/
import Verif.Core.Model.Value

namespace Verif.Core
open Verif

variable {A : Type*}

/-- A Python callable taking positional arguments. -/
abbrev Fn (A : Type*) := List (Val A) → Except PyErr (Val A)

/-- `Manifold.point_layout` (manifolds/manifold.py:90-101): an integer, or a tuple of integers
for product manifolds. -/
inductive Layout
  | int (n : ℕ)
  | compound (sig : List ℕ)
  deriving DecidableEq, Repr

/-- `Manifold.num_values` (manifolds/manifold.py:103-108). -/
def Layout.numValues : Layout → ℕ
  | .int n => n
  | .compound sig => sig.sum

section
variable [PyArr A]

/-- The part of a flattened argument list that comes from one group: the loop body of
`Problem._flatten_arguments` (core/problem.py:126-133). -/
def flattenGroup (groupSize : ℕ) (argument : Val A) : Except PyErr (List (Val A)) :=
  if groupSize = 1 then
    if argument.isListOrTuple then .error .assertion else .ok [argument]
  else
    match argument.items with
    | .error e => .error e
    | .ok l => if l.length = groupSize then .ok l else .error .assertion

/-- The loop of `Problem._flatten_arguments` (core/problem.py:125-134). -/
def flattenGroups : List ℕ → List (Val A) → Except PyErr (List (Val A))
  | [], _ => .ok []
  | _ :: _, [] => .error .indexError
  | n :: sig, v :: vs =>
    match flattenGroup n v with
    | .error e => .error e
    | .ok here =>
      match flattenGroups sig vs with
      | .error e => .error e
      | .ok rest => .ok (here ++ rest)

/-- `Problem._flatten_arguments` (core/problem.py:122-134). -/
def flattenArguments (arguments : Val A) (sig : List ℕ) : Except PyErr (List (Val A)) :=
  match arguments.items with
  | .error e => .error e
  | .ok l => if l.length = sig.length then flattenGroups sig l else .error .assertion

omit [PyArr A] in
/-- The grouping loop of `Problem._group_return_values` (core/problem.py:156-165), started at
index `i` of the returned sequence `r`; `k` is the kind of a slice of it. -/
def groupLoop (k : SeqKind) (r : List (Val A)) : List ℕ → ℕ → Except PyErr (List (Val A))
  | [], _ => .ok []
  | n :: sig, i =>
    let group : Except PyErr (Val A) :=
      if n = 1 then
        match r[i]? with
        | some v => .ok v
        | none => .error .indexError
      else .ok (.seq k ((r.drop i).take n))
    match group with
    | .error e => .error e
    | .ok g =>
      match groupLoop k r sig (i + n) with
      | .error e => .error e
      | .ok gs => .ok (g :: gs)

omit [PyArr A] in
/-- The wrapper of `Problem._group_return_values` (core/problem.py:147-165) applied to the value
the wrapped function returned. -/
def groupReturnValues (sig : List ℕ) (returnValues : Val A) : Except PyErr (Val A) :=
  match returnValues with
  | .arr _ => .error .valueError
  | .seq k r =>
    if r.length ≠ sig.sum then .error .valueError
    else
      match groupLoop k.slice r sig 0 with
      | .error e => .error e
      | .ok gs => .ok (.seq .list gs)

/-- `Problem._wrap_function` (core/problem.py:169-193). -/
def wrapFunction (layout : Layout) (f : Fn A) (point : Val A) : Except PyErr (Val A) :=
  match layout with
  | .compound sig =>
    match flattenArguments point sig with
    | .error e => .error e
    | .ok args => f args
  | .int n =>
    if n = 1 then f [point]
    else
      match point.items with
      | .error e => .error e
      | .ok args => f args

/-- `Problem._wrap_gradient_operator` (core/problem.py:195-200). -/
def wrapGradient (layout : Layout) (f : Fn A) (point : Val A) : Except PyErr (Val A) :=
  match wrapFunction layout f point with
  | .error e => .error e
  | .ok v =>
    match layout with
    | .compound sig => groupReturnValues sig v
    | .int _ => .ok v

/-- The inner `wrapper` of `Problem._wrap_hessian_operator` (core/problem.py:205-227). -/
def wrapHessianCore (layout : Layout) (f : Fn A) (point vector : Val A) :
    Except PyErr (Val A) :=
  match layout with
  | .compound sig =>
    match flattenArguments point sig with
    | .error e => .error e
    | .ok ps =>
      match flattenArguments vector sig with
      | .error e => .error e
      | .ok vs =>
        match f (ps ++ vs) with
        | .error e => .error e
        | .ok v => groupReturnValues sig v
  | .int n =>
    if n = 1 then f [point, vector]
    else
      match point.items with
      | .error e => .error e
      | .ok ps =>
        match vector.items with
        | .error e => .error e
        | .ok vs => f (ps ++ vs)

/-- The manifold methods the problem class uses. -/
structure PMfd (A : Type*) where
  layout : Layout
  embedding : Val A → Val A → Except PyErr (Val A)
  e2rg : Val A → Val A → Except PyErr (Val A)
  e2rh : Val A → Val A → Val A → Val A → Except PyErr (Val A)

/-- `Problem._wrap_hessian_operator` (core/problem.py:202-237). -/
def wrapHessian (M : PMfd A) (embed : Bool) (f : Fn A) (point vector : Val A) :
    Except PyErr (Val A) :=
  if embed then
    match M.embedding point vector with
    | .error e => .error e
    | .ok v => wrapHessianCore M.layout f point v
  else wrapHessianCore M.layout f point vector

end

/-! ### Constructor -/

/-- A constructor argument: `None`, a decorated `Function`, or any other object. -/
inductive Arg (A : Type*)
  | none
  | function (f : Fn A)
  | other

/-- `Problem._validate_function` (core/problem.py:115-120). -/
def validateFunction : Arg A → Except PyErr Unit
  | .other => .error .valueError
  | _ => .ok ()

def Arg.isSome : Arg A → Bool
  | .none => false
  | _ => true

/-- The checks of `Problem.__init__` (core/problem.py:58-76), in order.  A `cost` of `None` passes
`_validate_function`; `functools.wraps(None)` in `_wrap_function` copies no attributes and the
constructor succeeds (core/problem.py:79, 115-120). -/
def validateProblem (cost eg rg eh rh : Arg A) : Except PyErr Unit :=
  match validateFunction cost with
  | .error e => .error e
  | .ok _ =>
  match validateFunction eg with
  | .error e => .error e
  | .ok _ =>
  match validateFunction eh with
  | .error e => .error e
  | .ok _ =>
  match validateFunction rg with
  | .error e => .error e
  | .ok _ =>
  match validateFunction rh with
  | .error e => .error e
  | .ok _ =>
  if eg.isSome && rg.isSome then .error .valueError
  else if eh.isSome && rh.isSome then .error .valueError
  else .ok ()

/-! ### Lazily created operators -/

/-- Outcomes of the calls of a backend's generators: the `k`-th call of
`generate_gradient_operator` / `generate_hessian_operator` for a decorated function returns an
operator or raises (the NumPy backend always raises `NotImplementedError`,
autodiff/backends/_numpy.py:4-7, 22-23). -/
structure Backend (A : Type*) where
  genGradient : ℕ → Except PyErr (Fn A)
  genHessian : ℕ → Except PyErr (Fn A)

/-- A decorated function with its caches (autodiff/__init__.py:8-20) and, as ghost state, how
often each generator has been called. -/
structure FunState (A : Type*) where
  gradient : Option (Fn A) := none
  hessian : Option (Fn A) := none
  gradientCalls : ℕ := 0
  hessianCalls : ℕ := 0

/-- `Function.get_gradient_operator` (autodiff/__init__.py:25-30). -/
def getGradientOperator (B : Backend A) (s : FunState A) :
    Except PyErr (Fn A) × FunState A :=
  match s.gradient with
  | some g => (.ok g, s)
  | none =>
    match B.genGradient s.gradientCalls with
    | .error e => (.error e, { s with gradientCalls := s.gradientCalls + 1 })
    | .ok g => (.ok g, { s with gradient := some g, gradientCalls := s.gradientCalls + 1 })

/-- `Function.get_hessian_operator` (autodiff/__init__.py:32-37). -/
def getHessianOperator (B : Backend A) (s : FunState A) :
    Except PyErr (Fn A) × FunState A :=
  match s.hessian with
  | some g => (.ok g, s)
  | none =>
    match B.genHessian s.hessianCalls with
    | .error e => (.error e, { s with hessianCalls := s.hessianCalls + 1 })
    | .ok g => (.ok g, { s with hessian := some g, hessianCalls := s.hessianCalls + 1 })

/-- A gradient-like operator stored in a problem: one wrapped from a callable (user-supplied or
generated), or the closure of core/problem.py:255-258. -/
inductive GradOp (A : Type*)
  | wrapped (f : Fn A)
  | converted

/-- A Hessian-like operator stored in a problem: one wrapped from a callable with or without
embedding of the vector, or the closure of core/problem.py:276-282. -/
inductive HessOp (A : Type*)
  | wrapped (embed : Bool) (f : Fn A)
  | converted

/-- Mutable state of a problem: the four cached operators (core/problem.py:85, 90, 96, 101) and the
state of the decorated cost function. -/
structure ProbState (A : Type*) where
  fn : FunState A := {}
  eg : Option (GradOp A)
  rg : Option (GradOp A)
  eh : Option (HessOp A)
  rh : Option (HessOp A)

def Arg.toOption : Arg A → Option (Fn A)
  | .function f => some f
  | _ => .none

/-- State after `Problem.__init__` (core/problem.py:81-101). -/
def initState (eg rg eh rh : Arg A) (fn : FunState A := {}) : ProbState A :=
  { fn := fn
    eg := eg.toOption.map .wrapped
    rg := rg.toOption.map .wrapped
    eh := eh.toOption.map (.wrapped true)
    rh := rh.toOption.map (.wrapped false) }

/-- `Problem.euclidean_gradient` (core/problem.py:243-249). -/
def getEG (B : Backend A) (s : ProbState A) : Except PyErr (GradOp A) × ProbState A :=
  match s.eg with
  | some g => (.ok g, s)
  | none =>
    match getGradientOperator B s.fn with
    | (.error e, fn) => (.error e, { s with fn := fn })
    | (.ok f, fn) => (.ok (.wrapped f), { s with fn := fn, eg := some (.wrapped f) })

/-- `Problem.riemannian_gradient` (core/problem.py:251-261). -/
def getRG (s : ProbState A) : GradOp A × ProbState A :=
  match s.rg with
  | some g => (g, s)
  | none => (.converted, { s with rg := some .converted })

/-- `Problem.euclidean_hessian` (core/problem.py:263-270). -/
def getEH (B : Backend A) (s : ProbState A) : Except PyErr (HessOp A) × ProbState A :=
  match s.eh with
  | some g => (.ok g, s)
  | none =>
    match getHessianOperator B s.fn with
    | (.error e, fn) => (.error e, { s with fn := fn })
    | (.ok f, fn) => (.ok (.wrapped true f), { s with fn := fn, eh := some (.wrapped true f) })

/-- `Problem.riemannian_hessian` (core/problem.py:272-285). -/
def getRH (s : ProbState A) : HessOp A × ProbState A :=
  match s.rh with
  | some g => (g, s)
  | none => (.converted, { s with rh := some .converted })

section
variable [PyArr A]

/-- Call an Euclidean gradient operator.  `converted` never occurs as an Euclidean gradient. -/
def callEG (M : PMfd A) (g : GradOp A) (x : Val A) : Except PyErr (Val A) :=
  match g with
  | .wrapped f => wrapGradient M.layout f x
  | .converted => .error .runtime

/-- Call an Euclidean Hessian operator.  `converted` never occurs as an Euclidean Hessian. -/
def callEH (M : PMfd A) (g : HessOp A) (x v : Val A) : Except PyErr (Val A) :=
  match g with
  | .wrapped embed f => wrapHessian M embed f x v
  | .converted => .error .runtime

/-- Call a Riemannian gradient operator; the closure looks up `self.euclidean_gradient`
(core/problem.py:255-258). -/
def callRG (M : PMfd A) (B : Backend A) (g : GradOp A) (x : Val A) (s : ProbState A) :
    Except PyErr (Val A) × ProbState A :=
  match g with
  | .wrapped f => (wrapGradient M.layout f x, s)
  | .converted =>
    match getEG B s with
    | (.error e, s') => (.error e, s')
    | (.ok eg, s') =>
      match callEG M eg x with
      | .error e => (.error e, s')
      | .ok v => (M.e2rg x v, s')

/-- The part of the closure of core/problem.py:276-282 after the Euclidean gradient `gr` has been
evaluated. -/
def finishRH (M : PMfd A) (B : Backend A) (x v gr : Val A) (s : ProbState A) :
    Except PyErr (Val A) × ProbState A :=
  match getEH B s with
  | (.error e, s') => (.error e, s')
  | (.ok eh, s') =>
    match callEH M eh x v with
    | .error e => (.error e, s')
    | .ok h => (M.e2rh x gr h v, s')

/-- Call a Riemannian Hessian operator; the closure looks up `self.euclidean_gradient`, then
`self.euclidean_hessian` (core/problem.py:276-282). -/
def callRH (M : PMfd A) (B : Backend A) (g : HessOp A) (x v : Val A) (s : ProbState A) :
    Except PyErr (Val A) × ProbState A :=
  match g with
  | .wrapped embed f => (wrapHessian M embed f x v, s)
  | .converted =>
    match getEG B s with
    | (.error e, s') => (.error e, s')
    | (.ok eg, s') =>
      match callEG M eg x with
      | .error e => (.error e, s')
      | .ok gr => finishRH M B x v gr s'

/-- What a user can do with the derivative operators of a problem: fetch a property, or fetch it
and call the operator. -/
inductive Access (A : Type*)
  | fetchEG
  | fetchRG
  | fetchEH
  | fetchRH
  | callEG (x : Val A)
  | callRG (x : Val A)
  | callEH (x v : Val A)
  | callRH (x v : Val A)

/-- One access: its value (`ok none` for a fetch) and the new state. -/
def access (M : PMfd A) (B : Backend A) (s : ProbState A) :
    Access A → Except PyErr (Option (Val A)) × ProbState A
  | .fetchEG =>
    match getEG B s with
    | (.error e, s') => (.error e, s')
    | (.ok _, s') => (.ok none, s')
  | .fetchRG => (.ok none, (getRG s).2)
  | .fetchEH =>
    match getEH B s with
    | (.error e, s') => (.error e, s')
    | (.ok _, s') => (.ok none, s')
  | .fetchRH => (.ok none, (getRH s).2)
  | .callEG x =>
    match getEG B s with
    | (.error e, s') => (.error e, s')
    | (.ok g, s') => ((callEG M g x).map some, s')
  | .callRG x =>
    let r := callRG M B (getRG s).1 x (getRG s).2
    (r.1.map some, r.2)
  | .callEH x v =>
    match getEH B s with
    | (.error e, s') => (.error e, s')
    | (.ok g, s') => ((callEH M g x v).map some, s')
  | .callRH x v =>
    let r := callRH M B (getRH s).1 x v (getRH s).2
    (r.1.map some, r.2)

/-- A history of accesses. -/
def accesses (M : PMfd A) (B : Backend A) (s : ProbState A) : List (Access A) → ProbState A
  | [] => s
  | a :: as => accesses M B (access M B s a).2 as

end

/-! ### Attribute assignment -/

/-- Instance attributes of a problem: a dictionary. -/
abbrev Attrs (V : Type*) := String → Option V

/-- The read-only properties of `Problem` (core/problem.py:239-285). -/
def readOnly : List String :=
  ["cost", "euclidean_gradient", "riemannian_gradient", "euclidean_hessian",
    "riemannian_hessian"]

/-- `Problem.__setattr__` (core/problem.py:110-113); `object.__setattr__` on a property without
setter raises `AttributeError`. -/
def setAttr {V : Type*} (d : Attrs V) (key : String) (value : V) :
    Except PyErr Unit × Attrs V :=
  if (d key).isSome && (key = "manifold" || key = "preconditioner") then
    (.error .attributeError, d)
  else if key ∈ readOnly then (.error .attributeError, d)
  else (.ok (), Function.update d key (some value))

/-- A sequence of assignments, exceptions caught by the caller. -/
def setAttrs {V : Type*} (d : Attrs V) : List (String × V) → Attrs V
  | [] => d
  | (k, v) :: l => setAttrs (setAttr d k v).2 l

/-- The attributes assigned by `Problem.__init__` (core/problem.py:56, 78-108), in order, through
`__setattr__`. -/
def initAttrs {V : Type*} (manifold cost wrappedCost eg eh rg rh preconditioner : V) : Attrs V :=
  setAttrs (fun _ => none)
    [("manifold", manifold), ("_original_cost", cost), ("_cost", wrappedCost),
     ("_euclidean_gradient", eg), ("_euclidean_hessian", eh), ("_riemannian_gradient", rg),
     ("_riemannian_hessian", rh), ("preconditioner", preconditioner)]

end Verif.Core
