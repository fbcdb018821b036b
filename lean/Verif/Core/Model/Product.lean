/-
`/repo/src/pymanopt/manifolds/product.py` and the constructor of
`/repo/src/pymanopt/manifolds/manifold.py`.
-/
import Verif.Core.Model.Problem
import Mathlib.Analysis.SpecialFunctions.Sqrt

namespace Verif.Core
open Verif

/-! ### Manifold constructor -/

/-- Python objects as far as `Manifold.__init__` distinguishes them: `int` (and `bool`),
numpy integers, floats, tuples, lists, anything else. -/
inductive Obj
  | int (z : ℤ)
  | npInt (z : ℤ)
  | float (x : ℚ)
  | tuple (l : List Obj)
  | list (l : List Obj)
  | other

/-- `num_arguments > 0` for an entry of a layout; sequences and other objects do not compare with
integers. -/
def Obj.positive : Obj → Except PyErr Bool
  | .int z => .ok (decide (0 < z))
  | .npInt z => .ok (decide (0 < z))
  | .float x => .ok (decide (0 < x))
  | _ => .error .typeError

/-- Layout part of `Manifold.__init__` (manifolds/manifold.py:61-76). -/
def checkLayout : Obj → Except PyErr Unit
  | .int z => if z ≤ 0 then .error .valueError else .ok ()
  | .tuple l =>
    match sequence (l.map Obj.positive) with
    | .error e => .error e
    | .ok bs => if bs.all id then .ok () else .error .valueError
  | .list l =>
    match sequence (l.map Obj.positive) with
    | .error e => .error e
    | .ok bs => if bs.all id then .ok () else .error .valueError
  | _ => .error .typeError

/-- `Manifold.__init__` (manifolds/manifold.py:51-80). -/
def manifoldInit (dimension layout : Obj) : Except PyErr Unit :=
  match dimension with
  | .int d => if d < 0 then .error .valueError else checkLayout layout
  | .npInt d => if d < 0 then .error .valueError else checkLayout layout
  | _ => .error .typeError

/-! ### Product -/

variable {A : Type*}

/-- The methods of a manifold that `Product` delegates to.  Methods may raise.  Random methods
carry the outcome of their draw. -/
structure PyMfd (A : Type*) where
  isProduct : Bool
  dim : ℕ
  layout : ℕ
  typicalDist : Except PyErr ℝ
  inner : Val A → Val A → Val A → Except PyErr ℝ
  dist : Val A → Val A → Except PyErr ℝ
  projection : Val A → Val A → Except PyErr (Val A)
  toTangentSpace : Val A → Val A → Except PyErr (Val A)
  e2rg : Val A → Val A → Except PyErr (Val A)
  e2rh : Val A → Val A → Val A → Val A → Except PyErr (Val A)
  exp : Val A → Val A → Except PyErr (Val A)
  retraction : Val A → Val A → Except PyErr (Val A)
  log : Val A → Val A → Except PyErr (Val A)
  randomPoint : Except PyErr (Val A)
  randomTangent : Val A → Except PyErr (Val A)
  transport : Val A → Val A → Val A → Except PyErr (Val A)
  pairMean : Val A → Val A → Except PyErr (Val A)
  zeroVector : Val A → Except PyErr (Val A)
  embedding : Val A → Val A → Except PyErr (Val A)

/-- `Product.__init__` (manifolds/product.py:22-32): `np.sum` of an empty list is the float `0.0`,
otherwise a numpy integer. -/
def productInit (ms : List (PyMfd A)) : Except PyErr Unit :=
  if ms.any PyMfd.isProduct then .error .valueError
  else
    manifoldInit (if ms = [] then .float 0 else .npInt (ms.map fun M => (M.dim : ℤ)).sum)
      (.tuple (ms.map fun M => .int M.layout))

/-- `Product.dim` and `Product.point_layout` (manifolds/product.py:30-32). -/
def productDim (ms : List (PyMfd A)) : ℕ := (ms.map PyMfd.dim).sum

def productLayout (ms : List (PyMfd A)) : Layout := .compound (ms.map PyMfd.layout)

/-- `zip(xs, *args)`: rows until the first of the sequences is exhausted. -/
def zipArgs {α β : Type*} : List α → List (List β) → List (α × List β)
  | [], _ => []
  | x :: xs, args =>
    if args.any List.isEmpty then []
    else (x, args.filterMap List.head?) :: zipArgs xs (args.map List.tail)

section
variable [PyArr A]

/-- `Product._dispatch` (manifolds/product.py:40-57) with an identity reduction. -/
def dispatch {β : Type*} (ms : List (PyMfd A)) (args : List (Val A))
    (method : PyMfd A → List (Val A) → Except PyErr β) : Except PyErr (List β) :=
  match sequence (args.map Val.items) with
  | .error e => .error e
  | .ok ls => sequence ((zipArgs ms ls).map fun p => method p.1 p.2)

/-- Calls of methods with one to four positional arguments. -/
def call1 {β : Type*} (f : Val A → Except PyErr β) : List (Val A) → Except PyErr β
  | [a] => f a
  | _ => .error .typeError

def call2 {β : Type*} (f : Val A → Val A → Except PyErr β) : List (Val A) → Except PyErr β
  | [a, b] => f a b
  | _ => .error .typeError

def call3 {β : Type*} (f : Val A → Val A → Val A → Except PyErr β) :
    List (Val A) → Except PyErr β
  | [a, b, c] => f a b c
  | _ => .error .typeError

def call4 {β : Type*} (f : Val A → Val A → Val A → Val A → Except PyErr β) :
    List (Val A) → Except PyErr β
  | [a, b, c, d] => f a b c d
  | _ => .error .typeError

def asTV (r : Except PyErr (List (Val A))) : Except PyErr (Val A) := r.map (.seq .productTV)

def asList (r : Except PyErr (List (Val A))) : Except PyErr (Val A) := r.map (.seq .list)

/-- `Product.inner_product` (manifolds/product.py:64-67). -/
def prodInner (ms : List (PyMfd A)) (p v w : Val A) : Except PyErr ℝ :=
  (dispatch ms [p, v, w] fun M => call3 M.inner).map List.sum

/-- `Product.norm` (manifolds/product.py:59-62). -/
noncomputable def prodNorm (ms : List (PyMfd A)) (p v : Val A) : Except PyErr ℝ :=
  (prodInner ms p v v).map Real.sqrt

/-- `Product.dist` (manifolds/product.py:69-74). -/
noncomputable def prodDist (ms : List (PyMfd A)) (p q : Val A) : Except PyErr ℝ :=
  (dispatch ms [p, q] fun M l => (call2 M.dist l).map (· ^ 2)).map fun l => Real.sqrt l.sum

/-- `Product.projection` (manifolds/product.py:76-79). -/
def prodProjection (ms : List (PyMfd A)) (p v : Val A) : Except PyErr (Val A) :=
  asTV (dispatch ms [p, v] fun M => call2 M.projection)

/-- `Product.to_tangent_space` (manifolds/product.py:81-84). -/
def prodToTangentSpace (ms : List (PyMfd A)) (p v : Val A) : Except PyErr (Val A) :=
  asTV (dispatch ms [p, v] fun M => call2 M.toTangentSpace)

/-- `Product.euclidean_to_riemannian_gradient` (manifolds/product.py:86-89). -/
def prodE2rg (ms : List (PyMfd A)) (p g : Val A) : Except PyErr (Val A) :=
  asTV (dispatch ms [p, g] fun M => call2 M.e2rg)

/-- `Product.euclidean_to_riemannian_hessian` (manifolds/product.py:91-96). -/
def prodE2rh (ms : List (PyMfd A)) (p g h v : Val A) : Except PyErr (Val A) :=
  asTV (dispatch ms [p, g, h, v] fun M => call4 M.e2rh)

/-- `Product.exp` (manifolds/product.py:98-99). -/
def prodExp (ms : List (PyMfd A)) (p v : Val A) : Except PyErr (Val A) :=
  asList (dispatch ms [p, v] fun M => call2 M.exp)

/-- `Product.retraction` (manifolds/product.py:101-102). -/
def prodRetraction (ms : List (PyMfd A)) (p v : Val A) : Except PyErr (Val A) :=
  asList (dispatch ms [p, v] fun M => call2 M.retraction)

/-- `Product.log` (manifolds/product.py:104-107). -/
def prodLog (ms : List (PyMfd A)) (p q : Val A) : Except PyErr (Val A) :=
  asTV (dispatch ms [p, q] fun M => call2 M.log)

/-- `Product.random_point` (manifolds/product.py:109-110). -/
def prodRandomPoint (ms : List (PyMfd A)) : Except PyErr (Val A) :=
  asList (dispatch ms [] fun M _ => M.randomPoint)

/-- `Product.random_tangent_vector` (manifolds/product.py:112-118). -/
noncomputable def prodRandomTangent (ms : List (PyMfd A)) (p : Val A) : Except PyErr (Val A) :=
  asTV (dispatch ms [p] fun M l =>
    match call1 M.randomTangent l with
    | .error e => .error e
    | .ok v => Val.smul (1 / Real.sqrt ms.length) v)

/-- `Product.transport` (manifolds/product.py:120-123). -/
def prodTransport (ms : List (PyMfd A)) (p q v : Val A) : Except PyErr (Val A) :=
  asTV (dispatch ms [p, q, v] fun M => call3 M.transport)

/-- `Product.pair_mean` (manifolds/product.py:125-126). -/
def prodPairMean (ms : List (PyMfd A)) (p q : Val A) : Except PyErr (Val A) :=
  asList (dispatch ms [p, q] fun M => call2 M.pairMean)

/-- `Product.zero_vector` (manifolds/product.py:128-131). -/
def prodZeroVector (ms : List (PyMfd A)) (p : Val A) : Except PyErr (Val A) :=
  asTV (dispatch ms [p] fun M => call1 M.zeroVector)

/-- `Product.typical_dist` (manifolds/product.py:34-38). -/
noncomputable def prodTypicalDist (ms : List (PyMfd A)) : Except PyErr ℝ :=
  (sequence (ms.map fun M => M.typicalDist.map (· ^ 2))).map fun l => Real.sqrt l.sum

omit [PyArr A] in
/-- `Product` does not override `Manifold.embedding`, which returns its argument
(manifolds/manifold.py:362-384). -/
def prodEmbedding (_ms : List (PyMfd A)) (_p v : Val A) : Except PyErr (Val A) := .ok v

/-- A product manifold as seen by the problem class. -/
def productPMfd (ms : List (PyMfd A)) : PMfd A where
  layout := productLayout ms
  embedding := prodEmbedding ms
  e2rg := prodE2rg ms
  e2rh := prodE2rh ms

end

/-- A manifold other than a product as seen by the problem class. -/
def PyMfd.toPMfd (M : PyMfd A) : PMfd A where
  layout := .int M.layout
  embedding := M.embedding
  e2rg := M.e2rg
  e2rh := M.e2rh

end Verif.Core
