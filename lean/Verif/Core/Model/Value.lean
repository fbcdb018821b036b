/-
Python values handled by the problem class, the autodiff plumbing and the product
manifold: arrays and (nested) sequences of arrays.
-/
import Verif.Base.PyNum
import Mathlib.Data.Real.Basic

namespace Verif.Core
open Verif

/-- Kinds of Python sequences: plain tuples (named tuples included), plain lists,
`_ProductTangentVector` (manifolds/product.py:134, a `list` subclass) and
`_FixedRankTangentVector` (manifolds/fixed_rank.py:231, a `tuple` subclass). -/
inductive SeqKind
  | tuple
  | list
  | productTV
  | fixedRankTV
  deriving DecidableEq, Repr

/-- A Python value: an array of the abstract type `A`, or a sequence of values. -/
inductive Val (A : Type*)
  | arr (a : A)
  | seq (k : SeqKind) (l : List (Val A))

/-- Numpy arrays as far as the plumbing looks at them.  `rows a` are the elements obtained
by iterating over the array, `none` for a 0-d array, on which `len` and iteration raise
`TypeError`.  Addition may raise (shape mismatch); real scalars stand for Python floats. -/
class PyArr (A : Type*) where
  rows : A → Option (List A)
  neg : A → A
  add : A → A → Except PyErr A
  sub : A → A → Except PyErr A
  smul : ℝ → A → A
  /-- division by a number; numpy division never raises -/
  div : A → ℝ → A

variable {A : Type*}

/-- `isinstance(value, (list, tuple))`. -/
def Val.isListOrTuple : Val A → Bool
  | .arr _ => false
  | .seq _ _ => true

/-- The items seen by `len(value)`, `value[i]` and `for … in value`. -/
def Val.items [PyArr A] : Val A → Except PyErr (List (Val A))
  | .arr a =>
    match PyArr.rows a with
    | some l => .ok (l.map .arr)
    | none => .error .typeError
  | .seq _ l => .ok l

/-- Kind of a slice `values[i:j]`: slices of lists and of list subclasses are plain lists,
slices of tuples and named tuples plain tuples. -/
def SeqKind.slice : SeqKind → SeqKind
  | .tuple => .tuple
  | .list => .list
  | .productTV => .list
  | .fixedRankTV => .tuple

/-- Run a list of computations left to right (list comprehensions and loops). -/
def sequence {α : Type*} : List (Except PyErr α) → Except PyErr (List α)
  | [] => .ok []
  | c :: cs =>
    match c with
    | .error e => .error e
    | .ok a =>
      match sequence cs with
      | .error e => .error e
      | .ok as => .ok (a :: as)

mutual
/-- Unary minus: arrays, `_ProductTangentVector.__neg__` (manifolds/product.py:157-159) and
`_ndarraySequence.__neg__` (manifolds/fixed_rank.py:217-219); plain lists and tuples raise
`TypeError`. -/
def Val.neg [PyArr A] : Val A → Except PyErr (Val A)
  | .arr a => .ok (.arr (PyArr.neg a))
  | .seq .productTV l =>
    match negList l with
    | .error e => .error e
    | .ok l' => .ok (.seq .productTV l')
  | .seq .fixedRankTV l =>
    match negList l with
    | .error e => .error e
    | .ok l' => .ok (.seq .fixedRankTV l')
  | .seq .tuple _ => .error .typeError
  | .seq .list _ => .error .typeError
/-- `[-val for val in self]`. -/
def negList [PyArr A] : List (Val A) → Except PyErr (List (Val A))
  | [] => .ok []
  | v :: vs =>
    match v.neg with
    | .error e => .error e
    | .ok v' =>
      match negList vs with
      | .error e => .error e
      | .ok vs' => .ok (v' :: vs')
end

mutual
/-- `other * value` and `value * other` for a Python float `other`:
`_ProductTangentVector.__mul__` (manifolds/product.py:147-151), `_ndarraySequence.__mul__`
(manifolds/fixed_rank.py:207-211); floats times plain sequences raise `TypeError`. -/
def Val.smul [PyArr A] (c : ℝ) : Val A → Except PyErr (Val A)
  | .arr a => .ok (.arr (PyArr.smul c a))
  | .seq .productTV l =>
    match smulList c l with
    | .error e => .error e
    | .ok l' => .ok (.seq .productTV l')
  | .seq .fixedRankTV l =>
    match smulList c l with
    | .error e => .error e
    | .ok l' => .ok (.seq .fixedRankTV l')
  | .seq .tuple _ => .error .typeError
  | .seq .list _ => .error .typeError
/-- `[other * val for val in self]`. -/
def smulList [PyArr A] (c : ℝ) : List (Val A) → Except PyErr (List (Val A))
  | [] => .ok []
  | v :: vs =>
    match Val.smul c v with
    | .error e => .error e
    | .ok v' =>
      match smulList c vs with
      | .error e => .error e
      | .ok vs' => .ok (v' :: vs')
end

mutual
/-- `value / other` for a number `other`: `_ProductTangentVector.__truediv__`
(manifolds/product.py:153-155), `_ndarraySequence.__truediv__`
(manifolds/fixed_rank.py:213-215); plain sequences raise `TypeError`. -/
def Val.div [PyArr A] (c : ℝ) : Val A → Except PyErr (Val A)
  | .arr a => .ok (.arr (PyArr.div a c))
  | .seq .productTV l =>
    match divList c l with
    | .error e => .error e
    | .ok l' => .ok (.seq .productTV l')
  | .seq .fixedRankTV l =>
    match divList c l with
    | .error e => .error e
    | .ok l' => .ok (.seq .fixedRankTV l')
  | .seq .tuple _ => .error .typeError
  | .seq .list _ => .error .typeError
/-- `[val / other for val in self]`. -/
def divList [PyArr A] (c : ℝ) : List (Val A) → Except PyErr (List (Val A))
  | [] => .ok []
  | v :: vs =>
    match Val.div c v with
    | .error e => .error e
    | .ok v' =>
      match divList c vs with
      | .error e => .error e
      | .ok vs' => .ok (v' :: vs')
end

mutual
/-- `a + b` (`op = PyArr.add`) and `a - b` (`op = PyArr.sub`) for a left operand `a`:
`_ProductTangentVector.__add__`/`__sub__` (manifolds/product.py:135-145) check the lengths and
combine item by item; `_FixedRankTangentVector.__add__`/`__sub__`
(manifolds/fixed_rank.py:237-243) zip the items, and the named tuple cannot be made of fewer
(tools/__init__.py:18-33).
Simplification: an array combined with a sequence and two plain sequences combined (where `+`
concatenates) are outside the model and appear as `typeError`. -/
def Val.lift2 [PyArr A] (op : A → A → Except PyErr A) : Val A → Val A → Except PyErr (Val A)
  | .arr a, .arr b =>
    match op a b with
    | .error e => .error e
    | .ok c => .ok (.arr c)
  | .seq .productTV l, b =>
    match b.items with
    | .error e => .error e
    | .ok m =>
      if l.length ≠ m.length then .error .valueError
      else
        match lift2List op l m with
        | .error e => .error e
        | .ok r => .ok (.seq .productTV r)
  | .seq .fixedRankTV l, b =>
    match b.items with
    | .error e => .error e
    | .ok m =>
      match lift2List op l m with
      | .error e => .error e
      | .ok r => if r.length ≠ l.length then .error .typeError else .ok (.seq .fixedRankTV r)
  | _, _ => .error .typeError
/-- `[v + other[k] for k, v in enumerate(self)]` for equal lengths, `zip` otherwise. -/
def lift2List [PyArr A] (op : A → A → Except PyErr A) :
    List (Val A) → List (Val A) → Except PyErr (List (Val A))
  | v :: vs, w :: ws =>
    match Val.lift2 op v w with
    | .error e => .error e
    | .ok r =>
      match lift2List op vs ws with
      | .error e => .error e
      | .ok rs => .ok (r :: rs)
  | _, _ => .ok []
end

/-- `a + b`. -/
def Val.add [PyArr A] (a b : Val A) : Except PyErr (Val A) := Val.lift2 PyArr.add a b

/-- `a - b`. -/
def Val.sub [PyArr A] (a b : Val A) : Except PyErr (Val A) := Val.lift2 PyArr.sub a b

end Verif.Core
