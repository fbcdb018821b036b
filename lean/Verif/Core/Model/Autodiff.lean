/-
Autodiff plumbing: `/repo/src/pymanopt/autodiff/__init__.py`,
`/repo/src/pymanopt/autodiff/backends/*.py` and `/repo/src/pymanopt/tools/__init__.py`.
-/
import Verif.Core.Model.Problem

namespace Verif.Core
open Verif

variable {A : Type*}

/-- `unpack_singleton_sequence_return_value` (tools/__init__.py:36-50), applied to the value
returned by the wrapped function. -/
def unpackSingleton : Val A → Except PyErr (Val A)
  | .arr _ => .error .valueError
  | .seq _ l =>
    match l with
    | [v] => .ok v
    | _ => .error .valueError

/-- `bisect_sequence` (tools/__init__.py:53-57). -/
def bisect {α : Type*} (l : List α) : Except PyErr (List α × List α) :=
  if l.length % 2 = 1 then .error .valueError
  else .ok (l.take (l.length / 2), l.drop (l.length / 2))

/-- A generated gradient operator (autodiff/backends/_autograd.py:36-42, _jax.py:54-60,
_pytorch.py:59-69, _tensorflow.py:43-55).  `raw` stands for the library's reverse pass followed by
the conversion of its results (conjugation, zeros for unused arguments) to arrays; every backend
makes a list of its results and unpacks it when the function takes one argument. -/
def gradientOperator (raw : List (Val A) → Except PyErr (List (Val A))) (numArguments : ℕ) :
    Fn A := fun args =>
  match raw args with
  | .error e => .error e
  | .ok l =>
    if numArguments = 1 then unpackSingleton (.seq .list l) else .ok (.seq .list l)

/-- A generated Hessian operator (autodiff/backends/_autograd.py:60-76, _jax.py:62-80,
_pytorch.py:71-96, _tensorflow.py:57-77).  `raw arguments vectors` stands for the library's
Hessian-vector product and the conversion of its results to arrays. -/
def hessianOperator (raw : List (Val A) → List (Val A) → Except PyErr (List (Val A)))
    (numArguments : ℕ) : Fn A := fun args =>
  match bisect args with
  | .error e => .error e
  | .ok (arguments, vectors) =>
    match raw arguments vectors with
    | .error e => .error e
    | .ok l =>
      if numArguments = 1 then unpackSingleton (.seq .list l) else .ok (.seq .list l)

/-- The part of `inspect.getfullargspec` the decorator looks at: number of positional parameters,
presence of `*args`, presence of `**kwargs`, number of keyword-only parameters. -/
structure ArgSpec where
  args : ℕ
  varargs : Bool
  varkw : Bool
  kwonlyargs : ℕ
  deriving DecidableEq

/-- `decorator(manifold)(function)` (autodiff/__init__.py:65-87) with `Function.__init__`
(autodiff/__init__.py:8-20): `isManifold` is `isinstance(manifold, Manifold)`, `callable` whether
the decorated object is callable (`getfullargspec` raises `TypeError` for other objects),
`available` is `backend.is_available()`. -/
def decorate (isManifold callable available : Bool) (spec : ArgSpec) : Except PyErr Unit :=
  if !isManifold then .error .typeError
  else if !callable then .error .typeError
  else if (decide (spec.args ≠ 0) && spec.varargs)
      || !(decide (spec.args ≠ 0) || spec.varargs)
      || (spec.varkw || decide (spec.kwonlyargs ≠ 0)) then .error .valueError
  else if !available then .error .runtime
  else .ok ()

end Verif.Core
