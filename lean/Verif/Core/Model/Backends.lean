/-
Which autodiff backends can be used, and how arrays are handed to their libraries:
`/repo/src/pymanopt/autodiff/backends/*.py`.
-/
import Verif.Core.Model.Autodiff
import Verif.Base.Format
import Mathlib.Algebra.BigOperators.Group.List.Basic

namespace Verif.Core
open Verif

/-! ### Availability -/

/-- `a <= b` for Python strings: lexicographic, by code points. -/
def strLe : List Char → List Char → Bool
  | [], _ => true
  | _ :: _, [] => false
  | a :: l, b :: m => if a.toNat < b.toNat then true
    else if b.toNat < a.toNat then false else strLe l m

/-- What is installed: the version of PyTorch, if any, and whether the other libraries can be
imported (autodiff/backends/_pytorch.py:7-12, _jax.py:6-21, _tensorflow.py:1-4,
_autograd.py:4-9). -/
structure Installed where
  torch : Option (List Char)
  jax : Bool
  tensorflow : Bool
  autograd : Bool

/-- The backends. -/
inductive BackendName
  | numpy | autograd | jax | pytorch | tensorflow
  deriving DecidableEq

/-- `is_available` (autodiff/backends/_numpy.py:14-16, _autograd.py:27-29, _jax.py:45-47,
_pytorch.py:22-24, _tensorflow.py:18-20). -/
def isAvailable (env : Installed) : BackendName → Bool
  | .numpy => true
  | .autograd => env.autograd
  | .jax => env.jax
  | .pytorch =>
    match env.torch with
    | none => false
    | some version => strLe "0.4.1".toList version
  | .tensorflow => env.tensorflow

/-- `Backend._assert_backend_available` (autodiff/backends/_backend.py:18-38). -/
def assertAvailable {R : Type*} (env : Installed) (b : BackendName) (method : Except PyErr R) :
    Except PyErr R :=
  if !isAvailable env b then .error .runtime else method

/-- `generate_gradient_operator` and `generate_hessian_operator` of a backend, where `generated` is
what the library does: guarded by `_assert_backend_available` (autodiff/backends/_autograd.py:35,
59, _jax.py:53, 62, _pytorch.py:58, 71, _tensorflow.py:43, 57); the NumPy backend raises
(_numpy.py:4-7, 22-23). -/
def generateOperator {R : Type*} (env : Installed) (b : BackendName) (generated : Except PyErr R) :
    Except PyErr R :=
  match b with
  | .numpy => .error .notImplemented
  | b => assertAvailable env b generated

/-! ### Arrays in memory -/

/-- Memory: buffers of cells, of which those below `next` are in use. -/
structure Memory (K : Type*) where
  cell : ℕ → ℤ → K
  next : ℕ

/-- An array (or a tensor): a buffer, the cell of its first element, shape and strides.
Simplification: strides count elements, not bytes. -/
structure Strided where
  buffer : ℕ
  offset : ℤ
  shape : List ℕ
  strides : List ℤ
  deriving DecidableEq

/-- Distance of the element `idx` from the first one. -/
def position (strides : List ℤ) (idx : List ℕ) : ℤ :=
  (List.zipWith (fun i s => (i : ℤ) * s) idx strides).sum

/-- The element `idx` of an array. -/
def Memory.read {K : Type*} (m : Memory K) (a : Strided) (idx : List ℕ) : K :=
  m.cell a.buffer (a.offset + position a.strides idx)

/-- `a[idx] = v`. -/
def Memory.write {K : Type*} (m : Memory K) (a : Strided) (idx : List ℕ) (v : K) : Memory K :=
  { m with cell := fun b i =>
      if b = a.buffer ∧ i = a.offset + position a.strides idx then v else m.cell b i }

/-- Strides of a contiguous array in C order. -/
def rowMajor : List ℕ → List ℤ
  | [] => []
  | _ :: ns => (ns.prod : ℤ) :: rowMajor ns

/-- The index of the `k`-th element in C order. -/
def unravel : List ℕ → ℕ → List ℕ
  | [], _ => []
  | _ :: ns, k => (k / ns.prod) :: unravel ns (k % ns.prod)

/-- `array.copy()`: a new contiguous array in C order. -/
def Memory.copy {K : Type*} (m : Memory K) (a : Strided) : Strided × Memory K :=
  (⟨m.next, 0, a.shape, rowMajor a.shape⟩,
    { cell := fun b i => if b = m.next then m.read a (unravel a.shape i.toNat) else m.cell b i
      next := m.next + 1 })

/-- `torch.from_numpy`: a tensor on the same memory; negative strides are not supported. -/
def torchFromNumpy (a : Strided) : Except PyErr Strided :=
  if a.strides.any (· < 0) then .error .valueError else .ok a

/-- `PyTorchBackend._from_numpy` (autodiff/backends/_pytorch.py:26-40); also returns whether it
warns. -/
def pytorchFromNumpy {K : Type*} (m : Memory K) (a : Strided) :
    Except PyErr (Strided × Memory K × Bool) :=
  if a.strides.any (· < 0) then
    match torchFromNumpy (m.copy a).1 with
    | .error e => .error e
    | .ok t => .ok (t, (m.copy a).2, true)
  else
    match torchFromNumpy a with
    | .error e => .error e
    | .ok t => .ok (t, m, false)

/-- What a backend gives to the user's function in place of an array: PyTorch as above,
TensorFlow a constant, that is a copy (autodiff/backends/_tensorflow.py:22-25), the others the array
itself (_numpy.py:18-20, _autograd.py:31-33, _jax.py:49-51). -/
def fromNumpy {K : Type*} (b : BackendName) (m : Memory K) (a : Strided) :
    Except PyErr (Strided × Memory K × Bool) :=
  match b with
  | .pytorch => pytorchFromNumpy m a
  | .tensorflow => .ok ((m.copy a).1, (m.copy a).2, false)
  | _ => .ok (a, m, false)

/-- `map(self._from_numpy, args)`. -/
def fromNumpys {K : Type*} (b : BackendName) (m : Memory K) :
    List Strided → Except PyErr (List Strided × Memory K)
  | [] => .ok ([], m)
  | a :: l =>
    match fromNumpy b m a with
    | .error e => .error e
    | .ok (t, m', _) =>
      match fromNumpys b m' l with
      | .error e => .error e
      | .ok (ts, m'') => .ok (t :: ts, m'')

/-- Shape and elements in C order, all that a function can see of an array. -/
def Memory.seen {K : Type*} (m : Memory K) (a : Strided) : List ℕ × List K :=
  (a.shape, (List.range a.shape.prod).map fun k => m.read a (unravel a.shape k))

/-- Calling `prepare_function(function)` (autodiff/backends/_pytorch.py:42-48,
_tensorflow.py:35-41, _numpy.py:18-20, _autograd.py:31-33, _jax.py:49-51) with arrays `args`.
Simplification: the function does not modify its arguments, and the conversion of its result back to
an array is part of `function`. -/
def callPrepared {K R : Type*} (env : Installed) (b : BackendName) (m : Memory K)
    (function : List (List ℕ × List K) → Except PyErr R) (args : List Strided) : Except PyErr R :=
  assertAvailable env b <|
    match fromNumpys b m args with
    | .error e => .error e
    | .ok (ts, m') => function (ts.map m'.seen)

end Verif.Core
