/-
Model of what the four autodiff backends build out of the differentiation primitives of the
third-party libraries (autodiff/backends/_autograd.py, _jax.py, _pytorch.py, _tensorflow.py).

The libraries themselves are not modelled: each primitive is a parameter of the definitions, and the
property file states, per library, the contract its documentation gives.  The arguments of a cost
function are a family of arrays, argument `a` having entries in `𝕜 a` (real or complex).
-/
import Verif.Base.PyNum
import Mathlib.Analysis.RCLike.Basic

namespace Verif.Geo
open scoped BigOperators

variable {α : Type*} [Fintype α] {ι : α → Type*} [∀ a, Fintype (ι a)] {𝕜 : α → Type*}
  [∀ a, RCLike (𝕜 a)]

/-- The arguments `*args` of a cost function: one array per argument. -/
abbrev Args (ι : α → Type*) (𝕜 : α → Type*) := ∀ a, ι a → 𝕜 a

/-- `conjugate_result`: entrywise complex conjugate of every array returned
(_autograd.py:15-20, _jax.py:25-30). -/
def conjugateResult (g : Args ι 𝕜) : Args ι 𝕜 := fun a i => star (g a i)

/-- `AutogradBackend.generate_gradient_operator` (_autograd.py:35-42); `grad f` is
`autograd.grad(function, argnum=list(range(num_arguments)))`. -/
def autogradGradient (grad : (Args ι 𝕜 → ℝ) → Args ι 𝕜 → Args ι 𝕜) (f : Args ι 𝕜 → ℝ)
    (x : Args ι 𝕜) : Args ι 𝕜 := conjugateResult (grad f x)

/-- The inner function `vector_dot_gradient` of `AutogradBackend._hessian_vector_product`
(_autograd.py:48-56): the sum over the arguments of `np.real(np.tensordot(gradient, vector))`, with
the gradient as `autograd` returns it. -/
def vectorDotGradient (grad : (Args ι 𝕜 → ℝ) → Args ι 𝕜 → Args ι 𝕜) (f : Args ι 𝕜 → ℝ)
    (v x : Args ι 𝕜) : ℝ := ∑ a, RCLike.re (∑ i, grad f x a i * v a i)

/-- `AutogradBackend.generate_hessian_operator` (_autograd.py:44-76): the gradient of
`vector_dot_gradient` with respect to the point, conjugated.  The arguments are already split into
point and vector (`Core/Model/Autodiff.lean`). -/
def autogradHessian (grad : (Args ι 𝕜 → ℝ) → Args ι 𝕜 → Args ι 𝕜) (f : Args ι 𝕜 → ℝ)
    (x v : Args ι 𝕜) : Args ι 𝕜 := conjugateResult (grad (vectorDotGradient grad f v) x)

/-- `JaxBackend.generate_gradient_operator` (_jax.py:53-60); `grad f` is
`jax.grad(function, argnums=range(num_arguments))`, `to_ndarray` does not change values. -/
def jaxGradient (grad : (Args ι 𝕜 → ℝ) → Args ι 𝕜 → Args ι 𝕜) (f : Args ι 𝕜 → ℝ)
    (x : Args ι 𝕜) : Args ι 𝕜 := conjugateResult (grad f x)

/-- `JaxBackend.generate_hessian_operator` (_jax.py:62-80); `jvp g x v` is the tangent
`jax.jvp(g, x, v)[1]`. -/
def jaxHessian (grad : (Args ι 𝕜 → ℝ) → Args ι 𝕜 → Args ι 𝕜)
    (jvp : (Args ι 𝕜 → Args ι 𝕜) → Args ι 𝕜 → Args ι 𝕜 → Args ι 𝕜) (f : Args ι 𝕜 → ℝ)
    (x v : Args ι 𝕜) : Args ι 𝕜 := conjugateResult (jvp (grad f) x v)

/-- What a library that reports unused arguments returns: `None` for an argument the result does not
depend on. -/
abbrev Grads (ι : α → Type*) (𝕜 : α → Type*) := ∀ a, Option (ι a → 𝕜 a)

/-- `_sanitize_gradients`: zeros in place of `None` (_pytorch.py:50-56, _tensorflow.py:27-33). -/
def sanitizeGradients (g : Grads ι 𝕜) : Args ι 𝕜 := fun a => (g a).getD 0

/-- `PyTorchBackend.generate_gradient_operator` (_pytorch.py:58-69); `backward f x` are the fields
`tensor.grad` of the arguments after `function(*arguments).backward()`, or the exception raised. -/
def torchGradient (backward : (Args ι 𝕜 → ℝ) → Args ι 𝕜 → Except PyErr (Grads ι 𝕜))
    (f : Args ι 𝕜 → ℝ) (x : Args ι 𝕜) : Except PyErr (Args ι 𝕜) :=
  (backward f x).map sanitizeGradients

/-- The local `dot_product` of `PyTorchBackend.generate_hessian_operator` (_pytorch.py:84-88) as a
function of the arguments; `grads f x` is `autograd.grad(function(*arguments), arguments,
create_graph=True, allow_unused=True)`. -/
def torchDotProduct (grads : (Args ι 𝕜 → ℝ) → Args ι 𝕜 → Grads ι 𝕜) (f : Args ι 𝕜 → ℝ)
    (v x : Args ι 𝕜) : ℝ := ∑ a, RCLike.re (∑ i, star (sanitizeGradients (grads f x) a i) * v a i)

open Classical in
/-- `PyTorchBackend.generate_hessian_operator` (_pytorch.py:71-96).  The loop at lines 85-88 calls
`gradient.conj()` on every gradient, which raises `AttributeError` when one of them is `None`. -/
noncomputable def torchHessian (backward : (Args ι 𝕜 → ℝ) → Args ι 𝕜 → Except PyErr (Grads ι 𝕜))
    (grads : (Args ι 𝕜 → ℝ) → Args ι 𝕜 → Grads ι 𝕜) (f : Args ι 𝕜 → ℝ) (x v : Args ι 𝕜) :
    Except PyErr (Args ι 𝕜) :=
  if ∃ a, grads f x a = none then .error .attributeError
  else (backward (torchDotProduct grads f v) x).map sanitizeGradients

/-- `TensorFlowBackend.generate_gradient_operator` (_tensorflow.py:43-55); `gradient f x` is
`tape.gradient(function(*arguments), arguments)`. -/
def tfGradient (gradient : (Args ι 𝕜 → ℝ) → Args ι 𝕜 → Grads ι 𝕜) (f : Args ι 𝕜 → ℝ)
    (x : Args ι 𝕜) : Args ι 𝕜 := sanitizeGradients (gradient f x)

/-- `TensorFlowBackend.generate_hessian_operator` (_tensorflow.py:57-77); `jvp g x v` is
`accumulator.jvp(gradients)` for the gradients `g x` computed under
`ForwardAccumulator(arguments, vectors)`. -/
def tfHessian (gradient : (Args ι 𝕜 → ℝ) → Args ι 𝕜 → Grads ι 𝕜)
    (jvp : (Args ι 𝕜 → Grads ι 𝕜) → Args ι 𝕜 → Args ι 𝕜 → Grads ι 𝕜) (f : Args ι 𝕜 → ℝ)
    (x v : Args ι 𝕜) : Args ι 𝕜 := sanitizeGradients (jvp (gradient f) x v)

end Verif.Geo
