/-
`/repo/src/pymanopt/tools/testing.py`: gradient and Hessian conversions derived from a projection,
which the test suite compares with the conversions of the manifolds.
-/
import Verif.Geo.Model.Multi
import Mathlib.Analysis.Calculus.Deriv.Basic

namespace Verif.Geo
open scoped BigOperators

variable {α : Type*} [Fintype α] {E : Type*} [AddCommGroup E] [Module ℝ E]

/-- `riemannian_gradient` (testing.py:17-23); `grad` is `autograd.grad`. -/
def testGradient (grad : (E → ℝ) → E → E) (cost : E → ℝ) (projector : E → E → E) (point : E) : E :=
  projector point (grad cost point)

/-- `euclidean_to_riemannian_gradient` (testing.py:26-32). -/
def testE2rg (projector : E → E → E) (point egrad : E) : E := projector point egrad

section
variable [DecidableEq α]

/-- `autograd.jacobian` of a function of arrays: the array of its partial derivatives.  Arrays of
the type `E` have the entries `entries x`. -/
noncomputable def npJacobian (entries : E ≃ₗ[ℝ] (α → ℝ)) (f : E → E) (point : E) (a b : α) : ℝ :=
  deriv (fun t : ℝ => entries (f (point + t • entries.symm (Pi.single b 1))) a) 0

omit [DecidableEq α] in
/-- `np.tensordot(jacobian, v, axes=v.ndim)` (testing.py:52-56): sums over all axes of `v`. -/
def jacTensordot (entries : E ≃ₗ[ℝ] (α → ℝ)) (jacobian : α → α → ℝ) (v : E) : E :=
  entries.symm fun a => ∑ b, jacobian a b * entries v b

/-- `euclidean_to_riemannian_hessian` (testing.py:35-60); `jacobian(projector)` differentiates with
respect to the first argument. -/
noncomputable def testE2rh (entries : E ≃ₗ[ℝ] (α → ℝ)) (projector : E → E → E)
    (point egrad ehess v : E) : E :=
  projector point
    (ehess + jacTensordot entries (npJacobian entries (fun y => projector y egrad) point) v)

end

/-- The entries of a matrix. -/
def matEntries (m n : Type*) : Matrix m n ℝ ≃ₗ[ℝ] (m × n → ℝ) where
  toFun A x := A x.1 x.2
  invFun f i j := f (i, j)
  map_add' _ _ := rfl
  map_smul' _ _ := rfl
  left_inv _ := rfl
  right_inv _ := rfl

/-- The entries of a stack of matrices. -/
def stackEntries (κ m n : Type*) : Stack κ m n ℝ ≃ₗ[ℝ] (κ × m × n → ℝ) where
  toFun A x := A x.1 x.2.1 x.2.2
  invFun f k i j := f (k, i, j)
  map_add' _ _ := rfl
  map_smul' _ _ := rfl
  left_inv _ := rfl
  right_inv _ := rfl

end Verif.Geo
