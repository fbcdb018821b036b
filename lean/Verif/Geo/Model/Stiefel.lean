/-
`/repo/src/pymanopt/manifolds/stiefel.py`.  Points and vectors are stacks of real matrices with
rows `n` and `p` columns; `k == 1` is a stack of one matrix.
-/
import Verif.Geo.Model.Multi
import Verif.Geo.Model.Sphere
import Mathlib.Analysis.Normed.Algebra.MatrixExponential
import Mathlib.Data.Matrix.ColumnRowPartitioned

namespace Verif.Geo
open scoped BigOperators
open Matrix

variable {κ n p : Type*}

/-- `np.tensordot(a, b, axes=a.ndim)` of two stacks. -/
def stackTensordot {m n : Type*} [Fintype κ] [Fintype m] [Fintype n] (A B : Stack κ m n ℝ) : ℝ :=
  tensordot (fun x : κ × m × n => A x.1 x.2.1 x.2.2) fun x : κ × m × n => B x.1 x.2.1 x.2.2

section
variable [Fintype κ] [Fintype n] [Fintype p]

/-- `Stiefel.inner_product` (stiefel.py:76-79). -/
def stInner (_X A B : Stack κ n p ℝ) : ℝ := stackTensordot A B

/-- `Stiefel.norm` (stiefel.py:106-107). -/
noncomputable def stNorm (_X A : Stack κ n p ℝ) : ℝ := stackNorm A

end

section
variable [Fintype n] [Fintype p]

/-- `Stiefel.projection` and `to_tangent_space` (stiefel.py:81-84). -/
noncomputable def stProj (X V : Stack κ n p ℝ) : Stack κ n p ℝ :=
  V - multiprod X (multisym (multiprod (multitransp X) V))

/-- `Stiefel.weingarten` (stiefel.py:86-91). -/
noncomputable def stWeingarten (X Z N : Stack κ n p ℝ) : Stack κ n p ℝ :=
  multiprod (multiprod (-Z) (multitransp X)) N
    - multiprod X (multisym (multiprod (multitransp Z) N))

/-- Gradient conversion, inherited from `RiemannianSubmanifold`. -/
noncomputable def stE2rg (X G : Stack κ n p ℝ) : Stack κ n p ℝ := subE2rg stProj X G

/-- Hessian conversion, inherited from `RiemannianSubmanifold`. -/
noncomputable def stE2rh (X G H V : Stack κ n p ℝ) : Stack κ n p ℝ :=
  subE2rh stProj stWeingarten X G H V

/-- `Stiefel.transport` (stiefel.py:120-121). -/
noncomputable def stTransport (_A B V : Stack κ n p ℝ) : Stack κ n p ℝ := stProj B V

/-- `Stiefel.random_tangent_vector` (stiefel.py:115-118). -/
noncomputable def stRandomTangent [Fintype κ] (X draw : Stack κ n p ℝ) : Stack κ n p ℝ :=
  (stackNorm (stProj X draw))⁻¹ • stProj X draw

/-- `Stiefel.exp` (stiefel.py:123-143); `scipy.linalg.expm` is the matrix exponential. -/
noncomputable def stExp [DecidableEq p] (X Z : Stack κ n p ℝ) : Stack κ n p ℝ := fun k =>
  let ptTv := (multiprod (multitransp X) Z) k
  let a := fromCols (X k) (Z k)
  let b := (NormedSpace.exp (fromBlocks ptTv (multiprod (-multitransp Z) Z k)
    ((multieye : Stack κ p p ℝ) k) ptTv)).toCols₁
  let c := NormedSpace.exp (-ptTv)
  a * (b * c)

end

/-- Matrix handed to `multiqr` by `_retraction_qr` (stiefel.py:97) and to `np.linalg.svd` by
`_retraction_polar` (stiefel.py:102). -/
def stRetractArg (X Z : Stack κ n p ℝ) : Stack κ n p ℝ := X + Z

/-- `Stiefel._retraction_qr` (stiefel.py:96-99) from the factors of `np.linalg.qr`. -/
noncomputable def stRetractQR {p : ℕ} (q : Stack κ n (Fin p) ℝ) (r : Stack κ (Fin p) (Fin p) ℝ) :
    Stack κ n (Fin p) ℝ := fun k => (multiqr le_rfl (q k) (r k)).1

/-- `Stiefel._retraction_polar` (stiefel.py:101-104) from the factors of `np.linalg.svd`. -/
noncomputable def stRetractPolar {p : ℕ} (u : Stack κ n (Fin p) ℝ) (vt : Stack κ (Fin p) (Fin p) ℝ) :
    Stack κ n (Fin p) ℝ := multiprod u vt

/-- `Stiefel.random_point` (stiefel.py:109-113) from the QR factors of the draw. -/
noncomputable def stRandomPoint {p : ℕ} (q : Stack κ n (Fin p) ℝ)
    (r : Stack κ (Fin p) (Fin p) ℝ) : Stack κ n (Fin p) ℝ := fun k => (multiqr le_rfl (q k) (r k)).1

/-- `Stiefel.zero_vector` (stiefel.py:145-148). -/
def stZero (_X : Stack κ n p ℝ) : Stack κ n p ℝ := 0

/-- Dimension reported by `Stiefel` (stiefel.py:64); the division is exact. -/
def stDim (n p k : ℕ) : ℤ := k * ((n : ℤ) * p - (p : ℤ) * (p + 1) / 2)

end Verif.Geo
