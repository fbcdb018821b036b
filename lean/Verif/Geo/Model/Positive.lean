/-
`/repo/src/pymanopt/manifolds/positive.py`.  All operations are entrywise, so a point is an array
`ι → ℝ` over any finite index type.
-/
import Verif.Geo.Model.NumPy
import Mathlib.Analysis.SpecialFunctions.Log.Basic

namespace Verif.Geo
open scoped BigOperators

variable {ι : Type*} [Fintype ι]

/-- Dimension reported by `Positive` (positive.py:58). -/
def posDim (m n k : ℕ) : ℕ := k * m * n

/-- `Positive.inner_product` (positive.py:65-70). -/
noncomputable def posInner (p a b : ι → ℝ) : ℝ := tensordot (a / p) (b / p)

omit [Fintype ι] in
/-- `Positive.projection` and `to_tangent_space` (positive.py:72-75). -/
def posProj (_p v : ι → ℝ) : ι → ℝ := v

/-- `Positive.norm` (positive.py:77-80). -/
noncomputable def posNorm (p v : ι → ℝ) : ℝ := Real.sqrt (posInner p v v)

/-- `Positive.random_point` (positive.py:82-86) for the array drawn. -/
noncomputable def posRandomPoint (draw : ι → ℝ) : ι → ℝ := fun i => Real.exp (draw i)

/-- `Positive.random_tangent_vector` (positive.py:88-90) for the array drawn. -/
noncomputable def posRandomTangent (p draw : ι → ℝ) : ι → ℝ :=
  let v := draw * p
  (posNorm p v)⁻¹ • v

/-- `Positive.zero_vector` (positive.py:92-93). -/
def posZero (_p : ι → ℝ) : ι → ℝ := 0

/-- `Positive.dist` (positive.py:95-97). -/
noncomputable def posDist (a b : ι → ℝ) : ℝ :=
  let logRatio := fun i => Real.log (a i) - Real.log (b i)
  Real.sqrt (tensordot logRatio logRatio)

/-- `Positive.euclidean_to_riemannian_gradient` (positive.py:99-100). -/
def posE2rg (p G : ι → ℝ) : ι → ℝ := G * p ^ 2

/-- `Positive.euclidean_to_riemannian_hessian` (positive.py:102-108). -/
def posE2rh (p G H v : ι → ℝ) : ι → ℝ := H * p ^ 2 + v * G * p

/-- `Positive.exp` (positive.py:110-111). -/
noncomputable def posExp (p v : ι → ℝ) : ι → ℝ := fun i => p i * Real.exp (v i / p i)

/-- `Positive.log` (positive.py:113-114). -/
noncomputable def posLog (a b : ι → ℝ) : ι → ℝ := fun i =>
  a i * (Real.log (b i) - Real.log (a i))

/-- `Positive.retraction` (positive.py:116-117). -/
noncomputable def posRetract (p v : ι → ℝ) : ι → ℝ := fun i => p i + v i + v i ^ 2 / p i / 2

/-- `Positive._transporter` (positive.py:119-120). -/
def posTransporter (_a _b v : ι → ℝ) : ι → ℝ := v

/-- `Positive._parallel_transport` (positive.py:122-123). -/
noncomputable def posParallel (a b v : ι → ℝ) : ι → ℝ := v * b / a

/-- `Positive.transport` (positive.py:49-52, 125-126). -/
noncomputable def posTransport (useParallelTransport : Bool) (a b v : ι → ℝ) : ι → ℝ :=
  if useParallelTransport then posParallel a b v else posTransporter a b v

end Verif.Geo
