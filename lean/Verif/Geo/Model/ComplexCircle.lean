/-
`/repo/src/pymanopt/manifolds/complex_circle.py`.  Vectors of complex numbers.
-/
import Verif.Geo.Model.NumPy
import Mathlib.Analysis.Complex.Basic

namespace Verif.Geo
open scoped BigOperators

variable {ι : Type*} [Fintype ι]

/-- `ComplexCircle.inner_product` (complex_circle.py:30-31). -/
def ccInner (_z a b : ι → ℂ) : ℝ := (∑ i, star (a i) * b i).re

/-- `ComplexCircle.norm` (complex_circle.py:33-34). -/
noncomputable def ccNorm (_z v : ι → ℂ) : ℝ := npNorm v

/-- `ComplexCircle.dist` (complex_circle.py:36-37). -/
noncomputable def ccDist (a b : ι → ℂ) : ℝ :=
  npNorm fun i => Real.arccos (star (a i) * b i).re

/-- `ComplexCircle.projection` and `to_tangent_space` (complex_circle.py:43-46). -/
def ccProj (z v : ι → ℂ) : ι → ℂ := fun i => v i - ((star (v i) * z i).re : ℂ) * z i

/-- `ComplexCircle.euclidean_to_riemannian_hessian` (complex_circle.py:48-55). -/
def ccE2rh (z g h v : ι → ℂ) : ι → ℂ :=
  ccProj z fun i => h i - ((z i * star (g i)).re : ℂ) * v i

/-- `ComplexCircle.exp` (complex_circle.py:57-68).  The result buffer is an array of floats:
assigning complex numbers to it keeps their real part and drops the imaginary part (numpy emits a
`ComplexWarning`). -/
noncomputable def ccExp (z v : ι → ℂ) : ι → ℝ := fun i =>
  if 0 < ‖v i‖ then
    (z i * (Real.cos ‖v i‖ : ℝ) + v i * ((Real.sin ‖v i‖ / ‖v i‖ : ℝ) : ℂ)).re
  else (z i).re

/-- `ComplexCircle._normalize` (complex_circle.py:101-103). -/
noncomputable def ccNormalize (a : ι → ℂ) : ι → ℂ := fun i => a i / (‖a i‖ : ℝ)

/-- `ComplexCircle.retraction` (complex_circle.py:70-71). -/
noncomputable def ccRetraction (z v : ι → ℂ) : ι → ℂ := ccNormalize (z + v)

/-- One entry of `ComplexCircle.log` (complex_circle.py:73-79); `none` is the NaN that
`v * (di / 0)` gives for `v = 0` and `di > 1e-6`. -/
noncomputable def ccLog (a b : ι → ℂ) (i : ι) : Option ℂ :=
  let v := ccProj a (b - a) i
  let di := Real.arccos (star (a i) * b i).re
  if di ≤ 1e-6 then some v
  else if ‖v‖ = 0 then none
  else some (v * ((di / ‖v‖ : ℝ) : ℂ))

/-- `ComplexCircle.random_point` (complex_circle.py:81-86) for the two drawn arrays. -/
noncomputable def ccRandomPoint (x y : ι → ℝ) : ι → ℂ :=
  ccNormalize fun i => (x i : ℂ) + Complex.I * (y i : ℂ)

/-- `ComplexCircle.random_tangent_vector` (complex_circle.py:88-90). -/
noncomputable def ccRandomTangent (z : ι → ℂ) (draw : ι → ℝ) : ι → ℂ :=
  let t : ι → ℂ := fun i => (draw i : ℂ) * Complex.I * z i
  (ccNorm z t)⁻¹ • t

/-- `ComplexCircle.transport` (complex_circle.py:92-93). -/
def ccTransport (_a b v : ι → ℂ) : ι → ℂ := ccProj b v

/-- `ComplexCircle.pair_mean` (complex_circle.py:95-96). -/
noncomputable def ccPairMean (a b : ι → ℂ) : ι → ℂ := ccNormalize (a + b)

/-- Dimension reported by `ComplexCircle` (complex_circle.py:28). -/
def ccDim (n : ℕ) : ℕ := n

end Verif.Geo
