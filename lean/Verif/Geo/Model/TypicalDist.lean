/-
`typical_dist` of the manifold classes, the default maximal radius of trust regions.
-/
import Mathlib.Analysis.SpecialFunctions.Trigonometric.Basic

namespace Verif.Geo

/-- `typical_dist` of the Euclidean spaces and matrix subspaces (euclidean.py:12-14), of positive
arrays (positive.py:61-63) and of positive definite matrices (positive_definite.py:22-24), for the
manifold's `dim`. -/
noncomputable def sqrtDimTypical (dim : ℤ) : ℝ := √(dim : ℝ)

/-- `_SphereBase.typical_dist` (sphere.py:16-18). -/
noncomputable def sphereTypical : ℝ := Real.pi

/-- `Oblique.typical_dist` (oblique.py:27-29). -/
noncomputable def oblTypical (n : ℕ) : ℝ := Real.pi * √(n : ℝ)

/-- `ComplexCircle.typical_dist` (complex_circle.py:39-41). -/
noncomputable def ccTypical (dim : ℕ) : ℝ := Real.pi * √(dim : ℝ)

/-- `Stiefel.typical_dist` (stiefel.py:72-74) and `_GrassmannBase.typical_dist`
(grassmann.py:8-10). -/
noncomputable def stTypical (p k : ℕ) : ℝ := √((p * k : ℕ) : ℝ)

/-- `_PSDFixedRank.typical_dist` (psd.py:13-15). -/
def psdTypical (k : ℕ) : ℝ := 10 + k

/-- `Elliptope.typical_dist` (psd.py:218-220). -/
def ellTypical (k : ℕ) : ℝ := 10 * k

/-- `PoincareBall.typical_dist` (hyperbolic.py:55-57). -/
noncomputable def pbTypical (dim : ℕ) : ℝ := dim / 8

/-- `FixedRankEmbedded.typical_dist` (fixed_rank.py:69-71). -/
def frTypical (dim : ℤ) : ℝ := dim

/-- `_UnitaryBase.typical_dist` (group.py:40-42). -/
noncomputable def gTypical (n k : ℕ) : ℝ := Real.pi * √((n * k : ℕ) : ℝ)

end Verif.Geo
