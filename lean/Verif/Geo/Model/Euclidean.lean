/-
`/repo/src/pymanopt/manifolds/euclidean.py`.
-/
import Verif.Geo.Model.Multi
import Verif.Geo.Model.Sphere

namespace Verif.Geo
open scoped BigOperators

section base
variable {ι : Type*} [Fintype ι] {𝕜 : Type*} [RCLike 𝕜] {E : Type*} [AddCommGroup E] [Module ℝ E]

/-- `_Euclidean.inner_product` (euclidean.py:16-25). -/
def eucInner (_point a b : ι → 𝕜) : ℝ := retensordot a b

/-- `_Euclidean.norm` (euclidean.py:27-28). -/
noncomputable def eucNorm (_point v : ι → 𝕜) : ℝ := npNorm v

/-- `_Euclidean.dist` (euclidean.py:30-31). -/
noncomputable def eucDist (a b : ι → 𝕜) : ℝ := npNorm (a - b)

/-- `_Euclidean.projection` and `to_tangent_space` (euclidean.py:33-36). -/
def eucProj (_point v : E) : E := v

/-- `_Euclidean.euclidean_to_riemannian_hessian` (euclidean.py:38-41). -/
def eucE2rh (_point _egrad ehess _v : E) : E := ehess

/-- `_Euclidean.exp` and `retraction` (euclidean.py:43-46). -/
def eucExp (point v : E) : E := point + v

/-- `_Euclidean.log` (euclidean.py:48-49). -/
def eucLog (a b : E) : E := b - a

/-- `_Euclidean.random_tangent_vector` (euclidean.py:54-56) for the array `draw` returned by
`random_point`. -/
noncomputable def eucRandomTangent (_point draw : ι → 𝕜) : ι → 𝕜 := (npNorm draw)⁻¹ • draw

/-- `_Euclidean.transport` (euclidean.py:58-59). -/
def eucTransport (_a _b v : E) : E := v

/-- `_Euclidean.pair_mean` (euclidean.py:61-62). -/
noncomputable def eucPairMean (a b : E) : E := (1 / 2 : ℝ) • (a + b)

/-- `_Euclidean.zero_vector` and `ComplexEuclidean.zero_vector` (euclidean.py:64-65, 134-135). -/
def eucZero : E := 0

/-- Dimensions reported by `Euclidean` and `ComplexEuclidean` (euclidean.py:95, 126). -/
def eucDim (ι : Type*) [Fintype ι] : ℕ := Fintype.card ι
/-- Dimension reported by `ComplexEuclidean` (euclidean.py:126). -/
def complexEucDim (ι : Type*) [Fintype ι] : ℕ := 2 * Fintype.card ι

end base

section sym
variable {κ n : Type*} [Fintype κ] [Fintype n]

/-- `Symmetric.projection` (euclidean.py:164-165). -/
noncomputable def symProj (_point v : Stack κ n n ℝ) : Stack κ n n ℝ := multisym v

/-- `Symmetric.euclidean_to_riemannian_hessian` (euclidean.py:167-170). -/
noncomputable def symE2rh (_point _egrad ehess _v : Stack κ n n ℝ) : Stack κ n n ℝ := multisym ehess

/-- `Symmetric.random_point` (euclidean.py:172-173). -/
noncomputable def symRandomPoint (draw : Stack κ n n ℝ) : Stack κ n n ℝ := multisym draw

/-- `Symmetric.random_tangent_vector` (euclidean.py:175-177). -/
noncomputable def symRandomTangent (draw : Stack κ n n ℝ) : Stack κ n n ℝ :=
  multisym ((stackNorm (symRandomPoint draw))⁻¹ • symRandomPoint draw)

/-- `SkewSymmetric.projection` (euclidean.py:206-207). -/
noncomputable def skewProj (_point v : Stack κ n n ℝ) : Stack κ n n ℝ := multiskew v

/-- `SkewSymmetric.euclidean_to_riemannian_hessian` (euclidean.py:209-212). -/
noncomputable def skewE2rh (_point _egrad ehess _v : Stack κ n n ℝ) : Stack κ n n ℝ :=
  multiskew ehess

/-- `SkewSymmetric.random_point` (euclidean.py:214-215). -/
noncomputable def skewRandomPoint (draw : Stack κ n n ℝ) : Stack κ n n ℝ := multiskew draw

/-- `SkewSymmetric.random_tangent_vector` (euclidean.py:217-219). -/
noncomputable def skewRandomTangent (draw : Stack κ n n ℝ) : Stack κ n n ℝ :=
  multiskew ((stackNorm (skewRandomPoint draw))⁻¹ • skewRandomPoint draw)

/-- `to_tangent_space` of `Symmetric` and `SkewSymmetric`: the class attribute of `_Euclidean`
(euclidean.py:36) is bound to `_Euclidean.projection`, which returns the vector. -/
def symToTangent (_point v : Stack κ n n ℝ) : Stack κ n n ℝ := eucProj _point v

/-- Dimension reported by `Symmetric` (euclidean.py:161); the argument of `int` is a whole
number. -/
def symDim (k n : ℕ) : ℕ := k * n * (n + 1) / 2

/-- Dimension reported by `SkewSymmetric` (euclidean.py:203). -/
def skewDim (k n : ℕ) : ℕ := k * n * (n - 1) / 2

end sym

end Verif.Geo
