/-
`/repo/src/pymanopt/manifolds/sphere.py`, and the generic gradient and Hessian conversion of
`/repo/src/pymanopt/manifolds/manifold.py`.  Arrays of the manifold's shape are functions
`ι → ℝ` on the finite type of multi-indices.  Exact reals; `np.arccos` is `Real.arccos`.
Methods that call an overridable method take it as a parameter.
-/
import Verif.Geo.Model.NumPy
import Mathlib.LinearAlgebra.Matrix.Rank

namespace Verif.Geo

/-- `RiemannianSubmanifold.euclidean_to_riemannian_gradient` (manifold.py:432-433). -/
def subE2rg {E : Type*} (projection : E → E → E) (point egrad : E) : E := projection point egrad

/-- `RiemannianSubmanifold.euclidean_to_riemannian_hessian` (manifold.py:435-443). -/
def subE2rh {E : Type*} [Add E] [Sub E] (projection : E → E → E) (weingarten : E → E → E → E)
    (point egrad ehess v : E) : E :=
  projection point ehess + weingarten point v (egrad - projection point egrad)

variable {ι : Type*} [Fintype ι]

/-- `_SphereBase.inner_product` (sphere.py:20-23). -/
def sphereInner (_point a b : ι → ℝ) : ℝ := tensordot a b

/-- `_SphereBase.norm` (sphere.py:25-26). -/
noncomputable def sphereNorm (_point v : ι → ℝ) : ℝ := npNorm v

/-- `_SphereBase.dist` (sphere.py:28-30). -/
noncomputable def sphereDist (a b : ι → ℝ) : ℝ :=
  Real.arccos (max (min (sphereInner a a b) 1) (-1))

/-- `_SphereBase.projection` (sphere.py:32-33). -/
def sphereProj (point v : ι → ℝ) : ι → ℝ := v - sphereInner point point v • point

/-- `_SphereBase.to_tangent_space` (sphere.py:35), bound to the base class projection. -/
def sphereToTangent (point v : ι → ℝ) : ι → ℝ := sphereProj point v

/-- `_SphereBase.weingarten` (sphere.py:37-40). -/
def sphereWeingarten (point v normal : ι → ℝ) : ι → ℝ := -sphereInner point point normal • v

/-- `_SphereBase.exp` (sphere.py:42-44). -/
noncomputable def sphereExp (point v : ι → ℝ) : ι → ℝ :=
  let norm := sphereNorm point v
  Real.cos norm • point + npSinc (norm / Real.pi) • v

/-- `_SphereBase._normalize` (sphere.py:73-74). -/
noncomputable def sphereNormalize (a : ι → ℝ) : ι → ℝ := (npNorm a)⁻¹ • a

/-- `_SphereBase.retraction` (sphere.py:46-47). -/
noncomputable def sphereRetraction (point v : ι → ℝ) : ι → ℝ := sphereNormalize (point + v)

/-- `_SphereBase.log` (sphere.py:49-54); `eps` is `np.finfo(np.float64).eps`. -/
noncomputable def sphereLog (projection : (ι → ℝ) → (ι → ℝ) → ι → ℝ) (eps : ℝ)
    (a b : ι → ℝ) : ι → ℝ :=
  let vector := projection a (b - a)
  let distance := sphereDist a b
  let factor := (distance + eps) / (sphereNorm a vector + eps)
  factor • vector

/-- `_SphereBase.random_point` (sphere.py:56-58) for the drawn array. -/
noncomputable def sphereRandomPoint (draw : ι → ℝ) : ι → ℝ := sphereNormalize draw

/-- `_SphereBase.random_tangent_vector` (sphere.py:60-62) for the drawn array. -/
noncomputable def sphereRandomTangent (projection : (ι → ℝ) → (ι → ℝ) → ι → ℝ)
    (point draw : ι → ℝ) : ι → ℝ := sphereNormalize (projection point draw)

/-- `_SphereBase.transport` (sphere.py:64-65). -/
def sphereTransport (projection : (ι → ℝ) → (ι → ℝ) → ι → ℝ) (_a b v : ι → ℝ) : ι → ℝ :=
  projection b v

/-- `_SphereBase.pair_mean` (sphere.py:67-68). -/
noncomputable def spherePairMean (a b : ι → ℝ) : ι → ℝ := sphereNormalize (a + b)

/-- `_SphereBase.zero_vector` (sphere.py:70-71). -/
def sphereZero : ι → ℝ := 0

/-- Gradient conversion on the sphere: inherited. -/
def sphereE2rg (point egrad : ι → ℝ) : ι → ℝ := subE2rg sphereProj point egrad

/-- Hessian conversion on the sphere: inherited. -/
def sphereE2rh (point egrad ehess v : ι → ℝ) : ι → ℝ :=
  subE2rh sphereProj sphereWeingarten point egrad ehess v

/-- Dimension reported by `Sphere` (sphere.py:111), for a shape with `Fintype.card ι` entries. -/
def sphereDim (ι : Type*) [Fintype ι] : ℤ := Fintype.card ι - 1

section Subspace
variable {ρ : Type*} [Fintype ρ] [DecidableEq ι]

/-- `_SphereSubspaceIntersectionManifold.projection` (sphere.py:137-138). -/
def subspaceProj (projector : Matrix ι ι ℝ) (point v : ι → ℝ) : ι → ℝ :=
  projector.mulVec (sphereProj point v)

/-- Projector of `SphereSubspaceIntersection` (sphere.py:165-166), `q` from `np.linalg.qr`. -/
def spanProjector (q : Matrix ι ρ ℝ) : Matrix ι ι ℝ := q * q.transpose

/-- Projector of `SphereSubspaceComplementIntersection` (sphere.py:194-195). -/
def complementProjector (q : Matrix ι ρ ℝ) : Matrix ι ι ℝ := 1 - q * q.transpose

omit [DecidableEq ι] in
/-- Dimension passed on by the two constructors (sphere.py:167-172, 196-201).
`np.linalg.matrix_rank` is the exact rank; its tolerance is not modelled. -/
noncomputable def subspaceDim (projector : Matrix ι ι ℝ) : ℤ := projector.rank - 1

/-- `_SphereSubspaceIntersectionManifold.random_point` (sphere.py:140-142). -/
noncomputable def subspaceRandomPoint (projector : Matrix ι ι ℝ) (draw : ι → ℝ) : ι → ℝ :=
  sphereNormalize (projector.mulVec (sphereRandomPoint draw))

/-- `_SphereSubspaceIntersectionManifold.random_tangent_vector` (sphere.py:144-146). -/
noncomputable def subspaceRandomTangent (projector : Matrix ι ι ℝ) (point draw : ι → ℝ) : ι → ℝ :=
  sphereNormalize (projector.mulVec (sphereRandomTangent (subspaceProj projector) point draw))

end Subspace

end Verif.Geo
