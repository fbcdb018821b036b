/-
`/repo/src/pymanopt/manifolds/hyperbolic.py`.  A point is a stack `κ → ι → ℝ` of `k` vectors of
length `n`.  The code reduces over the last axis and keeps it, so everything but the inner product
and the distance acts on each vector separately; those parts are defined on one vector.  The class
for `k = 1` is the stack of one vector.
-/
import Verif.Geo.Model.NumPy
import Mathlib.Analysis.SpecialFunctions.Arcosh
import Mathlib.Analysis.SpecialFunctions.Artanh
import Mathlib.Analysis.SpecialFunctions.Pow.Real

namespace Verif.Geo
open scoped BigOperators

variable {κ ι : Type*} [Fintype κ] [Fintype ι]

/-- Dimension reported by `PoincareBall` (hyperbolic.py:52). -/
def pbDim (n k : ℕ) : ℕ := k * n

/-- `PoincareBall.__init__` (hyperbolic.py:42-45): `none` is the `ValueError`. -/
def pbInit (n k : ℤ) : Option Unit := if n < 1 then none else if k < 1 then none else some ()

/-- `PoincareBall.conformal_factor` (hyperbolic.py:188) of one vector. -/
noncomputable def pbFactor (x : ι → ℝ) : ℝ := 2 / (1 - tensordot x x)

/-- `PoincareBall.mobius_addition` (hyperbolic.py:165-172) of one vector. -/
noncomputable def pbMobius (a b : ι → ℝ) : ι → ℝ := fun i =>
  (a i * (1 + 2 * tensordot a b + tensordot b b) + b i * (1 - tensordot a a)) /
    (1 + 2 * tensordot a b + tensordot a a * tensordot b b)

/-- `PoincareBall.inner_product` (hyperbolic.py:59-65). -/
noncomputable def pbInner (X A B : κ → ι → ℝ) : ℝ :=
  tensordot (fun x : κ × ι => A x.1 x.2) fun x : κ × ι => B x.1 x.2 * pbFactor (X x.1) ^ 2

/-- `PoincareBall.projection` and `to_tangent_space` (hyperbolic.py:67-70). -/
def pbProj (_X V : κ → ι → ℝ) : κ → ι → ℝ := V

/-- `PoincareBall.norm` (hyperbolic.py:72-75). -/
noncomputable def pbNorm (X V : κ → ι → ℝ) : ℝ := Real.sqrt (pbInner X V V)

/-- `PoincareBall.random_point` (hyperbolic.py:77-84) for the arrays drawn; `n` is the length of the
vectors. -/
noncomputable def pbRandomPoint (n : ℕ) (array : κ → ι → ℝ) (uniform : κ → ℝ) : κ → ι → ℝ :=
  fun k i => array k i / npNorm (array k) * uniform k ^ ((1 : ℝ) / n)

/-- `PoincareBall.random_tangent_vector` (hyperbolic.py:86-88) for the array drawn. -/
noncomputable def pbRandomTangent (X draw : κ → ι → ℝ) : κ → ι → ℝ := (pbNorm X draw)⁻¹ • draw

/-- `PoincareBall.zero_vector` (hyperbolic.py:90-91). -/
def pbZero (_X : κ → ι → ℝ) : κ → ι → ℝ := 0

/-- The array of distances of the vectors in `PoincareBall.dist` (hyperbolic.py:94-103). -/
noncomputable def pbDist1 (a b : ι → ℝ) : ℝ :=
  let na := npNorm a ^ 2
  let nb := npNorm b ^ 2
  let nd := npNorm (a - b) ^ 2
  Real.arcosh (1 + 2 * nd / ((1 - na) * (1 - nb)))

/-- `PoincareBall.dist` (hyperbolic.py:93-104). -/
noncomputable def pbDist (A B : κ → ι → ℝ) : ℝ := npNorm fun k => pbDist1 (A k) (B k)

/-- `PoincareBall.euclidean_to_riemannian_gradient` (hyperbolic.py:106-110) of one vector. -/
noncomputable def pbE2rg1 (x G : ι → ℝ) : ι → ℝ := fun i => G i * (1 / pbFactor x ^ 2)

/-- `PoincareBall.euclidean_to_riemannian_gradient` (hyperbolic.py:106-110). -/
noncomputable def pbE2rg (X G : κ → ι → ℝ) : κ → ι → ℝ := fun k => pbE2rg1 (X k) (G k)

/-- `PoincareBall.euclidean_to_riemannian_hessian` (hyperbolic.py:112-127) of one vector. -/
noncomputable def pbE2rh1 (x G H v : ι → ℝ) : ι → ℝ := fun i =>
  (tensordot G x * v i - tensordot x v * G i - tensordot G v * x i + H i / pbFactor x) / pbFactor x

/-- `PoincareBall.euclidean_to_riemannian_hessian` (hyperbolic.py:112-127). -/
noncomputable def pbE2rh (X G H V : κ → ι → ℝ) : κ → ι → ℝ :=
  fun k => pbE2rh1 (X k) (G k) (H k) (V k)

open Classical in
/-- `PoincareBall.exp` and `retraction` (hyperbolic.py:129-141) of one vector. -/
noncomputable def pbExp1 (x v : ι → ℝ) : ι → ℝ :=
  let nv := npNorm v
  pbMobius x fun i => v i * (Real.tanh (nv * pbFactor x / 2) / (nv + if nv = 0 then 1 else 0))

/-- `PoincareBall.exp` and `retraction` (hyperbolic.py:129-141). -/
noncomputable def pbExp (X V : κ → ι → ℝ) : κ → ι → ℝ := fun k => pbExp1 (X k) (V k)

open Classical in
/-- `PoincareBall.log` (hyperbolic.py:143-147) of one vector; `none` is an array of NaNs, from the
division `0 / 0`. -/
noncomputable def pbLog1 (a b : ι → ℝ) : Option (ι → ℝ) :=
  let w := pbMobius (-a) b
  let nw := npNorm w
  if nw = 0 then none else some fun i => Real.artanh nw * w i / nw / (pbFactor a / 2)

/-- `PoincareBall.log` (hyperbolic.py:143-147). -/
noncomputable def pbLog (A B : κ → ι → ℝ) : κ → Option (ι → ℝ) := fun k => pbLog1 (A k) (B k)

/-- `PoincareBall.pair_mean` (hyperbolic.py:149-150); NaNs propagate. -/
noncomputable def pbPairMean (A B : κ → ι → ℝ) : κ → Option (ι → ℝ) :=
  fun k => (pbLog A B k).map fun v => pbExp1 (A k) fun i => v i / 2

end Verif.Geo
