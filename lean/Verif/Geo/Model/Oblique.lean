/-
`/repo/src/pymanopt/manifolds/oblique.py`.  Matrices with `m` rows and `n` columns.
-/
import Verif.Geo.Model.Sphere

namespace Verif.Geo
open scoped BigOperators
open Matrix

variable {m n : Type*} [Fintype m] [Fintype n]

/-- `Oblique.inner_product` (oblique.py:31-34). -/
def oblInner (_point A B : Matrix m n ℝ) : ℝ :=
  tensordot (fun x : m × n => A x.1 x.2) fun x : m × n => B x.1 x.2

/-- `Oblique.norm` (oblique.py:36-37). -/
noncomputable def oblNorm (_point A : Matrix m n ℝ) : ℝ := npNorm fun x : m × n => A x.1 x.2

/-- `(a * b).sum(0)`. -/
def colSums (A B : Matrix m n ℝ) (j : n) : ℝ := ∑ i, A i j * B i j

/-- `Oblique.dist` (oblique.py:39-42). -/
noncomputable def oblDist (A B : Matrix m n ℝ) : ℝ :=
  npNorm fun j => Real.arccos (if 1 < colSums A B j then 1 else colSums A B j)

/-- `Oblique.projection` and `to_tangent_space` (oblique.py:44-47). -/
def oblProj (X V : Matrix m n ℝ) : Matrix m n ℝ := of fun i j => V i j - X i j * colSums X V j

/-- `Oblique.euclidean_to_riemannian_hessian` (oblique.py:49-55). -/
def oblE2rh (X G H V : Matrix m n ℝ) : Matrix m n ℝ :=
  of fun i j => oblProj X H i j - V i j * colSums X G j

/-- Column norms `np.sqrt((v**2).sum(0))`. -/
noncomputable def colNorms (V : Matrix m n ℝ) (j : n) : ℝ := Real.sqrt (∑ i, V i j ^ 2)

/-- `Oblique.exp` (oblique.py:57-62). -/
noncomputable def oblExp (X V : Matrix m n ℝ) : Matrix m n ℝ := of fun i j =>
  X i j * Real.cos (colNorms V j) + V i j * npSinc (colNorms V j / Real.pi)

/-- `Oblique._normalize_columns` (oblique.py:96-97); `np.linalg.norm(axis=0)`. -/
noncomputable def oblNormalize (A : Matrix m n ℝ) : Matrix m n ℝ := of fun i j =>
  A i j / npNorm fun i => A i j

/-- `Oblique.retraction` (oblique.py:64-65). -/
noncomputable def oblRetraction (X V : Matrix m n ℝ) : Matrix m n ℝ := oblNormalize (X + V)

/-- `Oblique.log` (oblique.py:67-75). -/
noncomputable def oblLog (eps : ℝ) (A B : Matrix m n ℝ) : Matrix m n ℝ :=
  let vector := oblProj A (B - A)
  let distances := fun j => Real.arccos (colSums A B j)
  let norms := colNorms vector
  of fun i j => vector i j * ((distances j + eps) / (norms j + eps))

/-- `Oblique.random_point` (oblique.py:77-80). -/
noncomputable def oblRandomPoint (draw : Matrix m n ℝ) : Matrix m n ℝ := oblNormalize draw

/-- `Oblique.random_tangent_vector` (oblique.py:82-85). -/
noncomputable def oblRandomTangent (X draw : Matrix m n ℝ) : Matrix m n ℝ :=
  (oblNorm X (oblProj X draw))⁻¹ • oblProj X draw

/-- `Oblique.transport` (oblique.py:87-88). -/
def oblTransport (_A B V : Matrix m n ℝ) : Matrix m n ℝ := oblProj B V

/-- `Oblique.pair_mean` (oblique.py:90-91). -/
noncomputable def oblPairMean (A B : Matrix m n ℝ) : Matrix m n ℝ := oblNormalize (A + B)

/-- Dimension reported by `Oblique` (oblique.py:24). -/
def oblDim (m n : ℕ) : ℤ := ((m : ℤ) - 1) * n

end Verif.Geo
