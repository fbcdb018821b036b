/-
`/repo/src/pymanopt/manifolds/group.py`: products of special orthogonal groups (`𝕜 = ℝ`) and of
unitary groups (`𝕜 = ℂ`).  Points are stacks of square matrices, tangent vectors are stacks of
elements of the Lie algebra; `k == 1` is a stack of one matrix.
-/
import Verif.Geo.Model.Stiefel
import Mathlib.LinearAlgebra.Matrix.Determinant.Basic
import Mathlib.Analysis.Complex.Trigonometric
import Mathlib.Analysis.Real.Pi.Bounds

namespace Verif.Geo
open scoped BigOperators
open Matrix

variable {κ n : Type*} {𝕜 : Type*} [RCLike 𝕜]

section
variable [Fintype κ] [Fintype n]

/-- `_UnitaryBase.inner_product` (group.py:30-35); a complex number on unitary groups. -/
def gInner (_X A B : Stack κ n n 𝕜) : 𝕜 :=
  ∑ x : κ × n × n, star (A x.1 x.2.1 x.2.2) * B x.1 x.2.1 x.2.2

/-- `_UnitaryBase.norm` (group.py:37-38). -/
noncomputable def gNorm (_X A : Stack κ n n 𝕜) : ℝ := stackNorm A

end

section
variable [Fintype n]

/-- `_UnitaryBase.projection` (group.py:47-48). -/
noncomputable def gProj (X V : Stack κ n n 𝕜) : Stack κ n n 𝕜 :=
  multiskew (multiprod (multihconj X) V)

/-- `_UnitaryBase.to_tangent_space` (group.py:50-51). -/
noncomputable def gToTangent (_X V : Stack κ n n 𝕜) : Stack κ n n 𝕜 := multiskewh V

/-- `_UnitaryBase.embedding` (group.py:53-54). -/
def gEmbed (X V : Stack κ n n 𝕜) : Stack κ n n 𝕜 := multiprod X V

/-- Gradient conversion, inherited from `RiemannianSubmanifold`. -/
noncomputable def gE2rg (X G : Stack κ n n 𝕜) : Stack κ n n 𝕜 := subE2rg gProj X G

/-- `_UnitaryBase.euclidean_to_riemannian_hessian` (group.py:56-63). -/
noncomputable def gE2rh (X G H V : Stack κ n n 𝕜) : Stack κ n n 𝕜 :=
  let Xt := multihconj X
  let Xtegrad := multiprod Xt G
  let symXtegrad := multiherm Xtegrad
  let Xtehess := multiprod Xt H
  multiskewh (Xtehess - multiprod V symXtegrad)

/-- Matrix handed to `multiqr` by `_retraction_qr` (group.py:69) and to `np.linalg.svd` by
`_retraction_polar` (group.py:74). -/
def gRetractArg (X V : Stack κ n n 𝕜) : Stack κ n n 𝕜 := X + multiprod X V

/-- `_UnitaryBase.exp` (group.py:78-79); `scipy.linalg.expm` is the matrix exponential. -/
noncomputable def gExp [DecidableEq n] (X V : Stack κ n n 𝕜) : Stack κ n n 𝕜 :=
  multiprod X fun k => NormedSpace.exp (V k)

end

/-- `_UnitaryBase._retraction_qr` (group.py:68-71) from the factors of `np.linalg.qr`. -/
noncomputable def gRetractQR {n : ℕ} (q r : Stack κ (Fin n) (Fin n) 𝕜) : Stack κ (Fin n) (Fin n) 𝕜 :=
  fun k => (multiqr le_rfl (q k) (r k)).1

/-- `_UnitaryBase._retraction_polar` (group.py:73-76) from the factors of `np.linalg.svd`. -/
noncomputable def gRetractPolar {n : ℕ} (u vt : Stack κ (Fin n) (Fin n) 𝕜) :
    Stack κ (Fin n) (Fin n) 𝕜 := multiprod u vt

/-- `scipy.linalg.logm(a)`: the principal logarithm.  Its eigenvalues have imaginary part in the
interval `(-π, π]`, as those of `np.log` applied to complex numbers. -/
structure IsLogm [Fintype n] [DecidableEq n] (a l : Matrix n n ℂ) : Prop where
  exp : NormedSpace.exp l = a
  strip : ∀ (μ : ℂ) (v : n → ℂ), v ≠ 0 → l *ᵥ v = μ • v → -Real.pi < μ.im ∧ μ.im ≤ Real.pi

/-- Results of `_UnitaryBase.log` (group.py:81-82).  For the special orthogonal group the arguments
are the points as complex matrices, and a result with zero imaginary part is the real array `logm`
returns then.  (`np.vectorize` gives the whole stack the type of the first logarithm, which drops
imaginary parts when only later ones have them; see `IsSOLog` for this.) -/
def IsGLog [Fintype n] [DecidableEq n] (A B V : Stack κ n n ℂ) : Prop :=
  ∃ L : Stack κ n n ℂ, (∀ k, IsLogm (multiprod (multihconj A) B k) (L k)) ∧ V = multiskewh L

/-- Results of `_UnitaryBase.dist` (group.py:44-45). -/
def IsGDist [Fintype κ] [Fintype n] [DecidableEq n] (A B : Stack κ n n ℂ) (d : ℝ) : Prop :=
  ∃ V, IsGLog A B V ∧ d = gNorm A V

/-- Results of `_UnitaryBase.pair_mean` (group.py:93-94). -/
def IsGPairMean [Fintype n] [DecidableEq n] (A B M : Stack κ n n ℂ) : Prop :=
  ∃ V, IsGLog A B V ∧ M = gExp A ((1 / 2 : ℝ) • V)

/-- `_UnitaryBase.zero_vector` (group.py:84-88). -/
def gZero (_X : Stack κ n n 𝕜) : Stack κ n n 𝕜 := 0

/-- `_UnitaryBase.transport` (group.py:90-91). -/
def gTransport (_A _B V : Stack κ n n 𝕜) : Stack κ n n 𝕜 := V

/-- Dimension reported by `SpecialOrthogonalGroup` (group.py:154). -/
def soDim (n k : ℕ) : ℤ := k * (n.choose 2 : ℤ)

/-- Dimension reported by `UnitaryGroup` (group.py:218). -/
def unDim (n k : ℕ) : ℤ := k * (n : ℤ) ^ 2

/-- `SpecialOrthogonalGroup.random_point` (group.py:157-170) from the QR factors of the draw.  The
two columns exist in the branch that swaps them. -/
noncomputable def soRandomPoint {n : ℕ} (q r : Stack κ (Fin n) (Fin n) ℝ) :
    Stack κ (Fin n) (Fin n) ℝ :=
  if n = 1 then fun _ => of fun _ _ => 1
  else fun k =>
    let p := (multiqr le_rfl (q k) (r k)).1
    if h : 1 < n then
      if p.det < 0 then p.submatrix id (Equiv.swap ⟨0, by omega⟩ ⟨1, h⟩) else p
    else p

/-- `UnitaryGroup.random_point` (group.py:221-233) from the QR factors of the draw. -/
noncomputable def unRandomPoint {n : ℕ} (q r : Stack κ (Fin n) (Fin n) ℂ) :
    Stack κ (Fin n) (Fin n) ℂ :=
  if n = 1 then fun _ => of fun _ _ => (1 + Complex.I) / (‖1 + Complex.I‖ : ℝ)
  else fun k => (multiqr le_rfl (q k) (r k)).1

/-- `_random_upper_triangular_matrix` (group.py:266-274): the draws `d` are put strictly above the
diagonal.  The `ValueError` for `n < 2` is not reached from the callers, which handle `n == 1`. -/
def randUpper {n : ℕ} (d : Stack κ (Fin n) (Fin n) ℝ) : Stack κ (Fin n) (Fin n) ℝ :=
  fun k => of fun i j => if i < j then d k i j else 0

/-- `_random_skew_symmetric_matrix` (group.py:246-250). -/
def randSkew {n : ℕ} (d : Stack κ (Fin n) (Fin n) ℝ) : Stack κ (Fin n) (Fin n) ℝ :=
  if n = 1 then 0 else randUpper d - multitransp (randUpper d)

/-- `_random_symmetric_matrix` (group.py:253-263); the diagonal of `d` is the second draw. -/
def randSym {n : ℕ} (d : Stack κ (Fin n) (Fin n) ℝ) : Stack κ (Fin n) (Fin n) ℝ :=
  if n = 1 then d
  else
    let v := randUpper d + multitransp (randUpper d)
    fun k => of fun i j => if i = j then d k i i else v k i j

/-- `SpecialOrthogonalGroup.random_tangent_vector` (group.py:172-176). -/
noncomputable def soRandomTangent [Fintype κ] {n : ℕ} (X d : Stack κ (Fin n) (Fin n) ℝ) :
    Stack κ (Fin n) (Fin n) ℝ := (gNorm X (randSkew d))⁻¹ • randSkew d

/-- The vector normalised by `UnitaryGroup.random_tangent_vector` (group.py:237-240). -/
noncomputable def unDraw {n : ℕ} (d e : Stack κ (Fin n) (Fin n) ℝ) : Stack κ (Fin n) (Fin n) ℂ :=
  fun k => of fun i j =>
    ((randSkew d k i j : ℂ) + Complex.I * (randSym e k i j : ℂ)) / (Real.sqrt 2 : ℂ)

/-- `UnitaryGroup.random_tangent_vector` (group.py:235-243). -/
noncomputable def unRandomTangent [Fintype κ] {n : ℕ} (X : Stack κ (Fin n) (Fin n) ℂ)
    (d e : Stack κ (Fin n) (Fin n) ℝ) : Stack κ (Fin n) (Fin n) ℂ :=
  (gNorm X (unDraw d e))⁻¹ • unDraw d e

end Verif.Geo
