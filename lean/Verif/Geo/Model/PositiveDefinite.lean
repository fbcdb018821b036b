/-
`/repo/src/pymanopt/manifolds/positive_definite.py`.  `_PositiveDefiniteBase` over any `RCLike`
field: `SymmetricPositiveDefinite` is the case `ℝ`, `HermitianPositiveDefinite` the case `ℂ`.
`np.linalg.solve(a, b)` and `np.linalg.inv(a)` are `a⁻¹ * b` and `a⁻¹`; they raise for singular `a`,
which no point of these manifolds is.  `scipy.linalg.expm` is Mathlib's `NormedSpace.exp`.
-/
import Verif.Geo.Model.Multi
import Mathlib.Analysis.Normed.Algebra.MatrixExponential
import Mathlib.LinearAlgebra.Matrix.NonsingularInverse
import Mathlib.Analysis.SpecialFunctions.Pow.Complex

namespace Verif.Geo
open scoped BigOperators
open Matrix

variable {κ n : Type*} {𝕜 : Type*} [RCLike 𝕜]

section
variable [Fintype n] [DecidableEq n]

/-- `np.linalg.solve(a, b)` of two stacks. -/
noncomputable def multisolve (A B : Stack κ n n 𝕜) : Stack κ n n 𝕜 := fun k => (A k)⁻¹ * B k

/-- `_PositiveDefiniteBase.inner_product` (positive_definite.py:35-47).  The identity test on the
arguments only saves work. -/
noncomputable def pdInner [Fintype κ] (P A B : Stack κ n n 𝕜) : ℝ :=
  let pa := multisolve P A
  let pb := multisolve P B
  RCLike.re (∑ k, ∑ i, ∑ j, pa k i j * multitransp pb k i j)

/-- `_PositiveDefiniteBase.projection` and `to_tangent_space` (positive_definite.py:49-52). -/
noncomputable def pdProj (_P V : Stack κ n n 𝕜) : Stack κ n n 𝕜 := multiherm V

/-- `_PositiveDefiniteBase.euclidean_to_riemannian_gradient` (positive_definite.py:54-55). -/
noncomputable def pdE2rg (P G : Stack κ n n 𝕜) : Stack κ n n 𝕜 :=
  pdProj P (multiprod (multiprod P G) P)

/-- `_PositiveDefiniteBase.euclidean_to_riemannian_hessian` (positive_definite.py:57-62). -/
noncomputable def pdE2rh (P G H V : Stack κ n n 𝕜) : Stack κ n n 𝕜 :=
  multiprod (multiprod P (multiherm H)) P + multiherm (multiprod (multiprod V (multiherm G)) P)

/-- `_PositiveDefiniteBase.norm` (positive_definite.py:64-67). -/
noncomputable def pdNorm [Fintype κ] (P V : Stack κ n n 𝕜) : ℝ := Real.sqrt (pdInner P V V)

/-- `_PositiveDefiniteBase.random_tangent_vector` (positive_definite.py:81-93) for the array
drawn. -/
noncomputable def pdRandomTangent [Fintype κ] (P draw : Stack κ n n 𝕜) : Stack κ n n 𝕜 :=
  let v := multiherm draw
  (pdNorm P v)⁻¹ • v

/-- `_PositiveDefiniteBase.transport` (positive_definite.py:95-96). -/
def pdTransport (_A _B V : Stack κ n n 𝕜) : Stack κ n n 𝕜 := V

/-- `_PositiveDefiniteBase.exp` (positive_definite.py:98-100). -/
noncomputable def pdExp (P V : Stack κ n n 𝕜) : Stack κ n n 𝕜 :=
  multiprod P fun k => NormedSpace.exp (multisolve P V k)

/-- `_PositiveDefiniteBase.retraction` (positive_definite.py:102-106). -/
noncomputable def pdRetract (P V : Stack κ n n 𝕜) : Stack κ n n 𝕜 :=
  multiherm (P + V + (1 / 2 : ℝ) • multiprod V (multisolve P V))

/-- `_PositiveDefiniteBase.zero_vector` (positive_definite.py:117-122). -/
def pdZero (_P : Stack κ n n 𝕜) : Stack κ n n 𝕜 := 0

/-- Matrix whose logarithm `dist` and `log` take (positive_definite.py:27-30, 109-112); `c` is the
Cholesky factor of the first point. -/
noncomputable def pdLogArg (c B : Stack κ n n 𝕜) : Stack κ n n 𝕜 :=
  multiprod (multiprod (fun k => (c k)⁻¹) B) (multihconj fun k => (c k)⁻¹)

/-- `_PositiveDefiniteBase.dist` (positive_definite.py:26-33) from the eigendecompositions. -/
noncomputable def pdDist [Fintype κ] (w : κ → n → ℝ) (v : Stack κ n n 𝕜) : ℝ :=
  stackNorm fun k => logmPos (w k) (v k)

/-- `_PositiveDefiniteBase.log` (positive_definite.py:108-115) from the factors. -/
noncomputable def pdLog (c : Stack κ n n 𝕜) (w : κ → n → ℝ) (v : Stack κ n n 𝕜) : Stack κ n n 𝕜 :=
  multiprod (multiprod c fun k => logmPos (w k) (v k)) (multihconj c)

end

section
variable {n : ℕ}

/-- `d` is a result of `dist(A, B)`, for any factors the library returns. -/
def IsPdDist [Fintype κ] (A B : Stack κ (Fin n) (Fin n) 𝕜) (d : ℝ) : Prop :=
  ∃ (c : Stack κ (Fin n) (Fin n) 𝕜) (w : κ → Fin n → ℝ) (v : Stack κ (Fin n) (Fin n) 𝕜),
    (∀ k, IsCholesky (A k) (c k)) ∧ (∀ k, IsEigh (pdLogArg c B k) (w k) (v k)) ∧ d = pdDist w v

/-- `L` is a result of `log(A, B)`, for any factors the library returns. -/
def IsPdLog (A B L : Stack κ (Fin n) (Fin n) 𝕜) : Prop :=
  ∃ (c : Stack κ (Fin n) (Fin n) 𝕜) (w : κ → Fin n → ℝ) (v : Stack κ (Fin n) (Fin n) 𝕜),
    (∀ k, IsCholesky (A k) (c k)) ∧ (∀ k, IsEigh (pdLogArg c B k) (w k) (v k)) ∧ L = pdLog c w v

/-- `_PositiveDefiniteBase.random_point` (positive_definite.py:69-79): `draw` in `[0, 1)` are the
uniform draws, `q`, `r` the factors `np.linalg.qr` returns for the one complex matrix drawn; the
same unitary matrix is used for all matrices of the stack.  Also
`HermitianPositiveDefinite.random_point`. -/
noncomputable def hpdRandomPoint (draw : κ → Fin n → ℝ) (q r : Matrix (Fin n) (Fin n) ℂ) :
    Stack κ (Fin n) (Fin n) ℂ := fun k =>
  let d := fun i => 1 + draw k i
  let q := (multiqr le_rfl q r).1
  q * of fun i j => (d i : ℂ) * qᴴ i j

/-- `SymmetricPositiveDefinite.random_point` (positive_definite.py:157-158). -/
noncomputable def spdRandomPoint (draw : κ → Fin n → ℝ) (q r : Matrix (Fin n) (Fin n) ℂ) :
    Stack κ (Fin n) (Fin n) ℝ := fun k => (hpdRandomPoint draw q r k).map Complex.re

/-! ### SpecialHermitianPositiveDefinite -/

/-- Division by `np.linalg.det(x) ** (1 / n)` (positive_definite.py:222-224, 272-274, 284-286), with
the principal complex power. -/
noncomputable def unitDet (A : Stack κ (Fin n) (Fin n) ℂ) : Stack κ (Fin n) (Fin n) ℂ := fun k =>
  ((A k).det ^ (1 / (n : ℂ)))⁻¹ • A k

/-- `SpecialHermitianPositiveDefinite.random_point` (positive_definite.py:214-224). -/
noncomputable def shpdRandomPoint (draw : κ → Fin n → ℝ) (q r : Matrix (Fin n) (Fin n) ℂ) :
    Stack κ (Fin n) (Fin n) ℂ := unitDet (hpdRandomPoint draw q r)

/-- `SpecialHermitianPositiveDefinite.projection` (positive_definite.py:235-247). -/
noncomputable def shpdProj (P V : Stack κ (Fin n) (Fin n) ℂ) : Stack κ (Fin n) (Fin n) ℂ :=
  let V := pdProj P V
  fun k =>
    let t := RCLike.re (multisolve P V k).trace
    V k - (1 / (n : ℝ) * t) • P k

/-- `SpecialHermitianPositiveDefinite.to_tangent_space`: the attribute inherited from the base class
is bound to the projection of the base class (positive_definite.py:49-52), not to the override. -/
noncomputable def shpdToTangent (P V : Stack κ (Fin n) (Fin n) ℂ) : Stack κ (Fin n) (Fin n) ℂ :=
  pdProj P V

/-- `SpecialHermitianPositiveDefinite.random_tangent_vector` (positive_definite.py:226-233). -/
noncomputable def shpdRandomTangent [Fintype κ] (P draw : Stack κ (Fin n) (Fin n) ℂ) :
    Stack κ (Fin n) (Fin n) ℂ :=
  let v := shpdProj P (pdRandomTangent P draw)
  (pdNorm P v)⁻¹ • v

/-- `_PositiveDefiniteBase.euclidean_to_riemannian_gradient` called on an instance of the special
class, where `self.projection` is the override (positive_definite.py:54-55). -/
noncomputable def shpdBaseE2rg (P G : Stack κ (Fin n) (Fin n) ℂ) : Stack κ (Fin n) (Fin n) ℂ :=
  shpdProj P (multiprod (multiprod P G) P)

/-- `SpecialHermitianPositiveDefinite.euclidean_to_riemannian_gradient`
(positive_definite.py:249-255). -/
noncomputable def shpdE2rg (P G : Stack κ (Fin n) (Fin n) ℂ) : Stack κ (Fin n) (Fin n) ℂ :=
  shpdProj P (shpdBaseE2rg P G)

/-- `SpecialHermitianPositiveDefinite.exp` (positive_definite.py:263-274). -/
noncomputable def shpdExp (P V : Stack κ (Fin n) (Fin n) ℂ) : Stack κ (Fin n) (Fin n) ℂ :=
  unitDet (pdExp P V)

/-- `SpecialHermitianPositiveDefinite.retraction` (positive_definite.py:276-286). -/
noncomputable def shpdRetract (P V : Stack κ (Fin n) (Fin n) ℂ) : Stack κ (Fin n) (Fin n) ℂ :=
  unitDet (pdRetract P V)

/-- `SpecialHermitianPositiveDefinite.transport` (positive_definite.py:288-291). -/
noncomputable def shpdTransport (_A B V : Stack κ (Fin n) (Fin n) ℂ) : Stack κ (Fin n) (Fin n) ℂ :=
  shpdProj B (pdProj B V)

end

/-- Dimension reported by `SymmetricPositiveDefinite` (positive_definite.py:154). -/
def spdDim (n k : ℕ) : ℕ := k * n * (n + 1) / 2
/-- Dimension reported by `HermitianPositiveDefinite` (positive_definite.py:184). -/
def hpdDim (n k : ℕ) : ℕ := k * n * (n + 1)
/-- Dimension reported by `SpecialHermitianPositiveDefinite` (positive_definite.py:211). -/
def shpdDim (n k : ℕ) : ℤ := k * n * (n + 1) - k

end Verif.Geo
