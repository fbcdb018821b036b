/-
`/repo/src/pymanopt/manifolds/psd.py`.  A point is an `n × k` matrix `Y` that stands for `Y Yᴴ`.
`_PSDFixedRank` over any `RCLike` field: `PSDFixedRank` is the case `ℝ`, `PSDFixedRankComplex` the
case `ℂ`.  The Lyapunov solver and the SVD are relations, so results are relations as well.
-/
import Verif.Geo.Model.NumPy
import Verif.Geo.Model.Lapack

namespace Verif.Geo
open scoped BigOperators
open Matrix

section
variable {n : Type*} [Fintype n] {k : ℕ} {𝕜 : Type*} [RCLike 𝕜]

/-- `_PSDFixedRank.inner_product` (psd.py:17-22). -/
def psdInner (_Y A B : Matrix n (Fin k) 𝕜) : ℝ :=
  retensordot (fun x : n × Fin k => A x.1 x.2) fun x : n × Fin k => B x.1 x.2

/-- `_PSDFixedRank.norm` (psd.py:27-28). -/
noncomputable def psdNorm (_Y V : Matrix n (Fin k) 𝕜) : ℝ := npNorm fun x : n × Fin k => V x.1 x.2

/-- `_PSDFixedRank.projection` and `to_tangent_space` (psd.py:30-36) from the solution of the
Lyapunov equation. -/
def psdProjFrom (Y V : Matrix n (Fin k) 𝕜) (omega : Matrix (Fin k) (Fin k) 𝕜) : Matrix n (Fin k) 𝕜 :=
  V - Y * omega

/-- `Z` is a result of `projection(Y, V)`. -/
def IsPsdProj (Y V Z : Matrix n (Fin k) 𝕜) : Prop :=
  ∃ omega, IsLyapunov (Yᴴ * Y) (Yᴴ * V - Vᴴ * Y) omega ∧ Z = psdProjFrom Y V omega

/-- `_PSDFixedRank.euclidean_to_riemannian_gradient` (psd.py:38-39). -/
def psdE2rg (_Y G : Matrix n (Fin k) 𝕜) : Matrix n (Fin k) 𝕜 := G

/-- `Z` is a result of `euclidean_to_riemannian_hessian` (psd.py:41-44). -/
def IsPsdE2rh (Y _G H _V Z : Matrix n (Fin k) 𝕜) : Prop := IsPsdProj Y H Z

/-- `_PSDFixedRank.exp` and `retraction` (psd.py:46-49). -/
def psdExp (Y V : Matrix n (Fin k) 𝕜) : Matrix n (Fin k) 𝕜 := Y + V

/-- `L` is a result of `log(A, B)` (psd.py:51-53). -/
def IsPsdLog (A B L : Matrix n (Fin k) 𝕜) : Prop :=
  ∃ (u : Matrix (Fin k) (Fin k) 𝕜) (s : Fin k → ℝ) (vh : Matrix (Fin k) (Fin k) 𝕜),
    IsSVD (Bᴴ * A) u s vh ∧ L = B * u * vh - A

/-- `d` is a result of `dist(A, B)` (psd.py:24-25). -/
def IsPsdDist (A B : Matrix n (Fin k) 𝕜) (d : ℝ) : Prop :=
  ∃ L, IsPsdLog A B L ∧ d = psdNorm A L

/-- `T` is a result of `random_tangent_vector(Y)` (psd.py:58-61) for the array drawn. -/
def IsPsdRandomTangent (Y draw T : Matrix n (Fin k) 𝕜) : Prop :=
  ∃ Z, IsPsdProj Y draw Z ∧ T = (psdNorm Y Z)⁻¹ • Z

/-- `Z` is a result of `transport(A, B, V)` (psd.py:63-64). -/
def IsPsdTransport (_A B V Z : Matrix n (Fin k) 𝕜) : Prop := IsPsdProj B V Z

end

/-- Dimension reported by `PSDFixedRank` (psd.py:113). -/
def psdDim (n k : ℕ) : ℤ := k * n - k * (k - 1) / 2
/-- Dimension reported by `PSDFixedRankComplex` (psd.py:155). -/
def psdComplexDim (n k : ℕ) : ℤ := 2 * k * n - k * k

/-! ### Elliptope -/

section
variable {n : Type*} [Fintype n] {k : ℕ}

/-- `Elliptope.inner_product` (psd.py:222-225). -/
def ellInner (_Y A B : Matrix n (Fin k) ℝ) : ℝ :=
  tensordot (fun x : n × Fin k => A x.1 x.2) fun x : n × Fin k => B x.1 x.2

/-- `Elliptope.norm` (psd.py:227-230). -/
noncomputable def ellNorm (Y V : Matrix n (Fin k) ℝ) : ℝ := Real.sqrt (ellInner Y V V)

/-- `(a * b).sum(axis=1)`. -/
def rowSums (A B : Matrix n (Fin k) ℝ) (i : n) : ℝ := ∑ j, A i j * B i j

/-- `Elliptope._project_rows` (psd.py:271-273). -/
def ellProjRows (Y V : Matrix n (Fin k) ℝ) : Matrix n (Fin k) ℝ :=
  of fun i j => V i j - Y i j * rowSums Y V i

/-- `Elliptope._normalize_rows` (psd.py:268-269); `np.linalg.norm(axis=1)`. -/
noncomputable def ellNormalize (A : Matrix n (Fin k) ℝ) : Matrix n (Fin k) ℝ :=
  of fun i j => A i j / npNorm fun j => A i j

/-- `Z` is a result of `Elliptope.projection` or `to_tangent_space` (psd.py:232-239). -/
def IsEllProj (Y V Z : Matrix n (Fin k) ℝ) : Prop :=
  let eta := ellProjRows Y V
  let AS := Yᵀ * eta - Vᵀ * Y
  ∃ omega, IsLyapunov (Yᵀ * Y) (-AS) omega ∧ Z = eta - (1 / 2 : ℝ) • (Y * (omega - omegaᵀ))

/-- `Elliptope.retraction` (psd.py:241-242). -/
noncomputable def ellRetraction (Y V : Matrix n (Fin k) ℝ) : Matrix n (Fin k) ℝ :=
  ellNormalize (Y + V)

/-- `Elliptope.euclidean_to_riemannian_gradient` (psd.py:244-245). -/
def ellE2rg (Y G : Matrix n (Fin k) ℝ) : Matrix n (Fin k) ℝ := ellProjRows Y G

/-- Argument of the projection in `Elliptope.euclidean_to_riemannian_hessian` (psd.py:250-255). -/
def ellRowHess (Y G H V : Matrix n (Fin k) ℝ) : Matrix n (Fin k) ℝ :=
  let scalingGrad := rowSums G Y
  let hess : Matrix n (Fin k) ℝ := of fun i j => H i j - V i j * scalingGrad i
  let scalingHess := fun i => ∑ j, (V i j * G i j + Y i j * H i j)
  of fun i j => hess i j - Y i j * scalingHess i

/-- `Z` is a result of `Elliptope.euclidean_to_riemannian_hessian` (psd.py:247-256). -/
def IsEllE2rh (Y G H V Z : Matrix n (Fin k) ℝ) : Prop := IsEllProj Y (ellRowHess Y G H V) Z

/-- `Elliptope.random_point` (psd.py:258-259) for the array drawn. -/
noncomputable def ellRandomPoint (draw : Matrix n (Fin k) ℝ) : Matrix n (Fin k) ℝ := ellNormalize draw

/-- `T` is a result of `Elliptope.random_tangent_vector` (psd.py:261-263) for the array drawn. -/
def IsEllRandomTangent (Y draw T : Matrix n (Fin k) ℝ) : Prop :=
  ∃ Z, IsEllProj Y (ellRandomPoint draw) Z ∧ T = (ellNorm Y Z)⁻¹ • Z

/-- `Z` is a result of `Elliptope.transport` (psd.py:265-266). -/
def IsEllTransport (_A B V Z : Matrix n (Fin k) ℝ) : Prop := IsEllProj B V Z

end

/-- Dimension reported by `Elliptope` (psd.py:215). -/
def ellDim (n k : ℕ) : ℤ := n * (k - 1) - k * (k - 1) / 2

end Verif.Geo
