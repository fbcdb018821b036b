/-
`/repo/src/pymanopt/manifolds/fixed_rank.py`: real matrices with rows `m`, columns `n` and rank `k`.
Points `(u, s, vt)` and tangent vectors `(Up, M, Vp)` are triples; the arithmetic of
`_FixedRankTangentVector` (fixed_rank.py:206-244) is componentwise, which is that of the product
type.
-/
import Verif.Geo.Model.Stiefel
import Verif.Geo.Model.Lapack
import Mathlib.Data.Matrix.ColumnRowPartitioned

namespace Verif.Geo
open scoped BigOperators
open Matrix

variable {m n : Type*} {k : ℕ}

/-- `_FixedRankPoint` (fixed_rank.py:222-229): `u`, `s`, `vt`. -/
abbrev FRPoint (m n : Type*) (k : ℕ) :=
  Matrix m (Fin k) ℝ × (Fin k → ℝ) × Matrix (Fin k) n ℝ

/-- `_FixedRankTangentVector` (fixed_rank.py:231-244): `Up`, `M`, `Vp`. -/
abbrev FRTan (m n : Type*) (k : ℕ) :=
  Matrix m (Fin k) ℝ × Matrix (Fin k) (Fin k) ℝ × Matrix n (Fin k) ℝ

/-- Vectors of the ambient space: an array, or a tuple `(U, S, V)` for the matrix `U @ S @ V.T`
(fixed_rank.py:28-33).  A tuple whose `S` is not square is left out: `_apply_ambient_transpose`
raises a `ValueError` for it. -/
inductive FRAmbient (m n : Type*) where
  | dense (Z : Matrix m n ℝ)
  | lowRank (p : Type) [Fintype p] (U : Matrix m p ℝ) (S : Matrix p p ℝ) (V : Matrix n p ℝ)

/-- Dimension reported by `FixedRankEmbedded` (fixed_rank.py:66). -/
def frDim (m n k : ℕ) : ℤ := ((m : ℤ) + n - k) * k

/-- `FixedRankEmbedded.inner_product` (fixed_rank.py:73-79). -/
def frInner [Fintype m] [Fintype n] (_X : FRPoint m n k) (A B : FRTan m n k) : ℝ :=
  tensordot (fun x : m × Fin k => A.1 x.1 x.2) (fun x : m × Fin k => B.1 x.1 x.2) +
  tensordot (fun x : Fin k × Fin k => A.2.1 x.1 x.2) (fun x : Fin k × Fin k => B.2.1 x.1 x.2) +
  tensordot (fun x : n × Fin k => A.2.2 x.1 x.2) (fun x : n × Fin k => B.2.2 x.1 x.2)

/-- `FixedRankEmbedded._apply_ambient` (fixed_rank.py:81-84). -/
def frApply [Fintype n] (Z : FRAmbient m n) (W : Matrix n (Fin k) ℝ) : Matrix m (Fin k) ℝ :=
  match Z with
  | .dense Z => Z * W
  | @FRAmbient.lowRank _ _ _p _ U S V => U * S * Vᵀ * W

/-- `FixedRankEmbedded._apply_ambient_transpose` (fixed_rank.py:86-89). -/
def frApplyT [Fintype m] (Z : FRAmbient m n) (W : Matrix m (Fin k) ℝ) : Matrix n (Fin k) ℝ :=
  match Z with
  | .dense Z => Zᵀ * W
  | @FRAmbient.lowRank _ _ _p _ U S V => V * S * Uᵀ * W

/-- `FixedRankEmbedded.projection` (fixed_rank.py:91-114). -/
def frProj [Fintype m] [Fintype n] (X : FRPoint m n k) (Z : FRAmbient m n) : FRTan m n k :=
  let ZV := frApply Z X.2.2ᵀ
  let UtZV := X.1ᵀ * ZV
  let ZtU := frApplyT Z X.1
  (ZV - X.1 * UtZV, UtZV, ZtU - X.2.2ᵀ * UtZVᵀ)

open Classical in
/-- `FixedRankEmbedded.euclidean_to_riemannian_gradient` (fixed_rank.py:116-137); `none` stands for
the NaNs and infinities of a division by zero. -/
noncomputable def frE2rg [Fintype m] [Fintype n] (X G : FRPoint m n k) : Option (FRTan m n k) :=
  let u := X.1
  let s := X.2.1
  let vt := X.2.2
  let du := G.1
  let ds := G.2.1
  let dvt := G.2.2
  let utdu := uᵀ * du
  let uutdu := u * utdu
  let Up : Matrix m (Fin k) ℝ := of fun i j => (du - uutdu) i j / s j
  let vtdv := vt * dvtᵀ
  let vvtdv := vtᵀ * vtdv
  let Vp : Matrix n (Fin k) ℝ := of fun i j => (dvtᵀ - vvtdv) i j / s j
  let den : Matrix (Fin k) (Fin k) ℝ :=
    of fun i j => s j ^ 2 - s i ^ 2 + (1 : Matrix (Fin k) (Fin k) ℝ) i j
  let f : Matrix (Fin k) (Fin k) ℝ := of fun i j => 1 / den i j
  let M : Matrix (Fin k) (Fin k) ℝ := of fun i j =>
    f i j * (utdu - utduᵀ) i j * s j + s i * f i j * (vtdv - vtdvᵀ) i j + diagonal ds i j
  if (∀ j, s j ≠ 0) ∧ ∀ i j, den i j ≠ 0 then some (Up, M, Vp) else none

/-- `np.spacing(1)`. -/
noncomputable def npSpacing1 : ℝ := 1 / 2 ^ 52

/-- The matrix `T` of `FixedRankEmbedded.retraction` (fixed_rank.py:145-150). -/
def frT (X : FRPoint m n k) (Z : FRTan m n k) (Ru Rv : Matrix (Fin k) (Fin k) ℝ) :
    Matrix (Fin k ⊕ Fin k) (Fin k ⊕ Fin k) ℝ :=
  fromBlocks (diagonal X.2.1 + Z.2.1) Rvᵀ Ru 0

/-- Results of `FixedRankEmbedded.retraction` (fixed_rank.py:139-157), for all factors
`np.linalg.qr` and `np.linalg.svd` may return; `eps` is added to the singular values. -/
def IsFrRetract [Fintype m] [Fintype n] (eps : ℝ) (X : FRPoint m n k) (Z : FRTan m n k)
    (R : FRPoint m n k) : Prop :=
  ∃ (Qu : Matrix m (Fin k) ℝ) (Ru : Matrix (Fin k) (Fin k) ℝ) (Qv : Matrix n (Fin k) ℝ)
    (Rv : Matrix (Fin k) (Fin k) ℝ) (Ut : Matrix (Fin k ⊕ Fin k) (Fin (k + k)) ℝ)
    (St : Fin (k + k) → ℝ) (Vt : Matrix (Fin (k + k)) (Fin k ⊕ Fin k) ℝ),
    IsQR Z.1 Qu Ru ∧ IsQR Z.2.2 Qv Rv ∧ IsSVD (frT X Z Ru Rv) Ut St Vt ∧
    R = (fromCols X.1 Qu * Ut.submatrix id (Fin.castAdd k), fun i => St (Fin.castAdd k i) + eps,
      (fromCols X.2.2ᵀ Qv * Vtᵀ.submatrix id (Fin.castAdd k))ᵀ)

/-- `FixedRankEmbedded.norm` (fixed_rank.py:159-162). -/
noncomputable def frNorm [Fintype m] [Fintype n] (X : FRPoint m n k) (Z : FRTan m n k) : ℝ :=
  Real.sqrt (frInner X Z Z)

/-- `FixedRankEmbedded.random_point` (fixed_rank.py:164-168) from the two Stiefel points and the
sorted draw. -/
def frRandomPoint (u : Matrix m (Fin k) ℝ) (sorted : Fin k → ℝ) (v : Matrix n (Fin k) ℝ) :
    FRPoint m n k := (u, fun i => sorted i.rev, vᵀ)

/-- `FixedRankEmbedded.to_tangent_space` (fixed_rank.py:170-174). -/
def frToTangent [Fintype m] [Fintype n] (X : FRPoint m n k) (Z : FRTan m n k) : FRTan m n k :=
  (Z.1 - X.1 * X.1ᵀ * Z.1, Z.2.1, Z.2.2 - X.2.2ᵀ * X.2.2 * Z.2.2)

/-- `FixedRankEmbedded.random_tangent_vector` (fixed_rank.py:176-184) for the arrays drawn. -/
noncomputable def frRandomTangent [Fintype m] [Fintype n] (X : FRPoint m n k) (draw : FRTan m n k) :
    FRTan m n k := (frNorm X (frToTangent X draw))⁻¹ • frToTangent X draw

/-- `FixedRankEmbedded.embedding` (fixed_rank.py:186-191). -/
def frEmbed (X : FRPoint m n k) (Z : FRTan m n k) : FRAmbient m n :=
  .lowRank (Fin k ⊕ Fin k) (fromCols (X.1 * Z.2.1 + Z.1) X.1) 1 (fromCols X.2.2ᵀ Z.2.2)

/-- `FixedRankEmbedded.transport` (fixed_rank.py:193-196). -/
def frTransport [Fintype m] [Fintype n] (X Y : FRPoint m n k) (Z : FRTan m n k) : FRTan m n k :=
  frProj Y (frEmbed X Z)

/-- `FixedRankEmbedded.zero_vector` (fixed_rank.py:198-203). -/
def frZero (_X : FRPoint m n k) : FRTan m n k := (0, 0, 0)

end Verif.Geo
