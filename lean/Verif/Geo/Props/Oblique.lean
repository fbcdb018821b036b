/-
C63: the oblique manifold acts as the sphere on each column.
-/
import Verif.Geo.Model.Oblique
import Verif.Geo.Props.SphereSubspace
import Verif.Geo.Lemmas.Stack

namespace Verif.Geo
open scoped BigOperators
open Matrix

variable {m n : Type*} [Fintype m] [Fintype n]

/-- Column of a matrix. -/
def colOf (X : Matrix m n ℝ) (j : n) : m → ℝ := fun i => X i j

/-- Points: unit columns. -/
def OnOblique (X : Matrix m n ℝ) : Prop := ∀ j, OnSphere (colOf X j)

/-- Tangent vectors: each column orthogonal to the point's column. -/
def ObliqueTangent (X V : Matrix m n ℝ) : Prop := ∀ j, SphereTangent (colOf X j) (colOf V j)

omit [Fintype n] in
theorem colSums_eq (A B : Matrix m n ℝ) (j : n) : colSums A B j = tensordot (colOf A j) (colOf B j) :=
  rfl

omit [Fintype n] in
theorem colNorms_eq (V : Matrix m n ℝ) (j : n) : colNorms V j = npNorm (colOf V j) := by
  simp [colNorms, npNorm, colOf, sq_abs]

omit [Fintype n] in
theorem oblProj_col (X V : Matrix m n ℝ) (j : n) :
    colOf (oblProj X V) j = sphereProj (colOf X j) (colOf V j) := by
  funext i
  simp [colOf, oblProj, sphereProj, sphereInner, colSums, tensordot, mul_comm]

omit [Fintype n] in
theorem oblNormalize_col (X : Matrix m n ℝ) (j : n) :
    colOf (oblNormalize X) j = sphereNormalize (colOf X j) := by
  funext i
  simp only [colOf, oblNormalize, sphereNormalize, of_apply, Pi.smul_apply, smul_eq_mul]
  rw [div_eq_inv_mul]
  rfl

omit [Fintype n] in
/-- C63: the operations are those of the sphere on every column. -/
theorem C63_columns (A B X V : Matrix m n ℝ) (eps : ℝ) (j : n) :
    colOf (oblProj X V) j = sphereProj (colOf X j) (colOf V j) ∧
      colOf (oblExp X V) j = sphereExp (colOf X j) (colOf V j) ∧
      colOf (oblRetraction X V) j = sphereRetraction (colOf X j) (colOf V j) ∧
      colOf (oblPairMean A B) j = spherePairMean (colOf A j) (colOf B j) ∧
      colOf (oblTransport A B V) j = sphereTransport sphereProj (colOf A j) (colOf B j) (colOf V j) ∧
      (OnOblique A → OnOblique B →
        colOf (oblLog eps A B) j = sphereLog sphereProj eps (colOf A j) (colOf B j)) := by
  refine ⟨oblProj_col X V j, ?_, oblNormalize_col _ j, oblNormalize_col _ j, oblProj_col B V j, ?_⟩
  · funext i
    simp only [colOf, oblExp, of_apply, colNorms_eq]
    simp [sphereExp, sphereNorm, colOf, mul_comm]
  · intro hA hB
    funext i
    have hv := oblProj_col A (B - A) j
    rw [show (colOf (B - A) j) = colOf B j - colOf A j from rfl] at hv
    have hi := congrFun hv i
    simp only [sphereLog, sphereDist_eq (hA j) (hB j), sphereNorm, Pi.smul_apply, smul_eq_mul]
    rw [← hi, ← hv, ← colNorms_eq, mul_comm]
    rfl

omit [Fintype n] in
/-- C63: the converted Hessian is the sphere's on every column. -/
theorem C63_hessian_columns (X G H V : Matrix m n ℝ) (hX : OnOblique X) (j : n) :
    colOf (oblE2rh X G H V) j = sphereE2rh (colOf X j) (colOf G j) (colOf H j) (colOf V j) := by
  rw [sphereE2rh_eq (hX j), ← oblProj_col]
  funext i
  simp [colOf, oblE2rh, colSums, tensordot, mul_comm]

/-- C63: squared distances and squared norms add over the columns. -/
theorem C63_distance (A B V : Matrix m n ℝ) (hA : OnOblique A) (hB : OnOblique B) :
    oblDist A B ^ 2 = ∑ j, sphereDist (colOf A j) (colOf B j) ^ 2 ∧
      oblNorm A V ^ 2 = ∑ j, sphereNorm (colOf A j) (colOf V j) ^ 2 := by
  constructor
  · rw [oblDist, npNorm_sq_real, tensordot]
    refine Finset.sum_congr rfl fun j _ => ?_
    rw [sphereDist_eq (hA j) (hB j), if_neg, sq]
    · rfl
    · exact not_lt.mpr (dot_bounds (hA j) (hB j)).2
  · rw [oblNorm, npNorm_sq_real, tensordot, Fintype.sum_prod_type, Finset.sum_comm]
    refine Finset.sum_congr rfl fun j _ => ?_
    rw [sphereNorm, npNorm_sq_real]
    rfl

theorem oblInner_eq (X A B : Matrix m n ℝ) :
    oblInner X A B = ∑ j, tensordot (colOf A j) (colOf B j) := by
  rw [oblInner, tensordot, Fintype.sum_prod_type, Finset.sum_comm]
  rfl

theorem oblInner_inner (X : Matrix m n ℝ) : IsInner (oblInner X) := by
  have h : oblInner X = trDot := by
    funext A B
    rw [trDot_eq_sum, oblInner, tensordot, Fintype.sum_prod_type]
    simp
  rw [h]
  exact trDot_inner

omit [Fintype n] in
theorem obliqueTangent_subspace (X : Matrix m n ℝ) : IsSubspace (ObliqueTangent X) where
  zero j := (sphereTangent_subspace (colOf X j)).zero
  add hu hv j := (sphereTangent_subspace (colOf X j)).add (hu j) (hv j)
  smul c _ hu j := (sphereTangent_subspace (colOf X j)).smul c (hu j)

/-- C63: `projection` is the orthogonal projection onto the tangent space. -/
theorem C63_projection (X : Matrix m n ℝ) (hX : OnOblique X) :
    IsOrthProj (oblInner X) (ObliqueTangent X) (oblProj X) := by
  refine (oblInner_inner X).orthProj (obliqueTangent_subspace X) ?_ ?_
  · intro V j
    rw [oblProj_col]
    exact (C56_projection _ (hX j)).mem _
  · intro V W hW
    rw [oblInner_eq]
    refine Finset.sum_eq_zero fun j _ => ?_
    rw [show colOf (V - oblProj X V) j = colOf V j - colOf (oblProj X V) j from rfl, oblProj_col,
      tensordot_inner.sub_left, sub_eq_zero]
    exact ((C56_projection _ (hX j)).represents (colOf V j) (hW j)).symm

omit [Fintype n] in
/-- C63: points stay unit-column, vectors tangent, and the retraction and the exponential return
the point at zero. -/
theorem C63_stays (X Y V : Matrix m n ℝ) (hX : OnOblique X) (hY : OnOblique Y)
    (hV : ObliqueTangent X V) (eps : ℝ) :
    OnOblique (oblExp X V) ∧ OnOblique (oblRetraction X V) ∧
      ((∀ j, colOf Y j ≠ -colOf X j) → OnOblique (oblPairMean X Y)) ∧
      ObliqueTangent X (oblLog eps X Y) ∧ ObliqueTangent Y (oblTransport X Y V) ∧
      oblExp X 0 = X ∧ oblRetraction X 0 = X := by
  have hc := fun j => C63_columns X Y X V eps j
  have hc0 := fun j => C63_columns X Y X 0 eps j
  have h57 := fun j => C57_stays (colOf X j) (colOf V j) (hX j) (hV j)
  have ext_col : ∀ {A B : Matrix m n ℝ}, (∀ j, colOf A j = colOf B j) → A = B := by
    intro A B h
    ext i j
    exact congrFun (h j) i
  refine ⟨fun j => ?_, fun j => ?_, fun hne j => ?_, fun j => ?_, fun j => ?_,
    ext_col fun j => ?_, ext_col fun j => ?_⟩
  · rw [(hc j).2.1]; exact (h57 j).2.2.1
  · rw [(hc j).2.2.1]; exact (h57 j).2.1
  · rw [(hc j).2.2.2.1]; exact (C61_pair_mean _ _ (hX j) (hY j) (hne j)).1
  · rw [(hc j).2.2.2.2.2 hX hY]; exact log_tangent (hX j) eps
  · rw [(hc j).2.2.2.2.1]; exact (C56_projection _ (hY j)).mem _
  · rw [(hc0 j).2.1]; exact (h57 j).2.2.2.2
  · rw [(hc0 j).2.2.1]; exact (h57 j).2.2.2.1

/-- C63: the converted Hessian is tangent and symmetric when the Euclidean Hessian is. -/
theorem C63_hessian (X G : Matrix m n ℝ) (hX : OnOblique X)
    (H : Matrix m n ℝ → Matrix m n ℝ) (hH : ∀ U V, oblInner X U (H V) = oblInner X (H U) V) :
    IsSymmOn (oblInner X) (ObliqueTangent X) fun V => oblE2rh X G (H V) V := by
  have hP := C63_projection X hX
  refine ⟨fun {V} hV j => ?_, fun {U V} hU hV => ?_⟩
  · rw [C63_hessian_columns X G (H V) V hX, sphereE2rh_eq (hX j)]
    have := (sphereTangent_subspace (colOf X j)).add
      ((C56_projection _ (hX j)).mem (colOf (H V) j))
      ((sphereTangent_subspace (colOf X j)).smul (-tensordot (colOf X j) (colOf G j)) (hV j))
    simpa [sub_eq_add_neg] using this
  · have key : ∀ U W : Matrix m n ℝ, ObliqueTangent X U →
        oblInner X U (oblE2rh X G (H W) W) = oblInner X U (H W) -
          ∑ j, tensordot (colOf X j) (colOf G j) * tensordot (colOf U j) (colOf W j) := by
      intro U W hU
      have h1 := hP.represents (H W) hU
      rw [(oblInner_inner X).symm, (oblInner_inner X).symm (H W)] at h1
      rw [← h1, oblInner_eq, oblInner_eq, ← Finset.sum_sub_distrib]
      refine Finset.sum_congr rfl fun j _ => ?_
      rw [C63_hessian_columns X G (H W) W hX, sphereE2rh_eq (hX j), ← oblProj_col,
        tensordot_inner.sub_right, tensordot_inner.smul_right]
    rw [key U V hU, (oblInner_inner X).symm (oblE2rh X G (H U) U), key V U hV, hH U V,
      (oblInner_inner X).symm (H U)]
    congr 1
    refine Finset.sum_congr rfl fun j _ => ?_
    rw [tensordot_inner.symm (colOf V j)]

omit [Fintype n] in
/-- C55 holds on the oblique manifold. -/
theorem C55_oblique_partial (X V : Matrix m n ℝ) (hX : OnOblique X) :
    ObliqueTangent X (oblProj X V) := by
  intro j
  rw [oblProj_col]
  exact (C56_projection _ (hX j)).mem _

/-- C101 on the oblique manifold. -/
theorem C101_oblique (X draw : Matrix m n ℝ) (hX : OnOblique X) (hd : oblProj X draw ≠ 0) :
    ObliqueTangent X (oblRandomTangent X draw) ∧ oblNorm X (oblRandomTangent X draw) = 1 := by
  refine ⟨(obliqueTangent_subspace X).smul _ ((C63_projection X hX).mem draw), ?_⟩
  have hne : (fun x : m × n => oblProj X draw x.1 x.2) ≠ 0 := by
    intro h
    apply hd
    ext i j
    exact congrFun h (i, j)
  exact npNorm_inv_smul hne

/-- Hypotheses on a matrix with two different unit columns. -/
example : OnOblique !![(3 : ℝ) / 5, 0; 4 / 5, 1] ∧
    ObliqueTangent !![(3 : ℝ) / 5, 0; 4 / 5, 1] !![4, 7; -3, 0] ∧
    oblProj !![(3 : ℝ) / 5, 0; 4 / 5, 1] !![4, 7; -3, 0] ≠ 0 := by
  refine ⟨fun j => ?_, fun j => ?_, fun h => ?_⟩
  · fin_cases j <;> norm_num [OnSphere, colOf, Fin.sum_univ_two]
  · fin_cases j <;> norm_num [SphereTangent, colOf, Fin.sum_univ_two]
  · have := congrFun (congrFun h 0) 1
    norm_num [oblProj, colSums, Fin.sum_univ_two] at this

end Verif.Geo
