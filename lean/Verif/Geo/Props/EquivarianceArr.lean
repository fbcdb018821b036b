/-
C134 on Euclidean space, (skew-)symmetric matrices, spheres, the oblique manifold, the complex
circle, the positive orthant, the Poincaré ball, positive semidefinite matrices of fixed rank, the
elliptope and products.
-/
import Verif.Geo.Props.EquivarianceMat

namespace Verif.Geo
open Matrix Verif.Opt
open scoped ComplexOrder Topology

variable {κ ι m n : Type*} {𝕜 : Type*} [RCLike 𝕜]

/-- A linear map that preserves the inner product of arrays. -/
structure Isom {E : Type*} [AddCommGroup E] [Module ℝ E] (B : E → E → ℝ) (T : E →ₗ[ℝ] E) : Prop where
  surj : Function.Surjective T
  dot : ∀ a b, B (T a) (T b) = B a b

theorem Isom.affine {E : Type*} [AddCommGroup E] [Module ℝ E] {B : E → E → ℝ} {T : E →ₗ[ℝ] E}
    (h : Isom B T) : AffineMap' B T T T where
  line x d t := by rw [map_add, map_smul]
  surj := h.surj
  adj := h.dot

/-! ## Euclidean space -/

section euclidean
variable [Fintype ι] {T : (ι → 𝕜) →ₗ[ℝ] ι → 𝕜}

theorem Isom.norm (h : Isom retensordot T) (v : ι → 𝕜) : npNorm (T v) = npNorm v := by
  have h1 : npNorm (T v) ^ 2 = npNorm v ^ 2 := by rw [npNorm_sq, npNorm_sq, h.dot]
  exact (sq_eq_sq₀ (Real.sqrt_nonneg _) (Real.sqrt_nonneg _)).1 h1

/-- **C134** (Euclidean, real and complex): rigid motions are symmetries. -/
theorem C134_euclidean (h : Isom retensordot T) (b : ι → 𝕜) (dim : ℤ) :
    Symmetry retensordot (fun _ => True) (fun _ _ => True) (euclideanMfd (ι := ι) (𝕜 := 𝕜) dim)
      (euclideanMfd dim) (subE2rg eucProj) (subE2rg eucProj) eucE2rh eucE2rh (fun _ v => v)
      (fun _ v => v) (fun x => T x + b) T T T ∧
    TranslatesLog (fun x => T x + b) (fun _ v => T v) (fun _ => True) (fun _ _ => True)
      (euclideanMfd (ι := ι) (𝕜 := 𝕜) dim) (euclideanMfd dim) ∧
    TranslatesMean (fun x => T x + b) (fun _ => True)
      (euclideanMfd (ι := ι) (𝕜 := 𝕜) dim) (euclideanMfd dim) := by
  refine ⟨symmetry_of T ⟨fun x d t => by rw [map_add, map_smul]; abel, h.surj, h.dot⟩
    (fun _ _ _ _ => rfl) (fun _ v _ _ => h.norm v) (fun _ v w _ _ _ => h.dot v w)
    (fun x v _ _ => ?_) (fun _ _ _ _ _ _ => rfl) (fun _ _ => (map_zero T).symm)
    (fun _ _ _ _ => rfl) (fun _ _ _ => rfl) fun _ _ _ _ _ _ => rfl,
    ⟨fun _ _ _ _ => trivial, fun x y _ _ => ?_⟩, fun _ _ _ _ => trivial, fun x y _ _ => ?_⟩
  · change T x + b + T v = T (x + v) + b
    rw [map_add]; abel
  · change T y + b - (T x + b) = T (y - x)
    rw [map_sub]; abel
  · change (1 / 2 : ℝ) • (T x + b + (T y + b)) = T ((1 / 2 : ℝ) • (x + y)) + b
    rw [map_smul, map_add]; module

end euclidean

/-! ## Symmetric and skew-symmetric matrices -/

section symmetric
variable [Fintype n] [DecidableEq n] {A : Stack κ n n ℝ}

omit [DecidableEq n] in
theorem sym_translate (V : Stack κ n n ℝ) : multisym (congrMap A V) = congrMap A (multisym V) := by
  have := herm_translate A V
  have e : ∀ W : Stack κ n n ℝ, multiherm W = multisym W := by
    intro W; funext k
    change (1 / 2 : ℝ) • (W k + (W k)ᴴ) = (1 / 2 : ℝ) • (W k + (W k)ᵀ)
    rw [conjTranspose_eq_transpose_of_trivial]
  rw [e, e] at this
  exact this

omit [DecidableEq n] in
theorem skew_translate (V : Stack κ n n ℝ) :
    multiskew (congrMap A V) = congrMap A (multiskew V) := by
  have e : ∀ W : Stack κ n n ℝ, multiskew W = W - multisym W := by
    intro W
    rw [multiskew, multisym]; module
  rw [e, e, sym_translate, map_sub]

theorem congr_unitary (h : ∀ k, (A k)ᴴ * A k = 1) : Unitary2 A (fun k => (A k)ᴴ) :=
  ⟨h, fun k => by rw [conjTranspose_conjTranspose]; exact mul_eq_one_comm.mp (h k)⟩

/-- **C134** (symmetric and skew-symmetric matrices): changes of orthonormal basis. -/
theorem C134_symmetric [Fintype κ] (h : ∀ k, (A k)ᴴ * A k = 1) (dim : ℤ) :
    (Symmetry stackDot SymStack (fun _ => SymStack) (symmetricMfd (κ := κ) (n := n) dim)
      (symmetricMfd dim) (subE2rg symProj) (subE2rg symProj) symE2rh symE2rh (fun _ v => v)
      (fun _ v => v) (congrMap A) (congrMap A) (congrMap A) (congrMap A) ∧
    Symmetry stackDot SkewStack (fun _ => SkewStack) (symmetricMfd (κ := κ) (n := n) dim)
      (symmetricMfd dim) (subE2rg skewProj) (subE2rg skewProj) skewE2rh skewE2rh (fun _ v => v)
      (fun _ v => v) (congrMap A) (congrMap A) (congrMap A) (congrMap A)) ∧
    (TranslatesLog (congrMap A) (fun _ V => congrMap A V) SymStack (fun _ => SymStack)
      (symmetricMfd dim) (symmetricMfd dim) ∧
    TranslatesMean (congrMap A) SymStack (symmetricMfd (κ := κ) (n := n) dim) (symmetricMfd dim)) ∧
    TranslatesLog (congrMap A) (fun _ V => congrMap A V) SkewStack (fun _ => SkewStack)
      (symmetricMfd dim) (symmetricMfd dim) ∧
    TranslatesMean (congrMap A) SkewStack (symmetricMfd (κ := κ) (n := n) dim) (symmetricMfd dim) := by
  have hu := congr_unitary h
  have haff : AffineMap' stackDot (congrMap A) (congrMap A) (congrMap A) := hu.affine
  have hlog : ∀ X Y : Stack κ n n ℝ, eucLog (congrMap A X) (congrMap A Y) = congrMap A (eucLog X Y) :=
    fun X Y => (map_sub (congrMap A) Y X).symm
  have hmean : ∀ X Y : Stack κ n n ℝ,
      eucPairMean (congrMap A X) (congrMap A Y) = congrMap A (eucPairMean X Y) := fun X Y => by
    rw [eucPairMean, eucPairMean, map_smul, map_add]
  refine ⟨⟨?_, ?_⟩, ⟨⟨fun X Y hX hY => ?_, fun X Y _ _ => hlog X Y⟩,
    fun X Y hX hY => ?_, fun X Y _ _ => hmean X Y⟩,
    ⟨fun X Y hX hY => ?_, fun X Y _ _ => hlog X Y⟩,
    fun X Y hX hY => ?_, fun X Y _ _ => hmean X Y⟩
  · exact symmetry_of (congrMap A) haff (fun _ _ _ _ => rfl) (fun _ V _ _ => hu.norm V)
      (fun _ V W _ _ _ => hu.dot V W) (fun X V _ _ => (map_add (congrMap A) X V).symm)
      (fun _ _ _ _ _ _ => rfl) (fun _ _ => (map_zero _).symm) (fun _ _ _ _ => rfl)
      (fun _ G _ => sym_translate G) fun _ _ H _ _ _ => sym_translate H
  · exact symmetry_of (congrMap A) haff (fun _ _ _ _ => rfl) (fun _ V _ _ => hu.norm V)
      (fun _ V W _ _ _ => hu.dot V W) (fun X V _ _ => (map_add (congrMap A) X V).symm)
      (fun _ _ _ _ _ _ => rfl) (fun _ _ => (map_zero _).symm) (fun _ _ _ _ => rfl)
      (fun _ G _ => skew_translate G) fun _ _ H _ _ _ => skew_translate H
  · exact sub_tan_of (On := fun _ => True) (fun _ => symStack_subspace) X Y X trivial hY hX
  · exact symStack_subspace.smul _ (symStack_subspace.add hX hY)
  · exact sub_tan_of (On := fun _ => True) (fun _ => skewStack_subspace) X Y X trivial hY hX
  · exact skewStack_subspace.smul _ (skewStack_subspace.add hX hY)

end symmetric

/-! ## Spheres -/

section sphere
variable [Fintype ι] {T : (ι → ℝ) →ₗ[ℝ] ι → ℝ}

theorem Isom.norm_real (h : Isom tensordot T) (v : ι → ℝ) : npNorm (T v) = npNorm v := by
  rw [npNorm_eq_sqrt, npNorm_eq_sqrt, h.dot]

theorem sphereProj_translate (h : Isom tensordot T) (x v : ι → ℝ) :
    sphereProj (T x) (T v) = T (sphereProj x v) := by
  rw [sphereProj, sphereProj, sphereInner, sphereInner, h.dot, map_sub, map_smul]

theorem sphereNormalize_translate (h : Isom tensordot T) (v : ι → ℝ) :
    sphereNormalize (T v) = T (sphereNormalize v) := by
  rw [sphereNormalize, sphereNormalize, h.norm_real, map_smul]

theorem sphereWeingarten_translate (h : Isom tensordot T) (x v w : ι → ℝ) :
    sphereWeingarten (T x) (T v) (T w) = T (sphereWeingarten x v w) := by
  rw [sphereWeingarten, sphereWeingarten, sphereInner, sphereInner, h.dot, map_smul]

theorem sphereRetraction_translate (h : Isom tensordot T) (x v : ι → ℝ) :
    sphereRetraction (T x) (T v) = T (sphereRetraction x v) := by
  rw [sphereRetraction, sphereRetraction, ← map_add, sphereNormalize_translate h]

theorem sphereLog_translate (h : Isom tensordot T) {proj proj' : (ι → ℝ) → (ι → ℝ) → ι → ℝ}
    (hp : ∀ x v, proj' (T x) (T v) = T (proj x v)) (eps : ℝ) (x y : ι → ℝ) :
    sphereLog proj' eps (T x) (T y) = T (sphereLog proj eps x y) := by
  simp only [sphereLog, sphereDist, sphereInner, sphereNorm]
  rw [← map_sub, hp, h.norm_real, h.dot, map_smul]

/-- **C134** (sphere): the orthogonal maps of the ambient space are symmetries. -/
theorem C134_sphere (h : Isom tensordot T) (eps : ℝ) :
    Symmetry tensordot OnSphere SphereTangent (sphereMfd (ι := ι) eps) (sphereMfd eps) sphereE2rg
      sphereE2rg sphereE2rh sphereE2rh (fun _ v => v) (fun _ v => v) T T T T ∧
    TranslatesLog T (fun _ v => T v) OnSphere SphereTangent (sphereMfd (ι := ι) eps)
      (sphereMfd eps) := by
  refine ⟨symmetry_of T h.affine (fun _ _ _ _ => rfl) (fun _ v _ _ => h.norm_real v)
    (fun _ v w _ _ _ => h.dot v w) (fun x v _ _ => sphereRetraction_translate h x v)
    (fun _ y v _ _ _ => sphereProj_translate h y v) (fun _ _ => (map_zero T).symm)
    (fun x v _ _ => sphereProj_translate h x v) (fun x g _ => sphereProj_translate h x g)
    fun x g e v _ _ => ?_,
    (C109_sphere (ι := ι) eps (fun _ => 0) (fun _ => 0) fun _ _ => 0).2.2,
    fun x y _ _ => sphereLog_translate h (sphereProj_translate h) eps x y⟩
  rw [sphereE2rh, sphereE2rh, subE2rh, subE2rh, sphereProj_translate h, sphereProj_translate h,
    ← map_sub, sphereWeingarten_translate h, map_add]

/-- **C134** (intersections of the sphere with subspaces): the orthogonal maps that take one
subspace to the other. -/
theorem C134_sphere_subspace [DecidableEq ι] (h : Isom tensordot T) {S : (ι → ℝ) → Prop}
    {M M' : Matrix ι ι ℝ} (hS : IsSubspace S) (hM : IsOrthProj tensordot S M.mulVec)
    (hT : ∀ v, M'.mulVec (T v) = T (M.mulVec v)) (dim : ℤ) (eps : ℝ) :
    Symmetry tensordot (OnSubspaceSphere S) (SubspaceTangent S) (sphereSubspaceMfd M dim eps)
      (sphereSubspaceMfd M' dim eps) (subE2rg (subspaceProj M)) (subE2rg (subspaceProj M'))
      (subE2rh (subspaceProj M) sphereWeingarten) (subE2rh (subspaceProj M') sphereWeingarten)
      (fun _ v => v) (fun _ v => v) T T T T ∧
    TranslatesLog T (fun _ v => T v) (OnSubspaceSphere S) (SubspaceTangent S)
      (sphereSubspaceMfd M dim eps) (sphereSubspaceMfd M' dim eps) := by
  have hp : ∀ x v, subspaceProj M' (T x) (T v) = T (subspaceProj M x v) := fun x v => by
    rw [subspaceProj, subspaceProj, sphereProj_translate h, hT]
  refine ⟨symmetry_of T h.affine (fun _ _ _ _ => rfl) (fun _ v _ _ => h.norm_real v)
    (fun _ v w _ _ _ => h.dot v w) (fun x v _ _ => sphereRetraction_translate h x v)
    (fun _ y v _ _ _ => hp y v) (fun _ _ => (map_zero T).symm)
    (fun x v _ _ => sphereProj_translate h x v) (fun x g _ => hp x g)
    fun x g e v _ _ => ?_,
    (C109_sphere_subspace hS hM dim eps (fun _ => 0) (fun _ => 0) fun _ _ => 0).2.2,
    fun x y _ _ => sphereLog_translate h hp eps x y⟩
  rw [subE2rh, subE2rh, hp, hp, ← map_sub, sphereWeingarten_translate h, map_add]

end sphere

/-! ## Oblique manifold -/

section oblique
variable [Fintype m]

/-- `X ↦ A X C`. -/
def mulBoth {p : Type*} [Fintype p] (A : Matrix m m 𝕜) (C : Matrix p p 𝕜) :
    Matrix m p 𝕜 →ₗ[ℝ] Matrix m p 𝕜 where
  toFun X := A * X * C
  map_add' X Y := by rw [Matrix.mul_add, Matrix.add_mul]
  map_smul' t X := by rw [Matrix.mul_smul, Matrix.smul_mul]; rfl

theorem mulBoth_apply {p : Type*} [Fintype p] (A : Matrix m m 𝕜) (C : Matrix p p 𝕜)
    (X : Matrix m p 𝕜) : mulBoth A C X = A * X * C := rfl

/-- Multiplication by unitary matrices. -/
theorem mulBoth_isom {p : Type*} [Fintype p] [DecidableEq m] [DecidableEq p] {A : Matrix m m 𝕜}
    {C : Matrix p p 𝕜} (hA : Aᴴ * A = 1) (hC : Cᴴ * C = 1) :
    Isom (E := Matrix m p 𝕜) trDot (mulBoth A C) where
  surj Y := ⟨Aᴴ * Y * Cᴴ, by
    rw [mulBoth_apply]
    calc A * (Aᴴ * Y * Cᴴ) * C = A * Aᴴ * Y * (Cᴴ * C) := by simp only [Matrix.mul_assoc]
      _ = Y := by rw [mul_eq_one_comm.mp hA, hC, Matrix.one_mul, Matrix.mul_one]⟩
  dot X Y := by
    rw [mulBoth_apply, mulBoth_apply, trDot_mul_right, trDot_mul_left]
    congr 1
    calc Aᴴ * (A * Y * C * Cᴴ) = Aᴴ * A * Y * (C * Cᴴ) := by simp only [Matrix.mul_assoc]
      _ = Y := by rw [hA, mul_eq_one_comm.mp hC, Matrix.one_mul, Matrix.mul_one]

variable [Fintype n] [DecidableEq m] [DecidableEq n] {A : Matrix m m ℝ}

/-- Inner products of columns. -/
theorem colSums_translate (hA : Aᴴ * A = 1) (X Y : Matrix m n ℝ) :
    colSums (mulBoth A 1 X) (mulBoth A 1 Y) = colSums X Y := by
  have e : ∀ X Y : Matrix m n ℝ, colSums X Y = fun j => (Xᴴ * Y) j j := by
    intro X Y; funext j
    simp [colSums, Matrix.mul_apply]
  rw [e, e, mulBoth_apply, mulBoth_apply, Matrix.mul_one, Matrix.mul_one, conjTranspose_mul,
    Matrix.mul_assoc, ← Matrix.mul_assoc Aᴴ, hA, Matrix.one_mul]

omit [DecidableEq m] in
/-- Scaling the columns. -/
theorem scale_translate (X : Matrix m n ℝ) (c : n → ℝ) :
    (of fun i j => mulBoth A 1 X i j * c j) = mulBoth A 1 (of fun i j => X i j * c j) := by
  have e : ∀ X : Matrix m n ℝ, (of fun i j => X i j * c j) = X * diagonal c := by
    intro X; ext i j
    rw [mul_diagonal]; rfl
  have := e (mulBoth A 1 X)
  rw [e X]
  rw [this, mulBoth_apply, mulBoth_apply, Matrix.mul_one, Matrix.mul_one, Matrix.mul_assoc]

theorem oblProj_translate (hA : Aᴴ * A = 1) (X V : Matrix m n ℝ) :
    oblProj (mulBoth A 1 X) (mulBoth A 1 V) = mulBoth A 1 (oblProj X V) := by
  have e : ∀ X V : Matrix m n ℝ, oblProj X V = V - of fun i j => X i j * colSums X V j :=
    fun _ _ => rfl
  rw [e, e, colSums_translate hA, scale_translate, map_sub]

omit [Fintype n] [DecidableEq m] [DecidableEq n] in
theorem npNorm_col (A : Matrix m n ℝ) (j : n) : (npNorm fun i => A i j) = Real.sqrt (colSums A A j) := by
  rw [npNorm_eq_sqrt]; rfl

theorem oblNormalize_translate (hA : Aᴴ * A = 1) (X : Matrix m n ℝ) :
    oblNormalize (mulBoth A 1 X) = mulBoth A 1 (oblNormalize X) := by
  have e : ∀ X : Matrix m n ℝ, oblNormalize X = of fun i j => X i j * (Real.sqrt (colSums X X j))⁻¹ := by
    intro X; ext i j
    rw [oblNormalize, of_apply, of_apply, npNorm_col, div_eq_mul_inv]
  rw [e, e, colSums_translate hA, scale_translate]

omit [DecidableEq m] [DecidableEq n] in
theorem oblInner_sums (X V W : Matrix m n ℝ) : oblInner X V W = ∑ j, colSums V W j := by
  simp only [oblInner, tensordot, Fintype.sum_prod_type, colSums]
  exact Finset.sum_comm

omit [DecidableEq m] [DecidableEq n] in
theorem oblNorm_eq (X V : Matrix m n ℝ) : oblNorm X V = Real.sqrt (oblInner X V V) := by
  rw [oblNorm, npNorm_eq_sqrt]; rfl

omit [Fintype n] [DecidableEq m] [DecidableEq n] in
theorem colNorms_sums (V : Matrix m n ℝ) : colNorms V = fun j => Real.sqrt (colSums V V j) := by
  funext j; simp only [colNorms, colSums, sq]

/-- **C134** (oblique manifold): the orthogonal maps of the columns' space. -/
theorem C134_oblique (hA : Aᴴ * A = 1) (dim : ℤ) (eps : ℝ) :
    Symmetry trDot OnOblique ObliqueTangent (obliqueMfd (m := m) (n := n) dim eps)
      (obliqueMfd dim eps) (subE2rg oblProj) (subE2rg oblProj) oblE2rh oblE2rh (fun _ v => v)
      (fun _ v => v) (mulBoth A 1) (mulBoth A 1) (mulBoth A 1) (mulBoth A 1) ∧
    TranslatesLog (mulBoth A 1) (fun _ V => mulBoth A 1 V) OnOblique ObliqueTangent
      (obliqueMfd (m := m) (n := n) dim eps) (obliqueMfd dim eps) := by
  have hi : ∀ X V W : Matrix m n ℝ, oblInner (mulBoth A 1 X) (mulBoth A 1 V) (mulBoth A 1 W) =
      oblInner X V W := fun X V W => by rw [oblInner_sums, oblInner_sums, colSums_translate hA]
  refine ⟨symmetry_of (mulBoth A 1) (mulBoth_isom hA (by simp)).affine (fun _ _ _ _ => rfl)
    (fun X V _ _ => by rw [oblNorm_eq, oblNorm_eq, hi]) (fun X V W _ _ _ => hi X V W)
    (fun X V _ _ => ?_) (fun _ Y V _ _ _ => oblProj_translate hA Y V) (fun _ _ => (map_zero _).symm)
    (fun X V _ _ => oblProj_translate hA X V) (fun X G _ => oblProj_translate hA X G)
    fun X G H V _ _ => ?_,
    (C109_oblique (m := m) (n := n) dim eps (fun _ => 0) (fun _ => 0) fun _ _ => 0).2.2,
    fun X Y _ _ => ?_⟩
  · rw [oblRetraction, oblRetraction, ← map_add, oblNormalize_translate hA]
  · have e : ∀ X G H V : Matrix m n ℝ, oblE2rh X G H V =
      oblProj X H - of fun i j => V i j * colSums X G j := fun _ _ _ _ => rfl
    rw [e, e, colSums_translate hA, scale_translate, oblProj_translate hA, map_sub]
  · change oblLog eps (mulBoth A 1 X) (mulBoth A 1 Y) = mulBoth A 1 (oblLog eps X Y)
    simp only [oblLog]
    rw [← map_sub, oblProj_translate hA, colNorms_sums, colNorms_sums, colSums_translate hA,
      colSums_translate hA, scale_translate]

end oblique

/-! ## Complex circle -/

section circle
variable [Fintype ι]

/-- Multiplication of the entries by fixed numbers. -/
def scaleMap {𝕂 : Type*} [RCLike 𝕂] (c : ι → 𝕂) : (ι → 𝕂) →ₗ[ℝ] ι → 𝕂 where
  toFun z := fun i => c i * z i
  map_add' z w := by funext i; exact mul_add _ _ _
  map_smul' t z := by funext i; exact mul_smul_comm t (c i) (z i)

omit [Fintype ι] in
theorem scaleMap_apply {𝕂 : Type*} [RCLike 𝕂] (c z : ι → 𝕂) (i : ι) : scaleMap c z i = c i * z i := rfl

variable {c : ι → ℂ} (hc : ∀ i, ‖c i‖ = 1)
include hc

omit [Fintype ι] in
theorem star_scale (i : ι) (a b : ℂ) : star (c i * a) * (c i * b) = star a * b := by
  have h : star (c i) * c i = 1 := by
    rw [Complex.star_def, Complex.conj_mul', hc]; simp
  rw [star_mul', mul_mul_mul_comm, h, one_mul]

theorem scale_isom : Isom retensordot (scaleMap c) where
  surj w := ⟨fun i => (c i)⁻¹ * w i, by
    funext i
    have h : c i ≠ 0 := by
      intro h
      have := hc i
      rw [h, norm_zero] at this
      exact zero_ne_one this
    rw [scaleMap_apply, mul_inv_cancel_left₀ h]⟩
  dot a b := by
    simp only [retensordot, scaleMap_apply]
    congr 1
    exact Finset.sum_congr rfl fun i _ => star_scale hc i _ _

omit [Fintype ι] in
theorem ccProj_translate (z v : ι → ℂ) : ccProj (scaleMap c z) (scaleMap c v) = scaleMap c (ccProj z v) := by
  funext i
  simp only [ccProj, scaleMap_apply]
  rw [star_scale hc]; ring

omit [Fintype ι] in
theorem ccNormalize_translate (z : ι → ℂ) :
    ccNormalize (scaleMap c z) = scaleMap c (ccNormalize z) := by
  funext i
  simp only [ccNormalize, scaleMap_apply]
  rw [norm_mul, hc, one_mul, mul_div_assoc]

/-- **C134** (complex circle): multiplying the entries by fixed numbers of modulus one is a
symmetry. -/
theorem C134_complex_circle (log log' : (ι → ℂ) → (ι → ℂ) → ι → ℂ) :
    Symmetry retensordot OnCircles CirclesTangent (complexCircleMfd log) (complexCircleMfd log')
      (subE2rg ccProj) (subE2rg ccProj) ccE2rh ccE2rh (fun _ v => v) (fun _ v => v) (scaleMap c)
      (scaleMap c) (scaleMap c) (scaleMap c) := by
  have h := scale_isom hc
  refine symmetry_of (scaleMap c) h.affine (fun _ _ _ _ => rfl) (fun _ v _ _ => h.norm v)
    (fun z v w _ _ _ => h.dot v w) (fun z v _ _ => ?_) (fun _ y v _ _ _ => ccProj_translate hc y v)
    (fun _ _ => (map_zero _).symm) (fun z v _ _ => ccProj_translate hc z v)
    (fun z g _ => ccProj_translate hc z g) fun z g e v _ _ => ?_
  · rw [ccRetraction, ccRetraction, ← map_add, ccNormalize_translate hc]
  · rw [ccE2rh, ccE2rh, ← ccProj_translate hc]
    congr 1
    funext i
    simp only [scaleMap_apply]
    have h1 : c i * z i * star (c i * g i) = z i * star (g i) := by
      rw [mul_comm, star_scale hc, mul_comm]
    rw [h1]; ring

end circle

/-! ## Positive orthant -/

section positive
variable [Fintype ι] {c : ι → ℝ}

/-- **C134** (positive): changes of units `x ↦ c ∘ x`, `c` positive, are symmetries, with either
transport. -/
theorem C134_positive (hc : ∀ i, 0 < c i) (dim : ℤ) (parallel : Bool)
    (pairMean pairMean' : (ι → ℝ) → (ι → ℝ) → ι → ℝ) :
    Symmetry tensordot PosPoint (fun _ _ => True) (positiveMfd dim parallel pairMean)
      (positiveMfd dim parallel pairMean') posE2rg posE2rg posE2rh posE2rh (fun _ v => v)
      (fun _ v => v) (scaleMap c) (scaleMap c) (scaleMap c) (scaleMap c⁻¹) ∧
    TranslatesLog (scaleMap c) (fun _ v => scaleMap c v) PosPoint (fun _ _ => True)
      (positiveMfd dim parallel pairMean) (positiveMfd dim parallel pairMean') := by
  have h0 : ∀ i, c i ≠ 0 := fun i => (hc i).ne'
  have hdiv : ∀ a p : ι → ℝ, scaleMap c a / scaleMap c p = a / p := fun a p => funext fun i =>
    mul_div_mul_left _ _ (h0 i)
  have hi : ∀ p a b : ι → ℝ, posInner (scaleMap c p) (scaleMap c a) (scaleMap c b) = posInner p a b :=
    fun p a b => by rw [posInner, hdiv, hdiv, posInner]
  refine ⟨symmetry_of (scaleMap c) ⟨fun x d t => by rw [map_add, map_smul], fun w => ⟨scaleMap c⁻¹ w,
      funext fun i => mul_inv_cancel_left₀ (h0 i) (w i)⟩, fun a b => ?_⟩ (fun _ _ _ _ => rfl)
    (fun p v _ _ => by rw [posNorm, hi, posNorm]) (fun p v w _ _ _ => hi p v w)
    (fun p v hp _ => ?_) (fun x y v hx hy _ => ?_) (fun _ _ => (map_zero _).symm)
    (fun _ _ _ _ => rfl) (fun p g _ => ?_) fun p g e v hp _ => ?_,
    fun _ _ _ _ => trivial, fun a b ha hb => ?_⟩
  · simp only [tensordot, scaleMap_apply]
    refine Finset.sum_congr rfl fun i _ => ?_
    have := h0 i
    simp only [Pi.inv_apply]; field_simp
  · funext i
    have := h0 i
    have := (hp i).ne'
    simp only [posRetract, scaleMap_apply]; field_simp
  · cases parallel
    · rfl
    · funext i
      have := h0 i
      have := (hx i).ne'
      simp only [posTransport, posParallel, if_true, scaleMap_apply, Pi.mul_apply, Pi.div_apply]
      field_simp
  · funext i
    have := h0 i
    simp only [posE2rg, scaleMap_apply, Pi.mul_apply, Pi.pow_apply, Pi.inv_apply]; field_simp
  · funext i
    have := h0 i
    simp only [posE2rh, scaleMap_apply, Pi.mul_apply, Pi.pow_apply, Pi.inv_apply, Pi.add_apply]
    field_simp
  · funext i
    change c i * a i * (Real.log (c i * b i) - Real.log (c i * a i)) =
      c i * (a i * (Real.log (b i) - Real.log (a i)))
    rw [Real.log_mul (h0 i) (hb i).ne', Real.log_mul (h0 i) (ha i).ne']; ring

end positive

/-! ## Poincaré ball -/

section poincare
variable [Fintype κ] [Fintype ι] {T : κ → (ι → ℝ) →ₗ[ℝ] ι → ℝ}

/-- Linear maps of the vectors of a stack. -/
def blockMap (T : κ → (ι → ℝ) →ₗ[ℝ] ι → ℝ) : (κ → ι → ℝ) →ₗ[ℝ] κ → ι → ℝ where
  toFun X := fun k => T k (X k)
  map_add' X Y := by funext k; exact map_add (T k) _ _
  map_smul' t X := by funext k; exact map_smul (T k) _ _

theorem pbMobius_translate {T : (ι → ℝ) →ₗ[ℝ] ι → ℝ} (h : Isom tensordot T) (a b : ι → ℝ) :
    pbMobius (T a) (T b) = T (pbMobius a b) := by
  have e : ∀ a b : ι → ℝ, pbMobius a b =
      ((1 + 2 * tensordot a b + tensordot b b) /
        (1 + 2 * tensordot a b + tensordot a a * tensordot b b)) • a +
      ((1 - tensordot a a) / (1 + 2 * tensordot a b + tensordot a a * tensordot b b)) • b := by
    intro a b; funext i
    simp only [pbMobius, Pi.add_apply, Pi.smul_apply, smul_eq_mul]; ring
  rw [e, e, h.dot, h.dot, h.dot, map_add, map_smul, map_smul]

theorem pbFactor_translate {T : (ι → ℝ) →ₗ[ℝ] ι → ℝ} (h : Isom tensordot T) (x : ι → ℝ) :
    pbFactor (T x) = pbFactor x := by rw [pbFactor, h.dot, pbFactor]

theorem pbExp1_translate {T : (ι → ℝ) →ₗ[ℝ] ι → ℝ} (h : Isom tensordot T) (x v : ι → ℝ) :
    pbExp1 (T x) (T v) = T (pbExp1 x v) := by
  have e : ∀ v : ι → ℝ, ∀ t : ℝ, (fun i => v i * t) = t • v := fun v t => by
    funext i; simp [mul_comm]
  simp only [pbExp1, e]
  rw [h.norm_real, pbFactor_translate h, ← map_smul, pbMobius_translate h]

theorem pbE2rg1_translate {T : (ι → ℝ) →ₗ[ℝ] ι → ℝ} (h : Isom tensordot T) (x g : ι → ℝ) :
    pbE2rg1 (T x) (T g) = T (pbE2rg1 x g) := by
  have e : ∀ x g : ι → ℝ, pbE2rg1 x g = (1 / pbFactor x ^ 2) • g := fun x g => by
    funext i; simp [pbE2rg1, mul_comm]
  rw [e, e, pbFactor_translate h, map_smul]

theorem pbE2rh1_translate {T : (ι → ℝ) →ₗ[ℝ] ι → ℝ} (h : Isom tensordot T) (x g e v : ι → ℝ) :
    pbE2rh1 (T x) (T g) (T e) (T v) = T (pbE2rh1 x g e v) := by
  have e' : ∀ x g e v : ι → ℝ, pbE2rh1 x g e v = (pbFactor x)⁻¹ •
      (tensordot g x • v - tensordot x v • g - tensordot g v • x + (pbFactor x)⁻¹ • e) := by
    intro x g e v
    funext i
    simp only [pbE2rh1, Pi.add_apply, Pi.sub_apply, Pi.smul_apply, smul_eq_mul]
    ring
  rw [e', e', pbFactor_translate h, h.dot, h.dot, h.dot]
  simp only [map_smul, map_add, map_sub]

/-- The inner product of stacks of vectors. -/
def blockDot (A B : κ → ι → ℝ) : ℝ := ∑ k, tensordot (A k) (B k)

theorem pbInner_blocks (X A B : κ → ι → ℝ) :
    pbInner X A B = ∑ k, tensordot (A k) (B k) * pbFactor (X k) ^ 2 := by
  simp only [pbInner, tensordot, Fintype.sum_prod_type, Finset.sum_mul, mul_assoc]

/-- **C134** (Poincaré ball): the orthogonal maps of the vectors are symmetries.  (The class
implements no `transport`; the two parameters must correspond.) -/
theorem C134_poincare (h : ∀ k, Isom tensordot (T k)) (dim : ℤ)
    {transport transport' : (κ → ι → ℝ) → (κ → ι → ℝ) → (κ → ι → ℝ) → κ → ι → ℝ}
    (ht : ∀ X Y V, transport' (blockMap T X) (blockMap T Y) (blockMap T V) =
      blockMap T (transport X Y V))
    (log log' pairMean pairMean' : (κ → ι → ℝ) → (κ → ι → ℝ) → κ → ι → ℝ) :
    Symmetry blockDot InBalls (fun _ _ => True) (poincareMfd dim transport log pairMean)
      (poincareMfd dim transport' log' pairMean') pbE2rg pbE2rg pbE2rh pbE2rh (fun _ v => v)
      (fun _ v => v) (blockMap T) (blockMap T) (blockMap T) (blockMap T) := by
  have hi : ∀ X V W, pbInner (blockMap T X) (blockMap T V) (blockMap T W) = pbInner X V W :=
    fun X V W => by
      rw [pbInner_blocks, pbInner_blocks]
      refine Finset.sum_congr rfl fun k _ => ?_
      change tensordot (T k (V k)) (T k (W k)) * pbFactor (T k (X k)) ^ 2 = _
      rw [(h k).dot, pbFactor_translate (h k)]
  refine symmetry_of (blockMap T) ⟨fun x d t => by rw [map_add, map_smul], fun Y => ?_, fun A B => ?_⟩
    (fun _ _ _ _ => rfl) (fun X V _ _ => by rw [pbNorm, hi, pbNorm]) (fun X V W _ _ _ => hi X V W)
    (fun X V _ _ => funext fun k => pbExp1_translate (h k) _ _) (fun X Y V _ _ _ => ht X Y V)
    (fun _ _ => (map_zero _).symm) (fun _ _ _ _ => rfl)
    (fun X G _ => funext fun k => pbE2rg1_translate (h k) _ _)
    fun X G H V _ _ => funext fun k => pbE2rh1_translate (h k) _ _ _ _
  · choose Z hZ using fun k => (h k).surj (Y k)
    exact ⟨Z, funext hZ⟩
  · exact Finset.sum_congr rfl fun k _ => (h k).dot _ _

end poincare

/-! ## Positive semidefinite matrices of fixed rank, elliptope -/

section psd
variable {k : ℕ} [Fintype n]

/-- All solutions of the Lyapunov equation of a Gram matrix give the same product with the factor,
even if the factor does not have full rank. -/
theorem lyapunov_gram_unique {Y : Matrix n (Fin k) 𝕜} {q x x' : Matrix (Fin k) (Fin k) 𝕜}
    (h : IsLyapunov (Yᴴ * Y) q x) (h' : IsLyapunov (Yᴴ * Y) q x') : Y * x = Y * x' := by
  have hs : (Yᴴ * Y)ᴴ = Yᴴ * Y := by rw [conjTranspose_mul, conjTranspose_conjTranspose]
  rw [IsLyapunov, hs] at h h'
  set D := x - x' with hD
  have h0 : Yᴴ * Y * D + D * (Yᴴ * Y) = 0 := by
    have : Yᴴ * Y * D + D * (Yᴴ * Y) =
        (Yᴴ * Y * x + x * (Yᴴ * Y)) - (Yᴴ * Y * x' + x' * (Yᴴ * Y)) := by
      rw [hD, Matrix.mul_sub, Matrix.sub_mul, add_sub_add_comm]
    rw [this, h, h', sub_self]
  have h1 : trDot D (Yᴴ * Y * D + D * (Yᴴ * Y)) = trDot (Y * D) (Y * D) + trDot (Y * Dᴴ) (Y * Dᴴ) := by
    rw [trDot_inner.add_right]
    congr 1
    · rw [trDot_mul_left, Matrix.mul_assoc]
    · rw [trDot, trDot, conjTranspose_mul, conjTranspose_conjTranspose]
      have : (D * Yᴴ * (Y * Dᴴ)).trace = (Dᴴ * (D * (Yᴴ * Y))).trace := by
        rw [Matrix.trace_mul_comm Dᴴ]; simp only [Matrix.mul_assoc]
      rw [this]
  rw [h0, trDot_inner.zero_right] at h1
  have h2 := trDot_inner.nonneg (Y * D)
  have h3 := trDot_inner.nonneg (Y * Dᴴ)
  have h4 := trDot_inner.definite (Y * D) (by linarith)
  rw [hD, Matrix.mul_sub] at h4
  exact sub_eq_zero.1 h4

theorem psdProj_unique {Y V Z Z' : Matrix n (Fin k) 𝕜} (h : IsPsdProj Y V Z) (h' : IsPsdProj Y V Z') :
    Z = Z' := by
  obtain ⟨x, hx, rfl⟩ := h
  obtain ⟨x', hx', rfl⟩ := h'
  rw [psdProjFrom, psdProjFrom, lyapunov_gram_unique hx hx']

theorem ellProj_unique {Y V Z Z' : Matrix n (Fin k) ℝ} (h : IsEllProj Y V Z) (h' : IsEllProj Y V Z') :
    Z = Z' := by
  obtain ⟨x, -, hx, rfl⟩ := ellProj_form h
  obtain ⟨x', -, hx', rfl⟩ := ellProj_form h'
  rw [lyapunov_gram_unique hx hx']

variable [DecidableEq n] {A : Matrix n n 𝕜} {C : Matrix (Fin k) (Fin k) 𝕜}

theorem mulBoth_gram (hA : Aᴴ * A = 1) (X Y : Matrix n (Fin k) 𝕜) :
    (mulBoth A C X)ᴴ * mulBoth A C Y = Cᴴ * (Xᴴ * Y) * C := by
  rw [mulBoth_apply, mulBoth_apply, conjTranspose_mul, conjTranspose_mul]
  calc Cᴴ * (Xᴴ * Aᴴ) * (A * Y * C) = Cᴴ * (Xᴴ * (Aᴴ * A) * Y) * C := by
        simp only [Matrix.mul_assoc]
    _ = _ := by rw [hA, Matrix.mul_one]

omit [DecidableEq n] in
theorem mulBoth_mul (hC : Cᴴ * C = 1) (X : Matrix n (Fin k) 𝕜) (S : Matrix (Fin k) (Fin k) 𝕜) :
    mulBoth A C X * (Cᴴ * S * C) = mulBoth A C (X * S) := by
  rw [mulBoth_apply, mulBoth_apply]
  calc A * X * C * (Cᴴ * S * C) = A * X * (C * Cᴴ) * S * C := by simp only [Matrix.mul_assoc]
    _ = _ := by rw [mul_eq_one_comm.mp hC]; simp only [Matrix.mul_assoc, Matrix.one_mul]

omit [DecidableEq n] [Fintype n] in
/-- Solutions of the equation in other coordinates. -/
theorem lyapunov_translate (hC : Cᴴ * C = 1) {a q x : Matrix (Fin k) (Fin k) 𝕜}
    (h : IsLyapunov a q x) : IsLyapunov (Cᴴ * a * C) (Cᴴ * q * C) (Cᴴ * x * C) := by
  have hC' : C * Cᴴ = 1 := mul_eq_one_comm.mp hC
  have e : ∀ M N : Matrix (Fin k) (Fin k) 𝕜, Cᴴ * M * C * (Cᴴ * N * C) = Cᴴ * (M * N) * C := by
    intro M N
    calc Cᴴ * M * C * (Cᴴ * N * C) = Cᴴ * (M * (C * Cᴴ) * N) * C := by simp only [Matrix.mul_assoc]
      _ = _ := by rw [hC', Matrix.mul_one]
  have e2 : (Cᴴ * a * C)ᴴ = Cᴴ * aᴴ * C := by
    rw [conjTranspose_mul, conjTranspose_mul, conjTranspose_conjTranspose, Matrix.mul_assoc]
  rw [IsLyapunov, e2, e, e, ← Matrix.add_mul, ← Matrix.mul_add, h]

theorem psdProj_translate (hA : Aᴴ * A = 1) (hC : Cᴴ * C = 1) {Y V Z : Matrix n (Fin k) 𝕜}
    (h : IsPsdProj Y V Z) : IsPsdProj (mulBoth A C Y) (mulBoth A C V) (mulBoth A C Z) := by
  obtain ⟨x, hx, rfl⟩ := h
  refine ⟨Cᴴ * x * C, ?_, ?_⟩
  · rw [mulBoth_gram hA, mulBoth_gram hA, mulBoth_gram hA, ← Matrix.sub_mul, ← Matrix.mul_sub]
    exact lyapunov_translate hC hx
  · rw [psdProjFrom, psdProjFrom, mulBoth_mul hC, map_sub]

/-- **C134** (positive semidefinite matrices of fixed rank, real and complex): multiplying the
factors by unitary matrices `C` (another factor of the same matrix `Y Yᴴ`) and the ambient space by
unitary matrices `A` is a symmetry, whatever solutions the Lyapunov solver returns. -/
theorem C134_psd (hA : Aᴴ * A = 1) (hC : Cᴴ * C = 1) (dim : ℤ)
    {proj proj' : Matrix n (Fin k) 𝕜 → Matrix n (Fin k) 𝕜 → Matrix n (Fin k) 𝕜}
    (hp : ∀ Y V, IsPsdProj Y V (proj Y V)) (hp' : ∀ Y V, IsPsdProj Y V (proj' Y V))
    (log log' pairMean pairMean' : Matrix n (Fin k) 𝕜 → Matrix n (Fin k) 𝕜 → Matrix n (Fin k) 𝕜) :
    Symmetry trDot (fun _ => True) (fun _ _ => True) (psdMfd dim proj log pairMean)
      (psdMfd dim proj' log' pairMean') psdE2rg psdE2rg (fun Y _ H _ => proj Y H)
      (fun Y _ H _ => proj' Y H) (fun _ v => v) (fun _ v => v) (mulBoth A C) (mulBoth A C)
      (mulBoth A C) (mulBoth A C) := by
  have h := mulBoth_isom (p := Fin k) hA hC
  have hP : ∀ Y V, proj' (mulBoth A C Y) (mulBoth A C V) = mulBoth A C (proj Y V) := fun Y V =>
    psdProj_unique (hp' _ _) (psdProj_translate hA hC (hp Y V))
  have hi : ∀ Y V W : Matrix n (Fin k) 𝕜, psdInner Y V W = trDot V W := fun Y V W => by
    rw [psdInner, trDot_eq_sum, retensordot, map_sum, Fintype.sum_prod_type]
  have hn : ∀ Y V : Matrix n (Fin k) 𝕜, psdNorm Y V = Real.sqrt (trDot V V) := fun Y V => by
    rw [← hi Y V V, psdInner, ← npNorm_sq]; exact (Real.sqrt_sq (Real.sqrt_nonneg _)).symm
  exact symmetry_of (mulBoth A C) h.affine (fun _ _ _ _ => rfl)
    (fun Y V _ _ => by rw [hn, hn, h.dot]) (fun Y V W _ _ _ => by rw [hi, hi, h.dot])
    (fun Y V _ _ => (map_add (mulBoth A C) Y V).symm) (fun _ Y V _ _ _ => hP Y V)
    (fun _ _ => (map_zero _).symm) (fun Y V _ _ => hP Y V) (fun _ _ _ => rfl)
    fun Y _ H _ _ _ => hP Y H

end psd

section elliptope
variable {k : ℕ} [Fintype n] [DecidableEq n] {C : Matrix (Fin k) (Fin k) ℝ}

/-- Inner products of rows. -/
theorem rowSums_translate (hC : Cᴴ * C = 1) (X Y : Matrix n (Fin k) ℝ) :
    rowSums (mulBoth 1 C X) (mulBoth 1 C Y) = rowSums X Y := by
  have e : ∀ X Y : Matrix n (Fin k) ℝ, rowSums X Y = fun i => (X * Yᴴ) i i := by
    intro X Y; funext j
    simp [rowSums, Matrix.mul_apply]
  have hC' : C * Cᴴ = 1 := mul_eq_one_comm.mp hC
  rw [e, e, mulBoth_apply, mulBoth_apply, Matrix.one_mul, Matrix.one_mul, conjTranspose_mul,
    Matrix.mul_assoc, ← Matrix.mul_assoc C, hC', Matrix.one_mul]

/-- Scaling the rows. -/
theorem scaleRows_translate (X : Matrix n (Fin k) ℝ) (c : n → ℝ) :
    (of fun i j => mulBoth 1 C X i j * c i) = mulBoth 1 C (of fun i j => X i j * c i) := by
  have e : ∀ X : Matrix n (Fin k) ℝ, (of fun i j => X i j * c i) = diagonal c * X := by
    intro X; ext i j
    rw [diagonal_mul, mul_comm]; rfl
  have := e (mulBoth 1 C X)
  rw [e X]
  rw [this, mulBoth_apply, mulBoth_apply, Matrix.one_mul, Matrix.one_mul, Matrix.mul_assoc]

theorem ellProjRows_translate (hC : Cᴴ * C = 1) (Y V : Matrix n (Fin k) ℝ) :
    ellProjRows (mulBoth 1 C Y) (mulBoth 1 C V) = mulBoth 1 C (ellProjRows Y V) := by
  have e : ∀ Y V : Matrix n (Fin k) ℝ, ellProjRows Y V = V - of fun i j => Y i j * rowSums Y V i :=
    fun _ _ => rfl
  rw [e, e, rowSums_translate hC, scaleRows_translate, map_sub]

theorem ellNormalize_translate (hC : Cᴴ * C = 1) (Y : Matrix n (Fin k) ℝ) :
    ellNormalize (mulBoth 1 C Y) = mulBoth 1 C (ellNormalize Y) := by
  have e : ∀ Y : Matrix n (Fin k) ℝ,
      ellNormalize Y = of fun i j => Y i j * (Real.sqrt (rowSums Y Y i))⁻¹ := by
    intro Y; ext i j
    rw [ellNormalize, of_apply, of_apply, npNorm_eq_sqrt, div_eq_mul_inv]; rfl
  rw [e, e, rowSums_translate hC, scaleRows_translate]

theorem ellRowHess_translate (hC : Cᴴ * C = 1) (Y G H V : Matrix n (Fin k) ℝ) :
    ellRowHess (mulBoth 1 C Y) (mulBoth 1 C G) (mulBoth 1 C H) (mulBoth 1 C V) =
      mulBoth 1 C (ellRowHess Y G H V) := by
  have e : ∀ Y G H V : Matrix n (Fin k) ℝ, ellRowHess Y G H V =
      H - (of fun i j => V i j * rowSums G Y i) -
        of fun i j => Y i j * (rowSums V G i + rowSums Y H i) := by
    intro Y G H V; ext i j
    simp only [ellRowHess, rowSums, of_apply, Matrix.sub_apply, Finset.sum_add_distrib]
  rw [e, e, rowSums_translate hC, rowSums_translate hC, rowSums_translate hC, scaleRows_translate,
    scaleRows_translate, map_sub, map_sub]

theorem ellProj_translate (hC : Cᴴ * C = 1) {Y V Z : Matrix n (Fin k) ℝ}
    (h : IsEllProj Y V Z) : IsEllProj (mulBoth 1 C Y) (mulBoth 1 C V) (mulBoth 1 C Z) := by
  obtain ⟨x, hx, rfl⟩ := h
  have h1 : (1 : Matrix n n ℝ)ᴴ * 1 = 1 := by simp
  refine ⟨Cᴴ * x * C, ?_, ?_⟩
  · simp only [← conjTranspose_eq_transpose_of_trivial] at hx ⊢
    rw [ellProjRows_translate hC, mulBoth_gram h1, mulBoth_gram h1, mulBoth_gram h1, ← Matrix.sub_mul,
      ← Matrix.mul_sub, ← Matrix.neg_mul, ← Matrix.mul_neg]
    exact lyapunov_translate hC hx
  · have e : Cᴴ * x * C - (Cᴴ * x * C)ᵀ = Cᴴ * (x - xᵀ) * C := by
      simp only [← conjTranspose_eq_transpose_of_trivial, conjTranspose_mul,
        conjTranspose_conjTranspose, Matrix.mul_sub, Matrix.sub_mul, Matrix.mul_assoc]
    rw [ellProjRows_translate hC, e, mulBoth_mul hC, map_sub, map_smul]

/-- **C134** (elliptope): multiplying the factors by orthogonal matrices (another factor of the same
correlation matrix `Y Yᵀ`) is a symmetry, whatever solutions the Lyapunov solver returns. -/
theorem C134_elliptope (hC : Cᴴ * C = 1) (dim : ℤ)
    {proj proj' : Matrix n (Fin k) ℝ → Matrix n (Fin k) ℝ → Matrix n (Fin k) ℝ}
    (hp : ∀ Y V, IsEllProj Y V (proj Y V)) (hp' : ∀ Y V, IsEllProj Y V (proj' Y V))
    (log log' pairMean pairMean' : Matrix n (Fin k) ℝ → Matrix n (Fin k) ℝ → Matrix n (Fin k) ℝ) :
    Symmetry trDot UnitRows RowTangent (elliptopeMfd dim proj log pairMean)
      (elliptopeMfd dim proj' log' pairMean') ellE2rg ellE2rg
      (fun Y G H V => proj Y (ellRowHess Y G H V)) (fun Y G H V => proj' Y (ellRowHess Y G H V))
      (fun _ v => v) (fun _ v => v) (mulBoth 1 C) (mulBoth 1 C) (mulBoth 1 C) (mulBoth 1 C) := by
  have h := mulBoth_isom (p := Fin k) (A := (1 : Matrix n n ℝ)) (by simp) hC
  have hP : ∀ Y V, proj' (mulBoth 1 C Y) (mulBoth 1 C V) = mulBoth 1 C (proj Y V) := fun Y V =>
    ellProj_unique (hp' _ _) (ellProj_translate hC (hp Y V))
  have hi : ∀ Y V W : Matrix n (Fin k) ℝ, ellInner Y V W = trDot V W := fun Y V W => by
    rw [ellInner, ← retensordot_real, trDot_eq_sum, retensordot, map_sum, Fintype.sum_prod_type]
  refine symmetry_of (mulBoth 1 C) h.affine (fun _ _ _ _ => rfl)
    (fun Y V _ _ => by rw [ellNorm, ellNorm, hi, hi, h.dot])
    (fun Y V W _ _ _ => by rw [hi, hi, h.dot])
    (fun Y V _ _ => ?_) (fun _ Y V _ _ _ => hP Y V)
    (fun _ _ => (map_zero _).symm) (fun Y V _ _ => hP Y V) (fun Y G _ => ellProjRows_translate hC Y G)
    fun Y G H V _ _ => ?_
  · rw [ellRetraction, ellRetraction, ← map_add, ellNormalize_translate hC]
  · rw [ellRowHess_translate hC, hP]

end elliptope

/-! ## Products -/

section product
variable {k : ℕ} {E : Fin k → Type*} [∀ i, AddCommGroup (E i)] [∀ i, Module ℝ (E i)]
  {B : ∀ i, E i → E i → ℝ} {On : ∀ i, E i → Prop} {Tan : ∀ i, E i → E i → Prop}
  {Ms Ms' : ∀ i, Mfd ℝ (E i) (E i)} {e2rg e2rg' : ∀ i, E i → E i → E i}
  {e2rh e2rh' : ∀ i, E i → E i → E i → E i → E i} {embed embed' : ∀ i, E i → E i → E i}
  {φ L T K : ∀ i, E i → E i}

/-- **C134** (products): symmetries of the factors are symmetries of the product. -/
theorem C134_product
    (h : ∀ i, Symmetry (B i) (On i) (Tan i) (Ms i) (Ms' i) (e2rg i) (e2rg' i) (e2rh i) (e2rh' i)
      (embed i) (embed' i) (φ i) (L i) (T i) (K i)) :
    Symmetry (fun x y => ∑ i, B i (x i) (y i)) (fun x => ∀ i, On i (x i))
      (fun x v => ∀ i, Tan i (x i) (v i)) (productMfd Ms) (productMfd Ms')
      (fun x g i => e2rg i (x i) (g i)) (fun x g i => e2rg' i (x i) (g i))
      (fun x g h v i => e2rh i (x i) (g i) (h i) (v i))
      (fun x g h v i => e2rh' i (x i) (g i) (h i) (v i)) (fun x v i => embed i (x i) (v i))
      (fun x v i => embed' i (x i) (v i)) (fun x i => φ i (x i)) (fun x i => L i (x i))
      (fun x i => T i (x i)) (fun x i => K i (x i)) where
  affine := ⟨fun x d t => funext fun i => (h i).affine.line _ _ _, fun y => by
      choose z hz using fun i => (h i).affine.surj (y i)
      exact ⟨z, funext hz⟩, fun a b => Finset.sum_congr rfl fun i _ => (h i).affine.adj _ _⟩
  embed x v hx hv := funext fun i => (h i).embed _ _ (hx i) (hv i)
  dim := by
    change ∑ i, (Ms' i).dim = ∑ i, (Ms i).dim
    exact Finset.sum_congr rfl fun i _ => (h i).dim
  norm x v hx hv := congrArg Real.sqrt <| Finset.sum_congr rfl fun i _ =>
    (h i).inner _ _ _ (hx i) (hv i) (hv i)
  inner x v w hx hv hw := by
    change ∑ i, (Ms' i).inner _ _ _ = ∑ i, (Ms i).inner _ _ _
    exact Finset.sum_congr rfl fun i _ => (h i).inner _ _ _ (hx i) (hv i) (hw i)
  retraction x v hx hv := funext fun i => (h i).retraction _ _ (hx i) (hv i)
  transport x y v hx hy hv := funext fun i => (h i).transport _ _ _ (hx i) (hy i) (hv i)
  zeroVector x hx := funext fun i => (h i).zeroVector _ (hx i)
  toTangent x v hx hv := funext fun i => (h i).toTangent _ _ (hx i) (hv i)
  add v w := funext fun i => (h i).add _ _
  sub v w := funext fun i => (h i).sub _ _
  neg v := funext fun i => (h i).neg _
  smul a v := funext fun i => (h i).smul _ _
  e2rg x g hx := funext fun i => (h i).e2rg _ _ (hx i)
  e2rh x g e v hx hv := funext fun i => (h i).e2rh _ _ _ _ (hx i) (hv i)

end product

end Verif.Geo
