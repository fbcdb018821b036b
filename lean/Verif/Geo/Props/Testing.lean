/-
C125: the conversions in `tools/testing.py`, built from the projection alone, are those of the
manifolds that are submanifolds of a Euclidean space.
-/
import Verif.Geo.Model.Testing
import Verif.Geo.Model.Euclidean
import Verif.Geo.Props.Sphere
import Verif.Geo.Props.SphereSubspace
import Verif.Geo.Props.Oblique
import Verif.Geo.Props.Stiefel
import Verif.Geo.Props.Grassmann
import Verif.Geo.Props.Positive
import Verif.Geo.Props.Gradient

namespace Verif.Geo
open scoped BigOperators
open Matrix

section
variable {α : Type*} [Fintype α] [DecidableEq α] {E : Type*} [AddCommGroup E] [Module ℝ E]

/-- If the directional derivatives of a function are linear in the direction, contracting its
Jacobian with a direction gives the directional derivative. -/
theorem jacTensordot_eq {entries : E ≃ₗ[ℝ] (α → ℝ)} {f : E → E} {x : E} (D : E →ₗ[ℝ] E)
    (h : ∀ w a, HasDerivAt (fun t : ℝ => entries (f (x + t • w)) a) (entries (D w) a) 0) (v : E) :
    jacTensordot entries (npJacobian entries f x) v = D v := by
  have hv : v = ∑ b, entries v b • entries.symm (Pi.single b 1) := by
    apply entries.injective
    simp only [map_sum, map_smul, LinearEquiv.apply_symm_apply]
    funext a
    simp [Finset.sum_apply, Pi.single_apply]
  apply entries.injective
  conv_rhs => rw [hv]
  simp only [jacTensordot, npJacobian, LinearEquiv.apply_symm_apply, map_sum, map_smul]
  funext a
  rw [Finset.sum_apply]
  refine Finset.sum_congr rfl fun b _ => ?_
  rw [(h _ a).deriv, Pi.smul_apply, smul_eq_mul, mul_comm]

end

section vector
variable {ι : Type*} [Fintype ι] [DecidableEq ι]

/-- The derivative of the projection of the sphere with respect to the point. -/
def sphereProjDeriv (x g : ι → ℝ) : (ι → ℝ) →ₗ[ℝ] ι → ℝ where
  toFun w := -(tensordot w g • x + tensordot x g • w)
  map_add' u v := by rw [tensordot_inner.add_left]; module
  map_smul' r v := by rw [tensordot_inner.smul_left, RingHom.id_apply]; module

omit [DecidableEq ι] in
theorem hasDerivAt_sphereProj (x g w : ι → ℝ) :
    HasDerivAt (fun t : ℝ => sphereProj (x + t • w) g) (sphereProjDeriv x g w) 0 := by
  have h1 : HasDerivAt (fun t : ℝ => x + t • w) w 0 := by
    simpa using ((hasDerivAt_id (0 : ℝ)).smul_const w).const_add x
  have h2 := hasDerivAt_tensordot h1 (hasDerivAt_const (0 : ℝ) g)
  have h3 := (hasDerivAt_const (0 : ℝ) g).sub (h2.smul h1)
  have h4 : (0 : ι → ℝ) - (tensordot (x + (0 : ℝ) • w) g • w +
      (tensordot w g + tensordot (x + (0 : ℝ) • w) 0) • (x + (0 : ℝ) • w)) =
      sphereProjDeriv x g w := by
    simp only [zero_smul, add_zero, tensordot_inner.zero_right, sphereProjDeriv, LinearMap.coe_mk,
      AddHom.coe_mk]
    module
  rw [h4] at h3
  exact h3

/-- **C125** (Euclidean space): the helper returns the Euclidean Hessian, as the manifold does. -/
theorem C125_euclidean (x g h v : ι → ℝ) :
    testE2rg (fun _ w => w) x g = g ∧
      testE2rh (LinearEquiv.refl ℝ (ι → ℝ)) (fun _ w => w) x g h v = h := by
  refine ⟨rfl, ?_⟩
  have := jacTensordot_eq (entries := LinearEquiv.refl ℝ (ι → ℝ)) (f := fun _ => g) (x := x) 0
    (fun w a => by simpa using hasDerivAt_const (0 : ℝ) (g a)) v
  rw [testE2rh, this]
  simp

/-- **C125** (sphere): the conversions derived from the projection are those of the manifold. -/
theorem C125_sphere (x g h v : ι → ℝ) (hx : OnSphere x) (hv : SphereTangent x v) :
    testE2rg sphereProj x g = sphereE2rg x g ∧
      testE2rh (LinearEquiv.refl ℝ (ι → ℝ)) sphereProj x g h v = sphereE2rh x g h v := by
  refine ⟨rfl, ?_⟩
  rw [testE2rh, jacTensordot_eq (sphereProjDeriv x g)
    (fun w a => (hasDerivAt_pi.mp (hasDerivAt_sphereProj x g w)) a), sphereE2rh_eq hx]
  change tensordot x v = 0 at hv
  simp only [sphereProj, sphereInner, sphereProjDeriv, LinearMap.coe_mk, AddHom.coe_mk,
    tensordot_inner.add_right, tensordot_inner.neg_right, tensordot_inner.smul_right, hx.dot, hv]
  module

/-- **C125** (spheres cut by a subspace). -/
theorem C125_sphere_subspace {S : (ι → ℝ) → Prop} {M : Matrix ι ι ℝ} (hS : IsSubspace S)
    (hM : IsOrthProj tensordot S M.mulVec) (x g h v : ι → ℝ) (hx : OnSubspaceSphere S x)
    (hv : SubspaceTangent S x v) :
    testE2rg (subspaceProj M) x g = subE2rg (subspaceProj M) x g ∧
      testE2rh (LinearEquiv.refl ℝ (ι → ℝ)) (subspaceProj M) x g h v =
        subE2rh (subspaceProj M) sphereWeingarten x g h v := by
  refine ⟨rfl, ?_⟩
  have hP := C62_projection_partial hS hM x hx
  have hd : ∀ w a, HasDerivAt (fun t : ℝ => subspaceProj M (x + t • w) g a)
      ((M.mulVecLin ∘ₗ sphereProjDeriv x g) w a) 0 := by
    intro w a
    change HasDerivAt (fun t : ℝ => ∑ i, M a i * sphereProj (x + t • w) g i)
      (∑ i, M a i * sphereProjDeriv x g w i) 0
    exact HasDerivAt.fun_sum fun i _ =>
      ((hasDerivAt_pi.mp (hasDerivAt_sphereProj x g w)) i).const_mul (M a i)
  have h1 : M *ᵥ sphereProjDeriv x g v = sphereProjDeriv x g v := by
    refine hM.fixes ?_
    change S (-(tensordot v g • x + tensordot x g • v))
    have := hS.smul (-1) (hS.add (hS.smul (tensordot v g) hx.1) (hS.smul (tensordot x g) hv.1))
    rwa [neg_one_smul] at this
  have h2 : subspaceProj M x (sphereProjDeriv x g v) = -(tensordot x g • v) := by
    have h3 : sphereProj x (sphereProjDeriv x g v) = -(tensordot x g • v) := by
      have hv2 : tensordot x v = 0 := hv.2
      simp only [sphereProj, sphereInner, sphereProjDeriv, LinearMap.coe_mk, AddHom.coe_mk,
        tensordot_inner.add_right, tensordot_inner.neg_right, tensordot_inner.smul_right,
        hx.2.dot, hv2]
      module
    rw [subspaceProj, h3, mulVec_neg, mulVec_smul, hM.fixes hv.1]
  have h0 : tensordot x (subspaceProj M x g) = 0 := (hP.mem g).2
  rw [testE2rh, jacTensordot_eq (entries := LinearEquiv.refl ℝ (ι → ℝ))
    (M.mulVecLin ∘ₗ sphereProjDeriv x g) hd]
  change subspaceProj M x (h + M *ᵥ sphereProjDeriv x g v) = _
  rw [h1, hP.add, h2]
  simp only [subE2rh, sphereWeingarten, sphereInner, tensordot_inner.sub_right, h0, sub_zero]
  module

/-- **C125** (the restriction in the documentation is needed): the positive arrays have another
inner product, and at every point the Hessian derived from the projection is another one than that
of the manifold. -/
theorem C125_positive_differs [Nonempty ι] (x : ι → ℝ) (hx : ∀ i, 0 < x i) :
    ∃ g h v, testE2rh (LinearEquiv.refl ℝ (ι → ℝ)) posProj x g h v ≠ posE2rh x g h v := by
  refine ⟨1, 0, 1, fun hcon => ?_⟩
  rw [show (posProj : (ι → ℝ) → (ι → ℝ) → ι → ℝ) = fun _ w => w from rfl,
    (C125_euclidean x 1 0 1).2] at hcon
  have := congrFun hcon (Classical.arbitrary ι)
  simp [posE2rh] at this
  exact (hx _).ne this

-- C125: a point, a tangent vector and a gradient for which the curvature term does not vanish.
example : OnSphere ![(3 : ℝ) / 5, 4 / 5] ∧ SphereTangent ![(3 : ℝ) / 5, 4 / 5] ![4, -3] ∧
    testE2rh (LinearEquiv.refl ℝ (Fin 2 → ℝ)) sphereProj ![(3 : ℝ) / 5, 4 / 5] ![1, 0] 0 ![4, -3] =
      ![-12 / 5, 9 / 5] := by
  have hx : OnSphere ![(3 : ℝ) / 5, 4 / 5] := by norm_num [OnSphere]
  have hv : SphereTangent ![(3 : ℝ) / 5, 4 / 5] ![4, -3] := by norm_num [SphereTangent]
  refine ⟨hx, hv, ?_⟩
  rw [(C125_sphere _ _ _ _ hx hv).2, sphereE2rh_eq hx]
  funext i
  fin_cases i <;> norm_num [sphereProj, sphereInner, tensordot]

end vector

section matrix
variable {m n : Type*} [Fintype m] [Fintype n] [DecidableEq m] [DecidableEq n]

/-- The derivative of the projection of the oblique manifold with respect to the point. -/
def oblProjDeriv (X G : Matrix m n ℝ) : Matrix m n ℝ →ₗ[ℝ] Matrix m n ℝ where
  toFun W := of fun i j => -(W i j * colSums X G j + X i j * colSums W G j)
  map_add' U V := by
    ext i j
    simp only [of_apply, Matrix.add_apply, colSums, add_mul, Finset.sum_add_distrib]
    ring
  map_smul' r V := by
    ext i j
    simp only [of_apply, Matrix.smul_apply, colSums, smul_eq_mul, RingHom.id_apply, mul_assoc,
      ← Finset.mul_sum]
    ring

/-- **C125** (oblique manifold). -/
theorem C125_oblique (X G H V : Matrix m n ℝ) (hX : OnOblique X) (hV : ObliqueTangent X V) :
    testE2rg oblProj X G = oblProj X G ∧
      testE2rh (matEntries m n) oblProj X G H V = oblE2rh X G H V := by
  refine ⟨rfl, ?_⟩
  have hd : ∀ W a, HasDerivAt (fun t : ℝ => matEntries m n (oblProj (X + t • W) G) a)
      (matEntries m n (oblProjDeriv X G W) a) 0 := by
    rintro W ⟨i, j⟩
    have h1 : ∀ i, HasDerivAt (fun t : ℝ => X i j + t * W i j) (W i j) 0 := fun i => by
      simpa using ((hasDerivAt_id (0 : ℝ)).mul_const (W i j)).const_add (X i j)
    have h2 : HasDerivAt (fun t : ℝ => ∑ i, (X i j + t * W i j) * G i j) (∑ i, W i j * G i j) 0 :=
      HasDerivAt.fun_sum fun i _ => (h1 i).mul_const (G i j)
    have h3 := ((h1 i).fun_mul h2).const_sub (G i j)
    simp only [zero_mul, add_zero] at h3
    exact h3
  rw [testE2rh, jacTensordot_eq _ hd]
  ext i j
  have e1 : ∑ i, X i j * X i j = 1 := (hX j).dot
  have e2 : ∑ i, X i j * V i j = 0 := hV j
  simp only [oblProj, oblE2rh, oblProjDeriv, colSums, of_apply, LinearMap.coe_mk, AddHom.coe_mk,
    Matrix.add_apply]
  have e3 : ∑ k, X k j * (H k j + -(V k j * ∑ i, X i j * G i j + X k j * ∑ i, V i j * G i j)) =
      ∑ k, X k j * H k j - (∑ k, X k j * V k j) * (∑ i, X i j * G i j) -
        (∑ k, X k j * X k j) * ∑ i, V i j * G i j := by
    rw [Finset.sum_mul, Finset.sum_mul, ← Finset.sum_sub_distrib, ← Finset.sum_sub_distrib]
    exact Finset.sum_congr rfl fun k _ => by ring
  rw [e3, e1, e2]
  ring

end matrix

section stack
variable {κ n p : Type*} [Fintype κ] [Fintype n] [Fintype p] [DecidableEq κ] [DecidableEq n]
  [DecidableEq p]

omit [Fintype κ] [Fintype n] [Fintype p] [DecidableEq κ] [DecidableEq n] [DecidableEq p] in
theorem matDeriv_segment (A B : Matrix n p ℝ) : MatDeriv (fun t : ℝ => A + t • B) B 0 := fun i j => by
  simpa using ((hasDerivAt_id (0 : ℝ)).mul_const (B i j)).const_add (A i j)

omit [Fintype n] [Fintype p] [DecidableEq κ] [DecidableEq n] [DecidableEq p] [Fintype κ] in
theorem symPart_add (A B : Matrix p p ℝ) : symPart (A + B) = symPart A + symPart B := by
  simp only [symPart, transpose_add]; module

/-- The derivative of the projection of the Stiefel manifold with respect to the point. -/
noncomputable def stProjDeriv (X G : Stack κ n p ℝ) : Stack κ n p ℝ →ₗ[ℝ] Stack κ n p ℝ where
  toFun W k := -(W k * symPart ((X k)ᵀ * G k) + X k * symPart ((W k)ᵀ * G k))
  map_add' U V := by
    funext k
    simp only [Pi.add_apply, transpose_add, Matrix.add_mul, symPart_add, Matrix.mul_add]
    abel
  map_smul' r V := by
    funext k
    have : symPart (r • ((V k)ᵀ * G k)) = r • symPart ((V k)ᵀ * G k) := by
      simp only [symPart, transpose_smul]; module
    simp only [Pi.smul_apply, transpose_smul, Matrix.smul_mul, this, Matrix.mul_smul,
      RingHom.id_apply]
    module

/-- **C125** (Stiefel manifold). -/
theorem C125_stiefel (X G H V : Stack κ n p ℝ) (hX : OnStiefel X) (hV : StiefelTangent X V) :
    testE2rg stProj X G = stE2rg X G ∧
      testE2rh (stackEntries κ n p) stProj X G H V = stE2rh X G H V := by
  refine ⟨rfl, ?_⟩
  have hd : ∀ W a, HasDerivAt (fun t : ℝ => stackEntries κ n p (stProj (X + t • W) G) a)
      (stackEntries κ n p (stProjDeriv X G W) a) 0 := by
    rintro W ⟨k, i, j⟩
    have h1 := matDeriv_segment (X k) (W k)
    have h2 := MatDeriv.mul (MatDeriv.transpose h1) (MatDeriv.const (G k) 0)
    have h3 : MatDeriv (fun t : ℝ => symPart ((X k + t • W k)ᵀ * G k)) (symPart ((W k)ᵀ * G k)) 0 := by
      have := MatDeriv.smul (MatDeriv.add h2 (MatDeriv.transpose h2)) (1 / 2)
      simp only [Matrix.mul_zero, add_zero] at this
      exact this
    have h4 := MatDeriv.sub (MatDeriv.const (G k) 0) (MatDeriv.mul h1 h3)
    simp only [zero_smul, add_zero, zero_sub] at h4
    exact h4 i j
  rw [testE2rh, jacTensordot_eq _ hd]
  funext k
  rw [stE2rh_eq hX hV, stProj_apply, stProj_apply, stProj_apply]
  have hXk := onStiefel_iff.mp hX k
  obtain ⟨S, hS⟩ : ∃ S, S = symPart ((X k)ᵀ * G k) := ⟨_, rfl⟩
  obtain ⟨M, hM⟩ : ∃ M, M = symPart ((V k)ᵀ * G k) := ⟨_, rfl⟩
  have hMt : Mᵀ = M := by rw [hM, symPart_transpose]
  have e0 : stProjDeriv X G V k = -(V k * S + X k * M) := by rw [hS, hM]; rfl
  have e1 : symPart ((X k)ᵀ * (H k + -(V k * S + X k * M))) =
      symPart ((X k)ᵀ * H k) + symPart ((X k)ᵀ * -(V k * S)) - M := by
    have : (X k)ᵀ * (H k + -(V k * S + X k * M)) =
        (X k)ᵀ * H k + (X k)ᵀ * -(V k * S) + -M := by
      rw [Matrix.mul_add, Matrix.mul_neg, Matrix.mul_add, ← Matrix.mul_assoc (X k)ᵀ (X k), hXk,
        Matrix.one_mul, Matrix.mul_neg]
      abel
    have h5 : symPart (-M) = -M := by simp only [symPart, transpose_neg, hMt]; module
    rw [this, symPart_add, symPart_add, h5]
    abel
  rw [Pi.add_apply, e0, e1, ← hS, Matrix.mul_sub, Matrix.mul_add]
  abel

omit [DecidableEq κ] [DecidableEq n] [DecidableEq p] [Fintype κ] in
/-- The derivative of the projection of the Grassmann manifold with respect to the point. -/
def grProjDeriv (X G : Stack κ n p ℝ) : Stack κ n p ℝ →ₗ[ℝ] Stack κ n p ℝ where
  toFun W k := -(W k * ((X k)ᵀ * G k) + X k * ((W k)ᵀ * G k))
  map_add' U V := by
    funext k
    simp only [Pi.add_apply, transpose_add, Matrix.add_mul, Matrix.mul_add]
    abel
  map_smul' r V := by
    funext k
    simp only [Pi.smul_apply, transpose_smul, Matrix.smul_mul, Matrix.mul_smul, RingHom.id_apply]
    module

/-- **C125** (Grassmann manifold): the projection is onto the horizontal space. -/
theorem C125_grassmann (X G H V : Stack κ n p ℝ) (hX : Orthonormal' X) (hV : GrHorizontal X V) :
    testE2rg grProj X G = grProj X G ∧
      testE2rh (stackEntries κ n p) grProj X G H V = grE2rh X G H V := by
  refine ⟨rfl, ?_⟩
  have hd : ∀ W a, HasDerivAt (fun t : ℝ => stackEntries κ n p (grProj (X + t • W) G) a)
      (stackEntries κ n p (grProjDeriv X G W) a) 0 := by
    rintro W ⟨k, i, j⟩
    have h1 := matDeriv_segment (X k) (W k)
    have h2 := MatDeriv.mul (MatDeriv.transpose h1) (MatDeriv.const (G k) 0)
    have h4 := MatDeriv.sub (MatDeriv.const (G k) 0) (MatDeriv.mul h1 h2)
    simp only [zero_smul, add_zero, zero_sub, Matrix.mul_zero] at h4
    exact h4 i j
  rw [testE2rh, jacTensordot_eq _ hd]
  funext k
  have hXk : (X k)ᵀ * X k = 1 := by
    have := orthonormal_iff.mp hX k
    rwa [conjTranspose_eq_transpose_of_trivial] at this
  have hVk : (X k)ᵀ * V k = 0 := by
    have := grHorizontal_iff.mp hV k
    rwa [conjTranspose_eq_transpose_of_trivial] at this
  change H k + -(V k * ((X k)ᵀ * G k) + X k * ((V k)ᵀ * G k)) - X k * ((X k)ᵀ * (H k +
    -(V k * ((X k)ᵀ * G k) + X k * ((V k)ᵀ * G k)))) =
    H k - X k * ((X k)ᵀ * H k) - V k * ((X k)ᵀ * G k)
  have e1 : (X k)ᵀ * (H k + -(V k * ((X k)ᵀ * G k) + X k * ((V k)ᵀ * G k))) =
      (X k)ᵀ * H k - (V k)ᵀ * G k := by
    rw [Matrix.mul_add, Matrix.mul_neg, Matrix.mul_add, ← Matrix.mul_assoc (X k)ᵀ (V k), hVk,
      ← Matrix.mul_assoc (X k)ᵀ (X k), hXk, Matrix.one_mul, Matrix.zero_mul, zero_add,
      sub_eq_add_neg]
  rw [e1, Matrix.mul_sub]
  abel

/-- **C125** (symmetric and skew-symmetric matrices). -/
theorem C125_matrix_subspaces (X G H V : Stack κ n n ℝ) :
    testE2rg symProj X G = symProj X G ∧ testE2rg skewProj X G = skewProj X G ∧
      testE2rh (stackEntries κ n n) symProj X G H V = symE2rh X G H V ∧
      testE2rh (stackEntries κ n n) skewProj X G H V = skewE2rh X G H V := by
  have h : ∀ A : Stack κ n n ℝ,
      jacTensordot (stackEntries κ n n) (npJacobian (stackEntries κ n n) (fun _ => A) X) V = 0 :=
    fun A => jacTensordot_eq (entries := stackEntries κ n n) (f := fun _ => A) (x := X) 0
      (fun w a => hasDerivAt_const (0 : ℝ) (stackEntries κ n n A a)) V
  refine ⟨rfl, rfl, ?_, ?_⟩
  · rw [testE2rh]
    change symProj X (H + jacTensordot (stackEntries κ n n)
      (npJacobian (stackEntries κ n n) (fun _ => multisym G) X) V) = _
    rw [h, add_zero]
    rfl
  · rw [testE2rh]
    change skewProj X (H + jacTensordot (stackEntries κ n n)
      (npJacobian (stackEntries κ n n) (fun _ => multiskew G) X) V) = _
    rw [h, add_zero]
    rfl

-- C125: a point of the Grassmann manifold and a horizontal vector with a curvature term.
example : Orthonormal' exX ∧ GrHorizontal exX exZ ∧
    testE2rh (stackEntries Unit (Fin 2) (Fin 1)) grProj exX exX 0 exZ ≠ 0 := by
  refine ⟨exX_orth, exZ_horizontal, fun h => ?_⟩
  rw [(C125_grassmann _ _ _ _ exX_orth exZ_horizontal).2] at h
  have hX := orthonormal_iff.mp exX_orth ()
  rw [conjTranspose_eq_transpose_of_trivial] at hX
  have := congrFun h ()
  change 0 - exX () * ((exX ())ᵀ * (0 : Matrix (Fin 2) (Fin 1) ℝ)) - exZ () * ((exX ())ᵀ * exX ()) = 0 at this
  rw [hX] at this
  simpa [exZ] using congrFun (congrFun this 1) 0

end stack

/-- **C125** (`riemannian_gradient`): with the Euclidean gradient from the library, the helper returns
the tangent vector that represents the derivative of the cost along `exp`. -/
theorem C125_gradient {ι κ n : Type*} [Fintype ι] [Fintype κ] [Fintype n] [DecidableEq n] {p : ℕ} :
    (∀ (grad : ((ι → ℝ) → ℝ) → (ι → ℝ) → ι → ℝ) (cost : (ι → ℝ) → ℝ) (x : ι → ℝ), OnSphere x →
      EGrad cost x (grad cost x) →
      SphereTangent x (testGradient grad cost sphereProj x) ∧ ∀ v, SphereTangent x v →
        HasDerivAt (fun t : ℝ => cost (sphereExp x (t • v)))
          (sphereInner x (testGradient grad cost sphereProj x) v) 0) ∧
    ∀ (grad : (Stack κ n (Fin p) ℝ → ℝ) → Stack κ n (Fin p) ℝ → Stack κ n (Fin p) ℝ)
      (cost : Stack κ n (Fin p) ℝ → ℝ) (X : Stack κ n (Fin p) ℝ), OnStiefel X →
      EGradStack cost X (grad cost X) →
      StiefelTangent X (testGradient grad cost stProj X) ∧ ∀ V, StiefelTangent X V →
        HasDerivAt (fun t : ℝ => cost (stExp X (t • V)))
          (stInner X (testGradient grad cost stProj X) V) 0 :=
  ⟨fun _ _ x hx hg => ⟨(C56_projection x hx).mem _, fun _ hv => (C110_sphere hx hg hv).2⟩,
    fun _ _ X hX hg => ⟨(C66_projection X hX).mem _, fun _ hV => (C110_stiefel hX hg hV).2.2⟩⟩

-- C125: the first coordinate as a cost on the circle; its Riemannian gradient at (0, 1) is not zero.
example : OnSphere (![0, 1] : Fin 2 → ℝ) ∧
    EGrad (fun x : Fin 2 → ℝ => x 0) ![0, 1] ![1, 0] ∧
    testGradient (fun _ _ => ![1, 0]) (fun x : Fin 2 → ℝ => x 0) sphereProj ![0, 1] = ![1, 0] := by
  refine ⟨?_, fun c d hc _ => ?_, ?_⟩
  · rw [onSphere_iff]
    simp [tensordot, Fin.sum_univ_two]
  · simpa [Fin.sum_univ_two] using hc 0
  · funext i
    fin_cases i <;> simp [testGradient, sphereProj, sphereInner, tensordot, Fin.sum_univ_two]

end Verif.Geo
