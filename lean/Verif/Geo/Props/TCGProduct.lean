/-
C115 on products: the trust-region subproblem on a product of manifolds, with a cost that couples
the factors.
-/
import Verif.Geo.Props.TCGSound
import Verif.Geo.Props.Psd

namespace Verif.Geo
open Matrix Verif.Opt
open scoped ComplexOrder

variable {κ ι m n p : Type*} {𝕜 : Type*} [RCLike 𝕜]

/-! ## Specification -/

/-- What a factor of a product has to fulfil at points `On`, with tangent vectors `Tan`: vectors are
added and scaled as arrays; tangent spaces are subspaces with an inner product; and at points with
Euclidean gradients `Good`, the converted gradient and Hessian are tangent, the Euclidean Hessian
enters the converted one as in the Euclidean inner product `D`, and the rest is symmetric. -/
structure HessFactor {E : Type*} [AddCommGroup E] [Module ℝ E] (M : Mfd ℝ E E) (On : E → Prop)
    (Tan : E → E → Prop) (Good : E → E → Prop) (D : E → E → ℝ) (e2rg : E → E → E)
    (e2rh : E → E → E → E → E) : Prop where
  add : ∀ u v, M.add u v = u + v
  neg : ∀ u, M.neg u = -u
  smul : ∀ (a : ℝ) v, M.smul a v = a • v
  zero : ∀ x, On x → M.zeroVector x = 0
  tangent : ∀ x v, On x → Tan x v → M.toTangent x v = v
  subspace : ∀ x, IsSubspace (Tan x)
  inner : ∀ x, On x → IsInnerOn (Tan x) (M.inner x)
  grad_mem : ∀ x g, On x → Good x g → Tan x (e2rg x g)
  hess_mem : ∀ x g h v, On x → Good x g → Tan x v → Tan x (e2rh x g h v)
  hess : ∀ x g h u v, On x → Good x g → Tan x u → Tan x v →
    M.inner x (e2rh x g h u) v = M.inner x (e2rh x g 0 u) v + D h v
  symm : ∀ x g, On x → Good x g → IsSymmOn (M.inner x) (Tan x) fun v => e2rh x g 0 v

/-- Factors whose converted Hessian is the converted Euclidean Hessian, treated as a gradient, plus
an operator that does not depend on it. -/
structure SplitFactor {E : Type*} [AddCommGroup E] [Module ℝ E] (M : Mfd ℝ E E) (On : E → Prop)
    (Tan : E → E → Prop) (Good : E → E → Prop) (D : E → E → ℝ) (e2rg : E → E → E)
    (e2rh : E → E → E → E → E) : Prop where
  add : ∀ u v, M.add u v = u + v
  neg : ∀ u, M.neg u = -u
  smul : ∀ (a : ℝ) v, M.smul a v = a • v
  zero : ∀ x, On x → M.zeroVector x = 0
  tangent : ∀ x v, On x → Tan x v → M.toTangent x v = v
  subspace : ∀ x, IsSubspace (Tan x)
  inner : ∀ x, On x → IsInnerOn (Tan x) (M.inner x)
  grad_mem : ∀ x g, On x → Tan x (e2rg x g)
  grad : ∀ x g u, On x → Tan x u → M.inner x (e2rg x g) u = D g u
  split : ∀ x g h v, On x → e2rh x g h v = e2rh x g 0 v + e2rg x h
  symm : ∀ x g, On x → Good x g → IsSymmOn (M.inner x) (Tan x) fun v => e2rh x g 0 v

theorem SplitFactor.factor {E : Type*} [AddCommGroup E] [Module ℝ E] {M : Mfd ℝ E E}
    {On : E → Prop} {Tan Good : E → E → Prop} {D : E → E → ℝ} {e2rg : E → E → E}
    {e2rh : E → E → E → E → E} (h : SplitFactor M On Tan Good D e2rg e2rh) :
    HessFactor M On Tan Good D e2rg e2rh where
  add := h.add
  neg := h.neg
  smul := h.smul
  zero := h.zero
  tangent := h.tangent
  subspace := h.subspace
  inner := h.inner
  grad_mem x g hx _ := h.grad_mem x g hx
  hess_mem x g k v hx hg hv := by
    rw [h.split x g k v hx]
    exact (h.subspace x).add ((h.symm x g hx hg).mem hv) (h.grad_mem x k hx)
  hess x g k u v hx hg hu hv := by
    rw [h.split x g k u hx, (h.inner x hx).add_left _ _ _ ((h.symm x g hx hg).mem hu)
      (h.grad_mem x k hx) hv, h.grad x k v hx hv]
  symm := h.symm

/-- The zero array is orthogonal to every array. -/
theorem stackDot_zero [Fintype κ] [Fintype m] [Fintype n] (U : Stack κ m n 𝕜) :
    stackDot U 0 = 0 ∧ stackDot 0 U = 0 :=
  ⟨stackDot_inner.zero_right U, stackDot_inner.zero_left U⟩

/-! ## Products -/

section product
variable {k : ℕ} {E : Fin k → Type*} [∀ i, AddCommGroup (E i)] [∀ i, Module ℝ (E i)]
  {Ms : ∀ i, Mfd ℝ (E i) (E i)} {On : ∀ i, E i → Prop} {Tan Good : ∀ i, E i → E i → Prop}
  {D : ∀ i, E i → E i → ℝ} {e2rg : ∀ i, E i → E i → E i} {e2rh : ∀ i, E i → E i → E i → E i → E i}

/-- **C115** (products): for every cost with a symmetric Euclidean Hessian, which may couple the
factors in any way.  A product does not embed vectors before it applies the Euclidean Hessian. -/
theorem C115_product (hM : ∀ i, HessFactor (Ms i) (On i) (Tan i) (Good i) (D i) (e2rg i) (e2rh i))
    (cost : (∀ i, E i) → ℝ) {egrad : (∀ i, E i) → ∀ i, E i}
    {ehess : (∀ i, E i) → (∀ i, E i) → ∀ i, E i}
    (hG : ∀ x, (∀ i, On i (x i)) → ∀ i, Good i (x i) (egrad x i))
    (hH : ∀ x u v, (∀ i, On i (x i)) → (∀ i, Tan i (x i) (u i)) → (∀ i, Tan i (x i) (v i)) →
      ∑ i, D i (ehess x u i) (v i) = ∑ i, D i (ehess x v i) (u i)) :
    TCGSound (productProb Ms e2rg e2rh (fun _ _ v => v) cost egrad ehess)
      (fun x => ∀ i, On i (x i)) fun x v => ∀ i, Tan i (x i) (v i) := by
  refine tcgSound_of (fun u v => funext fun i => (hM i).add _ _)
    (fun u => funext fun i => (hM i).neg _) (fun a v => funext fun i => (hM i).smul _ _)
    (fun x hx => funext fun i => (hM i).zero _ (hx i)) (fun _ _ => rfl)
    (fun x v hx hv => funext fun i => (hM i).tangent _ _ (hx i) (hv i)) (fun x _ => ?_)
    (fun x hx => ?_) (fun x hx i => (hM i).grad_mem _ _ (hx i) (hG x hx i)) fun x hx => ?_
  · exact ⟨fun i => ((hM i).subspace _).zero, fun hu hv i => ((hM i).subspace _).add (hu i) (hv i),
      fun a _ hu i => ((hM i).subspace _).smul a (hu i)⟩
  · have h := fun i => (hM i).inner _ (hx i)
    refine ⟨fun u v w hu hv hw => ?_, fun a u v hu hv => ?_, fun u v hu hv => ?_, fun u hu => ?_,
      fun u hu h0 => ?_⟩
    · change ∑ i, (Ms i).inner (x i) (u i + v i) (w i) =
        ∑ i, (Ms i).inner (x i) (u i) (w i) + ∑ i, (Ms i).inner (x i) (v i) (w i)
      rw [← Finset.sum_add_distrib]
      exact Finset.sum_congr rfl fun i _ => (h i).add_left _ _ _ (hu i) (hv i) (hw i)
    · change ∑ i, (Ms i).inner (x i) (a • u i) (v i) = a * ∑ i, (Ms i).inner (x i) (u i) (v i)
      rw [Finset.mul_sum]
      exact Finset.sum_congr rfl fun i _ => (h i).smul_left _ _ _ (hu i) (hv i)
    · change ∑ i, (Ms i).inner (x i) (u i) (v i) = ∑ i, (Ms i).inner (x i) (v i) (u i)
      exact Finset.sum_congr rfl fun i _ => (h i).symm _ _ (hu i) (hv i)
    · change 0 ≤ ∑ i, (Ms i).inner (x i) (u i) (u i)
      exact Finset.sum_nonneg fun i _ => (h i).nonneg _ (hu i)
    · change ∑ i, (Ms i).inner (x i) (u i) (u i) = 0 at h0
      funext i
      exact (h i).definite _ (hu i) ((Finset.sum_eq_zero_iff_of_nonneg fun i _ =>
        (h i).nonneg _ (hu i)).1 h0 i (Finset.mem_univ i))
  · have hs := fun i => (hM i).symm _ _ (hx i) (hG x hx i)
    have hi := fun i => (hM i).inner _ (hx i)
    have hmem : ∀ v : ∀ i, E i, (∀ i, Tan i (x i) (v i)) → ∀ i, Tan i (x i)
        ((productProb Ms e2rg e2rh (fun _ _ v => v) cost egrad ehess).hess x v i) := fun v hv i =>
      (hM i).hess_mem _ _ _ _ (hx i) (hG x hx i) (hv i)
    refine ⟨fun {v} hv => hmem v hv, fun {u v} hu hv => ?_⟩
    have key : ∀ u v : ∀ i, E i, (∀ i, Tan i (x i) (u i)) → (∀ i, Tan i (x i) (v i)) →
        ∑ i, (Ms i).inner (x i)
          ((productProb Ms e2rg e2rh (fun _ _ v => v) cost egrad ehess).hess x u i) (v i) =
        ∑ i, (Ms i).inner (x i) (e2rh i (x i) (egrad x i) 0 (u i)) (v i) +
          ∑ i, D i (ehess x u i) (v i) := fun u v hu hv => by
      rw [← Finset.sum_add_distrib]
      exact Finset.sum_congr rfl fun i _ =>
        (hM i).hess _ _ _ _ _ (hx i) (hG x hx i) (hu i) (hv i)
    change ∑ i, (Ms i).inner (x i) (u i)
        ((productProb Ms e2rg e2rh (fun _ _ v => v) cost egrad ehess).hess x v i) =
      ∑ i, (Ms i).inner (x i)
        ((productProb Ms e2rg e2rh (fun _ _ v => v) cost egrad ehess).hess x u i) (v i)
    rw [key u v hu hv, hH x u v hx hu hv, Finset.sum_congr rfl fun i _ =>
      (hi i).symm _ _ (hu i) (hmem v hv i), key v u hv hu]
    congr 1
    refine Finset.sum_congr rfl fun i _ => ?_
    rw [← (hs i).symm (hv i) (hu i), (hi i).symm _ _ (hv i) ((hs i).mem (hu i))]

end product

/-! ## Factors -/

section factors

/-- Euclidean and complex Euclidean spaces, symmetric and skew-symmetric matrices. -/
theorem C115_factor_euclidean [Fintype ι] [Fintype κ] [Fintype n] (dim : ℤ) :
    HessFactor (euclideanMfd (ι := ι) (𝕜 := 𝕜) dim) (fun _ => True) (fun _ _ => True)
      (fun _ _ => True) (eucInner 0) (subE2rg eucProj) eucE2rh ∧
    HessFactor (symmetricMfd (κ := κ) (n := n) dim) SymStack (fun _ => SymStack) (fun _ _ => True)
      stackDot (subE2rg symProj) symE2rh ∧
    HessFactor (symmetricMfd (κ := κ) (n := n) dim) SkewStack (fun _ => SkewStack) (fun _ _ => True)
      stackDot (subE2rg skewProj) skewE2rh := by
  refine ⟨?_, ?_, ?_⟩
  · exact SplitFactor.factor <|
    { add := fun _ _ => rfl
      neg := fun _ => rfl
      smul := fun _ _ => rfl
      zero := fun _ _ => rfl
      tangent := fun _ _ _ _ => rfl
      subspace := fun _ => isSubspace_true
      inner := fun x _ => (C53_inner x x).1.on _
      grad_mem := fun _ _ _ => trivial
      grad := fun _ _ _ _ _ => rfl
      split := fun _ _ h _ _ => (zero_add h).symm
      symm := fun x g _ _ => ⟨fun _ => trivial, fun {u v} _ _ =>
        ((C53_inner x x).1.zero_right u).trans ((C53_inner x x).1.zero_left v).symm⟩ }
  · have h0 := fun X G => (C54_hessian (κ := κ) (n := n) X G (fun _ => 0) fun u v => by
      exact (stackDot_zero _).1.trans (stackDot_zero _).2.symm).1
    exact SplitFactor.factor <|
    { add := fun _ _ => rfl
      neg := fun _ => rfl
      smul := fun _ _ => rfl
      zero := fun _ _ => rfl
      tangent := fun _ _ _ _ => rfl
      subspace := fun _ => symStack_subspace
      inner := fun _ _ => stackDot_inner.on _
      grad_mem := fun _ _ _ => multisym_mem _
      grad := fun X G _ _ hU => (C54_projection X).2.1.represents G hU
      split := fun X G H V _ => by
        have := ((C54_projection X).2.2.1 G V).add 0 H
        rw [zero_add] at this
        exact this
      symm := fun X G _ _ => h0 X G }
  · have h0 := fun X G => (C54_hessian (κ := κ) (n := n) X G (fun _ => 0) fun u v => by
      exact (stackDot_zero _).1.trans (stackDot_zero _).2.symm).2
    exact SplitFactor.factor <|
    { add := fun _ _ => rfl
      neg := fun _ => rfl
      smul := fun _ _ => rfl
      zero := fun _ _ => rfl
      tangent := fun _ _ _ _ => rfl
      subspace := fun _ => skewStack_subspace
      inner := fun _ _ => stackDot_inner.on _
      grad_mem := fun _ _ _ => multiskew_mem _
      grad := fun X G _ _ hU => (C54_projection X).2.2.2.2.1.represents G hU
      split := fun X G H V _ => by
        have := ((C54_projection X).2.2.2.2.2 G V).add 0 H
        rw [zero_add] at this
        exact this
      symm := fun X G _ _ => h0 X G }

/-- Spheres. -/
theorem C115_factor_sphere [Fintype ι] (eps : ℝ) :
    HessFactor (sphereMfd (ι := ι) eps) OnSphere SphereTangent (fun _ _ => True) tensordot sphereE2rg
      sphereE2rh := SplitFactor.factor
  { add _ _ := rfl
    neg _ := rfl
    smul _ _ := rfl
    zero _ _ := rfl
    tangent x _ hx hv := (C56_projection x hx).fixes hv
    subspace := sphereTangent_subspace
    inner x _ := (C56_metric x x).1.on _
    grad_mem x g hx := (C56_tangent x hx x g g).2.1
    grad x g _ hx hu := (C56_projection x hx).represents g hu
    split x g h v _ := by
      simp only [sphereE2rh, subE2rh, sphereE2rg, subE2rg, sphereProj, sphereInner,
        tensordot_inner.zero_right]
      module
    symm x g hx _ := C60_symmetric x g hx (fun _ => 0) fun u v => by simp }

/-- Spheres intersected with subspaces. -/
theorem C115_factor_sphere_subspace [Fintype ι] [DecidableEq ι] {S : (ι → ℝ) → Prop}
    {M : Matrix ι ι ℝ} (hS : IsSubspace S) (hM : IsOrthProj tensordot S M.mulVec) (dim : ℤ)
    (eps : ℝ) :
    HessFactor (sphereSubspaceMfd M dim eps) (OnSubspaceSphere S) (SubspaceTangent S)
      (fun _ _ => True) tensordot (subE2rg (subspaceProj M))
      (subE2rh (subspaceProj M) sphereWeingarten) := SplitFactor.factor
  { add _ _ := rfl
    neg _ := rfl
    smul _ _ := rfl
    zero _ _ := rfl
    tangent x _ hx hv := (C56_projection x hx.2).fixes hv.2
    subspace := subspaceTangent_subspace hS
    inner x _ := (C56_metric x x).1.on _
    grad_mem x g hx := (C62_projection_partial hS hM x hx).mem g
    grad x g _ hx hu := (C62_projection_partial hS hM x hx).represents g hu
    split x g h v _ := by
      have h0 : subspaceProj M x 0 = 0 := by
        simp [subspaceProj, sphereProj, sphereInner, tensordot_inner.zero_right]
      simp only [subE2rh, subE2rg, h0, zero_add]
      rw [add_comm]
    symm x g hx _ := C62_hessian_partial hS hM x g hx (fun _ => 0) fun u v => by simp }

/-- Oblique manifolds. -/
theorem C115_factor_oblique [Fintype m] [Fintype n] (dim : ℤ) (eps : ℝ) :
    HessFactor (obliqueMfd (m := m) (n := n) dim eps) OnOblique ObliqueTangent (fun _ _ => True)
      (oblInner 0) (subE2rg oblProj) oblE2rh := SplitFactor.factor
  { add _ _ := rfl
    neg _ := rfl
    smul _ _ := rfl
    zero _ _ := rfl
    tangent X _ hX hV := (C63_projection X hX).fixes hV
    subspace := obliqueTangent_subspace
    inner X _ := (oblInner_inner X).on _
    grad_mem X G hX := (C63_projection X hX).mem G
    grad X G _ hX hU := (C63_projection X hX).represents G hU
    split X G H V _ := by
      ext i j
      simp only [oblE2rh, subE2rg, oblProj, of_apply, Matrix.add_apply, Matrix.zero_apply, colSums,
        mul_zero, Finset.sum_const_zero]
      ring
    symm X G hX _ := C63_hessian X G hX (fun _ => 0) fun U V => by
      rw [(oblInner_inner X).zero_right, (oblInner_inner X).zero_left] }

/-- Complex circles. -/
theorem C115_factor_complex_circle [Fintype ι] (log : (ι → ℂ) → (ι → ℂ) → ι → ℂ) :
    HessFactor (complexCircleMfd log) OnCircles CirclesTangent (fun _ _ => True) (ccInner 0)
      (subE2rg ccProj) ccE2rh := SplitFactor.factor
  { add _ _ := rfl
    neg _ := rfl
    smul _ _ := rfl
    zero _ _ := rfl
    tangent z _ hz hv := (C64_projection z hz).fixes hv
    subspace := circlesTangent_subspace
    inner z _ := (ccInner_inner z).on _
    grad_mem z g hz := (C64_projection z hz).mem g
    grad z g _ hz hu := (C64_projection z hz).represents g hu
    split z g h v _ := by
      funext i
      simp only [ccE2rh, subE2rg, ccProj, Pi.add_apply, Pi.zero_apply, star_sub, sub_mul,
        Complex.sub_re, Complex.ofReal_sub, star_zero, zero_mul, Complex.zero_re, Complex.ofReal_zero]
      ring
    symm z g hz _ := C64_hessian z g hz (fun _ => 0) fun u v => by
      rw [(ccInner_inner z).zero_right, (ccInner_inner z).zero_left] }

/-- Positive arrays. -/
theorem C115_factor_positive [Fintype ι] (dim : ℤ) (parallel : Bool)
    (pairMean : (ι → ℝ) → (ι → ℝ) → ι → ℝ) :
    HessFactor (positiveMfd dim parallel pairMean) PosPoint (fun _ _ => True) (fun _ _ => True)
      tensordot posE2rg posE2rh := SplitFactor.factor
  { add _ _ := rfl
    neg _ := rfl
    smul _ _ := rfl
    zero _ _ := rfl
    tangent _ _ _ _ := rfl
    subspace _ := isSubspace_true
    inner x hx := (C78_metric x hx).1.on _
    grad_mem _ _ _ := trivial
    grad x g u hx _ := C80_gradient x g u hx
    split x g h v _ := by
      simp only [posE2rh, posE2rg, zero_mul, zero_add]
      rw [add_comm]
    symm x g hx _ := C80_symmetric x g hx (fun _ => 0) fun u v => by
      rw [tensordot_inner.zero_right, tensordot_inner.zero_left] }

/-- Poincaré balls. -/
theorem C115_factor_poincare [Fintype κ] [Fintype ι] (dim : ℤ)
    (transport : (κ → ι → ℝ) → (κ → ι → ℝ) → (κ → ι → ℝ) → κ → ι → ℝ)
    (log pairMean : (κ → ι → ℝ) → (κ → ι → ℝ) → κ → ι → ℝ) :
    HessFactor (poincareMfd dim transport log pairMean) InBalls (fun _ _ => True) (fun _ _ => True)
      (fun G V => ∑ k, ∑ i, G k i * V k i) pbE2rg pbE2rh := SplitFactor.factor
  { add _ _ := rfl
    neg _ := rfl
    smul _ _ := rfl
    zero _ _ := rfl
    tangent _ _ _ _ := rfl
    subspace _ := isSubspace_true
    inner X hX := (pbInner_inner X hX).on _
    grad_mem _ _ _ := trivial
    grad X G U hX _ := C90_gradient X G U hX
    split X G H V _ := by
      funext k i
      simp only [pbE2rh, pbE2rh1, pbE2rg, pbE2rg1, Pi.add_apply, Pi.zero_apply]
      ring
    symm X G hX _ := C90_symmetric X G hX (fun _ => 0) fun U V => by simp }

/-- Symmetric and Hermitian positive definite matrices. -/
theorem C115_factor_positive_definite [Fintype κ] [Fintype n] [DecidableEq n] (dim : ℤ)
    (log pairMean : Stack κ n n 𝕜 → Stack κ n n 𝕜 → Stack κ n n 𝕜) :
    HessFactor (positiveDefiniteMfd dim log pairMean) PDPoint (fun _ => HermStack) (fun _ _ => True)
      stackDot pdE2rg pdE2rh := SplitFactor.factor
  { add _ _ := rfl
    neg _ := rfl
    smul _ _ := rfl
    zero _ _ := rfl
    tangent _ _ _ hV := multiherm_of_herm hV
    subspace _ := hermStack_subspace
    inner P hP := (C81_metric P hP).1
    grad_mem P G hP := (C84_gradient P G hP).1
    grad P G U hP hU := (C84_gradient P G hP).2 U hU
    split P G H V hP := by
      funext k
      have hk : (P k)ᴴ = P k := (hP k).isHermitian
      change P k * ((1 / 2 : ℝ) • (H k + (H k)ᴴ)) * P k + multiherm (multiprod (multiprod V
          (multiherm G)) P) k = P k * ((1 / 2 : ℝ) • ((0 : Matrix n n 𝕜) + (0 : Matrix n n 𝕜)ᴴ)) * P k +
          multiherm (multiprod (multiprod V (multiherm G)) P) k +
          (1 / 2 : ℝ) • (P k * H k * P k + (P k * H k * P k)ᴴ)
      rw [conjTranspose_mul, conjTranspose_mul, hk, conjTranspose_zero, add_zero, smul_zero,
        Matrix.mul_zero, Matrix.zero_mul, zero_add, add_comm, Matrix.mul_smul, Matrix.smul_mul,
        Matrix.mul_add, Matrix.add_mul, Matrix.mul_assoc (P k) (H k)ᴴ]
    symm P G hP _ := C84_symmetric P G hP (fun _ => 0) fun U V _ _ => by
      exact (stackDot_zero _).1.trans (stackDot_zero _).2.symm }

/-- Stiefel manifolds, with every retraction. -/
theorem C115_factor_stiefel [Fintype κ] [Fintype n] [DecidableEq n] {p : ℕ} (dim : ℤ)
    (retraction log pairMean : Stack κ n (Fin p) ℝ → Stack κ n (Fin p) ℝ → Stack κ n (Fin p) ℝ) :
    HessFactor (stiefelMfd dim retraction log pairMean) OnStiefel StiefelTangent (fun _ _ => True)
      (stInner 0) stE2rg stE2rh := SplitFactor.factor
  { add _ _ := rfl
    neg _ := rfl
    smul _ _ := rfl
    zero _ _ := rfl
    tangent X _ hX hV := (C66_projection X hX).fixes hV
    subspace := stiefelTangent_subspace
    inner X _ := (C66_metric X X).1.on _
    grad_mem X G hX := (C66_transport_gradient X X G hX).2.2.1
    grad X G _ hX hU := (C66_projection X hX).represents G hU
    split X G H V hX := by
      have h0 : stProj X 0 = 0 := by
        simpa using (C66_projection X hX).smul 0 0
      simp only [stE2rh, stE2rg, subE2rh, subE2rg, h0, zero_add]
      rw [add_comm]
    symm X G hX _ := C69_symmetric X G hX (fun _ => 0) fun U V => by simp }

/-- Grassmann manifolds, real and complex, with every retraction: at points where the Euclidean
gradient is orthogonal to the changes of the basis. -/
theorem C115_factor_grassmann [Fintype κ] [Fintype n] [DecidableEq n] {p : ℕ} (dim : ℤ)
    (retraction log pairMean : Stack κ n (Fin p) 𝕜 → Stack κ n (Fin p) 𝕜 → Stack κ n (Fin p) 𝕜) :
    HessFactor (grassmannMfd dim retraction log pairMean) Orthonormal' GrHorizontal
      (fun X G => ∀ W : Stack κ (Fin p) (Fin p) 𝕜, SkewHermStack W →
        stackDot G (multiprod X W) = 0)
      (cgrInner 0) cgrProj cgrE2rh := SplitFactor.factor
  { add _ _ := rfl
    neg _ := rfl
    smul _ _ := rfl
    zero _ _ := rfl
    tangent X _ hX hV := (C70_projection X hX).fixes hV
    subspace := grHorizontal_subspace
    inner X _ := (C70_metric X X).1.on _
    grad_mem X G hX := (C70_transport_gradient X X G hX).2.1
    grad X G _ hX hU := (C70_projection X hX).represents G hU
    split X G H V _ := by
      have h0 : cgrProj X (0 : Stack κ n (Fin p) 𝕜) = 0 := by
        funext k
        simp [cgrProj, multiprod]
      simp only [cgrE2rh, h0]
      module
    symm X G hX hG := C70_symmetric X G hX hG (fun _ => 0) fun U V => by
      exact (stackDot_zero _).1.trans (stackDot_zero _).2.symm }

/-- Fixed-rank positive semidefinite matrices, real and complex, with every solver of the Lyapunov
equation: at points where the Euclidean gradient is horizontal, as it is for costs that depend on the
matrix only. -/
theorem C115_factor_psd [Fintype n] {k : ℕ} (dim : ℤ)
    (proj log pairMean : Matrix n (Fin k) 𝕜 → Matrix n (Fin k) 𝕜 → Matrix n (Fin k) 𝕜)
    (hp : ∀ Y V, FullRank Y → IsPsdProj Y V (proj Y V)) :
    HessFactor (psdMfd dim proj log pairMean) FullRank Horizontal Horizontal trDot psdE2rg
      (fun Y _ H _ => proj Y H) := by
  have key : ∀ Y : Matrix n (Fin k) 𝕜, FullRank Y →
      IsOrthProj (E := Matrix n (Fin k) 𝕜) (psdInner Y) (Horizontal Y) (proj Y) := fun Y hY => by
    obtain ⟨P, hP, h⟩ := C74_projection Y hY
    rwa [show proj Y = P from funext fun V => (h _ _).1 (hp Y V hY)]
  have hin : ∀ Y : Matrix n (Fin k) 𝕜, IsInner (E := Matrix n (Fin k) 𝕜) (psdInner Y) := fun Y => by
    rw [show psdInner Y = trDot from funext fun A => funext fun B => psdInner_eq Y A B]
    exact trDot_inner
  have h0 : ∀ Y : Matrix n (Fin k) 𝕜, FullRank Y → proj Y 0 = 0 := fun Y hY =>
    (key Y hY).fixes (horizontal_subspace Y).zero
  exact
  { add := fun _ _ => rfl
    neg := fun _ => rfl
    smul := fun _ _ => rfl
    zero := fun _ _ => rfl
    tangent := fun Y _ hY hV => (key Y hY).fixes hV
    subspace := horizontal_subspace
    inner := fun Y _ => (hin Y).on _
    grad_mem := fun _ _ _ hG => hG
    hess_mem := fun Y _ H _ hY _ _ => (key Y hY).mem H
    hess := fun Y _ H U V hY _ _ hV => by
      change psdInner Y (proj Y H) V = psdInner Y (proj Y 0) V + trDot H V
      rw [h0 Y hY, (hin Y).zero_left, zero_add, (key Y hY).represents H hV, psdInner_eq]
    symm := fun Y _ hY _ => ⟨fun {V} _ => (key Y hY).mem 0, fun {U V} _ _ => by
      change psdInner Y U (proj Y 0) = psdInner Y (proj Y 0) V
      rw [h0 Y hY, (hin Y).zero_left, (hin Y).zero_right]⟩ }

/-- **C115** (fixed-rank positive semidefinite matrices, real and complex), for costs that depend on
the matrix only. -/
theorem C115_psd [Fintype n] {k : ℕ} (dim : ℤ)
    (proj log pairMean : Matrix n (Fin k) 𝕜 → Matrix n (Fin k) 𝕜 → Matrix n (Fin k) 𝕜)
    (hp : ∀ Y V, FullRank Y → IsPsdProj Y V (proj Y V)) (cost : Matrix n (Fin k) 𝕜 → ℝ)
    {egrad : Matrix n (Fin k) 𝕜 → Matrix n (Fin k) 𝕜}
    {ehess : Matrix n (Fin k) 𝕜 → Matrix n (Fin k) 𝕜 → Matrix n (Fin k) 𝕜}
    (hG : ∀ Y, FullRank Y → Horizontal Y (egrad Y))
    (hH : ∀ Y U V, trDot U (ehess Y V) = trDot (ehess Y U) V) :
    TCGSound (arrayProb (psdMfd dim proj log pairMean) psdE2rg (fun Y _ H _ => proj Y H)
      (fun _ v => v) cost egrad ehess) FullRank Horizontal := by
  have hF := C115_factor_psd dim proj log pairMean hp
  refine tcgSound_of hF.add hF.neg hF.smul hF.zero (fun _ _ => rfl) hF.tangent
    (fun Y _ => hF.subspace Y) hF.inner (fun Y hY => hG Y hY) fun Y hY => ?_
  exact C74_hessian Y (egrad Y) hY (ehess Y) (fun V => proj Y (ehess Y V))
    (fun U V => by rw [psdInner_eq, psdInner_eq]; exact hH Y U V) fun V => hp Y _ hY

/-- C109 does not extend to the fixed-rank positive semidefinite matrices: at every point there is a
tangent vector along which the retraction (which is the exponential map) leaves the manifold. -/
theorem C109_negation_psd [Fintype n] {k : ℕ} (hk : 0 < k) (Y : Matrix n (Fin k) 𝕜) :
    Horizontal Y (-Y) ∧ ¬FullRank (psdExp Y (-Y)) := by
  refine ⟨?_, fun h => ?_⟩
  · rw [horizontal_iff, Matrix.mul_neg, conjTranspose_neg, conjTranspose_mul,
      conjTranspose_conjTranspose]
  · have := h (fun _ => 1) (by rw [psdExp, add_neg_cancel, Matrix.zero_mulVec])
    exact one_ne_zero (congrFun this ⟨0, hk⟩)

end factors

/-! ## The hypotheses can be met -/

/-- The inner product of two points of circles couples the factors; its Hessian exchanges the
components. -/
example : TCGSound (productProb (fun _ : Fin 2 => sphereMfd (ι := Fin 2) 0) (fun _ => sphereE2rg)
    (fun _ => sphereE2rh) (fun _ _ v => v) (fun x => tensordot (x 0) (x 1))
    (fun x => ![x 1, x 0]) fun _ v => ![v 1, v 0])
    (fun x => ∀ i, OnSphere (x i)) fun x v => ∀ i, SphereTangent (x i) (v i) := by
  refine C115_product (D := fun _ => tensordot) (Good := fun _ _ _ => True)
    (fun _ => C115_factor_sphere 0) _ (fun _ _ _ => trivial) fun x u v _ _ _ => ?_
  simp only [Fin.sum_univ_two, Matrix.cons_val_zero, Matrix.cons_val_one]
  rw [tensordot_inner.symm (u 1), tensordot_inner.symm (u 0)]
  ring

/-- There are points on the product, with tangent vectors other than zero. -/
example : (∀ i : Fin 2, OnSphere ((fun _ => ![1, 0] : Fin 2 → Fin 2 → ℝ) i)) ∧
    ∀ i : Fin 2, SphereTangent ((fun _ => ![1, 0] : Fin 2 → Fin 2 → ℝ) i) ![0, 1] := by
  constructor <;> intro i <;> simp [OnSphere, SphereTangent, Fin.sum_univ_two]

/-- The trace of the matrix, with the gradient `Y`, on the positive semidefinite matrices of size
three and rank two. -/
example : (∃ Y : Matrix (Fin 3) (Fin 2) ℝ, FullRank Y) ∧
    ∃ proj : Matrix (Fin 3) (Fin 2) ℝ → Matrix (Fin 3) (Fin 2) ℝ → Matrix (Fin 3) (Fin 2) ℝ,
      TCGSound (arrayProb (psdMfd 5 proj (fun _ B => B) fun _ B => B) psdE2rg
        (fun Y _ H _ => proj Y H) (fun _ v => v) (fun Y => trDot Y Y / 2) (fun Y => Y) fun _ V => V)
        FullRank Horizontal := by
  classical
  refine ⟨⟨!![1, 0; 0, 1; 1, 1], fun y hy => ?_⟩, fun Y V =>
    if h : FullRank Y then (C74_projection Y h).choose V else V, ?_⟩
  · have h0 := congrFun hy 0
    have h1 := congrFun hy 1
    simp [Matrix.mulVec, dotProduct, Fin.sum_univ_two] at h0 h1
    funext i
    fin_cases i <;> simp [h0, h1]
  · refine C115_psd 5 _ _ _ (fun Y V hY => ?_) _ (fun Y _ => ?_) fun _ _ _ => rfl
    · simp only [dif_pos hY]
      exact ((C74_projection Y hY).choose_spec.2 _ _).2 rfl
    · rw [horizontal_iff, conjTranspose_mul, conjTranspose_conjTranspose]

end Verif.Geo
