/-
C158 on the library's manifolds: their norms, inner products, transports and conversions of
derivatives commute with positive factors, so measuring the cost in other units changes nothing
but the reported numbers.
-/
import Verif.Opt.Props.CostUnits
import Verif.Opt.Props.CostUnitsTR
import Verif.Geo.Model.OptMfd
import Verif.Geo.Model.FixedRankMfd
import Verif.Geo.Lemmas.Stack
import Verif.Geo.Lemmas.Dot

namespace Verif.Geo
open Matrix Verif.Opt

variable {κ ι m n p : Type*} {𝕜 : Type*} [RCLike 𝕜]

/-! ## Specification -/

/-- The conversions of Euclidean derivatives and the embedding commute with factors. -/
structure ConversionsScale {E : Type*} [AddCommGroup E] [Module ℝ E] (e2rg : E → E → E)
    (e2rh : E → E → E → E → E) (embed : E → E → E) : Prop where
  grad : ∀ x (t : ℝ) g, e2rg x (t • g) = t • e2rg x g
  hess : ∀ x (t : ℝ) g h v, e2rh x (t • g) (t • h) v = t • e2rh x g h v
  hess_vector : ∀ x (t : ℝ) g h v, e2rh x g (t • h) (t • v) = t • e2rh x g h v
  embed : ∀ x (t : ℝ) v, embed x (t • v) = t • embed x v

/-! ## Problems -/

section prob
variable {E : Type*} [AddCommGroup E] [Module ℝ E] {M : Mfd ℝ E E} {e2rg : E → E → E}
  {e2rh : E → E → E → E → E} {embed : E → E → E} {cost : E → ℝ} {egrad : E → E}
  {ehess : E → E → E}

/-- **C158.** A problem stated in other units (cost, Euclidean gradient and Euclidean Hessian) is
the problem in other units. -/
theorem C158_problem (hM : ∀ t v, M.smul t v = t • v) (h : ConversionsScale e2rg e2rh embed)
    (a b : ℝ) :
    arrayProb M e2rg e2rh embed (fun x => a * cost x + b) (fun x => a • egrad x)
        (fun x v => a • ehess x v) =
      (arrayProb M e2rg e2rh embed cost egrad ehess).inUnits a b := by
  simp only [arrayProb, Prob.inUnits, hM, h.grad, h.hess]

/-- **C158.** The default preconditioner commutes with factors, and so does the Hessian if the
Euclidean one does. -/
theorem C158_problem_scales (hM : ∀ t v, M.smul t v = t • v)
    (h : ConversionsScale e2rg e2rh embed) (hH : ∀ x (t : ℝ) v, ehess x (t • v) = t • ehess x v) :
    PreconScales (arrayProb M e2rg e2rh embed cost egrad ehess) ∧
      HessScales (arrayProb M e2rg e2rh embed cost egrad ehess) :=
  ⟨fun _ _ _ => rfl, fun x t v => by simp only [arrayProb, hM, h.embed, hH, h.hess_vector]⟩

end prob

/-! ## Lemmas -/

section base
variable {E : Type*} [AddCommGroup E] [Module ℝ E]

private theorem arrayMfd_scale {dim : ℤ} {norm : E → E → ℝ} {inner : E → E → E → ℝ}
    {retraction : E → E → E} {transport : E → E → E → E} {zero : E → E} {toTangent : E → E → E}
    {log pairMean : E → E → E} (hz : ∀ x, zero x = 0)
    (hn : ∀ y t v, 0 < t → norm y (t • v) = t * norm y v)
    (hl : ∀ y (t : ℝ) u v, inner y (t • u) v = t * inner y u v)
    (hr : ∀ y (t : ℝ) u v, inner y u (t • v) = t * inner y u v)
    (ht : ∀ x y (t : ℝ) v, transport x y (t • v) = t • transport x y v)
    (hp : ∀ y (t : ℝ) v, toTangent y (t • v) = t • toTangent y v) :
    ScaleOps (arrayMfd dim norm inner retraction transport zero toTangent log pairMean) where
  smul_smul s t v := smul_smul s t v
  norm_smul := hn
  inner_left := hl
  inner_right := hr
  transport := ht
  toTangent := hp
  zeroVector y t := by simp only [arrayMfd, hz, smul_zero]
  add t u v := (smul_add t u v).symm
  sub t u v := (smul_sub t u v).symm
  neg t v := (smul_neg t v).symm

end base

private theorem sqrt_scale {t : ℝ} (ht : 0 < t) (u : ℝ) :
    Real.sqrt (t * (t * u)) = t * Real.sqrt u := by
  rw [← mul_assoc, Real.sqrt_mul (mul_nonneg ht.le ht.le), Real.sqrt_mul_self ht.le]

section arrays
variable [Fintype ι]

private theorem tensordot_l (t : ℝ) (u v : ι → ℝ) : tensordot (t • u) v = t * tensordot u v := by
  simp only [tensordot, Pi.smul_apply, smul_eq_mul, mul_assoc, Finset.mul_sum]

private theorem tensordot_r (t : ℝ) (u v : ι → ℝ) : tensordot u (t • v) = t * tensordot u v := by
  simp only [tensordot, Pi.smul_apply, smul_eq_mul, Finset.mul_sum]
  exact Finset.sum_congr rfl fun i _ => by ring

private theorem npNorm_pos {t : ℝ} (ht : 0 < t) (u : ι → 𝕜) : npNorm (t • u) = t * npNorm u := by
  rw [npNorm_smul, abs_of_pos ht]

private theorem retensordot_l (t : ℝ) (u v : ι → 𝕜) :
    retensordot (t • u) v = t * retensordot u v := retensordot_inner.smul_left t u v

private theorem retensordot_r (t : ℝ) (u v : ι → 𝕜) :
    retensordot u (t • v) = t * retensordot u v := retensordot_inner.smul_right t u v

end arrays

section stackLemmas
variable (t : ℝ)

private theorem multitransp_s (A : Stack κ m n 𝕜) : multitransp (t • A) = t • multitransp A := rfl

private theorem multihconj_s (A : Stack κ m n 𝕜) : multihconj (t • A) = t • multihconj A := by
  funext k
  ext i j
  simp only [multihconj, multitransp, Pi.smul_apply, map_apply, of_apply, Matrix.smul_apply,
    star_smul, star_trivial]

private theorem multisym_s (A : Stack κ n n 𝕜) : multisym (t • A) = t • multisym A := by
  simp only [multisym, multitransp_s, ← smul_add, smul_comm t]

private theorem multiherm_s (A : Stack κ n n 𝕜) : multiherm (t • A) = t • multiherm A := by
  simp only [multiherm, multihconj_s, ← smul_add, smul_comm t]

private theorem multiskew_s (A : Stack κ n n 𝕜) : multiskew (t • A) = t • multiskew A := by
  simp only [multiskew, multitransp_s, ← smul_sub, smul_comm t]

private theorem multiskewh_s (A : Stack κ n n 𝕜) : multiskewh (t • A) = t • multiskewh A := by
  simp only [multiskewh, multihconj_s, ← smul_sub, smul_comm t]

private theorem multiprod_r [Fintype n] (A : Stack κ m n 𝕜) (B : Stack κ n p 𝕜) :
    multiprod A (t • B) = t • multiprod A B := by
  funext k
  simp [multiprod]

private theorem multiprod_l [Fintype n] (A : Stack κ m n 𝕜) (B : Stack κ n p 𝕜) :
    multiprod (t • A) B = t • multiprod A B := by
  funext k
  simp [multiprod]

private theorem multisolve_r [Fintype n] [DecidableEq n] (A B : Stack κ n n 𝕜) :
    multisolve A (t • B) = t • multisolve A B := by
  funext k
  simp [multisolve]

private theorem stackTensordot_l [Fintype κ] [Fintype m] [Fintype n] (A B : Stack κ m n ℝ) :
    stackTensordot (t • A) B = t * stackTensordot A B := tensordot_l t _ _

private theorem stackTensordot_r [Fintype κ] [Fintype m] [Fintype n] (A B : Stack κ m n ℝ) :
    stackTensordot A (t • B) = t * stackTensordot A B := tensordot_r t _ _

private theorem stackNorm_pos [Fintype κ] [Fintype m] [Fintype n] (ht : 0 < t)
    (A : Stack κ m n 𝕜) : stackNorm (t • A) = t * stackNorm A := by
  rw [stackNorm_smul, abs_of_pos ht]

end stackLemmas

/-! ## Vector spaces -/

section vector

/-- **C158.** `Euclidean` and `ComplexEuclidean`. -/
theorem C158_euclidean [Fintype ι] (dim : ℤ) : ScaleOps (euclideanMfd (ι := ι) (𝕜 := 𝕜) dim) :=
  arrayMfd_scale (fun _ => rfl) (fun _ _ v h => npNorm_pos h v) (fun _ t u v => retensordot_l t u v)
    (fun _ t u v => retensordot_r t u v) (fun _ _ _ _ => rfl) fun _ _ _ => rfl

/-- **C158.** The conversions of `Euclidean` and `ComplexEuclidean`. -/
theorem C158_euclidean_conversions :
    ConversionsScale (E := ι → 𝕜) (fun _ g => g) eucE2rh (fun _ v => v) :=
  ⟨fun _ _ _ => rfl, fun _ _ _ _ _ => rfl, fun _ _ _ _ _ => rfl, fun _ _ _ => rfl⟩

/-- **C158.** `Symmetric`, and `SkewSymmetric` below. -/
theorem C158_symmetric [Fintype κ] [Fintype n] (dim : ℤ) : ScaleOps (symmetricMfd (κ := κ) (n := n) dim) :=
  arrayMfd_scale (fun _ => rfl) (fun _ t v h => stackNorm_pos t h v)
    (fun _ t u v => stackDot_smul_left t u v) (fun _ t u v => stackDot_smul_right t u v)
    (fun _ _ _ _ => rfl) fun _ _ _ => rfl

/-- **C158.** The conversions of `Symmetric`. -/
theorem C158_symmetric_conversions :
    ConversionsScale (E := Stack κ n n ℝ) (subE2rg symProj) symE2rh (fun _ v => v) :=
  ⟨fun _ t g => multisym_s t g, fun _ t _ h _ => multisym_s t h,
    fun _ t _ h _ => multisym_s t h, fun _ _ _ => rfl⟩

/-- **C158.** The conversions of `SkewSymmetric`. -/
theorem C158_skewSymmetric_conversions :
    ConversionsScale (E := Stack κ n n ℝ) (subE2rg skewProj) skewE2rh (fun _ v => v) :=
  ⟨fun _ t g => multiskew_s t g, fun _ t _ h _ => multiskew_s t h,
    fun _ t _ h _ => multiskew_s t h, fun _ _ _ => rfl⟩

end vector

/-! ## Spheres -/

section sphere
variable [Fintype ι]

private theorem sphereProj_s (x : ι → ℝ) (t : ℝ) (v : ι → ℝ) :
    sphereProj x (t • v) = t • sphereProj x v := by
  simp only [sphereProj, sphereInner, tensordot_r, smul_sub, smul_smul]

private theorem subspaceProj_s (M : Matrix ι ι ℝ) (x : ι → ℝ) (t : ℝ) (v : ι → ℝ) :
    subspaceProj M x (t • v) = t • subspaceProj M x v := by
  simp only [subspaceProj, sphereProj_s, mulVec_smul]

/-- **C158.** `Sphere`. -/
theorem C158_sphere (eps : ℝ) : ScaleOps (sphereMfd (ι := ι) eps) :=
  arrayMfd_scale (fun _ => rfl) (fun _ _ v h => npNorm_pos h v) (fun _ t u v => tensordot_l t u v)
    (fun _ t u v => tensordot_r t u v) (fun _ y t v => sphereProj_s y t v) sphereProj_s

/-- **C158.** `SphereSubspaceIntersection` and `SphereSubspaceComplementIntersection`. -/
theorem C158_sphereSubspace (M : Matrix ι ι ℝ) (dim : ℤ) (eps : ℝ) :
    ScaleOps (sphereSubspaceMfd M dim eps) :=
  arrayMfd_scale (fun _ => rfl) (fun _ _ v h => npNorm_pos h v) (fun _ t u v => tensordot_l t u v)
    (fun _ t u v => tensordot_r t u v) (fun _ y t v => subspaceProj_s M y t v) sphereProj_s

private theorem sub_conversions {E : Type*} [AddCommGroup E] [Module ℝ E] {proj : E → E → E}
    {wein : E → E → E → E} {embed : E → E → E} (hp : ∀ x (t : ℝ) v, proj x (t • v) = t • proj x v)
    (hw : ∀ x (t : ℝ) v u, wein x v (t • u) = t • wein x v u)
    (hw' : ∀ x (t : ℝ) v u, wein x (t • v) u = t • wein x v u)
    (he : ∀ x (t : ℝ) v, embed x (t • v) = t • embed x v) :
    ConversionsScale (subE2rg proj) (subE2rh proj wein) embed where
  grad := hp
  hess x t g h v := by simp only [subE2rh, hp, ← smul_sub, hw, smul_add]
  hess_vector x t g h v := by simp only [subE2rh, hp, hw', smul_add]
  embed := he

/-- **C158.** The conversions of `Sphere`. -/
theorem C158_sphere_conversions :
    ConversionsScale (E := ι → ℝ) sphereE2rg sphereE2rh (fun _ v => v) := by
  refine sub_conversions sphereProj_s (fun x t v u => ?_) (fun x t v u => ?_) fun _ _ _ => rfl
  · simp only [sphereWeingarten, sphereInner, tensordot_r, smul_smul, mul_neg]
  · simp only [sphereWeingarten, smul_smul, mul_comm]

/-- **C158.** The conversions of the intersections of the sphere with subspaces. -/
theorem C158_sphereSubspace_conversions (M : Matrix ι ι ℝ) :
    ConversionsScale (E := ι → ℝ) (subE2rg (subspaceProj M))
      (subE2rh (subspaceProj M) sphereWeingarten) (fun _ v => v) := by
  refine sub_conversions (subspaceProj_s M) (fun x t v u => ?_) (fun x t v u => ?_)
    fun _ _ _ => rfl
  · simp only [sphereWeingarten, sphereInner, tensordot_r, smul_smul, mul_neg]
  · simp only [sphereWeingarten, smul_smul, mul_comm]

end sphere

/-! ## Oblique manifolds and circles -/

section oblique
variable [Fintype m]

private theorem colSums_r (X : Matrix m n ℝ) (t : ℝ) (V : Matrix m n ℝ) (j : n) :
    colSums X (t • V) j = t * colSums X V j := by
  simp only [colSums, Matrix.smul_apply, smul_eq_mul, Finset.mul_sum]
  exact Finset.sum_congr rfl fun i _ => by ring

private theorem oblProj_s (X : Matrix m n ℝ) (t : ℝ) (V : Matrix m n ℝ) :
    oblProj X (t • V) = t • oblProj X V := by
  ext i j
  simp only [oblProj, of_apply, Matrix.smul_apply, smul_eq_mul, colSums_r]
  ring

/-- **C158.** `Oblique`. -/
theorem C158_oblique [Fintype n] (dim : ℤ) (eps : ℝ) : ScaleOps (obliqueMfd (m := m) (n := n) dim eps) :=
  arrayMfd_scale (fun _ => rfl) (fun _ _ _ h => npNorm_pos h _) (fun _ t _ _ => tensordot_l t _ _)
    (fun _ t _ _ => tensordot_r t _ _) (fun _ y t v => oblProj_s y t v) oblProj_s

/-- **C158.** The conversions of `Oblique`. -/
theorem C158_oblique_conversions :
    ConversionsScale (E := Matrix m n ℝ) (subE2rg oblProj) oblE2rh (fun _ v => v) where
  grad := oblProj_s
  hess X t G H V := by
    ext i j
    simp only [oblE2rh, of_apply, Matrix.smul_apply, smul_eq_mul, colSums_r, oblProj_s]
    ring
  hess_vector X t G H V := by
    ext i j
    simp only [oblE2rh, of_apply, Matrix.smul_apply, smul_eq_mul, oblProj_s]
    ring
  embed _ _ _ := rfl

end oblique

section circle
variable [Fintype ι]

omit [Fintype ι] in
private theorem ccProj_s (z : ι → ℂ) (t : ℝ) (v : ι → ℂ) : ccProj z (t • v) = t • ccProj z v := by
  funext i
  apply Complex.ext <;> simp [ccProj] <;> ring

/-- **C158.** `ComplexCircle`. -/
theorem C158_complexCircle (log : (ι → ℂ) → (ι → ℂ) → ι → ℂ) :
    ScaleOps (complexCircleMfd log) :=
  arrayMfd_scale (fun _ => rfl) (fun _ _ v h => npNorm_pos h v)
    (fun _ t u v => retensordot_l (𝕜 := ℂ) t u v) (fun _ t u v => retensordot_r (𝕜 := ℂ) t u v)
    (fun _ y t v => ccProj_s y t v) ccProj_s

omit [Fintype ι] in
/-- **C158.** The conversions of `ComplexCircle`. -/
theorem C158_complexCircle_conversions :
    ConversionsScale (E := ι → ℂ) (subE2rg ccProj) ccE2rh (fun _ v => v) where
  grad := ccProj_s
  hess z t g h v := by
    rw [ccE2rh, ccE2rh, ← ccProj_s]
    congr 1
    funext i
    apply Complex.ext <;> simp <;> ring
  hess_vector z t g h v := by
    rw [ccE2rh, ccE2rh, ← ccProj_s]
    congr 1
    funext i
    apply Complex.ext <;> simp <;> ring
  embed _ _ _ := rfl

end circle

/-! ## Positive and positive definite matrices -/

section positive
variable [Fintype ι]

private theorem posInner_l (p : ι → ℝ) (t : ℝ) (u v : ι → ℝ) :
    posInner p (t • u) v = t * posInner p u v := by
  rw [posInner, posInner, ← tensordot_l]
  congr 1
  funext i
  simp [mul_div_assoc]

private theorem posInner_r (p : ι → ℝ) (t : ℝ) (u v : ι → ℝ) :
    posInner p u (t • v) = t * posInner p u v := by
  rw [posInner, posInner, ← tensordot_r]
  congr 1
  funext i
  simp [mul_div_assoc]

/-- **C158.** `Positive`. -/
theorem C158_positive (dim : ℤ) (parallel : Bool) (pairMean : (ι → ℝ) → (ι → ℝ) → ι → ℝ) :
    ScaleOps (positiveMfd dim parallel pairMean) := by
  refine arrayMfd_scale (fun _ => rfl) (fun p t v h => ?_) posInner_l posInner_r
    (fun x y t v => ?_) fun _ _ _ => rfl
  · simp only [posNorm, posInner_l, posInner_r, sqrt_scale h]
  · cases parallel
    · rfl
    · funext i
      simp [posTransport, posParallel]
      ring

omit [Fintype ι] in
/-- **C158.** The conversions of `Positive`. -/
theorem C158_positive_conversions :
    ConversionsScale (E := ι → ℝ) posE2rg posE2rh (fun _ v => v) where
  grad p t g := by
    funext i
    simp [posE2rg]
    ring
  hess p t g h v := by
    funext i
    simp [posE2rh]
    ring
  hess_vector p t g h v := by
    funext i
    simp [posE2rh]
    ring
  embed _ _ _ := rfl

end positive

section positiveDefinite
variable [Fintype κ] [Fintype n] [DecidableEq n]

private theorem pdInner_l (P : Stack κ n n 𝕜) (t : ℝ) (A B : Stack κ n n 𝕜) :
    pdInner P (t • A) B = t * pdInner P A B := by
  simp only [pdInner, multisolve_r, Pi.smul_apply, Matrix.smul_apply, smul_mul_assoc,
    ← Finset.smul_sum, RCLike.smul_re]

private theorem pdInner_r (P : Stack κ n n 𝕜) (t : ℝ) (A B : Stack κ n n 𝕜) :
    pdInner P A (t • B) = t * pdInner P A B := by
  simp only [pdInner, multisolve_r, multitransp_s, Pi.smul_apply, Matrix.smul_apply,
    mul_smul_comm, ← Finset.smul_sum, RCLike.smul_re]

private theorem pdNorm_pos (P : Stack κ n n 𝕜) {t : ℝ} (h : 0 < t) (V : Stack κ n n 𝕜) :
    pdNorm P (t • V) = t * pdNorm P V := by
  simp only [pdNorm, pdInner_l, pdInner_r, sqrt_scale h]

/-- **C158.** `SymmetricPositiveDefinite` and `HermitianPositiveDefinite`. -/
theorem C158_positiveDefinite (dim : ℤ)
    (log pairMean : Stack κ n n 𝕜 → Stack κ n n 𝕜 → Stack κ n n 𝕜) :
    ScaleOps (positiveDefiniteMfd dim log pairMean) :=
  arrayMfd_scale (fun _ => rfl) (fun p _ v h => pdNorm_pos p h v) pdInner_l pdInner_r
    (fun _ _ _ _ => rfl) fun _ t v => multiherm_s t v

omit [Fintype κ] [DecidableEq n] in
/-- **C158.** The conversions of `SymmetricPositiveDefinite` and `HermitianPositiveDefinite`. -/
theorem C158_positiveDefinite_conversions :
    ConversionsScale (E := Stack κ n n 𝕜) pdE2rg pdE2rh (fun _ v => v) where
  grad P t G := by simp only [pdE2rg, pdProj, multiprod_r, multiprod_l, multiherm_s]
  hess P t G H V := by simp only [pdE2rh, multiprod_r, multiprod_l, multiherm_s, smul_add]
  hess_vector P t G H V := by simp only [pdE2rh, multiprod_r, multiprod_l, multiherm_s, smul_add]
  embed _ _ _ := rfl

omit [Fintype κ] in
private theorem shpdProj_s {n : ℕ} (P : Stack κ (Fin n) (Fin n) ℂ) (t : ℝ)
    (V : Stack κ (Fin n) (Fin n) ℂ) : shpdProj P (t • V) = t • shpdProj P V := by
  funext k
  have e : pdProj P (t • V) = t • pdProj P V := multiherm_s t V
  simp only [shpdProj, e, multisolve_r, Pi.smul_apply, trace_smul, RCLike.smul_re, smul_sub,
    smul_smul]
  congr 2
  ring

/-- **C158.** `SpecialHermitianPositiveDefinite`. -/
theorem C158_specialHpd {n : ℕ} (dim : ℤ)
    (log pairMean : Stack κ (Fin n) (Fin n) ℂ → Stack κ (Fin n) (Fin n) ℂ →
      Stack κ (Fin n) (Fin n) ℂ) : ScaleOps (specialHpdMfd dim log pairMean) := by
  refine arrayMfd_scale (fun _ => rfl) (fun p _ v h => pdNorm_pos p h v) pdInner_l pdInner_r
    (fun _ y t v => ?_) fun _ t v => multiherm_s t v
  have e : pdProj y (t • v) = t • pdProj y v := multiherm_s t v
  simp only [shpdTransport, e, shpdProj_s]

omit [Fintype κ] in
/-- **C158.** The gradient of `SpecialHermitianPositiveDefinite`; the class has no Hessian. -/
theorem C158_specialHpd_gradient {n : ℕ} (P G : Stack κ (Fin n) (Fin n) ℂ) (t : ℝ) :
    shpdE2rg P (t • G) = t • shpdE2rg P G := by
  simp only [shpdE2rg, shpdBaseE2rg, multiprod_r, multiprod_l, shpdProj_s]

end positiveDefinite

/-! ## Stiefel and Grassmann manifolds, rotations -/

section stiefel
variable [Fintype κ] [Fintype n]

omit [Fintype κ] in
private theorem stProj_s [Fintype p] (X : Stack κ n p ℝ) (t : ℝ) (V : Stack κ n p ℝ) :
    stProj X (t • V) = t • stProj X V := by
  simp only [stProj, multiprod_r, multisym_s, smul_sub]

/-- **C158.** `Stiefel`, with any of its retractions. -/
theorem C158_stiefel {p : ℕ} (dim : ℤ)
    (retraction log pairMean : Stack κ n (Fin p) ℝ → Stack κ n (Fin p) ℝ → Stack κ n (Fin p) ℝ) :
    ScaleOps (stiefelMfd dim retraction log pairMean) :=
  arrayMfd_scale (fun _ => rfl) (fun _ t v h => stackNorm_pos t h v)
    (fun _ t u v => stackTensordot_l t u v) (fun _ t u v => stackTensordot_r t u v)
    (fun _ y t v => stProj_s y t v) stProj_s

omit [Fintype κ] in
/-- **C158.** The conversions of `Stiefel`. -/
theorem C158_stiefel_conversions [Fintype p] :
    ConversionsScale (E := Stack κ n p ℝ) stE2rg stE2rh (fun _ v => v) := by
  refine sub_conversions stProj_s (fun x t v u => ?_) (fun x t v u => ?_) fun _ _ _ => rfl
  · simp only [stWeingarten, multiprod_r, multisym_s, smul_sub]
  · simp only [stWeingarten, multitransp_s, ← smul_neg, multiprod_l, multiprod_r, multisym_s,
      smul_sub]

omit [Fintype κ] in
private theorem cgrProj_s [Fintype p] (X : Stack κ n p 𝕜) (t : ℝ) (V : Stack κ n p 𝕜) :
    cgrProj X (t • V) = t • cgrProj X V := by
  simp only [cgrProj, multiprod_r, smul_sub]

/-- **C158.** `Grassmann` and `ComplexGrassmann`, with any retraction. -/
theorem C158_grassmann {p : ℕ} (dim : ℤ)
    (retraction log pairMean : Stack κ n (Fin p) 𝕜 → Stack κ n (Fin p) 𝕜 → Stack κ n (Fin p) 𝕜) :
    ScaleOps (grassmannMfd dim retraction log pairMean) :=
  arrayMfd_scale (fun _ => rfl) (fun _ t v h => stackNorm_pos t h v)
    (fun _ t u v => stackDot_smul_left t u v) (fun _ t u v => stackDot_smul_right t u v)
    (fun _ y t v => cgrProj_s y t v) cgrProj_s

omit [Fintype κ] in
/-- **C158.** The conversions of `Grassmann` and `ComplexGrassmann`. -/
theorem C158_grassmann_conversions [Fintype p] :
    ConversionsScale (E := Stack κ n p 𝕜) cgrProj cgrE2rh (fun _ v => v) where
  grad := cgrProj_s
  hess X t G H V := by simp only [cgrE2rh, cgrProj_s, multiprod_r, smul_sub]
  hess_vector X t G H V := by simp only [cgrE2rh, cgrProj_s, multiprod_l, smul_sub]
  embed _ _ _ := rfl

/-- **C158.** `SpecialOrthogonalGroup`, with any of its retractions. -/
theorem C158_specialOrthogonal {p : ℕ} (dim : ℤ)
    (retraction log pairMean : Stack κ (Fin p) (Fin p) ℝ → Stack κ (Fin p) (Fin p) ℝ →
      Stack κ (Fin p) (Fin p) ℝ) :
    ScaleOps (specialOrthogonalMfd dim retraction log pairMean) := by
  refine arrayMfd_scale (fun _ => rfl) (fun _ t v h => stackNorm_pos t h v) (fun _ t u v => ?_)
    (fun _ t u v => ?_) (fun _ _ _ _ => rfl) fun _ t v => multiskewh_s t v
  · simp only [gInner, Pi.smul_apply, Matrix.smul_apply, smul_eq_mul, star_trivial, mul_assoc,
      Finset.mul_sum]
  · simp only [gInner, Pi.smul_apply, Matrix.smul_apply, smul_eq_mul, star_trivial, Finset.mul_sum]
    exact Finset.sum_congr rfl fun i _ => by ring

omit [Fintype κ] in
/-- **C158.** The conversions of `SpecialOrthogonalGroup`, whose embedding multiplies by the
point. -/
theorem C158_specialOrthogonal_conversions :
    ConversionsScale (E := Stack κ n n 𝕜) gE2rg gE2rh gEmbed where
  grad X t G := by simp only [gE2rg, subE2rg, gProj, multiprod_r, multiskew_s]
  hess X t G H V := by
    simp only [gE2rh, multiprod_r, multiherm_s, ← smul_sub, multiskewh_s]
  hess_vector X t G H V := by
    simp only [gE2rh, multiprod_r, multiprod_l, ← smul_sub, multiskewh_s]
  embed X t V := multiprod_r t X V

end stiefel

/-! ## Positive semidefinite matrices of fixed rank -/

section psd
variable [Fintype n] {k : ℕ}

/-- `PSDFixedRank` and `PSDFixedRankComplex`, if the projection is linear. -/
theorem psdMfd_scale (dim : ℤ)
    {proj : Matrix n (Fin k) 𝕜 → Matrix n (Fin k) 𝕜 → Matrix n (Fin k) 𝕜}
    (hp : ∀ y (t : ℝ) v, proj y (t • v) = t • proj y v)
    (log pairMean : Matrix n (Fin k) 𝕜 → Matrix n (Fin k) 𝕜 → Matrix n (Fin k) 𝕜) :
    ScaleOps (psdMfd dim proj log pairMean) :=
  arrayMfd_scale (fun _ => rfl) (fun _ _ _ h => npNorm_pos h _) (fun _ t _ _ => retensordot_l t _ _)
    (fun _ t _ _ => retensordot_r t _ _) (fun _ y t v => hp y t v) hp

/-- `Elliptope`, if the projection is linear. -/
theorem elliptopeMfd_scale (dim : ℤ)
    {proj : Matrix n (Fin k) ℝ → Matrix n (Fin k) ℝ → Matrix n (Fin k) ℝ}
    (hp : ∀ y (t : ℝ) v, proj y (t • v) = t • proj y v)
    (log pairMean : Matrix n (Fin k) ℝ → Matrix n (Fin k) ℝ → Matrix n (Fin k) ℝ) :
    ScaleOps (elliptopeMfd dim proj log pairMean) := by
  have hl : ∀ y (t : ℝ) (u v : Matrix n (Fin k) ℝ), ellInner y (t • u) v = t * ellInner y u v :=
    fun _ t _ _ => tensordot_l t _ _
  have hr : ∀ y (t : ℝ) (u v : Matrix n (Fin k) ℝ), ellInner y u (t • v) = t * ellInner y u v :=
    fun _ t _ _ => tensordot_r t _ _
  refine arrayMfd_scale (fun _ => rfl) (fun y t v h => ?_) hl hr (fun _ y t v => hp y t v) hp
  simp only [ellNorm, hl, hr, sqrt_scale h]

end psd

/-! ## Poincaré balls -/

section poincare
variable [Fintype κ] [Fintype ι]

private theorem pbInner_l (X : κ → ι → ℝ) (t : ℝ) (A B : κ → ι → ℝ) :
    pbInner X (t • A) B = t * pbInner X A B := tensordot_l t _ _

private theorem pbInner_r (X : κ → ι → ℝ) (t : ℝ) (A B : κ → ι → ℝ) :
    pbInner X A (t • B) = t * pbInner X A B := by
  rw [pbInner, pbInner, ← tensordot_r]
  congr 1
  funext x
  simp [mul_assoc]

/-- **C158.** `PoincareBall`; it implements no transport. -/
theorem C158_poincareBall (dim : ℤ)
    {transport : (κ → ι → ℝ) → (κ → ι → ℝ) → (κ → ι → ℝ) → κ → ι → ℝ}
    (ht : ∀ x y (t : ℝ) v, transport x y (t • v) = t • transport x y v)
    (log pairMean : (κ → ι → ℝ) → (κ → ι → ℝ) → κ → ι → ℝ) :
    ScaleOps (poincareMfd dim transport log pairMean) := by
  refine arrayMfd_scale (fun _ => rfl) (fun p t v h => ?_) pbInner_l pbInner_r ht fun _ _ _ => rfl
  simp only [pbNorm, pbInner_l, pbInner_r, sqrt_scale h]

omit [Fintype κ] in
/-- **C158.** The conversions of `PoincareBall`. -/
theorem C158_poincareBall_conversions :
    ConversionsScale (E := κ → ι → ℝ) pbE2rg pbE2rh (fun _ v => v) where
  grad X t G := by
    funext k i
    simp only [pbE2rg, pbE2rg1, Pi.smul_apply, smul_eq_mul, mul_assoc]
  hess X t G H V := by
    funext k i
    simp only [pbE2rh, pbE2rh1, Pi.smul_apply, tensordot_l, smul_eq_mul]
    ring
  hess_vector X t G H V := by
    funext k i
    simp only [pbE2rh, pbE2rh1, Pi.smul_apply, tensordot_r, smul_eq_mul]
    ring
  embed _ _ _ := rfl

end poincare

/-! ## Matrices of fixed rank -/

section fixedRank
variable [Fintype m] [Fintype n] {k : ℕ}

private theorem frInner_l (X : FRPoint m n k) (t : ℝ) (A B : FRTan m n k) :
    frInner X (t • A) B = t * frInner X A B := by
  rw [frInner, frInner, mul_add, mul_add, ← tensordot_l, ← tensordot_l, ← tensordot_l]
  rfl

private theorem frInner_r (X : FRPoint m n k) (t : ℝ) (A B : FRTan m n k) :
    frInner X A (t • B) = t * frInner X A B := by
  rw [frInner, frInner, mul_add, mul_add, ← tensordot_r, ← tensordot_r, ← tensordot_r]
  rfl

private theorem frToTangent_s (X : FRPoint m n k) (t : ℝ) (Z : FRTan m n k) :
    frToTangent X (t • Z) = t • frToTangent X Z := by
  simp only [frToTangent, Prod.smul_fst, Prod.smul_snd, Matrix.mul_smul, ← smul_sub,
    Prod.smul_mk]

omit [Fintype m] in
private theorem frApply_s (X : FRPoint m n k) (t : ℝ) (Z : FRTan m n k) (W : Matrix n (Fin k) ℝ) :
    frApply (frEmbed X (t • Z)) W = t • frApply (frEmbed X Z) W := by
  simp only [frApply, frEmbed, Prod.smul_fst, Prod.smul_snd, Matrix.mul_one, transpose_fromCols,
    fromCols_mul_fromRows, transpose_smul, Matrix.mul_smul, ← smul_add, Matrix.smul_mul]

omit [Fintype n] in
private theorem frApplyT_s (X : FRPoint m n k) (t : ℝ) (Z : FRTan m n k) (W : Matrix m (Fin k) ℝ) :
    frApplyT (frEmbed X (t • Z)) W = t • frApplyT (frEmbed X Z) W := by
  simp only [frApplyT, frEmbed, Prod.smul_fst, Prod.smul_snd, Matrix.mul_one, transpose_fromCols,
    fromCols_mul_fromRows, transpose_smul, Matrix.mul_smul, ← smul_add, Matrix.smul_mul]

private theorem frTransport_s (X Y : FRPoint m n k) (t : ℝ) (Z : FRTan m n k) :
    frTransport X Y (t • Z) = t • frTransport X Y Z := by
  simp only [frTransport, frProj, frApply_s, frApplyT_s, Matrix.mul_smul, transpose_smul,
    ← smul_sub, Prod.smul_mk]

/-- **C158.** `FixedRankEmbedded`, with any retraction. -/
theorem C158_fixedRank (retraction : FRPoint m n k → FRTan m n k → FRPoint m n k)
    (log : FRPoint m n k → FRPoint m n k → FRTan m n k)
    (pairMean : FRPoint m n k → FRPoint m n k → FRPoint m n k) :
    ScaleOps (fixedRankMfd retraction log pairMean) where
  smul_smul s t v := smul_smul s t v
  norm_smul y t v h := by
    simp only [fixedRankMfd, frNorm, frInner_l, frInner_r, sqrt_scale h]
  inner_left := frInner_l
  inner_right := frInner_r
  transport x y t v := frTransport_s x y t v
  toTangent := frToTangent_s
  zeroVector y t := smul_zero t
  add t u v := (smul_add t u v).symm
  sub t u v := (smul_sub t u v).symm
  neg t v := (smul_neg t v).symm

/-- **C158.** The gradient of `FixedRankEmbedded`; the class has no Hessian. -/
theorem C158_fixedRank_gradient (X G : FRPoint m n k) (t : ℝ) :
    frE2rg X (t • G) = (frE2rg X G).map (t • ·) := by
  simp only [frE2rg, Prod.smul_fst, Prod.smul_snd, transpose_smul, Matrix.mul_smul]
  split
  · rw [Option.map_some]
    congr 1
    refine Prod.ext ?_ (Prod.ext ?_ ?_)
    · ext i j
      simp only [Prod.smul_mk, of_apply, Matrix.sub_apply, Matrix.smul_apply, smul_eq_mul]
      ring
    · ext i j
      simp only [Prod.smul_mk, of_apply, Matrix.sub_apply, Matrix.smul_apply, smul_eq_mul,
        diagonal_smul]
      ring
    · ext i j
      simp only [Prod.smul_mk, of_apply, Matrix.sub_apply, Matrix.smul_apply, smul_eq_mul]
      ring
  · rfl

end fixedRank

/-! ## Products -/

section product
variable {k : ℕ} {E : Fin k → Type*} [∀ i, AddCommGroup (E i)] [∀ i, Module ℝ (E i)]

omit [∀ i, AddCommGroup (E i)] [∀ i, Module ℝ (E i)] in
/-- **C158.** `Product`. -/
theorem C158_product {Ms : ∀ i, Mfd ℝ (E i) (E i)} (h : ∀ i, ScaleOps (Ms i)) :
    ScaleOps (productMfd Ms) where
  smul_smul s t v := funext fun i => (h i).smul_smul s t (v i)
  norm_smul y t v ht := by
    simp only [productMfd, (h _).inner_left, (h _).inner_right, ← Finset.mul_sum, sqrt_scale ht]
  inner_left y t u v := by simp only [productMfd, (h _).inner_left, Finset.mul_sum]
  inner_right y t u v := by simp only [productMfd, (h _).inner_right, Finset.mul_sum]
  transport x y t v := funext fun i => (h i).transport _ _ t (v i)
  toTangent y t v := funext fun i => (h i).toTangent _ t (v i)
  zeroVector y t := funext fun i => (h i).zeroVector _ t
  add t u v := funext fun i => (h i).add t (u i) (v i)
  sub t u v := funext fun i => (h i).sub t (u i) (v i)
  neg t v := funext fun i => (h i).neg t (v i)

/-- **C158.** The conversions of `Product`. -/
theorem C158_product_conversions {e2rg : ∀ i, E i → E i → E i}
    {e2rh : ∀ i, E i → E i → E i → E i → E i} {embed : ∀ i, E i → E i → E i}
    (h : ∀ i, ConversionsScale (e2rg i) (e2rh i) (embed i)) :
    ConversionsScale (E := ∀ i, E i) (fun x g i => e2rg i (x i) (g i))
      (fun x g h v i => e2rh i (x i) (g i) (h i) (v i)) (fun x v i => embed i (x i) (v i)) where
  grad _ t _ := funext fun i => (h i).grad _ t _
  hess _ t _ _ _ := funext fun i => (h i).hess _ t _ _ _
  hess_vector _ t _ _ _ := funext fun i => (h i).hess_vector _ t _ _ _
  embed _ t _ := funext fun i => (h i).embed _ t _

end product

/-! ## A case -/

/-- Steepest descent for a cost on the sphere, with the default line searcher: measuring the cost
in thousandths and shifting it gives the same points. -/
example {cfg : Cfg ℝ} {c : BackTrackingCfg ℝ} {clk : Clock ℝ} {eps : ℝ} {cost : (Fin 3 → ℝ) → ℝ}
    {egrad : (Fin 3 → ℝ) → Fin 3 → ℝ} {x : Fin 3 → ℝ} {r : Result ℝ (Fin 3 → ℝ)} {mem : Option ℝ}
    (h : SDRuns cfg (backTracking _ _ c)
      (arrayProb (sphereMfd eps) sphereE2rg sphereE2rh (fun _ v => v) cost egrad fun _ v => v) clk x
      none (.ok (r, mem))) :
    ∃ r' mem', SDRuns (cfg.inUnits 1000) (backTracking _ _ c)
      (arrayProb (sphereMfd eps) sphereE2rg sphereE2rh (fun _ v => v)
        (fun x => 1000 * cost x + 5) (fun x => (1000 : ℝ) • egrad x) fun _ v => (1000 : ℝ) • v) clk x
      none (.ok (r', mem')) ∧ r'.point = r.point := by
  refine ⟨r.inUnits 1000 5, mem.map fun f => 1000 * f + 5, ?_, rfl⟩
  rw [C158_problem (fun _ _ => rfl) C158_sphere_conversions 1000 5]
  exact (C158_steepestDescent (m := Option.map fun f => 1000 * f + 5) (mem := none)
    (C158_sphere eps) (by norm_num) (C158_backTracking (C158_sphere eps) (by norm_num) 5 c)).mpr
    ⟨_, h, rfl⟩

end Verif.Geo
