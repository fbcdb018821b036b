/-
C118 on the manifolds: whether the residual printed by `check_gradient` and `check_hessian`, the norm of
the part of a vector that `to_tangent_space` removes, tells tangent vectors from others.
-/
import Verif.Geo.Props.OptMfd

namespace Verif.Geo
open Matrix Verif.Opt
open scoped ComplexOrder

variable {κ ι m n p : Type*} {𝕜 : Type*} [RCLike 𝕜]

/-- The printed residual of `v` at `x`. -/
def printedResidual {P E : Type*} [Sub E] (M : Mfd ℝ P E) (x : P) (v : E) : ℝ :=
  M.norm x (v - M.toTangent x v)

/-- At every point the residual vanishes for the tangent vectors and only for them. -/
def ResidualDetects {P E : Type*} [Sub E] (M : Mfd ℝ P E) (On : P → Prop) (Tan : P → E → Prop) :
    Prop :=
  ∀ x, On x → ∀ v, printedResidual M x v = 0 ↔ Tan x v

theorem detects_of {E : Type*} [AddCommGroup E] [Module ℝ E] {M : Mfd ℝ E E} {On : E → Prop}
    {Tan : E → E → Prop} {B : E → E → E → ℝ}
    (hp : ∀ x, On x → IsOrthProj (B x) (Tan x) (M.toTangent x))
    (hn : ∀ x v, On x → (M.norm x v = 0 ↔ v = 0)) : ResidualDetects M On Tan := by
  intro x hx v
  unfold printedResidual
  rw [hn x _ hx, sub_eq_zero]
  exact ⟨fun h => h ▸ (hp x hx).mem v, fun h => ((hp x hx).fixes h).symm⟩

theorem norm_zero_iff {E : Type*} [AddCommGroup E] [Module ℝ E] {B : E → E → ℝ} (hB : IsInner B)
    {v : E} {r : ℝ} (h : r = Real.sqrt (B v v)) : r = 0 ↔ v = 0 := by
  rw [h, Real.sqrt_eq_zero (hB.nonneg v), hB.eq_zero_iff]

/-- **C118** (sphere). -/
theorem C118_sphere_partial [Fintype ι] (eps : ℝ) :
    ResidualDetects (sphereMfd (ι := ι) eps) OnSphere SphereTangent :=
  detects_of (B := fun _ => tensordot) (fun x hx => C56_projection x hx)
    fun x v _ => norm_zero_iff (C56_metric x v).1 (C56_metric x v).2

/-- **C118** (oblique). -/
theorem C118_oblique_partial [Fintype m] [Fintype n] (dim : ℤ) (eps : ℝ) :
    ResidualDetects (obliqueMfd (m := m) (n := n) dim eps) OnOblique ObliqueTangent :=
  detects_of (B := oblInner) (fun X hX => C63_projection X hX)
    fun X _ _ => norm_zero_iff (oblInner_inner X) (npNorm_eq_sqrt _)

/-- **C118** (complex circle). -/
theorem C118_complex_circle_partial [Fintype ι] (log : (ι → ℂ) → (ι → ℂ) → ι → ℂ) :
    ResidualDetects (complexCircleMfd log) OnCircles CirclesTangent := by
  refine detects_of (B := ccInner) (fun z hz => C64_projection z hz) fun z v _ =>
    norm_zero_iff (ccInner_inner z) ?_
  have h : npNorm v ^ 2 = ccInner z v v := npNorm_sq v
  rw [← h, Real.sqrt_sq (npNorm_nonneg v)]
  rfl

/-- **C118** (Stiefel). -/
theorem C118_stiefel_partial [Fintype κ] [Fintype n] [DecidableEq n] {p : ℕ} (dim : ℤ)
    (retraction log pairMean : Stack κ n (Fin p) ℝ → Stack κ n (Fin p) ℝ → Stack κ n (Fin p) ℝ) :
    ResidualDetects (stiefelMfd dim retraction log pairMean) OnStiefel StiefelTangent :=
  detects_of (B := stInner) (fun X hX => C66_projection X hX)
    fun X V _ => norm_zero_iff (C66_metric X V).1 (C66_metric X V).2

/-- **C118** (Grassmann, real and complex): for horizontal vectors. -/
theorem C118_grassmann_partial [Fintype κ] [Fintype n] [DecidableEq n] {p : ℕ} (dim : ℤ)
    (retraction log pairMean : Stack κ n (Fin p) 𝕜 → Stack κ n (Fin p) 𝕜 → Stack κ n (Fin p) 𝕜) :
    ResidualDetects (grassmannMfd dim retraction log pairMean) Orthonormal' GrHorizontal :=
  detects_of (B := cgrInner) (fun X hX => C70_projection X hX)
    fun X V _ => norm_zero_iff (C70_metric X V).1 (C70_metric X V).2

/-- **C118** (special orthogonal group); tangent vectors are elements of the Lie algebra. -/
theorem C118_special_orthogonal_partial [Fintype κ] {p : ℕ} (dim : ℤ)
    (retraction log pairMean : Stack κ (Fin p) (Fin p) ℝ → Stack κ (Fin p) (Fin p) ℝ →
      Stack κ (Fin p) (Fin p) ℝ) :
    ResidualDetects (specialOrthogonalMfd dim retraction log pairMean) OnSO fun _ => InLie := by
  intro X _ V
  have h : printedResidual (specialOrthogonalMfd dim retraction log pairMean) X V = 0 ↔
      V - gToTangent X V = 0 :=
    norm_zero_iff (stackDot_inner (κ := κ) (m := Fin p) (n := Fin p) (𝕜 := ℝ)) (stackNorm_eq_sqrt _)
  rw [h, sub_eq_zero]
  refine ⟨fun h k => ?_, fun h => funext fun k => (skewPart_of_skew (h k)).symm⟩
  rw [h]
  exact skewPart_conjTranspose (V k)

/-- **C118** where every array of the ambient space is a tangent vector (Euclidean, positive arrays,
Poincaré ball): the residual vanishes. -/
theorem C118_open_partial [Fintype κ] [Fintype ι] (dim : ℤ) :
    ResidualDetects (euclideanMfd (𝕜 := 𝕜) (ι := ι) dim) (fun _ => True) (fun _ _ => True) ∧
    (∀ parallel pairMean, ResidualDetects (positiveMfd (ι := ι) dim parallel pairMean) PosPoint
      fun _ _ => True) ∧
    ∀ transport log pairMean, ResidualDetects (poincareMfd (κ := κ) (ι := ι) dim transport log
      pairMean) InBalls fun _ _ => True := by
  refine ⟨fun x _ v => ?_, fun parallel pairMean x hx v => ?_,
    fun transport log pairMean x hx v => ?_⟩
  · refine iff_of_true ?_ trivial
    change eucNorm x (v - v) = 0
    obtain ⟨h1, h2, -⟩ := C53_inner x (0 : ι → 𝕜)
    rw [sub_self]
    rw [h1.zero_left] at h2
    exact pow_eq_zero_iff two_ne_zero |>.1 h2
  · refine iff_of_true ?_ trivial
    change posNorm x (v - v) = 0
    rw [sub_self, posNorm, (C78_metric x hx).1.zero_left, Real.sqrt_zero]
  · refine iff_of_true ?_ trivial
    change pbNorm x (v - v) = 0
    rw [sub_self, pbNorm, (pbInner_inner x hx).zero_left, Real.sqrt_zero]

/-! ## Where the residual says nothing -/

/-- C118 fails for symmetric and skew-symmetric matrices: the residual vanishes for every matrix, as
`to_tangent_space` is the identity. -/
theorem C118_symmetric_negation [Fintype κ] [Nonempty κ] [Fintype n] [DecidableEq n] [Nontrivial n]
    (dim : ℤ) :
    (∀ X V, printedResidual (symmetricMfd (κ := κ) (n := n) dim) X V = 0) ∧
    ¬ ResidualDetects (symmetricMfd (κ := κ) (n := n) dim) SymStack (fun _ => SymStack) ∧
    ¬ ResidualDetects (symmetricMfd (κ := κ) (n := n) dim) SkewStack (fun _ => SkewStack) := by
  have h0 : ∀ X V, printedResidual (symmetricMfd (κ := κ) (n := n) dim) X V = 0 := by
    intro X V
    change stackNorm (V - V) = 0
    rw [sub_self, stackNorm_eq_sqrt,
      (stackDot_inner (κ := κ) (m := n) (n := n) (𝕜 := ℝ)).zero_left, Real.sqrt_zero]
  obtain ⟨i, j, hij⟩ := exists_pair_ne n
  obtain ⟨k⟩ := (inferInstance : Nonempty κ)
  refine ⟨h0, fun h => ?_, fun h => ?_⟩
  · have := (h 0 symStack_subspace.zero fun _ => Matrix.single i j 1).1 (h0 _ _)
    have h1 := this k i j
    simp [ Matrix.single, hij, hij.symm] at h1
  · have := (h 0 skewStack_subspace.zero fun _ => Matrix.single i i 1).1 (h0 _ _)
    have h1 := this k i i
    simp at h1
    norm_num at h1

/-- C118 fails for a sphere intersected with a subspace: the residual vanishes for all tangent vectors
of the whole sphere, as `to_tangent_space` is bound to its projection. -/
theorem C118_sphere_subspace_negation [Fintype ι] (M : Matrix ι ι ℝ) (dim : ℤ) (eps : ℝ)
    {S : (ι → ℝ) → Prop} :
    ResidualDetects (sphereSubspaceMfd M dim eps) (OnSubspaceSphere S) SphereTangent ∧
    ∀ x, OnSubspaceSphere S x → ∀ v, SphereTangent x v → ¬ S v →
      printedResidual (sphereSubspaceMfd M dim eps) x v = 0 ∧ ¬ SubspaceTangent S x v := by
  have h : ResidualDetects (sphereSubspaceMfd M dim eps) (OnSubspaceSphere S) SphereTangent :=
    fun x hx v => C118_sphere_partial eps x hx.2 v
  exact ⟨h, fun x hx v hv hs => ⟨(h x hx v).2 hv, fun ht => hs ht.1⟩⟩

/-- C118 fails for special Hermitian positive definite matrices: the residual vanishes for every
Hermitian matrix; the point itself, as a vector, is not tangent. -/
theorem C118_special_hpd_negation [Fintype κ] [Nonempty κ] {n : ℕ} (hn : 0 < n) (dim : ℤ)
    (log pairMean : Stack κ (Fin n) (Fin n) ℂ → Stack κ (Fin n) (Fin n) ℂ →
      Stack κ (Fin n) (Fin n) ℂ) (P : Stack κ (Fin n) (Fin n) ℂ) (hP : SHPDPoint P) :
    (∀ V, HermStack V → printedResidual (specialHpdMfd dim log pairMean) P V = 0) ∧
    printedResidual (specialHpdMfd dim log pairMean) P P = 0 ∧ ¬ SHPDTangent P P := by
  have h : ∀ V, HermStack V → printedResidual (specialHpdMfd dim log pairMean) P V = 0 := by
    intro V hV
    change pdNorm P (V - multiherm V) = 0
    rw [multiherm_of_herm hV, sub_self]
    have h1 := (C81_metric P hP.1).1
    have h2 := h1.smul_left 0 0 0 hermStack_subspace.zero hermStack_subspace.zero
    rw [pdNorm, show pdInner P 0 0 = 0 by simpa using h2, Real.sqrt_zero]
  have hH : HermStack P := (hermStack_iff P).2 fun k => (hP.1 k).1
  refine ⟨h, h P hH, fun ht => ?_⟩
  obtain ⟨k⟩ := (inferInstance : Nonempty κ)
  have h1 := ht.2 k
  rw [Matrix.nonsing_inv_mul _ ((Matrix.isUnit_iff_isUnit_det _).1 (hP.1 k).isUnit),
    Matrix.trace_one, Fintype.card_fin] at h1
  exact hn.ne' (by exact_mod_cast h1)

/-- C118 fails for positive definite matrices: at a vector that is not Hermitian the norm printed is the
square root of a negative number (`nan` in NumPy). -/
theorem C118_positive_definite_negation [Fintype κ] [Fintype n] [DecidableEq n] (P V : Stack κ n n 𝕜)
    (hP : PDPoint P) :
    (HermStack V → pdInner P (V - pdProj P V) (V - pdProj P V) = 0) ∧
    (¬ HermStack V → pdInner P (V - pdProj P V) (V - pdProj P V) < 0) := by
  have hI := pdMetric_inner hP
  have hs : ∀ k, ((V - pdProj P V) k)ᴴ = -(V - pdProj P V) k := by
    intro k
    have h1 : (V - pdProj P V) k = (1 / 2 : ℝ) • (V k - (V k)ᴴ) := by
      change V k - multiherm V k = _
      rw [multiherm_apply]
      module
    rw [h1, conjTranspose_smul, conjTranspose_sub, conjTranspose_conjTranspose, star_trivial,
      ← smul_neg, neg_sub]
  have hneg : pdInner P (V - pdProj P V) (V - pdProj P V) =
      -pdMetric P (V - pdProj P V) (V - pdProj P V) := by
    rw [pdInner_eq, pdMetric, ← Finset.sum_neg_distrib]
    refine Finset.sum_congr rfl fun k _ => ?_
    rw [hs k, Matrix.mul_neg, Matrix.neg_mul, Matrix.trace_neg, map_neg, neg_neg]
  refine ⟨fun hV => ?_, fun hV => ?_⟩
  · rw [hneg, show pdProj P V = V from multiherm_of_herm hV, sub_self, hI.zero_left, neg_zero]
  · rw [hneg, neg_lt_zero]
    refine lt_of_le_of_ne (hI.nonneg _) fun h => hV ?_
    have h1 := sub_eq_zero.1 (hI.definite _ h.symm)
    rw [h1]
    exact multiherm_mem V

/-! ## The hypotheses are met -/

/-- A point of the circle with a tangent vector and one that is not, and a point of the circle cut by a
line with a vector of the plane that is tangent to the circle but outside the line. -/
example : OnSphere ![(1 : ℝ), 0] ∧ SphereTangent ![(1 : ℝ), 0] ![0, 1] ∧
    ¬ SphereTangent ![(1 : ℝ), 0] ![1, 0] ∧
    OnSubspaceSphere (fun v : Fin 2 → ℝ => v 1 = 0) ![1, 0] ∧
    ¬ (fun v : Fin 2 → ℝ => v 1 = 0) ![0, 1] := by
  refine ⟨?_, ?_, ?_, ⟨rfl, ?_⟩, ?_⟩ <;> simp [OnSphere, SphereTangent]

end Verif.Geo
