/-
C127: on the manifolds with an embedded metric, every cost whose Euclidean gradient is Lipschitz meets
the hypotheses of the rate guarantees of steepest descent (C112) and of trust regions (C114), with
explicit constants.
-/
import Verif.Geo.Lemmas.Smooth
import Verif.Geo.Lemmas.RetractBounds
import Verif.Geo.Props.SecondOrderMat
import Verif.Geo.Props.TCGSound
import Verif.Opt.Props.TRRate
import Verif.Opt.Props.Progress

namespace Verif.Geo
open Matrix Verif.Opt
open scoped BigOperators

variable {κ ι m n : Type*} {𝕜 : Type*} [RCLike 𝕜]

/-! ## Specification

`SmoothCost B cost egrad ehess L`: `egrad` is the gradient of `cost` with respect to the inner product
`B` of arrays, it is Lipschitz with constant `L`, and `ehess` is its derivative. -/

/-- How far the operations of a manifold with an embedded metric are from those of the arrays, in
terms of the inner product `B` of arrays: the retraction moves the point by at most `α` times the
length of the vector `v` and leaves the straight line by at most `β` times its square; the
acceleration in the conversion of Hessians is at most `γ` times the square. -/
structure Embedded {E : Type*} [AddCommGroup E] [Module ℝ E] (M : Mfd ℝ E E) (e2rg : E → E → E)
    (e2rh : E → E → E → E → E) (emb : E → E → E) (B : E → E → ℝ) (On : E → Prop)
    (Tan : E → E → Prop) (α β γ : ℝ) : Prop where
  smul : ∀ (a : ℝ) v, M.smul a v = a • v
  neg : ∀ v, M.neg v = -v
  tan : ∀ x, On x → IsSubspace (Tan x)
  inner : ∀ x, On x → IsInnerOn (Tan x) (M.inner x)
  norm : ∀ x v, On x → Tan x v → M.norm x v = Real.sqrt (M.inner x v v)
  closed : ∀ x v, On x → Tan x v → On (M.retraction x v)
  gradTan : ∀ x g, On x → Tan x (e2rg x g)
  grad : ∀ x g v, On x → Tan x v → M.inner x (e2rg x g) v = B g (emb x v)
  isometry : ∀ x v, On x → Tan x v → B (emb x v) (emb x v) = M.inner x v v
  near : ∀ x v, On x → Tan x v →
    B (M.retraction x v - x) (M.retraction x v - x) ≤ α ^ 2 * B (emb x v) (emb x v)
  line : ∀ x v, On x → Tan x v → B (M.retraction x v - x - emb x v)
    (M.retraction x v - x - emb x v) ≤ (β * B (emb x v) (emb x v)) ^ 2
  hess : ∀ x g h v, On x → Tan x v → ∃ a, M.inner x v (e2rh x g h v) = B h (emb x v) + B g a ∧
    B a a ≤ (γ * B (emb x v) (emb x v)) ^ 2

section
variable {E : Type*} [AddCommGroup E] [Module ℝ E] {M : Mfd ℝ E E} {e2rg : E → E → E}
  {e2rh : E → E → E → E → E} {emb : E → E → E} {B : E → E → ℝ} {On : E → Prop} {Tan : E → E → Prop}
  {α β γ L G : ℝ} {cost : E → ℝ} {egrad : E → E} {ehess : E → E → E}

/-- The bounds may be raised. -/
theorem Embedded.mono {α' β' γ' : ℝ} (h : Embedded M e2rg e2rh emb B On Tan α β γ) (hB : IsInner B)
    (hα0 : 0 ≤ α) (hβ0 : 0 ≤ β) (hγ0 : 0 ≤ γ) (hα : α ≤ α') (hβ : β ≤ β') (hγ : γ ≤ γ') :
    Embedded M e2rg e2rh emb B On Tan α' β' γ' where
  smul := h.smul
  neg := h.neg
  tan := h.tan
  inner := h.inner
  norm := h.norm
  closed := h.closed
  gradTan := h.gradTan
  grad := h.grad
  isometry := h.isometry
  near x v hx hv := (h.near x v hx hv).trans
    (mul_le_mul_of_nonneg_right (pow_le_pow_left₀ hα0 hα 2) (hB.nonneg _))
  line x v hx hv := (h.line x v hx hv).trans (pow_le_pow_left₀ (mul_nonneg hβ0 (hB.nonneg _))
    (mul_le_mul_of_nonneg_right hβ (hB.nonneg _)) 2)
  hess x g w v hx hv := by
    obtain ⟨a, h1, h2⟩ := h.hess x g w v hx hv
    exact ⟨a, h1, h2.trans (pow_le_pow_left₀ (mul_nonneg hγ0 (hB.nonneg _))
      (mul_le_mul_of_nonneg_right hγ (hB.nonneg _)) 2)⟩

theorem SmoothModel.descent {P : Type*} {pb : Prob ℝ P E} {On : P → Prop} {Tan : P → E → Prop}
    {C D : ℝ} (h : SmoothModel pb On Tan C D) (hs : ∀ (a : ℝ) v, pb.M.smul a v = a • v)
    (hn : ∀ v, pb.M.neg v = -v) (hT : ∀ x, On x → IsSubspace (Tan x))
    (hin : ∀ x, On x → IsInnerOn (Tan x) (pb.M.inner x))
    (hnorm : ∀ x v, On x → Tan x v → pb.M.norm x v = Real.sqrt (pb.M.inner x v v)) :
    SmoothDescent pb On C := by
  have e : ∀ (t : ℝ) v, pb.M.smul t (pb.M.neg v) = (-t) • v := fun t v => by
    rw [hs, hn, smul_neg, neg_smul]
  refine ⟨fun x hx t _ => ?_, fun x hx t _ => ?_⟩
  · rw [trialPoint, e]
    exact h.closed x _ hx ((hT x hx).smul _ (h.grad x hx))
  · have hg := h.grad x hx
    have hv := (hT x hx).smul (-t) hg
    have h1 := h.upper x _ hx hv
    have hr : ∀ w, Tan x w → pb.M.inner x w ((-t) • pb.grad x) = -t * pb.M.inner x w (pb.grad x) := by
      intro w hw
      rw [(hin x hx).symm _ _ hw hv, (hin x hx).smul_left _ _ _ hg hw, (hin x hx).symm _ _ hg hw]
    rw [hr _ hv, hr _ hg, (hin x hx).smul_left _ _ _ hg hg] at h1
    rw [trialPoint, e, hnorm x _ hx hg, Real.sq_sqrt ((hin x hx).nonneg _ hg)]
    linarith

/-- **C127** The hypotheses of C112 and of C114 hold for costs with Lipschitz gradients, if the
gradient is at most `G` on the manifold. -/
theorem C127_smooth (h : Embedded M e2rg e2rh emb B On Tan α β γ) (hB : IsInner B)
    (hs : SmoothCost B cost egrad ehess L) (hG : 0 ≤ G)
    (hgrad : ∀ x, On x → B (egrad x) (egrad x) ≤ G ^ 2) (hβ : 0 ≤ β) (hγ : 0 ≤ γ) :
    SmoothModel (arrayProb M e2rg e2rh emb cost egrad ehess) On Tan (α ^ 2 * L + 2 * β * G)
      (L + γ * G) ∧
    SmoothDescent (arrayProb M e2rg e2rh emb cost egrad ehess) On (α ^ 2 * L + 2 * β * G) := by
  have hM : SmoothModel (arrayProb M e2rg e2rh emb cost egrad ehess) On Tan
      (α ^ 2 * L + 2 * β * G) (L + γ * G) := by
    refine ⟨h.closed, fun x hx => h.gradTan x _ hx, fun x v hx hv => ?_, fun x v hx hv => ?_⟩
    · have h1 := hs.retract hB hβ hG (h.near x v hx hv) (h.line x v hx hv) (hgrad x hx)
      rw [h.isometry x v hx hv, ← h.grad x _ v hx hv] at h1
      exact h1
    · obtain ⟨a, h1, h2⟩ := h.hess x (egrad x) (ehess x (emb x v)) v hx hv
      change |M.inner x v (e2rh x (egrad x) (ehess x (emb x v)) v)| ≤ _ * M.inner x v v
      have h3 := hs.curv hB x (emb x v)
      have h4 := hB.abs_le hG (mul_nonneg hγ (hB.nonneg _)) (hgrad x hx) h2
      rw [h.isometry x v hx hv] at h3 h4
      rw [h1]
      refine (abs_add_le _ _).trans ?_
      linarith
  exact ⟨hM, SmoothModel.descent hM h.smul h.neg h.tan h.inner h.norm⟩

/-- **C127** On spaces where the retraction adds, no bound on the gradient is needed. -/
theorem C127_flat (h : Embedded M e2rg e2rh emb B On Tan 1 0 0) (hB : IsInner B)
    (hs : SmoothCost B cost egrad ehess L) :
    SmoothModel (arrayProb M e2rg e2rh emb cost egrad ehess) On Tan L L ∧
    SmoothDescent (arrayProb M e2rg e2rh emb cost egrad ehess) On L := by
  have hM : SmoothModel (arrayProb M e2rg e2rh emb cost egrad ehess) On Tan L L := by
    refine ⟨h.closed, fun x hx => h.gradTan x _ hx, fun x v hx hv => ?_, fun x v hx hv => ?_⟩
    · have h1 := hs.retract hB le_rfl (Real.sqrt_nonneg _) (h.near x v hx hv) (h.line x v hx hv)
        (Real.sq_sqrt (hB.nonneg (egrad x))).ge
      rw [h.isometry x v hx hv, ← h.grad x _ v hx hv] at h1
      simp only [one_pow, one_mul, mul_zero, zero_mul, add_zero] at h1
      exact h1
    · obtain ⟨a, h1, h2⟩ := h.hess x (egrad x) (ehess x (emb x v)) v hx hv
      change |M.inner x v (e2rh x (egrad x) (ehess x (emb x v)) v)| ≤ _ * M.inner x v v
      have h3 := hs.curv hB x (emb x v)
      have h4 : a = 0 := hB.definite a (le_antisymm (by simpa using h2) (hB.nonneg a))
      rw [h.isometry x v hx hv] at h3
      rw [h1, h4, hB.zero_right, add_zero]
      exact h3
  exact ⟨hM, SmoothModel.descent hM h.smul h.neg h.tan h.inner h.norm⟩

/-- **C127** A Lipschitz gradient is bounded on every bounded set. -/
theorem C127_gradient_bound (hB : IsInner B) (hs : SmoothCost B cost egrad ehess L) {R : ℝ}
    (hR : 0 ≤ R) {x : E} (hx : B x x ≤ R ^ 2) :
    B (egrad x) (egrad x) ≤ (Real.sqrt (B (egrad 0) (egrad 0)) + L * R) ^ 2 := by
  have h0 := Real.sq_sqrt (hB.nonneg (egrad 0))
  have h1 := hs.lip 0 x
  rw [sub_zero] at h1
  have h2 : B (egrad x - egrad 0) (egrad x - egrad 0) ≤ (L * R) ^ 2 := by
    rw [mul_pow]
    exact h1.trans (mul_le_mul_of_nonneg_left hx (sq_nonneg L))
  have h3 := (abs_le.1 (hB.abs_le (Real.sqrt_nonneg _) (mul_nonneg hs.nonneg hR) h0.ge h2)).2
  have e : egrad x = egrad 0 + (egrad x - egrad 0) := by abel
  rw [e, hB.add_left, hB.add_right, hB.add_right, hB.symm (egrad x - egrad 0) (egrad 0)]
  nlinarith

end

/-! ## The manifolds -/

/-- **C127** (Euclidean, complex Euclidean). -/
theorem C127_euclidean [Fintype ι] (dim : ℤ) :
    Embedded (euclideanMfd (ι := ι) (𝕜 := 𝕜) dim) (subE2rg eucProj) eucE2rh (fun _ v => v)
      retensordot (fun _ => True) (fun _ _ => True) 1 0 0 where
  smul _ _ := rfl
  neg _ := rfl
  tan _ _ := isSubspace_true
  inner x _ := (C53_inner x x).1.on _
  norm x v _ _ := by
    have h := C53_inner x v
    change eucNorm x v = Real.sqrt (eucInner x v v)
    rw [← h.2.1, Real.sqrt_sq h.2.2]
  closed _ _ _ _ := trivial
  gradTan _ _ _ := trivial
  grad _ _ _ _ _ := rfl
  isometry _ _ _ _ := rfl
  near x v _ _ := by
    rw [show (euclideanMfd dim).retraction x v = x + v from rfl, add_sub_cancel_left, one_pow,
      one_mul]
  line x v _ _ := by
    rw [show (euclideanMfd dim).retraction x v = x + v from rfl, add_sub_cancel_left, sub_self,
      retensordot_inner.zero_left]
    positivity
  hess x g h v _ _ := by
    refine ⟨0, ?_, ?_⟩
    · rw [retensordot_inner.zero_right, add_zero]
      exact retensordot_inner.symm v h
    · rw [retensordot_inner.zero_right]
      positivity

/-- **C127** (symmetric and skew-symmetric matrices). -/
theorem C127_symmetric [Fintype κ] [Fintype n] (dim : ℤ) :
    Embedded (symmetricMfd (κ := κ) (n := n) dim) (subE2rg symProj) symE2rh (fun _ v => v)
      stackDot SymStack (fun _ => SymStack) 1 0 0 ∧
    Embedded (symmetricMfd (κ := κ) (n := n) dim) (subE2rg skewProj) skewE2rh (fun _ v => v)
      stackDot SkewStack (fun _ => SkewStack) 1 0 0 := by
  have key : ∀ {e2rg : Stack κ n n ℝ → Stack κ n n ℝ → Stack κ n n ℝ}
      {e2rh : Stack κ n n ℝ → Stack κ n n ℝ → Stack κ n n ℝ → Stack κ n n ℝ → Stack κ n n ℝ}
      {S : Stack κ n n ℝ → Prop}, IsSubspace S → (∀ X, IsOrthProj stackDot S (e2rg X)) →
      (∀ X G V, IsOrthProj stackDot S fun H => e2rh X G H V) →
      Embedded (symmetricMfd (κ := κ) (n := n) dim) e2rg e2rh (fun _ v => v) stackDot S (fun _ => S)
        1 0 0 := by
    intro e2rg e2rh S hS hg hh
    have hI : IsInner (E := Stack κ n n ℝ) stackDot := stackDot_inner
    exact
      { smul := fun _ _ => rfl
        neg := fun _ => rfl
        tan := fun _ _ => hS
        inner := fun _ _ => stackDot_inner.on _
        norm := fun _ v _ _ => stackNorm_eq_sqrt v
        closed := fun X V hX hV => hS.add hX hV
        gradTan := fun X G _ => (hg X).mem G
        grad := fun X G V _ hV => (hg X).represents G hV
        isometry := fun _ _ _ _ => rfl
        near := fun X V _ _ => by
          rw [show (symmetricMfd dim).retraction X V = X + V from rfl, add_sub_cancel_left, one_pow,
            one_mul]
        line := fun X V _ _ => by
          rw [show (symmetricMfd dim).retraction X V = X + V from rfl, add_sub_cancel_left, sub_self,
            hI.zero_left]
          positivity
        hess := fun X G H V _ hV => by
          refine ⟨0, ?_, ?_⟩
          · rw [hI.zero_right, add_zero]
            exact (hI.symm V _).trans ((hh X G V).represents H hV)
          · rw [hI.zero_right]
            positivity }
  exact ⟨key symStack_subspace (fun X => (C54_projection X).2.1) fun X => (C54_projection X).2.2.1,
    key skewStack_subspace (fun X => (C54_projection X).2.2.2.2.1)
      fun X => (C54_projection X).2.2.2.2.2⟩

theorem sphere_bounds [Fintype ι] {x v : ι → ℝ} (hx : OnSphere x) (hv : SphereTangent x v) :
    tensordot (sphereRetraction x v - x) (sphereRetraction x v - x) ≤ tensordot v v ∧
      tensordot (sphereRetraction x v - x - v) (sphereRetraction x v - x - v) ≤
        (1 / 2 * tensordot v v) ^ 2 := by
  have hxv : tensordot x v = 0 := hv
  have e : tensordot (x + v) (x + v) = 1 + tensordot v v := by
    rw [tensordot_inner.add_left, tensordot_inner.add_right, tensordot_inner.add_right, hx.dot, hxv,
      tensordot_inner.symm v x, hxv]
    ring
  have h0 := tensordot_inner.nonneg v
  refine normalize_bounds tensordot_inner hx.dot hxv (s := npNorm (x + v)) ?_ ?_
  · rw [npNorm_eq_sqrt, e]
    exact Real.sqrt_pos.2 (by linarith)
  · rw [npNorm_sq_real, e]

theorem sphere_acc [Fintype ι] {x : ι → ℝ} (hx : OnSphere x) (v : ι → ℝ) :
    tensordot (fun i => -(tensordot v v * x i)) (fun i => -(tensordot v v * x i)) =
      tensordot v v ^ 2 := by
  have e : (fun i => -(tensordot v v * x i)) = -(tensordot v v) • x := by funext i; simp
  rw [e, tensordot_inner.smul_left, tensordot_inner.smul_right, hx.dot]
  ring

/-- **C127** (sphere). -/
theorem C127_sphere [Fintype ι] (eps : ℝ) :
    Embedded (sphereMfd (ι := ι) eps) sphereE2rg sphereE2rh (fun _ v => v) tensordot OnSphere
      SphereTangent 1 (1 / 2) 1 where
  smul _ _ := rfl
  neg _ := rfl
  tan x _ := sphereTangent_subspace x
  inner x _ := (C56_metric x x).1.on _
  norm x v _ _ := (C56_metric x v).2
  closed x v hx hv := (C57_stays x v hx hv).2.1
  gradTan x g hx := (C56_tangent x hx x g g).2.1
  grad x g v hx hv := (C56_tangent x hx x g v).2.2.2 hv
  isometry _ _ _ _ := rfl
  near x v hx hv := by
    rw [one_pow, one_mul]
    exact (sphere_bounds hx hv).1
  line x v hx hv := (sphere_bounds hx hv).2
  hess x g h v hx hv :=
    ⟨_, (tensordot_inner.symm v _).trans (sphere_hess_form hx hv g h), by
      rw [sphere_acc hx, one_mul]⟩

/-- **C127** (sphere intersected with a subspace). -/
theorem C127_sphere_subspace [Fintype ι] [DecidableEq ι] {S : (ι → ℝ) → Prop} {M : Matrix ι ι ℝ}
    (hS : IsSubspace S) (hM : IsOrthProj tensordot S M.mulVec) (dim : ℤ) (eps : ℝ) :
    Embedded (sphereSubspaceMfd M dim eps) (subE2rg (subspaceProj M))
      (subE2rh (subspaceProj M) sphereWeingarten) (fun _ v => v) tensordot (OnSubspaceSphere S)
      (SubspaceTangent S) 1 (1 / 2) 1 where
  smul _ _ := rfl
  neg _ := rfl
  tan x _ := subspaceTangent_subspace hS x
  inner x _ := (C56_metric x x).1.on _
  norm x v _ _ := (C56_metric x v).2
  closed x v hx hv := (C109_sphere_subspace hS hM dim eps (fun _ => 0) (fun x => x)
    fun _ v => v).1.mfd.retraction x v hx hv
  gradTan x g hx := (C62_projection_partial hS hM x hx).mem g
  grad x g v hx hv := (C62_projection_partial hS hM x hx).represents g hv
  isometry _ _ _ _ := rfl
  near x v hx hv := by
    rw [one_pow, one_mul]
    exact (sphere_bounds hx.2 hv.2).1
  line x v hx hv := (sphere_bounds hx.2 hv.2).2
  hess x g h v hx hv :=
    ⟨_, (tensordot_inner.symm v _).trans (sphere_subspace_hess_form hS hM hx hv g h), by
      rw [sphere_acc hx.2, one_mul]⟩

theorem sum_le_sq [Fintype ι] {f t : ι → ℝ} {c : ℝ} (hc : 0 ≤ c) (ht : ∀ i, 0 ≤ t i)
    (h : ∀ i, f i ≤ (c * t i) ^ 2) : ∑ i, f i ≤ (c * ∑ i, t i) ^ 2 := by
  rw [Finset.mul_sum]
  exact (Finset.sum_le_sum fun i _ => h i).trans
    (Finset.sum_sq_le_sq_sum_of_nonneg fun i _ => mul_nonneg hc (ht i))

/-- **C127** (oblique). -/
theorem C127_oblique [Fintype m] [Fintype n] (dim : ℤ) (eps : ℝ) :
    Embedded (obliqueMfd (m := m) (n := n) dim eps) (subE2rg oblProj) oblE2rh (fun _ v => v) trDot
      OnOblique ObliqueTangent 1 (1 / 2) 1 where
  smul _ _ := rfl
  neg _ := rfl
  tan X _ := obliqueTangent_subspace X
  inner X _ := (oblInner_inner X).on _
  norm _ _ _ _ := npNorm_eq_sqrt _
  closed X V hX hV := (C109_oblique dim eps (fun _ => 0) (fun X => X)
    fun _ V => V).1.mfd.retraction X V hX hV
  gradTan X G hX := (C63_projection X hX).mem G
  grad X G V hX hV := by
    refine ((C63_projection X hX).represents G hV).trans ?_
    rw [oblInner_eq, trDot_cols]
  isometry X V _ _ := by
    change trDot V V = oblInner X V V
    rw [oblInner_eq, trDot_cols]
  near X V hX hV := by
    rw [one_pow, one_mul, trDot_cols, trDot_cols]
    refine Finset.sum_le_sum fun j _ => ?_
    have := (sphere_bounds (hX j) (hV j)).1
    rw [← (C63_columns X X X V eps j).2.2.1] at this
    exact this
  line X V hX hV := by
    rw [trDot_cols, trDot_cols]
    refine sum_le_sq (by norm_num) (fun j => tensordot_inner.nonneg _) fun j => ?_
    have := (sphere_bounds (hX j) (hV j)).2
    rw [← (C63_columns X X X V eps j).2.2.1] at this
    exact this
  hess X G H V hX hV := by
    refine ⟨of fun i j => -(tensordot (colOf V j) (colOf V j) * X i j),
      ((oblInner_inner X).symm V _).trans ?_, ?_⟩
    · rw [oblInner_eq, trDot_cols, trDot_cols, ← Finset.sum_add_distrib]
      refine Finset.sum_congr rfl fun j _ => ?_
      rw [C63_hessian_columns X G H V hX j, sphere_hess_form (hX j) (hV j)]
      rfl
    · rw [trDot_cols, trDot_cols]
      refine sum_le_sq zero_le_one (fun j => tensordot_inner.nonneg _) fun j => ?_
      rw [one_mul]
      exact (sphere_acc (hX j) (colOf V j)).le

theorem retensordot_self_complex [Fintype ι] (a : ι → ℂ) :
    retensordot a a = ∑ i, ‖a i‖ ^ 2 := by
  rw [retensordot, map_sum]
  refine Finset.sum_congr rfl fun i _ => ?_
  rw [RCLike.star_def, RCLike.conj_mul, ← RCLike.ofReal_pow, RCLike.ofReal_re]

/-- **C127** (complex circle). -/
theorem C127_complex_circle [Fintype ι] (log : (ι → ℂ) → (ι → ℂ) → ι → ℂ) :
    Embedded (complexCircleMfd log) (subE2rg ccProj) ccE2rh (fun _ v => v) retensordot
      OnCircles CirclesTangent 1 (1 / 2) 1 := by
  have hI : IsInner fun a b : ℂ => (star a * b).re :=
    { add_left := fun u v w => by simp; ring
      smul_left := fun c u v => by simp; ring
      symm := fun u v => by simp; ring
      nonneg := fun u => by
        simp only [Complex.star_def, Complex.mul_re, Complex.conj_re, Complex.conj_im]
        nlinarith [mul_self_nonneg u.re, mul_self_nonneg u.im]
      definite := fun u hu => by
        have h1 : ‖u‖ ^ 2 = 0 := by
          rw [Complex.sq_norm, Complex.normSq_apply]
          simpa using hu
        simpa using h1 }
  have hn : ∀ a : ℂ, (star a * a).re = ‖a‖ ^ 2 := fun a => by
    rw [Complex.sq_norm, Complex.normSq_apply]
    simp
  have key : ∀ {z v : ι → ℂ}, OnCircles z → CirclesTangent z v → ∀ i,
      ‖(ccRetraction z v - z) i‖ ^ 2 ≤ ‖v i‖ ^ 2 ∧
        ‖(ccRetraction z v - z - v) i‖ ^ 2 ≤ (1 / 2 * ‖v i‖ ^ 2) ^ 2 := by
    intro z v hz hv i
    have h0 := (C64_retraction z v hz hv).1 i
    have h := normalize_bounds hI (x := z i) (v := v i) (s := ‖z i + v i‖)
      (by rw [hn, hz i, one_pow]) (by simpa using hv i) (by linarith)
      (by rw [hn, normSq_add_tangent hz hv i])
    simp only [hn] at h
    have e : ccRetraction z v i = ‖z i + v i‖⁻¹ • (z i + v i) := by
      simp only [ccRetraction, ccNormalize]
      rw [Pi.add_apply, div_eq_inv_mul, Complex.real_smul, ← Complex.ofReal_inv]
    rw [Pi.sub_apply, Pi.sub_apply, Pi.sub_apply, e]
    exact h
  exact
    { smul := fun _ _ => rfl
      neg := fun _ => rfl
      tan := fun z _ => circlesTangent_subspace z
      inner := fun z _ => (ccInner_inner z).on _
      norm := fun z v _ _ => by
        have h : npNorm v ^ 2 = ccInner z v v := npNorm_sq v
        change npNorm v = Real.sqrt (ccInner z v v)
        rw [← h, Real.sqrt_sq (npNorm_nonneg v)]
      closed := fun z v hz hv => (C64_retraction z v hz hv).2.1
      gradTan := fun z g hz => (C64_projection z hz).mem g
      grad := fun z g v hz hv => (C64_projection z hz).represents g hv
      isometry := fun _ _ _ _ => rfl
      near := fun z v hz hv => by
        rw [one_pow, one_mul, retensordot_self_complex, retensordot_self_complex]
        exact Finset.sum_le_sum fun i _ => (key hz hv i).1
      line := fun z v hz hv => by
        rw [retensordot_self_complex, retensordot_self_complex]
        exact sum_le_sq (by norm_num) (fun i => sq_nonneg _) fun i => (key hz hv i).2
      hess := fun z g h v hz hv => by
        refine ⟨fun i => -((‖v i‖ ^ 2 : ℝ) : ℂ) * z i, ((ccInner_inner z).symm v _).trans
          (complex_circle_hess_form hz hv g h), ?_⟩
        rw [retensordot_self_complex, retensordot_self_complex]
        refine sum_le_sq zero_le_one (fun i => sq_nonneg _) fun i => ?_
        rw [norm_mul, norm_neg, hz i, mul_one, Complex.norm_real, norm_pow, norm_norm, one_mul] }

/-! ### Stacks of matrices -/

theorem stack_polar_acc [Fintype κ] [Fintype n] {p : ℕ} {X : Stack κ n (Fin p) 𝕜}
    (hX : ∀ k, (X k)ᴴ * X k = 1) (V : Stack κ n (Fin p) 𝕜) :
    stackDot (fun k => -(X k * ((V k)ᴴ * V k))) (fun k => -(X k * ((V k)ᴴ * V k))) ≤
      (1 * stackDot V V) ^ 2 := by
  rw [stackDot_eq, stackDot_eq]
  refine sum_le_sq zero_le_one (fun k => trDot_self_nonneg _) fun k => ?_
  rw [trDot_inner.neg_left, trDot_inner.neg_right, neg_neg, trDot_mul_left, ← Matrix.mul_assoc, hX,
    Matrix.one_mul, one_mul]
  exact gram_frob_le (V k)

theorem stack_polar_bounds [Fintype κ] [Fintype n] {p : ℕ} {X V u : Stack κ n (Fin p) 𝕜}
    {s : κ → Fin p → ℝ} {vt : Stack κ (Fin p) (Fin p) 𝕜} (hX : ∀ k, (X k)ᴴ * X k = 1)
    (hV : ∀ k, (X k)ᴴ * V k + (V k)ᴴ * X k = 0) (h : ∀ k, IsSVD (X k + V k) (u k) (s k) (vt k)) :
    stackDot (multiprod u vt - X) (multiprod u vt - X) ≤ 1 ^ 2 * stackDot V V ∧
      stackDot (multiprod u vt - X - V) (multiprod u vt - X - V) ≤ (1 / 2 * stackDot V V) ^ 2 := by
  simp only [stackDot_eq, one_pow, one_mul]
  exact ⟨Finset.sum_le_sum fun k _ => (polar_bounds (hX k) (hV k) (h k)).1,
    sum_le_sq (by norm_num) (fun k => trDot_self_nonneg _) fun k =>
      (polar_bounds (hX k) (hV k) (h k)).2⟩

theorem stack_qr_bounds [Fintype κ] [Fintype n] {p : ℕ} {X V q : Stack κ n (Fin p) 𝕜}
    {r : Stack κ (Fin p) (Fin p) 𝕜} (hX : ∀ k, (X k)ᴴ * X k = 1)
    (hV : ∀ k, (X k)ᴴ * V k + (V k)ᴴ * X k = 0) (h : ∀ k, IsQR (X k + V k) (q k) (r k))
    (hd : ∀ k i, ∃ d : ℝ, 0 ≤ d ∧ r k i i = (d : 𝕜)) :
    stackDot (q - X) (q - X) ≤ 2 ^ 2 * stackDot V V ∧
      stackDot (q - X - V) (q - X - V) ≤ (Real.sqrt 2 * stackDot V V) ^ 2 := by
  have hb : ∀ k, trDot (q k - (X k + V k)) (q k - (X k + V k)) ≤ trDot (V k) (V k) ∧
      trDot (q k - (X k + V k)) (q k - (X k + V k)) ≤ 2 * trDot (V k) (V k) ^ 2 := by
    intro k
    refine qr_bounds (h k) (hd k) ?_
    rw [conjTranspose_add, Matrix.add_mul, Matrix.mul_add, Matrix.mul_add, hX,
      show (1 : Matrix (Fin p) (Fin p) 𝕜) + (X k)ᴴ * V k + ((V k)ᴴ * X k + (V k)ᴴ * V k) =
        1 + ((X k)ᴴ * V k + (V k)ᴴ * X k) + (V k)ᴴ * V k by abel, hV, add_zero]
  simp only [stackDot_eq]
  constructor
  · rw [Finset.mul_sum]
    refine Finset.sum_le_sum fun k _ => ?_
    have e : (q - X) k = (q k - (X k + V k)) + V k := by rw [Pi.sub_apply]; abel
    have h2 := (hb k).1
    obtain ⟨D, hD⟩ : ∃ D, q k - (X k + V k) = D := ⟨_, rfl⟩
    have h1 := trDot_inner.nonneg (D - V k)
    rw [hD] at h2
    rw [trDot_inner.sub_left, trDot_inner.sub_right, trDot_inner.sub_right,
      trDot_inner.symm (V k) D] at h1
    rw [e, hD, trDot_inner.add_left, trDot_inner.add_right, trDot_inner.add_right,
      trDot_inner.symm (V k) D]
    linarith
  · refine sum_le_sq (Real.sqrt_nonneg _) (fun k => trDot_self_nonneg _) fun k => ?_
    rw [mul_pow, Real.sq_sqrt zero_le_two, Pi.sub_apply, Pi.sub_apply, sub_sub]
    exact (hb k).2

/-- What is common to the manifolds of orthonormal matrices. -/
theorem embedded_stiefel [Fintype κ] [Fintype n] [DecidableEq n] {p : ℕ} (dim : ℤ)
    (retraction log pairMean : Stack κ n (Fin p) ℝ → Stack κ n (Fin p) ℝ → Stack κ n (Fin p) ℝ)
    {α β : ℝ} (hc : ∀ X V, OnStiefel X → StiefelTangent X V → OnStiefel (retraction X V))
    (hr : ∀ X V, OnStiefel X → StiefelTangent X V →
      stackDot (retraction X V - X) (retraction X V - X) ≤ α ^ 2 * stackDot V V ∧
      stackDot (retraction X V - X - V) (retraction X V - X - V) ≤ (β * stackDot V V) ^ 2) :
    Embedded (stiefelMfd dim retraction log pairMean) stE2rg stE2rh (fun _ v => v) stackDot OnStiefel
      StiefelTangent α β 1 where
  smul _ _ := rfl
  neg _ := rfl
  tan X _ := stiefelTangent_subspace X
  inner X _ := (C66_metric X X).1.on _
  norm X V _ _ := (C66_metric X V).2
  closed := hc
  gradTan X G hX := (C66_transport_gradient X X G hX).2.2.1
  grad X G V hX hV := ((C66_projection X hX).represents G hV).trans (stInner_eq X G V)
  isometry X V _ _ := (stInner_eq X V V).symm
  near X V hX hV := (hr X V hX hV).1
  line X V hX hV := (hr X V hX hV).2
  hess X G H V hX hV :=
    ⟨_, ((C66_metric X X).1.symm V _).trans (stiefel_hess_form hX hV G H),
      stack_polar_acc (fun k => by
        rw [conjTranspose_eq_transpose_of_trivial]; exact onStiefel_iff.mp hX k) V⟩

/-- **C127** (Stiefel): with the polar retraction and with the QR retraction. -/
theorem C127_stiefel [Fintype κ] [Fintype n] [DecidableEq n] {p : ℕ} (dim : ℤ)
    (retraction log pairMean : Stack κ n (Fin p) ℝ → Stack κ n (Fin p) ℝ → Stack κ n (Fin p) ℝ) :
    ((∀ X V, ∃ u, ∃ s : κ → Fin p → ℝ, ∃ vt, (∀ k, IsSVD (stRetractArg X V k) (u k) (s k) (vt k)) ∧
        retraction X V = stRetractPolar u vt) →
      Embedded (stiefelMfd dim retraction log pairMean) stE2rg stE2rh (fun _ v => v) stackDot
        OnStiefel StiefelTangent 1 (1 / 2) 1) ∧
    ((∀ X V, ∃ q r, (∀ k, IsQR (stRetractArg X V k) (q k) (r k)) ∧
        retraction X V = stRetractQR q r) →
      Embedded (stiefelMfd dim retraction log pairMean) stE2rg stE2rh (fun _ v => v) stackDot
        OnStiefel StiefelTangent 2 (Real.sqrt 2) 1) := by
  have hX' : ∀ {X : Stack κ n (Fin p) ℝ}, OnStiefel X → ∀ k, (X k)ᴴ * X k = 1 := fun hX k => by
    rw [conjTranspose_eq_transpose_of_trivial]; exact onStiefel_iff.mp hX k
  have hV' : ∀ {X V : Stack κ n (Fin p) ℝ}, StiefelTangent X V →
      ∀ k, (X k)ᴴ * V k + (V k)ᴴ * X k = 0 := fun hV k => by
    rw [conjTranspose_eq_transpose_of_trivial, conjTranspose_eq_transpose_of_trivial,
      stiefelTangent_iff.mp hV k]
    abel
  refine ⟨fun hr => embedded_stiefel dim retraction log pairMean
    (C109_stiefel dim retraction log pairMean (.inr hr) (fun _ => 0) (fun X => X)
      fun _ V => V).1.mfd.retraction fun X V hX hV => ?_,
    fun hr => embedded_stiefel dim retraction log pairMean
    (C109_stiefel dim retraction log pairMean (.inl hr) (fun _ => 0) (fun X => X)
      fun _ V => V).1.mfd.retraction fun X V hX hV => ?_⟩
  · obtain ⟨u, s, vt, h, e⟩ := hr X V
    rw [e]
    exact stack_polar_bounds (hX' hX) (hV' hV) h
  · obtain ⟨q, r, h, e⟩ := hr X V
    rw [e]
    have hq := fun k => C51_factorisation le_rfl (h k)
    exact stack_qr_bounds (hX' hX) (hV' hV) (fun k => (hq k).1) fun k => (hq k).2

/-- **C127** (Grassmann, real and complex). -/
theorem C127_grassmann [Fintype κ] [Fintype n] [DecidableEq n] {p : ℕ} (dim : ℤ)
    (retraction log pairMean : Stack κ n (Fin p) 𝕜 → Stack κ n (Fin p) 𝕜 → Stack κ n (Fin p) 𝕜)
    (hr : ∀ X V, IsGrRetraction X V (retraction X V)) :
    Embedded (grassmannMfd dim retraction log pairMean) cgrProj cgrE2rh (fun _ v => v) stackDot
      Orthonormal' GrHorizontal 1 (1 / 2) 1 := by
  have hV' : ∀ {X V : Stack κ n (Fin p) 𝕜}, GrHorizontal X V →
      ∀ k, (X k)ᴴ * V k + (V k)ᴴ * X k = 0 := fun {X V} hV k => by
    have h1 := grHorizontal_iff.mp hV k
    have h2 : (V k)ᴴ * X k = 0 := by
      have := congrArg conjTranspose h1
      rwa [conjTranspose_mul, conjTranspose_conjTranspose, conjTranspose_zero] at this
    rw [h1, h2, add_zero]
  have hb : ∀ {X V : Stack κ n (Fin p) 𝕜}, Orthonormal' X → GrHorizontal X V →
      stackDot (retraction X V - X) (retraction X V - X) ≤ 1 ^ 2 * stackDot V V ∧
      stackDot (retraction X V - X - V) (retraction X V - X - V) ≤ (1 / 2 * stackDot V V) ^ 2 := by
    intro X V hX hV
    obtain ⟨u, s, vt, h, e⟩ := hr X V
    rw [e]
    exact stack_polar_bounds (orthonormal_iff.mp hX) (hV' hV) h
  exact
    { smul := fun _ _ => rfl
      neg := fun _ => rfl
      tan := fun X _ => grHorizontal_subspace X
      inner := fun X _ => (C70_metric X X).1.on _
      norm := fun X V _ _ => (C70_metric X V).2
      closed := fun X V hX hV => (C71_retraction hX hV (hr X V)).1
      gradTan := fun X G hX => (C70_transport_gradient X X G hX).2.1
      grad := fun X G V hX hV => (C70_projection X hX).represents G hV
      isometry := fun _ _ _ _ => rfl
      near := fun X V hX hV => (hb hX hV).1
      line := fun X V hX hV => (hb hX hV).2
      hess := fun X G H V hX hV =>
        ⟨_, ((C70_metric X X).1.symm V _).trans (grassmann_hess_form hX hV G H),
          stack_polar_acc (orthonormal_iff.mp hX) V⟩ }

/-- **C127** (special orthogonal group): with the polar retraction and with the QR retraction. -/
theorem C127_special_orthogonal [Fintype κ] {p : ℕ} (dim : ℤ)
    (retraction log pairMean : Stack κ (Fin p) (Fin p) ℝ → Stack κ (Fin p) (Fin p) ℝ →
      Stack κ (Fin p) (Fin p) ℝ) :
    ((∀ X V, ∃ u, ∃ s : κ → Fin p → ℝ, ∃ vt, (∀ k, IsSVD (gRetractArg X V k) (u k) (s k) (vt k)) ∧
        retraction X V = gRetractPolar u vt) →
      Embedded (specialOrthogonalMfd dim retraction log pairMean) gE2rg gE2rh gEmbed stackDot OnSO
        (fun _ => InLie) 1 (1 / 2) 1) ∧
    ((∀ X V, ∃ q r, (∀ k, IsQR (gRetractArg X V k) (q k) (r k)) ∧
        retraction X V = gRetractQR q r) →
      Embedded (specialOrthogonalMfd dim retraction log pairMean) gE2rg gE2rh gEmbed stackDot OnSO
        (fun _ => InLie) 2 (Real.sqrt 2) 1) := by
  have hV' : ∀ {X V : Stack κ (Fin p) (Fin p) ℝ}, OnSO X → InLie V →
      ∀ k, (X k)ᴴ * gEmbed X V k + (gEmbed X V k)ᴴ * X k = 0 := fun {X V} hX hV k => by
    change (X k)ᴴ * (X k * V k) + (X k * V k)ᴴ * X k = 0
    rw [conjTranspose_mul, Matrix.mul_assoc, ← Matrix.mul_assoc, hX.1 k, Matrix.one_mul,
      Matrix.mul_one, hV k, add_neg_cancel]
  have hiso : ∀ {X V : Stack κ (Fin p) (Fin p) ℝ}, OnSO X →
      stackDot (gEmbed X V) (gEmbed X V) = stackDot V V := fun {X V} hX => by
    rw [stackDot_eq, stackDot_eq]
    refine Finset.sum_congr rfl fun k _ => ?_
    change trDot (X k * V k) (X k * V k) = _
    rw [trDot_mul_left, ← Matrix.mul_assoc, hX.1 k, Matrix.one_mul]
  have key : ∀ {α β : ℝ}, (∀ X V, OnSO X → InLie V → OnSO (retraction X V)) →
      (∀ X V, OnSO X → InLie V →
        stackDot (retraction X V - X) (retraction X V - X) ≤
          α ^ 2 * stackDot (gEmbed X V) (gEmbed X V) ∧
        stackDot (retraction X V - X - gEmbed X V) (retraction X V - X - gEmbed X V) ≤
          (β * stackDot (gEmbed X V) (gEmbed X V)) ^ 2) →
      Embedded (specialOrthogonalMfd dim retraction log pairMean) gE2rg gE2rh gEmbed stackDot OnSO
        (fun _ => InLie) α β 1 := by
    intro α β hc hr
    exact
      { smul := fun _ _ => rfl
        neg := fun _ => rfl
        tan := fun _ _ => inLie_subspace
        inner := fun X _ => (C95_metric X).2.1
        norm := fun X V _ _ => (C95_metric X).2.2 V
        closed := hc
        gradTan := fun X G _ => (C95_so_gradient X G).1
        grad := fun X G V _ hV => by
          refine ((C95_so_gradient X G).2 V hV).trans ?_
          rw [stackDot_eq]
          refine Finset.sum_congr rfl fun k _ => ?_
          rw [trDot_eq_sum]
          simp
        isometry := fun X V hX _ => hiso hX
        near := fun X V hX hV => (hr X V hX hV).1
        line := fun X V hX hV => (hr X V hX hV).2
        hess := fun X G H V hX hV => by
          refine ⟨_, Eq.trans ?_ (group_hess_form X G H hV), ?_⟩
          · exact stackDot_comm V _
          · rw [hiso hX, stackDot_eq, stackDot_eq]
            refine sum_le_sq zero_le_one (fun k => trDot_self_nonneg _) fun k => ?_
            rw [trDot_mul_left, ← Matrix.mul_assoc, hX.1 k, Matrix.one_mul, one_mul, sq]
            exact trDot_mul_le (V k) (V k) }
  refine ⟨fun hr => key (C109_special_orthogonal dim retraction log pairMean (.inr hr) (fun _ => 0)
      (fun X => X) fun _ V => V).1.mfd.retraction fun X V hX hV => ?_,
    fun hr => key (C109_special_orthogonal dim retraction log pairMean (.inl hr) (fun _ => 0)
      (fun X => X) fun _ V => V).1.mfd.retraction fun X V hX hV => ?_⟩
  · obtain ⟨u, s, vt, h, e⟩ := hr X V
    rw [e]
    exact stack_polar_bounds hX.1 (hV' hX hV) h
  · obtain ⟨q, r, h, e⟩ := hr X V
    rw [e]
    have hq := fun k => C51_factorisation le_rfl (h k)
    exact stack_qr_bounds hX.1 (hV' hX hV) (fun k => (hq k).1) fun k => (hq k).2

theorem productMfd_inner {k : ℕ} {E : Fin k → Type*} (Ms : ∀ i, Mfd ℝ (E i) (E i)) (x u v : ∀ i, E i) :
    (productMfd Ms).inner x u v = ∑ i, (Ms i).inner (x i) (u i) (v i) := rfl

/-- **C127** (products): a product of such manifolds is one. -/
theorem C127_product {k : ℕ} {E : Fin k → Type*} [∀ i, AddCommGroup (E i)] [∀ i, Module ℝ (E i)]
    {Ms : ∀ i, Mfd ℝ (E i) (E i)} {e2rg : ∀ i, E i → E i → E i}
    {e2rh : ∀ i, E i → E i → E i → E i → E i} {emb : ∀ i, E i → E i → E i} {B : ∀ i, E i → E i → ℝ}
    {On : ∀ i, E i → Prop} {Tan : ∀ i, E i → E i → Prop} {α β γ : ℝ} (hβ : 0 ≤ β) (hγ : 0 ≤ γ)
    (hB : ∀ i, IsInner (B i))
    (h : ∀ i, Embedded (Ms i) (e2rg i) (e2rh i) (emb i) (B i) (On i) (Tan i) α β γ) :
    Embedded (productMfd Ms) (fun x g i => e2rg i (x i) (g i))
      (fun x g h v i => e2rh i (x i) (g i) (h i) (v i)) (fun x v i => emb i (x i) (v i))
      (fun u v => ∑ i, B i (u i) (v i)) (fun x => ∀ i, On i (x i)) (fun x v => ∀ i, Tan i (x i) (v i))
      α β γ where
  smul a v := funext fun i => (h i).smul a (v i)
  neg v := funext fun i => (h i).neg (v i)
  tan x hx := IsSubspace.pi fun i => (h i).tan (x i) (hx i)
  inner x hx :=
    { add_left := fun u v w hu hv hw => by
        rw [productMfd_inner, productMfd_inner, productMfd_inner, ← Finset.sum_add_distrib]
        exact Finset.sum_congr rfl fun i _ => ((h i).inner _ (hx i)).add_left _ _ _ (hu i) (hv i) (hw i)
      smul_left := fun c u v hu hv => by
        rw [productMfd_inner, productMfd_inner, Finset.mul_sum]
        exact Finset.sum_congr rfl fun i _ => ((h i).inner _ (hx i)).smul_left _ _ _ (hu i) (hv i)
      symm := fun u v hu hv => by
        rw [productMfd_inner, productMfd_inner]
        exact Finset.sum_congr rfl fun i _ => ((h i).inner _ (hx i)).symm _ _ (hu i) (hv i)
      nonneg := fun u hu => by
        rw [productMfd_inner]
        exact Finset.sum_nonneg fun i _ => ((h i).inner _ (hx i)).nonneg _ (hu i)
      definite := fun u hu h0 => by
        rw [productMfd_inner] at h0
        have h1 := (Finset.sum_eq_zero_iff_of_nonneg fun i _ =>
          ((h i).inner _ (hx i)).nonneg _ (hu i)).1 h0
        exact funext fun i => ((h i).inner _ (hx i)).definite _ (hu i) (h1 i (Finset.mem_univ i)) }
  norm _ _ _ _ := rfl
  closed x v hx hv i := (h i).closed _ _ (hx i) (hv i)
  gradTan x g hx i := (h i).gradTan _ _ (hx i)
  grad x g v hx hv := by
    rw [productMfd_inner]
    exact Finset.sum_congr rfl fun i _ => (h i).grad _ _ _ (hx i) (hv i)
  isometry x v hx hv := by
    rw [productMfd_inner]
    exact Finset.sum_congr rfl fun i _ => (h i).isometry _ _ (hx i) (hv i)
  near x v hx hv := by
    rw [Finset.mul_sum]
    exact Finset.sum_le_sum fun i _ => (h i).near _ _ (hx i) (hv i)
  line x v hx hv := sum_le_sq hβ (fun i => (hB i).nonneg _) fun i => (h i).line _ _ (hx i) (hv i)
  hess x g w v hx hv := by
    choose a h1 h2 using fun i => (h i).hess (x i) (g i) (w i) (v i) (hx i) (hv i)
    refine ⟨a, ?_, sum_le_sq hγ (fun i => (hB i).nonneg _) h2⟩
    rw [productMfd_inner, ← Finset.sum_add_distrib]
    exact Finset.sum_congr rfl fun i _ => h1 i

/-! ## What this gives on the sphere -/

/-- **C127** (sphere): every cost with an `L`-Lipschitz gradient meets the hypotheses of C112 and C114
with the constant `2 L + |egrad 0|`. -/
theorem C127_sphere_constants [Fintype ι] (eps : ℝ) {cost : (ι → ℝ) → ℝ} {egrad : (ι → ℝ) → ι → ℝ}
    {ehess : (ι → ℝ) → (ι → ℝ) → ι → ℝ} {L : ℝ} (hs : SmoothCost tensordot cost egrad ehess L) :
    let pb := arrayProb (sphereMfd eps) sphereE2rg sphereE2rh (fun _ v => v) cost egrad ehess
    let C := 2 * L + Real.sqrt (∑ i, egrad 0 i ^ 2)
    SmoothModel pb OnSphere SphereTangent C C ∧ SmoothDescent pb OnSphere C := by
  intro pb C
  have e : ∑ i, egrad 0 i ^ 2 = tensordot (egrad 0) (egrad 0) :=
    Finset.sum_congr rfl fun i _ => sq _
  have h := C127_smooth (C127_sphere eps) tensordot_inner hs
    (G := Real.sqrt (∑ i, egrad 0 i ^ 2) + L * 1)
    (add_nonneg (Real.sqrt_nonneg _) (mul_nonneg hs.nonneg zero_le_one)) (fun x hx => by
      rw [e]
      exact C127_gradient_bound tensordot_inner hs zero_le_one (by
        rw [one_pow]; exact hx.dot.le)) (by norm_num) zero_le_one
  have e1 : (1 : ℝ) ^ 2 * L + 2 * (1 / 2) * (Real.sqrt (∑ i, egrad 0 i ^ 2) + L * 1) = C := by
    simp only [C]; ring
  have e2 : L + 1 * (Real.sqrt (∑ i, egrad 0 i ^ 2) + L * 1) = C := by simp only [C]; ring
  rw [e1, e2] at h
  exact h

theorem smoothCost_quadratic [Fintype ι] {A : Matrix ι ι ℝ} (hA : Aᵀ = A) {L : ℝ} (hL : 0 ≤ L)
    (hb : ∀ u, tensordot (A *ᵥ u) (A *ᵥ u) ≤ L ^ 2 * tensordot u u) (c : ℝ) (hc : 0 ≤ c) :
    SmoothCost tensordot (fun x => -(c * tensordot x (A *ᵥ x))) (fun x => (-(2 * c)) • A *ᵥ x)
      (fun _ d => (-(2 * c)) • A *ᵥ d) (2 * c * L) := by
  have hsym : ∀ u v, tensordot u (A *ᵥ v) = tensordot (A *ᵥ u) v := fun u v => by
    change u ⬝ᵥ A *ᵥ v = A *ᵥ u ⬝ᵥ v
    rw [dotProduct_mulVec, ← mulVec_transpose, hA]
  refine ⟨by positivity, fun x d => ?_, fun x y => ?_, fun x d w => ?_⟩
  · have e : (fun t : ℝ => -(c * tensordot (x + t • d) (A *ᵥ (x + t • d)))) = fun t =>
        -(c * (tensordot x (A *ᵥ x) + t * (2 * tensordot (A *ᵥ x) d) +
          t ^ 2 * tensordot d (A *ᵥ d))) := by
      funext t
      rw [mulVec_add, mulVec_smul, tensordot_inner.add_left, tensordot_inner.add_right,
        tensordot_inner.add_right, tensordot_inner.smul_left, tensordot_inner.smul_left,
        tensordot_inner.smul_right, tensordot_inner.smul_right, hsym x d,
        tensordot_inner.symm d (A *ᵥ x)]
      ring
    rw [e, tensordot_inner.smul_left]
    have h1 := (((hasDerivAt_id (0 : ℝ)).mul_const (2 * tensordot (A *ᵥ x) d)).const_add
      (tensordot x (A *ᵥ x))).add (((hasDerivAt_id (0 : ℝ)).pow 2).mul_const
        (tensordot d (A *ᵥ d)))
    refine (h1.const_mul c).neg.congr_deriv ?_
    simp
    ring
  · rw [← smul_sub, ← mulVec_sub, tensordot_inner.smul_left, tensordot_inner.smul_right]
    have := mul_le_mul_of_nonneg_left (hb (y - x)) (sq_nonneg (2 * c))
    nlinarith
  · have e : (fun t : ℝ => tensordot ((-(2 * c)) • A *ᵥ (x + t • d)) w) = fun t =>
        -(2 * c) * tensordot (A *ᵥ x) w + t * (-(2 * c) * tensordot (A *ᵥ d) w) := by
      funext t
      rw [mulVec_add, mulVec_smul, tensordot_inner.smul_left, tensordot_inner.add_left,
        tensordot_inner.smul_left]
      ring
    rw [e, tensordot_inner.smul_left]
    have h1 := ((hasDerivAt_id (0 : ℝ)).mul_const (-(2 * c) * tensordot (A *ᵥ d) w)).const_add
      (-(2 * c) * tensordot (A *ᵥ x) w)
    refine h1.congr_deriv ?_
    ring

/-- The hypotheses can be met: the cost `-x₀ x₁` on the circle has constant `2`. -/
example (eps : ℝ) : SmoothDescent (arrayProb (sphereMfd eps) sphereE2rg sphereE2rh (fun _ v => v)
    (fun x : Fin 2 → ℝ => -(1 / 2 * tensordot x (!![0, 1; 1, 0] *ᵥ x)))
    (fun x => (-(2 * (1 / 2)) : ℝ) • !![0, 1; 1, 0] *ᵥ x)
    fun _ d => (-(2 * (1 / 2)) : ℝ) • !![0, 1; 1, 0] *ᵥ d) OnSphere 2 := by
  have h := smoothCost_quadratic (A := !![(0 : ℝ), 1; 1, 0]) (L := 1) (by
      ext i j; fin_cases i <;> fin_cases j <;> rfl) zero_le_one (fun u => by
        simp [tensordot, Fin.sum_univ_two, mulVec, dotProduct]
        linarith) (1 / 2) (by norm_num)
  have h1 := (C127_sphere_constants eps h).2
  simpa using h1

end Verif.Geo
