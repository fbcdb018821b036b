/-
C123: the gradient and Hessian operators of all four autodiff backends are the Euclidean gradient
and Hessian in the one convention the manifolds expect, although the libraries use two different
conventions for complex arrays.  C124: derivatives of costs that ignore an argument.
-/
import Verif.Geo.Model.Backends
import Verif.Geo.Props.Gradient
import Mathlib.Analysis.Calculus.FDeriv.Symmetric
import Mathlib.Analysis.Calculus.ContDiff.Basic

namespace Verif.Geo
open scoped BigOperators Topology
open Filter

variable {α : Type*} [Fintype α] {ι : α → Type*} [∀ a, Fintype (ι a)] {𝕜 : α → Type*}
  [∀ a, RCLike (𝕜 a)]

/-! ### Specification

`argDot G d` is the real inner product of two families of arrays.  `G` is the gradient of `f` at `x`
if `f` is differentiable there and its derivative in every direction `d` is `argDot G d`. -/

/-- The sum over all entries of all arrays of `re (conj G d)`. -/
def argDot (G d : Args ι 𝕜) : ℝ := ∑ a, ∑ i, RCLike.re (star (G a i) * d a i)

/-- `G` is the Euclidean gradient of `f` at `x`. -/
def IsGradient (f : Args ι 𝕜 → ℝ) (x G : Args ι 𝕜) : Prop :=
  DifferentiableAt ℝ f x ∧ ∀ d, fderiv ℝ f x d = argDot G d

/-! ### Contracts of the libraries

Autograd and JAX document that the gradient of a real function of complex arguments is the
*conjugate* of the direction of steepest ascent; PyTorch and TensorFlow return that direction
itself.  `jax.jvp` and `ForwardAccumulator` compute directional derivatives. -/

/-- Contract of `autograd.grad` and of `jax.grad`. -/
def ConjGradContract (grad : (Args ι 𝕜 → ℝ) → Args ι 𝕜 → Args ι 𝕜) : Prop :=
  ∀ f x, DifferentiableAt ℝ f x → ∀ d, fderiv ℝ f x d = ∑ a, ∑ i, RCLike.re (grad f x a i * d a i)

/-- Contract of `jax.jvp`. -/
def JvpContract (jvp : (Args ι 𝕜 → Args ι 𝕜) → Args ι 𝕜 → Args ι 𝕜 → Args ι 𝕜) : Prop :=
  ∀ g x v, DifferentiableAt ℝ g x → jvp g x v = fderiv ℝ g x v

/-- Contract of `torch.autograd.grad` and of `tf.GradientTape.gradient`: arguments reported as
unused contribute nothing to the derivative. -/
def GradsContract (grads : (Args ι 𝕜 → ℝ) → Args ι 𝕜 → Grads ι 𝕜) : Prop :=
  ∀ f x, DifferentiableAt ℝ f x →
    ∀ d, fderiv ℝ f x d = ∑ a, ∑ i, RCLike.re (star (((grads f x a).getD 0) i) * d a i)

/-- Contract of `torch.Tensor.backward` where it does not raise. -/
def BackwardContract (backward : (Args ι 𝕜 → ℝ) → Args ι 𝕜 → Except PyErr (Grads ι 𝕜)) : Prop :=
  ∀ f x r, backward f x = .ok r → DifferentiableAt ℝ f x →
    ∀ d, fderiv ℝ f x d = ∑ a, ∑ i, RCLike.re (star (((r a).getD 0) i) * d a i)

/-- Contract of `ForwardAccumulator.jvp`: with zeros in place of `None` on both sides. -/
def JvpGradsContract (jvp : (Args ι 𝕜 → Grads ι 𝕜) → Args ι 𝕜 → Args ι 𝕜 → Grads ι 𝕜) : Prop :=
  ∀ (g : Args ι 𝕜 → Grads ι 𝕜) (x v : Args ι 𝕜),
    DifferentiableAt ℝ (fun y : Args ι 𝕜 => (fun a => (g y a).getD 0 : Args ι 𝕜)) x →
    (fun a => (jvp g x v a).getD 0 : Args ι 𝕜)
      = fderiv ℝ (fun y : Args ι 𝕜 => (fun a => (g y a).getD 0 : Args ι 𝕜)) x v

/-! ### Representing functionals -/

open Classical in
/-- The family of arrays with a single entry. -/
noncomputable def argSingle (a : α) (i : ι a) (z : 𝕜 a) : Args ι 𝕜 := Pi.single a (Pi.single i z)

/-- The gradient that represents a functional. -/
noncomputable def riesz (L : Args ι 𝕜 →L[ℝ] ℝ) : Args ι 𝕜 := fun a i =>
  ((L (argSingle a i 1) : ℝ) : 𝕜 a) + RCLike.I * ((L (argSingle a i RCLike.I) : ℝ) : 𝕜 a)

theorem sum_argSingle (d : Args ι 𝕜) : ∑ a, ∑ i, argSingle a i (d a i) = d := by
  classical
  funext b j
  simp only [Finset.sum_apply]
  rw [Finset.sum_eq_single b, Finset.sum_eq_single j]
  · simp [argSingle]
  · intro i _ hi
    simp [argSingle, Ne.symm hi]
  · simp
  · intro a _ ha
    refine Finset.sum_eq_zero fun i _ => ?_
    rw [argSingle, Pi.single_eq_of_ne (Ne.symm ha)]
    rfl
  · simp

omit [Fintype α] [∀ a, Fintype (ι a)] in
theorem argSingle_add (a : α) (i : ι a) (z w : 𝕜 a) :
    (argSingle a i (z + w) : Args ι 𝕜) = argSingle a i z + argSingle a i w := by
  classical
  rw [argSingle, argSingle, argSingle, Pi.single_add, Pi.single_add]

omit [Fintype α] [∀ a, Fintype (ι a)] in
theorem argSingle_smul (a : α) (i : ι a) (r : ℝ) (z : 𝕜 a) :
    (argSingle a i (r • z) : Args ι 𝕜) = r • argSingle a i z := by
  classical
  rw [argSingle, argSingle, Pi.single_smul, Pi.single_smul]

omit [Fintype α] [∀ a, Fintype (ι a)] in
theorem apply_argSingle (L : Args ι 𝕜 →L[ℝ] ℝ) (a : α) (i : ι a) (z : 𝕜 a) :
    L (argSingle a i z) = RCLike.re (star (riesz L a i) * z) := by
  have hz : z = RCLike.re z • (1 : 𝕜 a) + RCLike.im z • (RCLike.I : 𝕜 a) := by
    rw [RCLike.real_smul_eq_coe_mul, RCLike.real_smul_eq_coe_mul, mul_one]
    exact (RCLike.re_add_im z).symm
  have h1 : L (argSingle a i z) = RCLike.re z * L (argSingle a i 1)
      + RCLike.im z * L (argSingle a i RCLike.I) := by
    conv_lhs => rw [hz]
    rw [argSingle_add, argSingle_smul, argSingle_smul, map_add, map_smul, map_smul, smul_eq_mul,
      smul_eq_mul]
  rw [h1, riesz]
  rcases RCLike.I_mul_I (K := 𝕜 a) with h0 | h0
  · have him : RCLike.im z = 0 := by
      have := RCLike.I_im' z
      rw [h0] at this
      simpa using this.symm
    simp [him, h0, RCLike.mul_re, mul_comm]
  · have hI : RCLike.im (RCLike.I : 𝕜 a) = 1 := by
      have h2 := congrArg RCLike.re h0
      rw [RCLike.mul_re, RCLike.I_re] at h2
      have h3 : RCLike.im (RCLike.I : 𝕜 a) * RCLike.im (RCLike.I : 𝕜 a) = 1 := by
        have : RCLike.re (-1 : 𝕜 a) = -1 := by simp
        rw [this] at h2
        linarith
      have h4 : RCLike.im (RCLike.I : 𝕜 a) = RCLike.im (RCLike.I : 𝕜 a) * RCLike.im (RCLike.I : 𝕜 a) :=
        (RCLike.I_im' _).symm
      rw [h4, h3]
    simp [RCLike.mul_re, RCLike.mul_im, hI]
    ring

theorem apply_eq_argDot (L : Args ι 𝕜 →L[ℝ] ℝ) (d : Args ι 𝕜) : L d = argDot (riesz L) d := by
  conv_lhs => rw [← sum_argSingle d]
  simp only [map_sum, apply_argSingle, argDot]

theorem argDot_sub_left (G G' d : Args ι 𝕜) : argDot (G - G') d = argDot G d - argDot G' d := by
  simp only [argDot, Pi.sub_apply, star_sub, sub_mul, map_sub, Finset.sum_sub_distrib]

theorem argDot_self (G : Args ι 𝕜) : argDot G G = ∑ a, ∑ i, ‖G a i‖ ^ 2 := by
  refine Finset.sum_congr rfl fun a _ => Finset.sum_congr rfl fun i _ => ?_
  rw [RCLike.star_def, RCLike.conj_mul]
  norm_cast

theorem eq_of_argDot {G G' : Args ι 𝕜} (h : ∀ d, argDot G d = argDot G' d) : G = G' := by
  have h0 : argDot (G - G') (G - G') = 0 := by rw [argDot_sub_left, h, sub_self]
  rw [argDot_self] at h0
  funext a i
  have h1 := (Finset.sum_eq_zero_iff_of_nonneg
    (fun a _ => Finset.sum_nonneg fun i _ => sq_nonneg _)).1 h0 a (Finset.mem_univ a)
  have h2 := (Finset.sum_eq_zero_iff_of_nonneg (fun i _ => sq_nonneg _)).1 h1 i (Finset.mem_univ i)
  exact sub_eq_zero.1 (norm_eq_zero.1 (pow_eq_zero_iff two_ne_zero |>.1 h2))

theorem IsGradient.eq_riesz {f : Args ι 𝕜 → ℝ} {x G : Args ι 𝕜} (h : IsGradient f x G) :
    G = riesz (fderiv ℝ f x) :=
  eq_of_argDot fun d => by rw [← h.2, apply_eq_argDot]

theorem isGradient_riesz {f : Args ι 𝕜 → ℝ} {x : Args ι 𝕜} (h : DifferentiableAt ℝ f x) :
    IsGradient f x (riesz (fderiv ℝ f x)) := ⟨h, apply_eq_argDot _⟩

/-- The gradient is unique. -/
theorem IsGradient.unique {f : Args ι 𝕜 → ℝ} {x G G' : Args ι 𝕜} (h : IsGradient f x G)
    (h' : IsGradient f x G') : G = G' := h.eq_riesz.trans h'.eq_riesz.symm

/-- With a single array, this is the notion of gradient `C110` uses. -/
theorem IsGradient.eGrad {ι : Type*} [Fintype ι] {𝕜 : Type*} [RCLike 𝕜]
    {f : Args (fun _ : Unit => ι) (fun _ => 𝕜) → ℝ} {x G : Args (fun _ : Unit => ι) (fun _ => 𝕜)}
    (h : IsGradient f x G) : EGrad (fun y => f fun _ => y) (x ()) (G ()) := by
  intro c d hc h0
  have hc' : HasDerivAt (fun t => (fun _ => c t : Args (fun _ : Unit => ι) (fun _ => 𝕜)))
      (fun _ => d) 0 := hasDerivAt_pi.2 fun _ => hasDerivAt_pi.2 hc
  have hx : (fun _ => c 0 : Args (fun _ : Unit => ι) (fun _ => 𝕜)) = x := by
    funext a; rw [h0]
  have h1 := h.1.hasFDerivAt
  rw [← hx] at h1
  have h2 := h1.comp_hasDerivAt (0 : ℝ) hc'
  rw [hx, h.2] at h2
  have h3 : argDot G (fun _ => d) = ∑ i, RCLike.re (star (G () i) * d i) := by simp [argDot]
  rw [← h3]
  exact h2

/-! ### Second derivatives -/

variable (ι 𝕜) in
/-- The representation of functionals, as a continuous linear map. -/
noncomputable def rieszCLM : (Args ι 𝕜 →L[ℝ] ℝ) →L[ℝ] Args ι 𝕜 :=
  ContinuousLinearMap.pi fun a => ContinuousLinearMap.pi fun i =>
    ((ContinuousLinearMap.apply ℝ ℝ (argSingle a i 1 : Args ι 𝕜)).smulRight (1 : 𝕜 a)) +
    ((ContinuousLinearMap.apply ℝ ℝ (argSingle a i RCLike.I : Args ι 𝕜)).smulRight (RCLike.I : 𝕜 a))

theorem rieszCLM_apply (L : Args ι 𝕜 →L[ℝ] ℝ) : rieszCLM ι 𝕜 L = riesz L := by
  funext a i
  simp [rieszCLM, riesz, RCLike.real_smul_eq_coe_mul, mul_comm]

/-- The derivative of the gradient of a twice continuously differentiable function. -/
theorem hasFDerivAt_gradient {f : Args ι 𝕜 → ℝ} {x : Args ι 𝕜} (hf : ContDiffAt ℝ 2 f x)
    {G : Args ι 𝕜 → Args ι 𝕜} (hG : ∀ y, DifferentiableAt ℝ f y → IsGradient f y (G y)) :
    HasFDerivAt G (rieszCLM ι 𝕜 ∘L fderiv ℝ (fderiv ℝ f) x) x := by
  have h1 : HasFDerivAt (fderiv ℝ f) (fderiv ℝ (fderiv ℝ f) x) x :=
    ((hf.fderiv_right (m := 1) (by norm_num)).differentiableAt (by norm_num)).hasFDerivAt
  have h2 : HasFDerivAt (fun y => rieszCLM ι 𝕜 (fderiv ℝ f y))
      (rieszCLM ι 𝕜 ∘L fderiv ℝ (fderiv ℝ f) x) x :=
    HasFDerivAt.comp x (g := rieszCLM ι 𝕜) (rieszCLM ι 𝕜).hasFDerivAt h1
  refine h2.congr_of_eventuallyEq ?_
  have h3 : ∀ᶠ y in 𝓝 x, DifferentiableAt ℝ f y := by
    filter_upwards [hf.eventually (by norm_num)] with y hy
    exact hy.differentiableAt (by norm_num)
  filter_upwards [h3] with y hy
  rw [(hG y hy).eq_riesz, rieszCLM_apply]

/-- A function that agrees near `x` with the derivative of `f` in direction `v` has the derivative
of the gradient along `v` as its gradient. -/
theorem fderiv_dot {f : Args ι 𝕜 → ℝ} {x v : Args ι 𝕜} (hf : ContDiffAt ℝ 2 f x)
    {φ : Args ι 𝕜 → ℝ} (hφ : ∀ y, DifferentiableAt ℝ f y → φ y = fderiv ℝ f y v) :
    DifferentiableAt ℝ φ x ∧ fderiv ℝ φ x = fderiv ℝ (fderiv ℝ f) x v := by
  have h1 : HasFDerivAt (fderiv ℝ f) (fderiv ℝ (fderiv ℝ f) x) x :=
    ((hf.fderiv_right (m := 1) (by norm_num)).differentiableAt (by norm_num)).hasFDerivAt
  have h3 : ∀ᶠ y in 𝓝 x, DifferentiableAt ℝ f y := by
    filter_upwards [hf.eventually (by norm_num)] with y hy
    exact hy.differentiableAt (by norm_num)
  have h4 : HasFDerivAt φ ((ContinuousLinearMap.apply ℝ ℝ v) ∘L fderiv ℝ (fderiv ℝ f) x) x := by
    have h5 := (ContinuousLinearMap.apply ℝ ℝ v).hasFDerivAt.comp x h1
    refine h5.congr_of_eventuallyEq ?_
    filter_upwards [h3] with y hy
    rw [hφ y hy]
    rfl
  refine ⟨h4.differentiableAt, ?_⟩
  rw [h4.fderiv]
  ext d
  have hs : IsSymmSndFDerivAt ℝ f x := hf.isSymmSndFDerivAt (by simp)
  exact hs d v

/-- The gradient along the line `x + t v`. -/
theorem hasDerivAt_gradient_line {f : Args ι 𝕜 → ℝ} {x : Args ι 𝕜} (hf : ContDiffAt ℝ 2 f x)
    {G : Args ι 𝕜 → Args ι 𝕜} (hG : ∀ y, DifferentiableAt ℝ f y → IsGradient f y (G y))
    (v : Args ι 𝕜) :
    HasDerivAt (fun t : ℝ => G (x + t • v)) (riesz (fderiv ℝ (fderiv ℝ f) x v)) 0 := by
  have h1 := hasFDerivAt_gradient hf hG
  have h5 : HasDerivAt (fun t : ℝ => x + t • v) v 0 := by
    simpa using ((hasDerivAt_id (0 : ℝ)).smul_const v).const_add x
  have h1' : HasFDerivAt G (rieszCLM ι 𝕜 ∘L fderiv ℝ (fderiv ℝ f) x)
      (x + (0 : ℝ) • v) := by simpa using h1
  have h6 := h1'.comp_hasDerivAt (0 : ℝ) h5
  rw [ContinuousLinearMap.comp_apply, rieszCLM_apply] at h6
  exact h6

/-! ### C123 -/

section autograd
variable {grad : (Args ι 𝕜 → ℝ) → Args ι 𝕜 → Args ι 𝕜}

theorem conj_isGradient (hg : ConjGradContract grad) {f : Args ι 𝕜 → ℝ} {x : Args ι 𝕜}
    (hf : DifferentiableAt ℝ f x) : IsGradient f x (conjugateResult (grad f x)) := by
  refine ⟨hf, fun d => ?_⟩
  rw [hg f x hf d]
  simp [argDot, conjugateResult]

/-- **C123** (Autograd): at every point where the cost is differentiable the gradient operator
returns its Euclidean gradient; where it is twice continuously differentiable the Hessian operator
returns the derivative of the gradient along the vector. -/
theorem C123_autograd (hg : ConjGradContract grad) (f : Args ι 𝕜 → ℝ) (x v : Args ι 𝕜) :
    (DifferentiableAt ℝ f x → IsGradient f x (autogradGradient grad f x)) ∧
      (ContDiffAt ℝ 2 f x →
        HasDerivAt (fun t : ℝ => autogradGradient grad f (x + t • v))
          (autogradHessian grad f x v) 0) := by
  refine ⟨conj_isGradient hg, fun hf => ?_⟩
  have h2 : autogradHessian grad f x v = riesz (fderiv ℝ (fderiv ℝ f) x v) := by
    obtain ⟨h3, h4⟩ := fderiv_dot (v := v) hf (φ := vectorDotGradient grad f v) fun y hy => by
      rw [hg f y hy v, vectorDotGradient]
      simp only [map_sum]
    rw [← h4]
    exact (conj_isGradient hg h3).eq_riesz
  rw [h2]
  exact hasDerivAt_gradient_line hf (fun y hy => conj_isGradient hg hy) v

variable (ι 𝕜) in
/-- Conjugation of all arrays. -/
noncomputable def conjCLM : Args ι 𝕜 →L[ℝ] Args ι 𝕜 :=
  ContinuousLinearMap.pi fun a => ContinuousLinearMap.pi fun i =>
    (RCLike.conjCLE (K := 𝕜 a)).toContinuousLinearMap ∘L
      (ContinuousLinearMap.proj i ∘L ContinuousLinearMap.proj a)

omit [Fintype α] [∀ a, Fintype (ι a)] in
theorem conjCLM_apply (g : Args ι 𝕜) : conjCLM ι 𝕜 g = conjugateResult g := by
  funext a i
  simp [conjCLM, conjugateResult]

/-- **C123** (JAX). -/
theorem C123_jax (hg : ConjGradContract grad)
    {jvp : (Args ι 𝕜 → Args ι 𝕜) → Args ι 𝕜 → Args ι 𝕜 → Args ι 𝕜} (hj : JvpContract jvp)
    (f : Args ι 𝕜 → ℝ) (x v : Args ι 𝕜) :
    (DifferentiableAt ℝ f x → IsGradient f x (jaxGradient grad f x)) ∧
      (ContDiffAt ℝ 2 f x →
        HasDerivAt (fun t : ℝ => jaxGradient grad f (x + t • v)) (jaxHessian grad jvp f x v) 0) := by
  refine ⟨conj_isGradient hg, fun hf => ?_⟩
  have h1 : HasFDerivAt (jaxGradient grad f) (rieszCLM ι 𝕜 ∘L fderiv ℝ (fderiv ℝ f) x) x :=
    hasFDerivAt_gradient hf fun y hy => conj_isGradient hg hy
  have h2 : HasFDerivAt (fun y => conjCLM ι 𝕜 (jaxGradient grad f y))
      (conjCLM ι 𝕜 ∘L (rieszCLM ι 𝕜 ∘L fderiv ℝ (fderiv ℝ f) x)) x :=
    HasFDerivAt.comp x (g := conjCLM ι 𝕜) (conjCLM ι 𝕜).hasFDerivAt h1
  have h3 : (fun y => conjCLM ι 𝕜 (jaxGradient grad f y)) = grad f := by
    funext y
    rw [conjCLM_apply, jaxGradient]
    funext a i
    simp [conjugateResult]
  rw [h3] at h2
  have h4 : jaxHessian grad jvp f x v = riesz (fderiv ℝ (fderiv ℝ f) x v) := by
    rw [jaxHessian, hj _ _ _ h2.differentiableAt, h2.fderiv, ContinuousLinearMap.comp_apply,
      conjCLM_apply, ContinuousLinearMap.comp_apply, rieszCLM_apply]
    funext a i
    simp [conjugateResult]
  rw [h4]
  exact hasDerivAt_gradient_line hf (fun y hy => conj_isGradient hg hy) v

end autograd

section torch
variable {backward : (Args ι 𝕜 → ℝ) → Args ι 𝕜 → Except PyErr (Grads ι 𝕜)}
  {grads : (Args ι 𝕜 → ℝ) → Args ι 𝕜 → Grads ι 𝕜}

theorem torchGradient_isGradient (hb : BackwardContract backward) {f : Args ι 𝕜 → ℝ}
    {x g : Args ι 𝕜} (hf : DifferentiableAt ℝ f x) (h : torchGradient backward f x = .ok g) :
    IsGradient f x g := by
  rw [torchGradient] at h
  cases hr : backward f x with
  | error e => rw [hr] at h; simp [Except.map] at h
  | ok r =>
    rw [hr] at h
    simp only [Except.map, Except.ok.injEq] at h
    subst h
    exact ⟨hf, hb f x r hr hf⟩

/-- **C123** (PyTorch): what the gradient operator returns is the Euclidean gradient, what the
Hessian operator returns is the derivative along the vector of the Euclidean gradient. -/
theorem C123_pytorch (hb : BackwardContract backward) (hg : GradsContract grads)
    (f : Args ι 𝕜 → ℝ) (x v g : Args ι 𝕜) :
    (DifferentiableAt ℝ f x → torchGradient backward f x = .ok g → IsGradient f x g) ∧
      (ContDiffAt ℝ 2 f x → torchHessian backward grads f x v = .ok g →
        ∀ G : Args ι 𝕜 → Args ι 𝕜, (∀ y, DifferentiableAt ℝ f y → IsGradient f y (G y)) →
          HasDerivAt (fun t : ℝ => G (x + t • v)) g 0) := by
  refine ⟨torchGradient_isGradient hb, fun hf hh G hG => ?_⟩
  have h2 : g = riesz (fderiv ℝ (fderiv ℝ f) x v) := by
    rw [torchHessian] at hh
    split_ifs at hh
    obtain ⟨h3, h4⟩ := fderiv_dot (v := v) hf (φ := torchDotProduct grads f v) fun y hy => by
      rw [hg f y hy v, torchDotProduct]
      simp only [map_sum, sanitizeGradients]
    rw [← h4]
    exact (torchGradient_isGradient hb h3 hh).eq_riesz
  rw [h2]
  exact hasDerivAt_gradient_line hf hG v

/-- **C123** (TensorFlow). -/
theorem C123_tensorflow (hg : GradsContract grads)
    {jvp : (Args ι 𝕜 → Grads ι 𝕜) → Args ι 𝕜 → Args ι 𝕜 → Grads ι 𝕜} (hj : JvpGradsContract jvp)
    (f : Args ι 𝕜 → ℝ) (x v : Args ι 𝕜) :
    (DifferentiableAt ℝ f x → IsGradient f x (tfGradient grads f x)) ∧
      (ContDiffAt ℝ 2 f x →
        HasDerivAt (fun t : ℝ => tfGradient grads f (x + t • v)) (tfHessian grads jvp f x v) 0) := by
  have h0 : ∀ y, DifferentiableAt ℝ f y → IsGradient f y (tfGradient grads f y) :=
    fun y hy => ⟨hy, hg f y hy⟩
  refine ⟨h0 x, fun hf => ?_⟩
  have h1 := hasFDerivAt_gradient hf h0
  have h4 : tfHessian grads jvp f x v = riesz (fderiv ℝ (fderiv ℝ f) x v) := by
    refine (hj (grads f) x v h1.differentiableAt).trans ?_
    change fderiv ℝ (tfGradient grads f) x v = _
    rw [h1.fderiv, ContinuousLinearMap.comp_apply, rieszCLM_apply]
  rw [h4]
  exact hasDerivAt_gradient_line hf h0 v

end torch

/-! All four backends therefore agree, and their Hessians are linear and symmetric, as the Hessian
conversions of the manifolds and the trust-region solver assume. -/

/-- A vector `h` is the Hessian of `f` at `x` applied to `v`: the derivative along `v` of the
Euclidean gradient. -/
def IsHessianVector (f : Args ι 𝕜 → ℝ) (x v h : Args ι 𝕜) : Prop :=
  ∀ G : Args ι 𝕜 → Args ι 𝕜, (∀ y, DifferentiableAt ℝ f y → IsGradient f y (G y)) →
    HasDerivAt (fun t : ℝ => G (x + t • v)) h 0

theorem isHessianVector_iff {f : Args ι 𝕜 → ℝ} {x : Args ι 𝕜} (hf : ContDiffAt ℝ 2 f x)
    {v h : Args ι 𝕜} : IsHessianVector f x v h ↔ h = riesz (fderiv ℝ (fderiv ℝ f) x v) := by
  constructor
  · intro hh
    exact (hh _ fun y hy => isGradient_riesz hy).unique
      (hasDerivAt_gradient_line hf (fun y hy => isGradient_riesz hy) v)
  · rintro rfl G hG
    exact hasDerivAt_gradient_line hf hG v

/-- **C123** The gradient and Hessian operators of the four backends return the same arrays. -/
theorem C123_agree {grad grad' : (Args ι 𝕜 → ℝ) → Args ι 𝕜 → Args ι 𝕜}
    (hg : ConjGradContract grad) (hg' : ConjGradContract grad')
    {jvp : (Args ι 𝕜 → Args ι 𝕜) → Args ι 𝕜 → Args ι 𝕜 → Args ι 𝕜} (hj : JvpContract jvp)
    {backward : (Args ι 𝕜 → ℝ) → Args ι 𝕜 → Except PyErr (Grads ι 𝕜)}
    (hb : BackwardContract backward) {grads grads' : (Args ι 𝕜 → ℝ) → Args ι 𝕜 → Grads ι 𝕜}
    (hs : GradsContract grads) (hs' : GradsContract grads')
    {tjvp : (Args ι 𝕜 → Grads ι 𝕜) → Args ι 𝕜 → Args ι 𝕜 → Grads ι 𝕜} (ht : JvpGradsContract tjvp)
    {f : Args ι 𝕜 → ℝ} {x : Args ι 𝕜} (hf : ContDiffAt ℝ 2 f x) (v : Args ι 𝕜) :
    (jaxGradient grad' f x = autogradGradient grad f x ∧
      tfGradient grads' f x = autogradGradient grad f x ∧
      ∀ g, torchGradient backward f x = .ok g → g = autogradGradient grad f x) ∧
    (jaxHessian grad' jvp f x v = autogradHessian grad f x v ∧
      tfHessian grads' tjvp f x v = autogradHessian grad f x v ∧
      ∀ h, torchHessian backward grads f x v = .ok h → h = autogradHessian grad f x v) := by
  have hd : DifferentiableAt ℝ f x := hf.differentiableAt (by norm_num)
  have ha := C123_autograd hg f x v
  have hjx := C123_jax hg' hj f x v
  have htf := C123_tensorflow hs' ht f x v
  have heq : ∀ h, IsHessianVector f x v h → h = autogradHessian grad f x v := by
    intro h hh
    exact (hh _ fun y hy => conj_isGradient hg hy).unique (ha.2 hf)
  have hline : ∀ (G : Args ι 𝕜 → Args ι 𝕜) (h : Args ι 𝕜),
      (∀ y, DifferentiableAt ℝ f y → IsGradient f y (G y)) →
      HasDerivAt (fun t : ℝ => G (x + t • v)) h 0 → IsHessianVector f x v h := by
    intro G h hG hh
    rw [isHessianVector_iff hf]
    exact hh.unique (hasDerivAt_gradient_line hf hG v)
  refine ⟨⟨(hjx.1 hd).unique (ha.1 hd), (htf.1 hd).unique (ha.1 hd), fun g h =>
    ((C123_pytorch hb hs f x v g).1 hd h).unique (ha.1 hd)⟩, ?_, ?_, ?_⟩
  · exact heq _ (hline _ _ (fun y hy => conj_isGradient hg' hy) (hjx.2 hf))
  · exact heq _ (hline _ _ (fun y hy => ⟨hy, hs' f y hy⟩) (htf.2 hf))
  · exact fun h hh => heq _ ((C123_pytorch hb hs f x v h).2 hf hh)

theorem argDot_add_right (G d e : Args ι 𝕜) : argDot G (d + e) = argDot G d + argDot G e := by
  simp only [argDot, Pi.add_apply, mul_add, map_add, Finset.sum_add_distrib]

theorem argDot_comm (G d : Args ι 𝕜) : argDot G d = argDot d G := by
  refine Finset.sum_congr rfl fun a _ => Finset.sum_congr rfl fun i _ => ?_
  rw [← RCLike.conj_re (star (G a i) * d a i)]
  simp [mul_comm]

/-- **C123** The Hessian is real-linear in the vector and symmetric. -/
theorem C123_symmetric {grad : (Args ι 𝕜 → ℝ) → Args ι 𝕜 → Args ι 𝕜} (hg : ConjGradContract grad)
    {f : Args ι 𝕜 → ℝ} {x : Args ι 𝕜} (hf : ContDiffAt ℝ 2 f x) (v w : Args ι 𝕜) (r : ℝ) :
    autogradHessian grad f x (v + w) = autogradHessian grad f x v + autogradHessian grad f x w ∧
      autogradHessian grad f x (r • v) = r • autogradHessian grad f x v ∧
      argDot (autogradHessian grad f x v) w = argDot v (autogradHessian grad f x w) := by
  have h : ∀ v, autogradHessian grad f x v = rieszCLM ι 𝕜 (fderiv ℝ (fderiv ℝ f) x v) := by
    intro v
    rw [rieszCLM_apply]
    exact ((C123_autograd hg f x v).2 hf).unique
      (hasDerivAt_gradient_line hf (fun y hy => conj_isGradient hg hy) v)
  refine ⟨?_, ?_, ?_⟩
  · rw [h, h, h, map_add, map_add]
  · rw [h, h, map_smul, map_smul]
  · rw [argDot_comm v, h, h, rieszCLM_apply, rieszCLM_apply, ← apply_eq_argDot, ← apply_eq_argDot]
    exact (hf.isSymmSndFDerivAt (by simp)).eq v w

/-! The contracts can be met: by the exact derivatives. -/

theorem conjGradContract_fderiv :
    ConjGradContract fun (f : Args ι 𝕜 → ℝ) x => conjugateResult (riesz (fderiv ℝ f x)) := by
  intro f x _ d
  rw [apply_eq_argDot]
  simp [argDot, conjugateResult]

example : JvpContract (ι := ι) (𝕜 := 𝕜) fun g x v => fderiv ℝ g x v := fun _ _ _ _ => rfl

example : GradsContract (ι := ι) (𝕜 := 𝕜) fun f x a => some (riesz (fderiv ℝ f x) a) :=
  fun _ _ _ d => apply_eq_argDot _ d

example : JvpGradsContract (ι := ι) (𝕜 := 𝕜) fun g x v a =>
    some (fderiv ℝ (fun y : Args ι 𝕜 => (fun a => (g y a).getD 0 : Args ι 𝕜)) x v a) :=
  fun _ _ _ _ => rfl

/-- With the convention of `C123`, the problem's Riemannian gradient on complex circles built from
the Autograd or JAX gradient is the derivative of the cost along the retraction. -/
example {ι : Type*} [Fintype ι]
    {grad : (Args (fun _ : Unit => ι) (fun _ => ℂ) → ℝ) → Args (fun _ : Unit => ι) (fun _ => ℂ) →
      Args (fun _ : Unit => ι) (fun _ => ℂ)} (hg : ConjGradContract grad)
    (f : Args (fun _ : Unit => ι) (fun _ => ℂ) → ℝ) (z v : ι → ℂ) (hz : OnCircles z)
    (hv : CirclesTangent z v) (hf : DifferentiableAt ℝ f fun _ => z) :
    HasDerivAt (fun t : ℝ => f fun _ => ccRetraction z (t • v))
      (ccInner z (subE2rg ccProj z (autogradGradient grad f (fun _ => z) ())) v) 0 :=
  C110_complex_circle hz ((C123_autograd hg f _ 0).1 hf).eGrad hv

/-! ### C124: costs that ignore an argument -/

/-- `f` does not depend on argument `a`. -/
def Ignores (f : Args ι 𝕜 → ℝ) (a : α) : Prop :=
  ∀ x y : Args ι 𝕜, (∀ b, b ≠ a → x b = y b) → f x = f y

open Classical in
theorem fderiv_ignored {f : Args ι 𝕜 → ℝ} {a : α} (h : Ignores f a) {x : Args ι 𝕜}
    (hf : DifferentiableAt ℝ f x) (w : ι a → 𝕜 a) : fderiv ℝ f x (Pi.single a w) = 0 := by
  have h5 : HasDerivAt (fun t : ℝ => x + t • (Pi.single a w : Args ι 𝕜)) (Pi.single a w) 0 := by
    simpa using ((hasDerivAt_id (0 : ℝ)).smul_const (Pi.single a w : Args ι 𝕜)).const_add x
  have h1' : HasFDerivAt f (fderiv ℝ f x) (x + (0 : ℝ) • (Pi.single a w : Args ι 𝕜)) := by
    simpa using hf.hasFDerivAt
  have h6 := h1'.comp_hasDerivAt (0 : ℝ) h5
  have h7 : (f ∘ fun t : ℝ => x + t • (Pi.single a w : Args ι 𝕜)) = fun _ => f x := by
    funext t
    refine h _ _ fun b hb => ?_
    simp [hb]
  rw [h7] at h6
  exact h6.unique (hasDerivAt_const _ _)

/-- The gradient with respect to an ignored argument is zero. -/
theorem IsGradient.ignored {f : Args ι 𝕜 → ℝ} {a : α} (h : Ignores f a) {x G : Args ι 𝕜}
    (hG : IsGradient f x G) : G a = 0 := by
  classical
  have h0 := fderiv_ignored h hG.1 (G a)
  rw [hG.2, argDot, Finset.sum_eq_single a] at h0
  · simp only [Pi.single_eq_same, RCLike.star_def, RCLike.conj_mul] at h0
    have h1 : ∑ i, ‖G a i‖ ^ 2 = 0 := by
      rw [← h0]
      refine Finset.sum_congr rfl fun i _ => ?_
      norm_cast
    funext i
    have := (Finset.sum_eq_zero_iff_of_nonneg (fun i _ => sq_nonneg _)).1 h1 i (Finset.mem_univ i)
    exact norm_eq_zero.1 (pow_eq_zero_iff two_ne_zero |>.1 this)
  · intro b _ hb
    refine Finset.sum_eq_zero fun i _ => ?_
    rw [Pi.single_eq_of_ne hb]
    simp
  · simp

/-- **C124** All backends return a zero array as the gradient with respect to an argument the cost
ignores. -/
theorem C124_gradient {grad : (Args ι 𝕜 → ℝ) → Args ι 𝕜 → Args ι 𝕜} (hg : ConjGradContract grad)
    {backward : (Args ι 𝕜 → ℝ) → Args ι 𝕜 → Except PyErr (Grads ι 𝕜)}
    (hb : BackwardContract backward) {grads : (Args ι 𝕜 → ℝ) → Args ι 𝕜 → Grads ι 𝕜}
    (hs : GradsContract grads) {f : Args ι 𝕜 → ℝ} {a : α} (h : Ignores f a) {x : Args ι 𝕜}
    (hf : DifferentiableAt ℝ f x) :
    autogradGradient grad f x a = 0 ∧ jaxGradient grad f x a = 0 ∧ tfGradient grads f x a = 0 ∧
      ∀ g, torchGradient backward f x = .ok g → g a = 0 :=
  ⟨(conj_isGradient hg hf).ignored h, (conj_isGradient hg hf).ignored h,
    IsGradient.ignored h ⟨hf, hs f x hf⟩,
    fun _ hh => (torchGradient_isGradient hb hf hh).ignored h⟩

/-- **C124** (partial: PyTorch needs a cost that uses all its arguments): the Hessian operators
return a zero array for an ignored argument; that of PyTorch does if it returns. -/
theorem C124_hessian_partial {grad : (Args ι 𝕜 → ℝ) → Args ι 𝕜 → Args ι 𝕜}
    (hg : ConjGradContract grad)
    {jvp : (Args ι 𝕜 → Args ι 𝕜) → Args ι 𝕜 → Args ι 𝕜 → Args ι 𝕜} (hj : JvpContract jvp)
    {backward : (Args ι 𝕜 → ℝ) → Args ι 𝕜 → Except PyErr (Grads ι 𝕜)}
    (hb : BackwardContract backward) {grads : (Args ι 𝕜 → ℝ) → Args ι 𝕜 → Grads ι 𝕜}
    (hs : GradsContract grads)
    {tjvp : (Args ι 𝕜 → Grads ι 𝕜) → Args ι 𝕜 → Args ι 𝕜 → Grads ι 𝕜} (ht : JvpGradsContract tjvp)
    {f : Args ι 𝕜 → ℝ} {a : α} (h : Ignores f a) {x : Args ι 𝕜} (hf : ContDiffAt ℝ 2 f x)
    (v : Args ι 𝕜) :
    autogradHessian grad f x v a = 0 ∧ jaxHessian grad jvp f x v a = 0 ∧
      tfHessian grads tjvp f x v a = 0 ∧
      (∀ g, torchHessian backward grads f x v = .ok g → g a = 0) ∧
      ((∀ b, grads f x b ≠ none) → ∀ r, backward (torchDotProduct grads f v) x = .ok r →
        ∃ g, torchHessian backward grads f x v = .ok g) := by
  obtain ⟨_, h1, h2, h3⟩ := C123_agree hg hg hj hb hs hs ht hf v
  have h0 : autogradHessian grad f x v a = 0 := by
    have hl := (C123_autograd hg f x v).2 hf
    have h4 := (hasDerivAt_pi.1 hl) a
    have hd : ∀ᶠ t : ℝ in 𝓝 0, DifferentiableAt ℝ f (x + t • v) := by
      have hc : Tendsto (fun t : ℝ => x + t • v) (𝓝 0) (𝓝 x) := by
        have : Continuous fun t : ℝ => x + t • v := by fun_prop
        simpa using this.tendsto 0
      refine hc.eventually ?_
      filter_upwards [hf.eventually (by norm_num)] with y hy
      exact hy.differentiableAt (by norm_num)
    have h5 : HasDerivAt (fun t : ℝ => autogradGradient grad f (x + t • v) a) 0 0 := by
      refine (hasDerivAt_const (0 : ℝ) (0 : ι a → 𝕜 a)).congr_of_eventuallyEq ?_
      filter_upwards [hd] with t ht
      exact (conj_isGradient hg ht).ignored h
    exact h4.unique h5
  refine ⟨h0, by rw [h1, h0], by rw [h2, h0], fun g hh => by rw [h3 g hh, h0], fun hn r hr => ?_⟩
  rw [torchHessian, if_neg (by push Not; exact hn), hr]
  exact ⟨_, rfl⟩

/-- **C124** As stated, the claim is false for PyTorch: when the library reports an argument as
unused (`None`, which `allow_unused=True` asks for), computing the Hessian raises
`AttributeError`. -/
theorem C124_pytorch_negation
    (backward : (Args ι 𝕜 → ℝ) → Args ι 𝕜 → Except PyErr (Grads ι 𝕜)) :
    ∃ grads : (Args ι 𝕜 → ℝ) → Args ι 𝕜 → Grads ι 𝕜, GradsContract grads ∧
      ∀ (f : Args ι 𝕜 → ℝ) (a : α), Ignores f a → ∀ x v,
        torchHessian backward grads f x v = .error .attributeError := by
  classical
  refine ⟨fun f x a => if Ignores f a then none else some (riesz (fderiv ℝ f x) a), ?_, ?_⟩
  · intro f x hf d
    rw [apply_eq_argDot]
    refine Finset.sum_congr rfl fun a _ => ?_
    by_cases h : Ignores f a
    · have : riesz (fderiv ℝ f x) a = 0 := (isGradient_riesz hf).ignored h
      simp [this, h]
    · simp [h]
  · intro f a h x v
    rw [torchHessian, if_pos ⟨a, by simp [h]⟩]

/-- A cost of two arrays that ignores the second: the squared norm of the first. -/
example : Ignores (fun x : Args (fun _ : Bool => Fin 2) (fun _ => ℂ) => ∑ i, ‖x true i‖ ^ 2) false ∧
    ∀ x, ContDiffAt ℝ 2
      (fun x : Args (fun _ : Bool => Fin 2) (fun _ => ℂ) => ∑ i, ‖x true i‖ ^ 2) x := by
  refine ⟨fun x y h => by simp [h true], fun x => ?_⟩
  refine ContDiffAt.sum fun i _ => ?_
  have : ContDiff ℝ 2 fun x : Args (fun _ : Bool => Fin 2) (fun _ => ℂ) => x true i := by fun_prop
  exact (this.norm_sq ℝ).contDiffAt

end Verif.Geo
