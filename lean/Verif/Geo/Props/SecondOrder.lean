/-
C126: along `exp` and along second-order retractions the quadratic model of trust regions is
accurate to second order.  If `G` and `H` are the Euclidean gradient and the Euclidean Hessian in
direction `v` of the cost `f` at `x`, then

  f(exp(x, t v)) = f(x) + t <grad, v> + t²/2 <Hess v, v> + o(t²)

with `grad` and `Hess v` the results of the manifold's conversions.
-/
import Verif.Geo.Lemmas.Jet
import Verif.Geo.Props.Gradient

namespace Verif.Geo
open scoped BigOperators Topology
open Matrix Filter Asymptotics

variable {κ ι m n p : Type*} {𝕜 : Type*} [RCLike 𝕜]

/-! ### Specification

`Jet2 c x v a` says `c t = x + t v + t²/2 a + o(t²)`.  `ETaylor f x G v H` says that, along every
curve with such an expansion whose velocity is `v`, the cost expands as it must for a function with
gradient `G` whose gradient changes at rate `H` in direction `v`. -/

/-- `G` is the Euclidean gradient of `f` at the array `x`, `H` its Euclidean Hessian in direction
`v`, to second order. -/
def ETaylor [Fintype ι] (f : (ι → 𝕜) → ℝ) (x G v H : ι → 𝕜) : Prop :=
  ∀ (c : ℝ → ι → 𝕜) (a : ι → 𝕜), (∀ i, Jet2 (fun t => c t i) (x i) (v i) (a i)) →
    Jet2 (fun t => f (c t)) (f x) (∑ i, RCLike.re (star (G i) * v i))
      (∑ i, RCLike.re (star (H i) * v i) + ∑ i, RCLike.re (star (G i) * a i))

/-- The same for functions of matrices. -/
def ETaylorMat [Fintype m] [Fintype n] (f : Matrix m n 𝕜 → ℝ) (X G V H : Matrix m n 𝕜) : Prop :=
  ETaylor (fun x : m × n → 𝕜 => f (of fun i j => x (i, j))) (fun x => X x.1 x.2)
    (fun x => G x.1 x.2) (fun x => V x.1 x.2) fun x => H x.1 x.2

/-- The same for functions of stacks of matrices. -/
def ETaylorStack [Fintype κ] [Fintype m] [Fintype n] (f : Stack κ m n 𝕜 → ℝ)
    (X G V H : Stack κ m n 𝕜) : Prop :=
  ETaylor (fun x : κ × m × n → 𝕜 => f fun k => of fun i j => x (k, i, j))
    (fun x => X x.1 x.2.1 x.2.2) (fun x => G x.1 x.2.1 x.2.2) (fun x => V x.1 x.2.1 x.2.2)
    fun x => H x.1 x.2.1 x.2.2

/-- Twice differentiable functions have the expansion: `g` is the gradient field around `x` and `H`
the derivative of `g` at `x` in direction `v`, which is what the autodiff backends return. -/
theorem ETaylor.of_contDiffAt [Fintype ι] {f : (ι → 𝕜) → ℝ} {x v H : ι → 𝕜} {g : (ι → 𝕜) → ι → 𝕜}
    (hf : ContDiffAt ℝ 2 f x)
    (hg : ∀ᶠ y in 𝓝 x, ∀ d, fderiv ℝ f y d = ∑ i, RCLike.re (star (g y i) * d i))
    (hH : ∀ i, HasDerivAt (fun t : ℝ => g (x + t • v) i) (H i) 0) : ETaylor f x (g x) v H := by
  intro c a hc
  have h1 : ∀ᶠ y in 𝓝 x, HasFDerivAt f (fderiv ℝ f y) y := by
    have := (hf.eventually (by simp)).mono fun y hy =>
      (hy.differentiableAt (by norm_num)).hasFDerivAt
    exact this
  have h2 : HasFDerivAt (fderiv ℝ f) (fderiv ℝ (fderiv ℝ f) x) x :=
    ((hf.fderiv_right (m := 1) (by norm_num)).differentiableAt (by norm_num)).hasFDerivAt
  have h3 := jet2_comp h1 h2 (jet2_pi.mpr hc)
  have e1 := hg.self_of_nhds
  have e2 : ∀ d, fderiv ℝ (fderiv ℝ f) x v d = ∑ i, RCLike.re (star (H i) * d i) := by
    intro d
    have hl : HasDerivAt (fun t : ℝ => x + t • v) v 0 := by
      simpa using ((hasDerivAt_id (0 : ℝ)).smul_const v).const_add x
    have k1 := hasDerivAt_fderiv_line h2 v d
    have k2 : HasDerivAt (fun t : ℝ => ∑ i, RCLike.re (star (g (x + t • v) i) * d i))
        (∑ i, RCLike.re (star (H i) * d i)) 0 :=
      HasDerivAt.fun_sum fun i _ => (RCLike.reCLM (K := 𝕜)).hasFDerivAt.comp_hasDerivAt (0 : ℝ)
        ((hH i).star.mul_const (d i))
    have ht : Tendsto (fun t : ℝ => x + t • v) (𝓝 0) (𝓝 x) := by
      simpa using hl.continuousAt.tendsto
    exact k1.unique (k2.congr_of_eventuallyEq ((ht.eventually hg).mono fun t ht => ht d))
  rw [e1, e2, e1] at h3
  exact h3

section
variable [Fintype ι]

theorem ETaylor.apply {f : (ι → 𝕜) → ℝ} {x G v H : ι → 𝕜} (h : ETaylor f x G v H) {c : ℝ → ι → 𝕜}
    {a : ι → 𝕜} (hc : ∀ i, Jet2 (fun t => c t i) (x i) (v i) (a i)) :
    Jet2 (fun t => f (c t)) (f x) (retensordot G v) (retensordot H v + retensordot G a) := by
  simpa only [retensordot, map_sum] using h c a hc

theorem ETaylor.apply_real {f : (ι → ℝ) → ℝ} {x G v H : ι → ℝ} (h : ETaylor f x G v H)
    {c : ℝ → ι → ℝ} {a : ι → ℝ} (hc : ∀ i, Jet2 (fun t => c t i) (x i) (v i) (a i)) :
    Jet2 (fun t => f (c t)) (f x) (tensordot G v) (tensordot H v + tensordot G a) := by
  simpa [tensordot] using h c a hc

theorem ETaylorMat.apply [Fintype m] [Fintype n] {f : Matrix m n 𝕜 → ℝ} {X G V H : Matrix m n 𝕜}
    (h : ETaylorMat f X G V H) {c : ℝ → Matrix m n 𝕜} {A : Matrix m n 𝕜} (hc : MatJet2 c X V A) :
    Jet2 (fun t => f (c t)) (f X) (trDot G V) (trDot H V + trDot G A) := by
  have := h (fun t x => c t x.1 x.2) (fun x => A x.1 x.2) fun x => hc x.1 x.2
  simp only [Fintype.sum_prod_type] at this
  simp only [trDot_eq_sum]
  exact this

theorem ETaylorStack.apply [Fintype κ] [Fintype m] [Fintype n] {f : Stack κ m n 𝕜 → ℝ}
    {X G V H : Stack κ m n 𝕜} (h : ETaylorStack f X G V H) {c : ℝ → Stack κ m n 𝕜}
    {A : Stack κ m n 𝕜} (hc : StackJet2 c X V A) :
    Jet2 (fun t => f (c t)) (f X) (stackDot G V) (stackDot H V + stackDot G A) := by
  have := h (fun t x => c t x.1 x.2.1 x.2.2) (fun x => A x.1 x.2.1 x.2.2)
    fun x => hc x.1 x.2.1 x.2.2
  simp only [stackDot, retensordot, map_sum]
  exact this

end

/-- The curve `c` through `x` with velocity `v` has a second order expansion, and `g1`, `g2` are the
first and second derivative along it of every function with Euclidean gradient `G` and Hessian `H`:
what a factor of a product has to satisfy.  `J` expresses expansions of arrays of this kind, `dot` is
their Euclidean inner product. -/
def SecondOrder {E : Type*} (J : (ℝ → E) → E → E → E → Prop) (dot : E → E → ℝ) (c : ℝ → E)
    (x v G H : E) (g1 g2 : ℝ) : Prop :=
  ∃ a, J c x v a ∧ g1 = dot G v ∧ g2 = dot H v + dot G a

/-- Entrywise second order expansion of a curve of arrays. -/
def ArrJet2 (c : ℝ → ι → 𝕜) (x v a : ι → 𝕜) : Prop :=
  ∀ i, Jet2 (fun t => c t i) (x i) (v i) (a i)

theorem SecondOrder.array [Fintype ι] {f : (ι → 𝕜) → ℝ} {c : ℝ → ι → 𝕜} {x v G H : ι → 𝕜}
    {g1 g2 : ℝ} (h : SecondOrder ArrJet2 retensordot c x v G H g1 g2) (hf : ETaylor f x G v H) :
    Jet2 (fun t => f (c t)) (f x) g1 g2 := by
  obtain ⟨a, hc, rfl, rfl⟩ := h
  exact hf.apply hc

theorem SecondOrder.real [Fintype ι] {f : (ι → ℝ) → ℝ} {c : ℝ → ι → ℝ} {x v G H : ι → ℝ}
    {g1 g2 : ℝ} (h : SecondOrder ArrJet2 tensordot c x v G H g1 g2) (hf : ETaylor f x G v H) :
    Jet2 (fun t => f (c t)) (f x) g1 g2 := by
  obtain ⟨a, hc, rfl, rfl⟩ := h
  exact hf.apply_real hc

theorem SecondOrder.mat [Fintype m] [Fintype n] {f : Matrix m n 𝕜 → ℝ} {c : ℝ → Matrix m n 𝕜}
    {x v G H : Matrix m n 𝕜} {g1 g2 : ℝ} (h : SecondOrder MatJet2 trDot c x v G H g1 g2)
    (hf : ETaylorMat f x G v H) : Jet2 (fun t => f (c t)) (f x) g1 g2 := by
  obtain ⟨a, hc, rfl, rfl⟩ := h
  exact hf.apply hc

theorem SecondOrder.stack [Fintype κ] [Fintype m] [Fintype n] {f : Stack κ m n 𝕜 → ℝ}
    {c : ℝ → Stack κ m n 𝕜} {x v G H : Stack κ m n 𝕜} {g1 g2 : ℝ}
    (h : SecondOrder StackJet2 stackDot c x v G H g1 g2) (hf : ETaylorStack f x G v H) :
    Jet2 (fun t => f (c t)) (f x) g1 g2 := by
  obtain ⟨a, hc, rfl, rfl⟩ := h
  exact hf.apply hc

/-! ### Scalar expansions -/

theorem jet_cos (r : ℝ) : Jet2 (fun t : ℝ => Real.cos (t * r)) 1 0 (-r ^ 2) := by
  have h : ∀ t : ℝ, HasDerivAt (fun s : ℝ => Real.cos (s * r)) (-Real.sin (t * r) * r) t := by
    intro t
    simpa using ((hasDerivAt_id t).mul_const r).cos
  have h2 : HasDerivAt (fun t : ℝ => -Real.sin (t * r) * r) (-r ^ 2) 0 := by
    have := ((hasDerivAt_id (0 : ℝ)).mul_const r).sin.neg.mul_const r
    refine this.congr_deriv ?_
    simp [sq]
  exact (Jet2.of_deriv (Eventually.of_forall h) h2).congr_jet (by simp) (by simp) rfl

theorem jet_sinc (r : ℝ) : Jet2 (fun t : ℝ => Real.sinc (t * r) * t) 0 1 0 := by
  by_cases hr : r = 0
  · subst hr
    simpa using Jet2.line (0 : ℝ) 1
  have e : (fun t : ℝ => Real.sinc (t * r) * t) = fun t => Real.sin (t * r) / r := by
    funext t
    rw [← sinc_mul_self]
    field_simp
  rw [e]
  have h : ∀ t : ℝ, HasDerivAt (fun s : ℝ => Real.sin (s * r) / r) (Real.cos (t * r)) t := by
    intro t
    refine (((hasDerivAt_id t).mul_const r).sin.div_const r).congr_deriv ?_
    simp only [id]
    field_simp
  have h2 : HasDerivAt (fun t : ℝ => Real.cos (t * r)) 0 0 := by
    simpa using ((hasDerivAt_id (0 : ℝ)).mul_const r).cos
  exact (Jet2.of_deriv (Eventually.of_forall h) h2).congr_jet (by simp) (by simp) rfl

/-- The first terms of the series of `1 / s` in `s² - 1`. -/
theorem inv_sub_bound {s : ℝ} (hs : 1 ≤ s) : |s⁻¹ - 1 + (s ^ 2 - 1) / 2| ≤ (s ^ 2 - 1) ^ 2 := by
  have e : s⁻¹ - 1 + (s ^ 2 - 1) / 2 = (s - 1) ^ 2 * ((s + 2) / (2 * s)) := by
    field_simp
    ring
  have h1 : (s + 2) / (2 * s) ≤ 2 := by
    rw [div_le_iff₀ (by linarith)]
    linarith
  have h0 : 0 ≤ (s + 2) / (2 * s) := div_nonneg (by linarith) (by linarith)
  rw [e, abs_of_nonneg (mul_nonneg (sq_nonneg _) h0)]
  calc (s - 1) ^ 2 * ((s + 2) / (2 * s)) ≤ (s - 1) ^ 2 * 2 :=
        mul_le_mul_of_nonneg_left h1 (sq_nonneg _)
    _ ≤ (s - 1) ^ 2 * (s + 1) ^ 2 := mul_le_mul_of_nonneg_left (by nlinarith) (sq_nonneg _)
    _ = _ := by ring

theorem jet_inv_sqrt {r : ℝ} (hr : 0 ≤ r) :
    Jet2 (fun t : ℝ => (Real.sqrt (1 + t ^ 2 * r))⁻¹) 1 0 (-r) := by
  refine Jet2.of_bound (C := r ^ 2) (k := 4) (by norm_num) (Eventually.of_forall fun t => ?_)
  have h0 : 0 ≤ t ^ 2 * r := mul_nonneg (sq_nonneg t) hr
  have hs : 1 ≤ Real.sqrt (1 + t ^ 2 * r) := Real.one_le_sqrt.mpr (by linarith)
  have h := inv_sub_bound hs
  rw [Real.sq_sqrt (by linarith)] at h
  have e1 : (Real.sqrt (1 + t ^ 2 * r))⁻¹ - (1 + t • (0 : ℝ) + (t ^ 2 / 2) • -r)
      = (Real.sqrt (1 + t ^ 2 * r))⁻¹ - 1 + (1 + t ^ 2 * r - 1) / 2 := by
    simp only [smul_eq_mul]
    ring
  rw [e1, Real.norm_eq_abs]
  refine h.trans (le_of_eq ?_)
  rw [show |t| ^ 4 = (|t| ^ 2) ^ 2 by ring, sq_abs]
  ring

/-! ### Euclidean spaces, symmetric and skew-symmetric matrices, `PSDFixedRank` -/

/-- **C126** (Euclidean and ComplexEuclidean, as factors of a product). -/
theorem C126_factor_euclidean [Fintype ι] (x G v H : ι → 𝕜) :
    SecondOrder ArrJet2 retensordot (fun t : ℝ => eucExp x (t • v)) x v G H
      (eucInner x (subE2rg eucProj x G) v) (eucInner x (eucE2rh x G H v) v) := by
  refine ⟨0, fun i => Jet2.line (x i) (v i), rfl, ?_⟩
  rw [retensordot_inner.zero_right, add_zero]
  rfl

/-- **C126** (Euclidean and ComplexEuclidean). -/
theorem C126_euclidean [Fintype ι] {f : (ι → 𝕜) → ℝ} {x G v H : ι → 𝕜} (hf : ETaylor f x G v H) :
    Jet2 (fun t : ℝ => f (eucExp x (t • v))) (f x) (eucInner x (subE2rg eucProj x G) v)
      (eucInner x (eucE2rh x G H v) v) :=
  (C126_factor_euclidean x G v H).array hf

theorem stackJet_line (X V : Stack κ m n 𝕜) : StackJet2 (fun t : ℝ => eucExp X (t • V)) X V 0 :=
  fun k i j => Jet2.line (X k i j) (V k i j)

/-- **C126** (Symmetric and SkewSymmetric, as factors of a product). -/
theorem C126_factor_symmetric [Fintype κ] [Fintype n] (X G V H : Stack κ n n ℝ) :
    (SymStack V → SecondOrder StackJet2 stackDot (fun t : ℝ => eucExp X (t • V)) X V G H
      (stackDot (subE2rg symProj X G) V) (stackDot (symE2rh X G H V) V)) ∧
    (SkewStack V → SecondOrder StackJet2 stackDot (fun t : ℝ => eucExp X (t • V)) X V G H
      (stackDot (subE2rg skewProj X G) V) (stackDot (skewE2rh X G H V) V)) := by
  have hz : stackDot G (0 : Stack κ n n ℝ) = 0 := stackDot_inner.zero_right G
  have hp := C54_projection X
  refine ⟨fun hV => ⟨0, stackJet_line X V, ?_, ?_⟩, fun hV => ⟨0, stackJet_line X V, ?_, ?_⟩⟩
  · exact hp.2.1.represents G hV
  · rw [hz, add_zero]; exact (hp.2.2.1 G V).represents H hV
  · exact hp.2.2.2.2.1.represents G hV
  · rw [hz, add_zero]; exact (hp.2.2.2.2.2 G V).represents H hV

/-- **C126** (Symmetric and SkewSymmetric). -/
theorem C126_symmetric [Fintype κ] [Fintype n] {f : Stack κ n n ℝ → ℝ} {X G V H : Stack κ n n ℝ}
    (hf : ETaylorStack f X G V H) :
    (SymStack V → Jet2 (fun t : ℝ => f (eucExp X (t • V))) (f X)
      (stackDot (subE2rg symProj X G) V) (stackDot (symE2rh X G H V) V)) ∧
    (SkewStack V → Jet2 (fun t : ℝ => f (eucExp X (t • V))) (f X)
      (stackDot (subE2rg skewProj X G) V) (stackDot (skewE2rh X G H V) V)) :=
  ⟨fun hV => ((C126_factor_symmetric X G V H).1 hV).stack hf,
    fun hV => ((C126_factor_symmetric X G V H).2 hV).stack hf⟩

/-- **C126** (PSDFixedRank and PSDFixedRankComplex, as factors of a product: `retraction` and `exp`
add). -/
theorem C126_factor_psd [Fintype n] {k : ℕ} {Y G V H Z : Matrix n (Fin k) 𝕜}
    (hY : FullRank Y) (hV : Horizontal Y V) (hZ : IsPsdE2rh Y G H V Z) :
    SecondOrder MatJet2 trDot (fun t : ℝ => psdExp Y (t • V)) Y V G H
      (psdInner Y (psdE2rg Y G) V) (psdInner Y Z V) := by
  obtain ⟨P, hP, hiff⟩ := C74_projection Y hY
  refine ⟨0, MatJet2.line Y V, psdInner_eq Y G V, ?_⟩
  rw [trDot_inner.zero_right, add_zero, (hiff _ _).mp hZ, hP.represents H hV, psdInner_eq]

/-- **C126** (PSDFixedRank and PSDFixedRankComplex: `retraction` and `exp` add). -/
theorem C126_psd [Fintype n] {k : ℕ} {f : Matrix n (Fin k) 𝕜 → ℝ} {Y G V H Z : Matrix n (Fin k) 𝕜}
    (hY : FullRank Y) (hf : ETaylorMat f Y G V H) (hV : Horizontal Y V) (hZ : IsPsdE2rh Y G H V Z) :
    Jet2 (fun t : ℝ => f (psdExp Y (t • V))) (f Y) (psdInner Y (psdE2rg Y G) V)
      (psdInner Y Z V) :=
  (C126_factor_psd hY hV hZ).mat hf

/-! ### Sphere and products of spheres -/

theorem sphere_exp_jet [Fintype ι] (x v : ι → ℝ) (i : ι) :
    Jet2 (fun t : ℝ => sphereExp x (t • v) i) (x i) (v i) (-(tensordot v v * x i)) := by
  have e : ∀ t : ℝ, sphereExp x (t • v) i =
      Real.cos (t * npNorm v) * x i + Real.sinc (t * npNorm v) * t * v i := by
    intro t
    rw [sphereExp_eq, npNorm_smul, smul_smul]
    rcases abs_choice t with ht | ht <;> rw [ht]
    · rfl
    · rw [neg_mul, Real.cos_neg, Real.sinc_neg]
      rfl
  have h1 := (jet_cos (npNorm v)).mul (Jet2.const (x i))
  have h2 := (jet_sinc (npNorm v)).mul (Jet2.const (v i))
  refine ((h1.add h2).congr (Eventually.of_forall e)).congr_jet (by simp) (by simp) ?_
  rw [npNorm_sq_real]
  simp

theorem sphere_retraction_jet [Fintype ι] {x v : ι → ℝ} (hx : OnSphere x) (hv : SphereTangent x v)
    (i : ι) :
    Jet2 (fun t : ℝ => sphereRetraction x (t • v) i) (x i) (v i) (-(tensordot v v * x i)) := by
  change tensordot x v = 0 at hv
  have e : ∀ t : ℝ, sphereRetraction x (t • v) i =
      (Real.sqrt (1 + t ^ 2 * tensordot v v))⁻¹ * (x i + t • v i) := by
    intro t
    rw [sphereRetraction, sphereNormalize, npNorm_eq_sqrt]
    have : tensordot (x + t • v) (x + t • v) = 1 + t ^ 2 * tensordot v v := by
      simp only [tensordot_inner.add_left, tensordot_inner.add_right, tensordot_inner.smul_left,
        tensordot_inner.smul_right, hx.dot, hv, tensordot_inner.symm v x]
      ring
    rw [this]
    rfl
  have h := (jet_inv_sqrt (tensordot_inner.nonneg v)).mul (Jet2.line (x i) (v i))
  refine (h.congr (Eventually.of_forall e)).congr_jet (by simp) (by simp) (by simp)

theorem sphere_hess_form [Fintype ι] {x v : ι → ℝ} (hx : OnSphere x) (hv : SphereTangent x v)
    (G H : ι → ℝ) : tensordot (sphereE2rh x G H v) v =
      tensordot H v + tensordot G fun i => -(tensordot v v * x i) := by
  have e : (fun i => -(tensordot v v * x i)) = -(tensordot v v) • x := by funext i; simp
  have h1 : tensordot (sphereProj x H) v = tensordot H v := (C56_projection x hx).represents H hv
  rw [sphereE2rh_eq hx, tensordot_inner.sub_left, tensordot_inner.smul_left, h1, e,
    tensordot_inner.smul_right, tensordot_inner.symm x G]
  ring

/-- **C126** (sphere, as factor of a product): for `exp` and for `retraction`. -/
theorem C126_factor_sphere [Fintype ι] {x v : ι → ℝ} (hx : OnSphere x) (hv : SphereTangent x v)
    (G H : ι → ℝ) :
    SecondOrder ArrJet2 tensordot (fun t : ℝ => sphereExp x (t • v)) x v G H
        (sphereInner x (sphereE2rg x G) v) (sphereInner x (sphereE2rh x G H v) v) ∧
      SecondOrder ArrJet2 tensordot (fun t : ℝ => sphereRetraction x (t • v)) x v G H
        (sphereInner x (sphereE2rg x G) v) (sphereInner x (sphereE2rh x G H v) v) :=
  ⟨⟨_, sphere_exp_jet x v, (C56_tangent x hx x G v).2.2.2 hv, sphere_hess_form hx hv G H⟩,
    ⟨_, sphere_retraction_jet hx hv, (C56_tangent x hx x G v).2.2.2 hv, sphere_hess_form hx hv G H⟩⟩

/-- **C126** (sphere): for `exp` and for `retraction`. -/
theorem C126_sphere [Fintype ι] {f : (ι → ℝ) → ℝ} {x G v H : ι → ℝ} (hx : OnSphere x)
    (hv : SphereTangent x v) (hf : ETaylor f x G v H) :
    Jet2 (fun t : ℝ => f (sphereExp x (t • v))) (f x) (sphereInner x (sphereE2rg x G) v)
        (sphereInner x (sphereE2rh x G H v) v) ∧
      Jet2 (fun t : ℝ => f (sphereRetraction x (t • v))) (f x) (sphereInner x (sphereE2rg x G) v)
        (sphereInner x (sphereE2rh x G H v) v) :=
  ⟨(C126_factor_sphere hx hv G H).1.real hf, (C126_factor_sphere hx hv G H).2.real hf⟩

theorem sphere_subspace_hess_form [Fintype ι] [DecidableEq ι] {S : (ι → ℝ) → Prop}
    {M : Matrix ι ι ℝ} (hS : IsSubspace S) (hM : IsOrthProj tensordot S M.mulVec) {x v : ι → ℝ}
    (hx : OnSubspaceSphere S x) (hv : SubspaceTangent S x v) (G H : ι → ℝ) :
    sphereInner x (subE2rh (subspaceProj M) sphereWeingarten x G H v) v =
      tensordot H v + tensordot G fun i => -(tensordot v v * x i) := by
  have hP := C62_projection_partial hS hM x hx
  rw [← sphere_hess_form hx.2 hv.2, sphereE2rh_eq hx.2, tensordot_inner.sub_left]
  have e : subE2rh (subspaceProj M) sphereWeingarten x G H v =
      subspaceProj M x H - tensordot x G • v := by
    have h0 : tensordot x (subspaceProj M x G) = 0 := (hP.mem G).2
    simp only [subE2rh, sphereWeingarten, sphereInner, tensordot_inner.sub_right, h0]
    module
  have e2 : tensordot (subspaceProj M x H) v = tensordot H v := hP.represents H hv
  have e3 : tensordot (sphereProj x H) v = tensordot H v :=
    (C56_projection x hx.2).represents H hv.2
  rw [e, sphereInner, tensordot_inner.sub_left, e2, e3]

/-- **C126** (intersections of the sphere with a subspace, as factors of a product). -/
theorem C126_factor_sphere_subspace [Fintype ι] [DecidableEq ι] {S : (ι → ℝ) → Prop}
    {M : Matrix ι ι ℝ} (hS : IsSubspace S) (hM : IsOrthProj tensordot S M.mulVec) {x v : ι → ℝ}
    (hx : OnSubspaceSphere S x) (hv : SubspaceTangent S x v) (G H : ι → ℝ) :
    SecondOrder ArrJet2 tensordot (fun t : ℝ => sphereExp x (t • v)) x v G H
        (sphereInner x (subE2rg (subspaceProj M) x G) v)
        (sphereInner x (subE2rh (subspaceProj M) sphereWeingarten x G H v) v) ∧
      SecondOrder ArrJet2 tensordot (fun t : ℝ => sphereRetraction x (t • v)) x v G H
        (sphereInner x (subE2rg (subspaceProj M) x G) v)
        (sphereInner x (subE2rh (subspaceProj M) sphereWeingarten x G H v) v) := by
  have h0 : sphereInner x (subE2rg (subspaceProj M) x G) v = tensordot G v :=
    (C62_projection_partial hS hM x hx).represents G hv
  have h1 := sphere_subspace_hess_form hS hM hx hv G H
  exact ⟨⟨_, sphere_exp_jet x v, h0, h1⟩, ⟨_, sphere_retraction_jet hx.2 hv.2, h0, h1⟩⟩

/-- **C126** (intersections of the sphere with a subspace). -/
theorem C126_sphere_subspace [Fintype ι] [DecidableEq ι] {S : (ι → ℝ) → Prop} {M : Matrix ι ι ℝ}
    (hS : IsSubspace S) (hM : IsOrthProj tensordot S M.mulVec) {f : (ι → ℝ) → ℝ}
    {x G v H : ι → ℝ} (hx : OnSubspaceSphere S x) (hv : SubspaceTangent S x v)
    (hf : ETaylor f x G v H) :
    Jet2 (fun t : ℝ => f (sphereExp x (t • v))) (f x)
        (sphereInner x (subE2rg (subspaceProj M) x G) v)
        (sphereInner x (subE2rh (subspaceProj M) sphereWeingarten x G H v) v) ∧
      Jet2 (fun t : ℝ => f (sphereRetraction x (t • v))) (f x)
        (sphereInner x (subE2rg (subspaceProj M) x G) v)
        (sphereInner x (subE2rh (subspaceProj M) sphereWeingarten x G H v) v) :=
  ⟨(C126_factor_sphere_subspace hS hM hx hv G H).1.real hf,
    (C126_factor_sphere_subspace hS hM hx hv G H).2.real hf⟩

theorem trDot_cols [Fintype m] [Fintype n] (A B : Matrix m n ℝ) :
    trDot A B = ∑ j, tensordot (colOf A j) (colOf B j) := by
  rw [← oblInner_eq A, trDot_eq_sum, oblInner, tensordot, Fintype.sum_prod_type]
  simp

/-- **C126** (oblique manifold, as factor of a product). -/
theorem C126_factor_oblique [Fintype m] [Fintype n] {X V : Matrix m n ℝ} (hX : OnOblique X)
    (hV : ObliqueTangent X V) (G H : Matrix m n ℝ) :
    SecondOrder MatJet2 trDot (fun t : ℝ => oblExp X (t • V)) X V G H
        (oblInner X (subE2rg oblProj X G) V) (oblInner X (oblE2rh X G H V) V) ∧
      SecondOrder MatJet2 trDot (fun t : ℝ => oblRetraction X (t • V)) X V G H
        (oblInner X (subE2rg oblProj X G) V) (oblInner X (oblE2rh X G H V) V) := by
  have hc := fun (t : ℝ) j => C63_columns X X X (t • V) 0 j
  set A : Matrix m n ℝ := of fun i j => -(tensordot (colOf V j) (colOf V j) * X i j) with hA
  have h0 : oblInner X (subE2rg oblProj X G) V = trDot G V := by
    rw [show oblInner X (subE2rg oblProj X G) V = oblInner X G V from
      (C63_projection X hX).represents G hV, oblInner_eq, trDot_cols]
  have h1 : oblInner X (oblE2rh X G H V) V = trDot H V + trDot G A := by
    rw [oblInner_eq, trDot_cols, trDot_cols, ← Finset.sum_add_distrib]
    refine Finset.sum_congr rfl fun j _ => ?_
    rw [C63_hessian_columns X G H V hX j, sphere_hess_form (hX j) (hV j)]
    rfl
  refine ⟨⟨A, fun i j => ?_, h0, h1⟩, ⟨A, fun i j => ?_, h0, h1⟩⟩
  · refine (sphere_exp_jet (colOf X j) (colOf V j) i).congr (Eventually.of_forall fun t => ?_)
    exact congrFun (hc t j).2.1 i
  · refine (sphere_retraction_jet (hX j) (hV j) i).congr (Eventually.of_forall fun t => ?_)
    exact congrFun (hc t j).2.2.1 i

/-- **C126** (oblique manifold). -/
theorem C126_oblique [Fintype m] [Fintype n] {f : Matrix m n ℝ → ℝ} {X G V H : Matrix m n ℝ}
    (hX : OnOblique X) (hV : ObliqueTangent X V) (hf : ETaylorMat f X G V H) :
    Jet2 (fun t : ℝ => f (oblExp X (t • V))) (f X) (oblInner X (subE2rg oblProj X G) V)
        (oblInner X (oblE2rh X G H V) V) ∧
      Jet2 (fun t : ℝ => f (oblRetraction X (t • V))) (f X) (oblInner X (subE2rg oblProj X G) V)
        (oblInner X (oblE2rh X G H V) V) :=
  ⟨(C126_factor_oblique hX hV G H).1.mat hf, (C126_factor_oblique hX hV G H).2.mat hf⟩

/-- **C126** (elliptope, as factor of a product; `retraction` only, `exp` is not implemented). -/
theorem C126_factor_elliptope [Fintype n] {k : ℕ} {Y G V H Z : Matrix n (Fin k) ℝ}
    (hY : UnitRows Y) (hV : EllTangent Y V) (hZ : IsEllE2rh Y G H V Z) :
    SecondOrder MatJet2 trDot (fun t : ℝ => ellRetraction Y (t • V)) Y V G H
      (ellInner Y (ellE2rg Y G) V) (ellInner Y Z V) := by
  have h2 : ∀ A W : Matrix n (Fin k) ℝ, trDot A W = ∑ i, tensordot (A i) (W i) := by
    intro A W
    rw [← ellInner_eq Y, ellInner, tensordot, Fintype.sum_prod_type]
    rfl
  set A : Matrix n (Fin k) ℝ := of fun i j => -(tensordot (V i) (V i) * Y i j) with hA
  have h0 : ellInner Y (ellE2rg Y G) V = trDot G V := (C76_tangent Y G H V Z hY hZ).2.2 V hV.1
  have h1 : ellInner Y Z V = trDot H V + trDot G A := by
    obtain ⟨K, hK, -, e⟩ := ellProj_form hZ
    have h3 : trDot (ellProjRows Y (ellRowHess Y G H V)) V = trDot (ellRowHess Y G H V) V := by
      rw [h2, h2]
      refine Finset.sum_congr rfl fun i _ => ?_
      rw [ellProjRows_row]
      exact (C56_projection _ (hY i)).represents (ellRowHess Y G H V i) (hV.1 i)
    rw [ellInner_eq, e, trDot_inner.add_left, trDot_inner.symm (Y * K), hV.2 K hK, add_zero, h3, h2,
      h2, h2, ← Finset.sum_add_distrib]
    refine Finset.sum_congr rfl fun i _ => ?_
    have h4 : tensordot (Y i) (V i) = 0 := hV.1 i
    have h5 : ellRowHess Y G H V i = H i - rowSums G Y i • V i -
        (∑ j, (V i j * G i j + Y i j * H i j)) • Y i := by
      funext j
      simp [ellRowHess, mul_comm]
    have h6 : A i = -(tensordot (V i) (V i)) • Y i := by funext j; simp [hA]
    have h7 : rowSums G Y i = tensordot (G i) (Y i) := rfl
    rw [h5, h6, tensordot_inner.sub_left, tensordot_inner.sub_left, tensordot_inner.smul_left,
      tensordot_inner.smul_left, h4, mul_zero, sub_zero, tensordot_inner.smul_right, h7]
    ring
  refine ⟨A, fun i j => ?_, h0, h1⟩
  refine (sphere_retraction_jet (hY i) (hV.1 i) j).congr (Eventually.of_forall fun t => ?_)
  change ellRetraction Y (t • V) i j = _
  rw [ellRetraction, ellNormalize_row]
  rfl

/-- **C126** (elliptope; `retraction` only, `exp` is not implemented). -/
theorem C126_elliptope [Fintype n] {k : ℕ} {f : Matrix n (Fin k) ℝ → ℝ}
    {Y G V H Z : Matrix n (Fin k) ℝ} (hY : UnitRows Y) (hV : EllTangent Y V)
    (hf : ETaylorMat f Y G V H) (hZ : IsEllE2rh Y G H V Z) :
    Jet2 (fun t : ℝ => f (ellRetraction Y (t • V))) (f Y) (ellInner Y (ellE2rg Y G) V)
      (ellInner Y Z V) :=
  (C126_factor_elliptope hY hV hZ).mat hf

theorem complex_circle_hess_form [Fintype ι] {z v : ι → ℂ} (hz : OnCircles z)
    (hv : CirclesTangent z v) (G H : ι → ℂ) : ccInner z (ccE2rh z G H v) v =
      retensordot H v + retensordot G fun i => -((‖v i‖ ^ 2 : ℝ) : ℂ) * z i := by
  rw [ccE2rh, (C64_projection z hz).represents _ hv, ← ccInner_eq z, ccInner_sum, ccInner_sum,
    ccInner_sum, ← Finset.sum_add_distrib]
  refine Finset.sum_congr rfl fun i _ => ?_
  have e : ‖v i‖ ^ 2 = (v i).re * (v i).re + (v i).im * (v i).im := by
    rw [Complex.sq_norm, Complex.normSq_apply]
  have e2 : (z i * star (G i)).re = (z i).re * (G i).re + (z i).im * (G i).im := by
    simp
  simp only [e, e2, Complex.sub_re, Complex.sub_im, Complex.re_ofReal_mul,
    Complex.im_ofReal_mul, Complex.neg_re, Complex.neg_im, neg_mul]
  ring

/-- **C126** (complex circle, as factor of a product; for the retraction, `exp` returns real arrays,
see C65). -/
theorem C126_factor_complex_circle [Fintype ι] {z v : ι → ℂ} (hz : OnCircles z)
    (hv : CirclesTangent z v) (G H : ι → ℂ) :
    SecondOrder ArrJet2 retensordot (fun t : ℝ => ccRetraction z (t • v)) z v G H
      (ccInner z (subE2rg ccProj z G) v) (ccInner z (ccE2rh z G H v) v) := by
  have h0 : ccInner z (subE2rg ccProj z G) v = retensordot G v :=
    (C64_projection z hz).represents G hv
  have h1 := complex_circle_hess_form hz hv G H
  refine ⟨_, fun i => ?_, h0, h1⟩
  have e : ∀ t : ℝ, ccRetraction z (t • v) i =
      (((Real.sqrt (1 + t ^ 2 * ‖v i‖ ^ 2))⁻¹ : ℝ) : ℂ) * (z i + t • v i) := by
    intro t
    have h1 := normSq_add_tangent hz ((circlesTangent_subspace z).smul t hv) i
    have h2 : ‖z i + (t • v) i‖ = Real.sqrt (1 + t ^ 2 * ‖v i‖ ^ 2) := by
      rw [← Real.sqrt_sq (norm_nonneg (z i + (t • v) i)), h1, Pi.smul_apply, norm_smul, mul_pow,
        Real.norm_eq_abs, sq_abs]
    simp only [ccRetraction, ccNormalize]
    rw [Pi.add_apply, h2, div_eq_inv_mul, Pi.smul_apply, ← Complex.ofReal_inv]
  have h := ((jet_inv_sqrt (sq_nonneg ‖v i‖)).ofReal (𝕜 := ℂ)).mul (Jet2.line (z i) (v i))
  refine (h.congr (Eventually.of_forall e)).congr_jet ?_ ?_ ?_ <;> simp

/-- **C126** (complex circle; for the retraction, `exp` returns real arrays, see C65). -/
theorem C126_complex_circle [Fintype ι] {f : (ι → ℂ) → ℝ} {z G v H : ι → ℂ} (hz : OnCircles z)
    (hv : CirclesTangent z v) (hf : ETaylor f z G v H) :
    Jet2 (fun t : ℝ => f (ccRetraction z (t • v))) (f z) (ccInner z (subE2rg ccProj z G) v)
      (ccInner z (ccE2rh z G H v) v) :=
  (C126_factor_complex_circle hz hv G H).array hf

/-! ### Positive arrays and the Poincaré ball -/

/-- **C126** (positive arrays, as factor of a product). -/
theorem C126_factor_positive [Fintype ι] {p : ι → ℝ} (hp : PosPoint p) (v G H : ι → ℝ) :
    SecondOrder ArrJet2 tensordot (fun t : ℝ => posExp p (t • v)) p v G H
        (posInner p (posE2rg p G) v) (posInner p (posE2rh p G H v) v) ∧
      SecondOrder ArrJet2 tensordot (fun t : ℝ => posRetract p (t • v)) p v G H
        (posInner p (posE2rg p G) v) (posInner p (posE2rh p G H v) v) := by
  set a : ι → ℝ := fun i => v i ^ 2 / p i with ha
  have h1 : posInner p (posE2rh p G H v) v = tensordot H v + tensordot G a := by
    rw [posInner_eq, tensordot, tensordot, ← Finset.sum_add_distrib]
    refine Finset.sum_congr rfl fun i _ => ?_
    have := (hp i).ne'
    simp only [posE2rh, Pi.add_apply, Pi.mul_apply, Pi.pow_apply, ha]
    field_simp
  refine ⟨⟨a, fun i => ?_, C80_gradient p G v hp, h1⟩, ⟨a, fun i => ?_, C80_gradient p G v hp, h1⟩⟩
  · have hpi := (hp i).ne'
    have d1 : ∀ t : ℝ, HasDerivAt (fun s : ℝ => posExp p (s • v) i)
        (v i * Real.exp (t * v i / p i)) t := by
      intro t
      have h := ((hasDerivAt_id t).mul_const (v i)).div_const (p i)
      refine (h.exp.const_mul (p i)).congr_deriv ?_
      simp only [id]
      field_simp
    have d2 : HasDerivAt (fun t : ℝ => v i * Real.exp (t * v i / p i)) (a i) 0 := by
      have h := ((hasDerivAt_id (0 : ℝ)).mul_const (v i)).div_const (p i)
      refine (h.exp.const_mul (v i)).congr_deriv ?_
      simp [ha]
      field_simp
    exact (Jet2.of_deriv (Eventually.of_forall d1) d2).congr_jet (by simp [posExp]) (by simp) rfl
  · refine (Jet2.quadratic (p i) (v i) (a i)).congr (Eventually.of_forall fun t => ?_)
    simp only [posRetract, ha, Pi.smul_apply, smul_eq_mul]
    ring

/-- **C126** (positive arrays). -/
theorem C126_positive [Fintype ι] {f : (ι → ℝ) → ℝ} {p G v H : ι → ℝ} (hp : PosPoint p)
    (hf : ETaylor f p G v H) :
    Jet2 (fun t : ℝ => f (posExp p (t • v))) (f p) (posInner p (posE2rg p G) v)
        (posInner p (posE2rh p G H v) v) ∧
      Jet2 (fun t : ℝ => f (posRetract p (t • v))) (f p) (posInner p (posE2rg p G) v)
        (posInner p (posE2rh p G H v) v) :=
  ⟨(C126_factor_positive hp v G H).1.real hf, (C126_factor_positive hp v G H).2.real hf⟩

/-- Second order expansion and inner product of arrays with a further index. -/
def BallJet2 (c : ℝ → κ → ι → ℝ) (x v a : κ → ι → ℝ) : Prop :=
  ∀ k, ArrJet2 (fun t => c t k) (x k) (v k) (a k)

def ballDot [Fintype κ] [Fintype ι] (u v : κ → ι → ℝ) : ℝ := ∑ k, tensordot (u k) (v k)

/-- **C126** (Poincaré ball, as factor of a product; the retraction is the exponential). -/
theorem C126_factor_poincare [Fintype κ] [Fintype ι] {X : κ → ι → ℝ} (hX : InBalls X)
    (V G H : κ → ι → ℝ) :
    SecondOrder BallJet2 ballDot (fun t : ℝ => pbExp X (t • V)) X V G H
      (pbInner X (pbE2rg X G) V) (pbInner X (pbE2rh X G H V) V) := by
  set a : κ → ι → ℝ := fun k => -(pbFactor (X k) • (tensordot (X k) (V k) • V k +
    tensordot (X k) (V k) • V k - tensordot (V k) (V k) • X k)) with ha
  have hj : ∀ k i, Jet2 (fun t : ℝ => pbExp X (t • V) k i) (X k i) (V k i) (a k i) := by
    intro k i
    obtain ⟨w, hw, hw0, hg⟩ := C90_geodesic (V k) (hX k)
    obtain ⟨w', hw', hcov⟩ := hg 0
    have h00 : pbExp1 (X k) ((0 : ℝ) • V k) = X k := by
      have h2 : (0 : ℝ) • V = pbZero X := by rw [zero_smul]; rfl
      have := congrFun (C87_stays X V hX).2.1 k
      rw [← h2] at this
      exact this
    have ew : w' = a k := by
      rw [h00, hw0, ballCov] at hcov
      exact eq_neg_of_add_eq_zero_left hcov
    have := Jet2.of_deriv (Eventually.of_forall fun t => hasDerivAt_pi.mp (hw t) i)
      (hasDerivAt_pi.mp hw' i)
    refine this.congr_jet (congrFun h00 i) (congrFun hw0 i) (congrFun ew i)
  refine ⟨a, hj, C90_gradient X G V hX, ?_⟩
  · rw [pbInner_eq, ballDot, ballDot, ← Finset.sum_add_distrib]
    refine Finset.sum_congr rfl fun k _ => ?_
    have hfk := (factor_pos (hX k)).ne'
    have e1 : pbE2rh X G H V k = (1 / pbFactor (X k)) • (tensordot (G k) (X k) • V k -
        tensordot (X k) (V k) • G k - tensordot (G k) (V k) • X k +
        (1 / pbFactor (X k)) • H k) := by
      funext i
      simp [pbE2rh, pbE2rh1]
      ring
    rw [e1, ha]
    simp only [tensordot_inner.neg_right, tensordot_inner.smul_right, tensordot_inner.sub_right,
      tensordot_inner.add_right, tensordot_inner.smul_left, tensordot_inner.sub_left,
      tensordot_inner.add_left]
    field_simp
    ring

/-- **C126** (Poincaré ball; the retraction is the exponential). -/
theorem C126_poincare [Fintype κ] [Fintype ι] {f : (κ × ι → ℝ) → ℝ} {X G V H : κ → ι → ℝ}
    (hX : InBalls X) (hf : ETaylor f (fun x => X x.1 x.2) (fun x => G x.1 x.2)
      (fun x => V x.1 x.2) fun x => H x.1 x.2) :
    Jet2 (fun t : ℝ => f fun x => pbExp X (t • V) x.1 x.2) (f fun x => X x.1 x.2)
      (pbInner X (pbE2rg X G) V) (pbInner X (pbE2rh X G H V) V) := by
  obtain ⟨a, hj, h1, h2⟩ := C126_factor_poincare hX V G H
  refine (hf.apply_real (a := fun x => a x.1 x.2) fun x => hj x.1 x.2).congr_jet rfl ?_ ?_
  · rw [h1, ballDot, tensordot, Fintype.sum_prod_type]; rfl
  · rw [h2, ballDot, ballDot, tensordot, tensordot, Fintype.sum_prod_type, Fintype.sum_prod_type]; rfl

/-! ### Concrete cases -/

/-- The product of two coordinates, with its gradient and Hessian. -/
theorem ETaylor.prod (x v : Fin 2 → ℝ) :
    ETaylor (fun y : Fin 2 → ℝ => y 0 * y 1) x ![x 1, x 0] v ![v 1, v 0] := by
  intro c a hc
  refine ((hc 0).mul (hc 1)).congr_jet rfl ?_ ?_
  · simp [Fin.sum_univ_succ]; ring
  · simp [Fin.sum_univ_succ]; ring

/-- On the circle, the product of the coordinates at `(1, 0)`: its derivative in direction `(0, 1)`
is one and its second derivative zero. -/
example : Jet2 (fun t : ℝ => sphereExp ![1, 0] (t • (![0, 1] : Fin 2 → ℝ)) 0 *
    sphereExp ![1, 0] (t • (![0, 1] : Fin 2 → ℝ)) 1) 0 1 0 := by
  have hx : OnSphere (![1, 0] : Fin 2 → ℝ) := by
    simp [OnSphere, Fin.sum_univ_succ]
  have hv : SphereTangent (![1, 0] : Fin 2 → ℝ) ![0, 1] := by
    simp [SphereTangent, Fin.sum_univ_succ]
  refine (C126_sphere hx hv (ETaylor.prod _ _)).1.congr_jet ?_ ?_ ?_
  · simp
  · rw [show sphereInner (![1, 0] : Fin 2 → ℝ) _ _ = _ from (C56_tangent _ hx ![1, 0] _ _).2.2.2 hv]
    simp [Fin.sum_univ_succ]
  · rw [show sphereInner (![1, 0] : Fin 2 → ℝ) _ _ = _ from sphere_hess_form hx hv _ _]
    simp [tensordot, Fin.sum_univ_succ]

/-- On the positive numbers. -/
example : ∃ a, Jet2 (fun t : ℝ => posExp ![1, 2] (t • (![1, 1] : Fin 2 → ℝ)) 0 *
    posExp ![1, 2] (t • (![1, 1] : Fin 2 → ℝ)) 1) 2 3 a := by
  have hp : PosPoint (![1, 2] : Fin 2 → ℝ) := by
    intro i; fin_cases i <;> simp
  refine ⟨_, (C126_positive hp (ETaylor.prod _ _)).1.congr_jet ?_ ?_ rfl⟩
  · simp
  · simp [posInner, posE2rg, tensordot, Fin.sum_univ_succ]
    norm_num

end Verif.Geo
