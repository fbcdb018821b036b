/-
C64, C65, C107: the complex circle.
-/
import Verif.Geo.Model.ComplexCircle
import Verif.Geo.Lemmas.Dot
import Mathlib.Analysis.Calculus.Deriv.Prod
import Mathlib.Analysis.Calculus.Deriv.Mul
import Mathlib.Analysis.Calculus.Deriv.Inv
import Mathlib.Analysis.SpecialFunctions.Trigonometric.Deriv
import Mathlib.Analysis.SpecialFunctions.Sqrt
import Mathlib.Analysis.Calculus.Deriv.Star
import Mathlib.Analysis.Complex.RealDeriv
import Mathlib.Geometry.Euclidean.Angle.Unoriented.TriangleInequality
import Verif.Geo.Props.Euclidean

namespace Verif.Geo
open scoped BigOperators

variable {ι : Type*} [Fintype ι]

/-- Points: unit-modulus entries. -/
def OnCircles (z : ι → ℂ) : Prop := ∀ i, ‖z i‖ = 1

/-- Tangent vectors: every entry is orthogonal (in the plane) to the point's entry. -/
def CirclesTangent (z v : ι → ℂ) : Prop := ∀ i, (z i).re * (v i).re + (z i).im * (v i).im = 0

theorem norm_one_iff (z : ℂ) : ‖z‖ = 1 ↔ z.re ^ 2 + z.im ^ 2 = 1 := by
  have h : ‖z‖ ^ 2 = z.re ^ 2 + z.im ^ 2 := by
    rw [Complex.sq_norm, Complex.normSq_apply]; ring
  rw [← h, pow_eq_one_iff_of_nonneg (norm_nonneg z) two_ne_zero]

theorem ccInner_eq (z : ι → ℂ) : ccInner z = retensordot := rfl

theorem ccInner_inner (z : ι → ℂ) : IsInner (ccInner z) := retensordot_inner

theorem ccInner_sum (z a b : ι → ℂ) :
    ccInner z a b = ∑ i, ((a i).re * (b i).re + (a i).im * (b i).im) := by
  rw [ccInner, Complex.re_sum]
  refine Finset.sum_congr rfl fun i _ => ?_
  simp

omit [Fintype ι] in
theorem ccProj_re_im (z v : ι → ℂ) (i : ι) :
    (ccProj z v i).re = (v i).re - ((z i).re * (v i).re + (z i).im * (v i).im) * (z i).re ∧
    (ccProj z v i).im = (v i).im - ((z i).re * (v i).re + (z i).im * (v i).im) * (z i).im := by
  have h : (star (v i) * z i).re = (z i).re * (v i).re + (z i).im * (v i).im := by
    simp; ring
  simp only [ccProj, h]
  constructor
  · simp
  · simp

omit [Fintype ι] in
theorem circlesTangent_subspace (z : ι → ℂ) : IsSubspace (CirclesTangent z) where
  zero i := by simp
  add {u v} hu hv i := by
    have h1 := hu i; have h2 := hv i
    simp only [Pi.add_apply, Complex.add_re, Complex.add_im]
    linarith
  smul c u hu i := by
    have h1 := hu i
    simp only [Pi.smul_apply, Complex.smul_re, Complex.smul_im, smul_eq_mul]
    linear_combination c * h1

/-- C64: `projection` is the orthogonal projection onto the tangent space for the real inner
product. -/
theorem C64_projection (z : ι → ℂ) (hz : OnCircles z) :
    IsOrthProj (ccInner z) (CirclesTangent z) (ccProj z) := by
  refine (ccInner_inner z).orthProj (circlesTangent_subspace z) ?_ ?_
  · intro v i
    obtain ⟨h1, h2⟩ := ccProj_re_im z v i
    have h3 := (norm_one_iff _).mp (hz i)
    rw [h1, h2]
    linear_combination -((z i).re * (v i).re + (z i).im * (v i).im) * h3
  · intro v w hw
    rw [ccInner_sum]
    refine Finset.sum_eq_zero fun i _ => ?_
    obtain ⟨h1, h2⟩ := ccProj_re_im z v i
    have h3 := hw i
    simp only [Pi.sub_apply, Complex.sub_re, Complex.sub_im, h1, h2]
    linear_combination ((z i).re * (v i).re + (z i).im * (v i).im) * h3

omit [Fintype ι] in
theorem normSq_add_tangent {z v : ι → ℂ} (hz : OnCircles z) (hv : CirclesTangent z v) (i : ι) :
    ‖z i + v i‖ ^ 2 = 1 + ‖v i‖ ^ 2 := by
  have h3 := (norm_one_iff _).mp (hz i)
  have h4 := hv i
  rw [Complex.sq_norm, Complex.sq_norm, Complex.normSq_apply, Complex.normSq_apply, Complex.add_re,
    Complex.add_im]
  linear_combination h3 + 2 * h4

omit [Fintype ι] in
theorem ccNormalize_norm {a : ι → ℂ} {i : ι} (h : a i ≠ 0) : ‖ccNormalize a i‖ = 1 := by
  simp [ccNormalize, h]

omit [Fintype ι] in
/-- C64: the retraction returns unit-modulus entries, never divides by zero, and returns the point
for the zero vector. -/
theorem C64_retraction (z v : ι → ℂ) (hz : OnCircles z) (hv : CirclesTangent z v) :
    (∀ i, 1 ≤ ‖z i + v i‖) ∧ OnCircles (ccRetraction z v) ∧ ccRetraction z 0 = z := by
  have hge : ∀ i, 1 ≤ ‖z i + v i‖ := by
    intro i
    have := normSq_add_tangent hz hv i
    nlinarith [norm_nonneg (z i + v i), sq_nonneg ‖v i‖]
  refine ⟨hge, fun i => ccNormalize_norm fun h => ?_, ?_⟩
  · have := hge i
    rw [Pi.add_apply] at h
    rw [h, norm_zero] at this
    linarith
  · funext i
    simp [ccRetraction, ccNormalize, hz i]

omit [Fintype ι] in
/-- C64: the retraction has the tangent vector as initial velocity. -/
theorem C64_velocity (z v : ι → ℂ) (hz : OnCircles z) (hv : CirclesTangent z v) :
    HasDerivAt (fun t : ℝ => ccRetraction z (t • v)) v 0 := by
  rw [hasDerivAt_pi]
  intro i
  have h : (fun t : ℝ => ccRetraction z (t • v) i) =
      fun t : ℝ => (Real.sqrt (1 + t ^ 2 * ‖v i‖ ^ 2))⁻¹ • (z i + t • v i) := by
    funext t
    have h1 := normSq_add_tangent hz ((circlesTangent_subspace z).smul t hv) i
    have h2 : ‖z i + (t • v) i‖ = Real.sqrt (1 + t ^ 2 * ‖v i‖ ^ 2) := by
      rw [← Real.sqrt_sq (norm_nonneg (z i + (t • v) i)), h1, Pi.smul_apply, norm_smul, mul_pow,
        Real.norm_eq_abs, sq_abs]
    simp only [ccRetraction, ccNormalize]
    rw [Pi.add_apply, h2, div_eq_inv_mul, Pi.smul_apply, ← Complex.ofReal_inv, ← Complex.real_smul]
  rw [h]
  have h1 : HasDerivAt (fun t : ℝ => 1 + t ^ 2 * ‖v i‖ ^ 2) 0 0 := by
    have := (((hasDerivAt_id (0 : ℝ)).pow 2).mul_const (‖v i‖ ^ 2)).const_add 1
    simpa using this
  have h2 : HasDerivAt (fun t : ℝ => (Real.sqrt (1 + t ^ 2 * ‖v i‖ ^ 2))⁻¹) 0 0 := by
    have := (h1.sqrt (by simp)).fun_inv (by simp)
    simpa using this
  have h3 : HasDerivAt (fun t : ℝ => z i + t • v i) (v i) 0 := by
    simpa using ((hasDerivAt_id (0 : ℝ)).smul_const (v i)).const_add (z i)
  have := h2.fun_smul h3
  simpa using this

/-- C64: the converted Hessian is tangent and symmetric when the Euclidean Hessian is. -/
theorem C64_hessian (z g : ι → ℂ) (hz : OnCircles z) (H : (ι → ℂ) → ι → ℂ)
    (hH : ∀ u v, ccInner z u (H v) = ccInner z (H u) v) :
    IsSymmOn (ccInner z) (CirclesTangent z) fun v => ccE2rh z g (H v) v := by
  have hP := C64_projection z hz
  refine ⟨fun _ => hP.mem _, fun {u v} hu hv => ?_⟩
  have key : ∀ u w : ι → ℂ, CirclesTangent z u → ccInner z u (ccE2rh z g (H w) w) =
      ccInner z u (H w) - ∑ i, (z i * star (g i)).re * ((u i).re * (w i).re + (u i).im * (w i).im) := by
    intro u w hu
    rw [ccE2rh, (ccInner_inner z).symm, hP.represents _ hu, (ccInner_inner z).symm, ccInner_sum,
      ccInner_sum, ← Finset.sum_sub_distrib]
    refine Finset.sum_congr rfl fun i _ => ?_
    simp only [Complex.sub_re, Complex.sub_im, Complex.re_ofReal_mul, Complex.im_ofReal_mul]
    ring
  rw [key u v hu, (ccInner_inner z).symm (ccE2rh z g (H u) u), key v u hv, hH u v,
    (ccInner_inner z).symm (H u)]
  congr 1
  refine Finset.sum_congr rfl fun i _ => ?_
  ring

omit [Fintype ι] in
/-- C64: the converted Hessian is the projected derivative of the gradient field along every
differentiable curve on the manifold. -/
theorem C64_derivative (c : ℝ → ι → ℂ) (v : ι → ℂ) (hon : ∀ t, OnCircles (c t))
    (hc : HasDerivAt c v 0) (g : (ι → ℂ) → ι → ℂ) (H : ι → ℂ)
    (hg : HasDerivAt (fun t => g (c t)) H 0) :
    ∃ d, HasDerivAt (fun t => ccProj (c t) (g (c t))) d 0 ∧
      ccProj (c 0) d = ccE2rh (c 0) (g (c 0)) H v := by
  have hre : ∀ {f : ℝ → ℂ} {f' : ℂ}, HasDerivAt f f' 0 → HasDerivAt (fun t => (f t).re) f'.re 0 :=
    fun h => (Complex.reCLM.hasFDerivAt.comp_hasDerivAt (0 : ℝ) h)
  have him : ∀ {f : ℝ → ℂ} {f' : ℂ}, HasDerivAt f f' 0 → HasDerivAt (fun t => (f t).im) f'.im 0 :=
    fun h => (Complex.imCLM.hasFDerivAt.comp_hasDerivAt (0 : ℝ) h)
  have hco : ∀ {f : ℝ → ℝ} {f' : ℝ}, HasDerivAt f f' 0 →
      HasDerivAt (fun t => (f t : ℂ)) (f' : ℂ) 0 := fun h => h.ofReal_comp
  -- velocity is tangent
  have hv : CirclesTangent (c 0) v := by
    intro i
    have hci := (hasDerivAt_pi.mp hc) i
    have h1 := ((hre hci).fun_mul (hre hci)).fun_add ((him hci).fun_mul (him hci))
    have h2 : HasDerivAt (fun t => (c t i).re * (c t i).re + (c t i).im * (c t i).im) 0 0 := by
      have : (fun t => (c t i).re * (c t i).re + (c t i).im * (c t i).im) = fun _ => (1 : ℝ) := by
        funext t
        have := (norm_one_iff _).mp (hon t i)
        linarith
      rw [this]
      exact hasDerivAt_const _ _
    have := h1.unique h2
    linarith
  let e : ι → ℝ := fun i => (star (g (c 0) i) * c 0 i).re
  let e' : ι → ℝ := fun i => (star (H i) * c 0 i + star (g (c 0) i) * v i).re
  refine ⟨fun i => H i - ((e' i : ℂ) * c 0 i + (e i : ℂ) * v i), ?_, ?_⟩
  · rw [hasDerivAt_pi]
    intro i
    have hci := (hasDerivAt_pi.mp hc) i
    have hgi := (hasDerivAt_pi.mp hg) i
    have hstar : HasDerivAt (fun t => star (g (c t) i)) (star (H i)) 0 :=
      HasDerivAt.star hgi
    have h1 := hco (hre (hstar.fun_mul hci))
    exact hgi.fun_sub (h1.fun_mul hci)
  · funext i
    have h3 := (norm_one_iff _).mp (hon 0 i)
    have he : (c 0 i * star (g (c 0) i)).re = e i := by rw [mul_comm]
    apply Complex.ext
    · rw [(ccProj_re_im _ _ i).1, ccE2rh, (ccProj_re_im _ _ i).1]
      simp only [he, Complex.sub_re, Complex.add_re, Complex.re_ofReal_mul, Complex.sub_im,
        Complex.add_im, Complex.im_ofReal_mul]
      linear_combination e' i * (c 0 i).re * h3
    · rw [(ccProj_re_im _ _ i).2, ccE2rh, (ccProj_re_im _ _ i).2]
      simp only [he, Complex.sub_re, Complex.add_re, Complex.re_ofReal_mul, Complex.sub_im,
        Complex.add_im, Complex.im_ofReal_mul]
      linear_combination e' i * (c 0 i).im * h3

/-! ### C65 -/

/-- The exponential map of the circle: the point that `exp` is documented to return. -/
noncomputable def circleGeodesic (z v : ℂ) : ℂ :=
  z * (Real.cos ‖v‖ : ℝ) + v * (Real.sinc ‖v‖ : ℝ)

omit [Fintype ι] in
theorem circleGeodesic_norm {z v : ℂ} (hz : ‖z‖ = 1) (hv : z.re * v.re + z.im * v.im = 0) :
    ‖circleGeodesic z v‖ = 1 := by
  rw [norm_one_iff] at *
  have hn : v.re ^ 2 + v.im ^ 2 = ‖v‖ ^ 2 := by
    rw [Complex.sq_norm, Complex.normSq_apply]; ring
  have hs : Real.sinc ‖v‖ * ‖v‖ = Real.sin ‖v‖ := by
    by_cases h : ‖v‖ = 0
    · simp [h]
    · rw [Real.sinc_of_ne_zero h, div_mul_cancel₀ _ h]
  have h4 := Real.cos_sq_add_sin_sq ‖v‖
  rw [← hs] at h4
  simp only [circleGeodesic, Complex.add_re, Complex.add_im, Complex.re_mul_ofReal,
    Complex.im_mul_ofReal]
  linear_combination Real.cos ‖v‖ ^ 2 * hz + Real.sinc ‖v‖ ^ 2 * hn + h4 +
    2 * Real.cos ‖v‖ * Real.sinc ‖v‖ * hv

omit [Fintype ι] in
/-- `exp` returns the real part of the geodesic. -/
theorem ccExp_eq (z v : ι → ℂ) (i : ι) : ccExp z v i = (circleGeodesic (z i) (v i)).re := by
  rw [ccExp, circleGeodesic]
  split_ifs with h
  · rw [Real.sinc_of_ne_zero h.ne']
  · have : ‖v i‖ = 0 := le_antisymm (not_lt.mp h) (norm_nonneg _)
    simp [norm_eq_zero.mp this]

omit [Fintype ι] in
/-- C65 fails: an entry of `exp(point, v)` has modulus one only if the point reached is real, and
`exp(point, 0)` is `point` only if the point is real. -/
theorem C65_exp_unit_iff (z v : ι → ℂ) (hz : OnCircles z) (hv : CirclesTangent z v) (i : ι) :
    (|ccExp z v i| = 1 ↔ (circleGeodesic (z i) (v i)).im = 0) ∧
      (((ccExp z 0 i : ℝ) : ℂ) = z i ↔ (z i).im = 0) := by
  constructor
  · have h := (norm_one_iff _).mp (circleGeodesic_norm (hz i) (hv i))
    rw [ccExp_eq, ← pow_eq_one_iff_of_nonneg (abs_nonneg _) two_ne_zero, sq_abs]
    constructor
    · intro h'
      have : (circleGeodesic (z i) (v i)).im ^ 2 = 0 := by linarith
      exact pow_eq_zero_iff two_ne_zero |>.mp this
    · intro h'
      rw [h'] at h
      linarith
  · have : ccExp z 0 i = (z i).re := by simp [ccExp]
    rw [this]
    constructor
    · intro h
      rw [← h]; simp
    · intro h
      apply Complex.ext <;> simp [h]

/-- C65 fails at the point `i` of the circle: `exp(i, 0)` is `0`, which is not on the manifold. -/
theorem C65_witness : OnCircles (fun _ : Unit => Complex.I) ∧
    ccExp (fun _ : Unit => Complex.I) 0 () = 0 := by
  constructor
  · intro i; simp
  · simp [ccExp]

omit [Fintype ι] in
/-- C65, what holds: `exp` returns the real part of a geodesic which stays on the manifold. -/
theorem C65_partial (z v : ι → ℂ) (hz : OnCircles z) (hv : CirclesTangent z v) :
    ∃ w : ι → ℂ, OnCircles w ∧ (∀ i, ccExp z v i = (w i).re) ∧
      ∀ i, w i = circleGeodesic (z i) (v i) :=
  ⟨fun i => circleGeodesic (z i) (v i), fun i => circleGeodesic_norm (hz i) (hv i),
    fun i => ccExp_eq z v i, fun _ => rfl⟩

/-! ### C101 and C55 -/

omit [Fintype ι] in
/-- C55 holds on the complex circle. -/
theorem C55_complex_circle_partial (z v : ι → ℂ) (hz : OnCircles z) :
    CirclesTangent z (ccProj z v) := by
  intro i
  obtain ⟨h1, h2⟩ := ccProj_re_im z v i
  have h3 := (norm_one_iff _).mp (hz i)
  rw [h1, h2]
  linear_combination -((z i).re * (v i).re + (z i).im * (v i).im) * h3

/-- C101 on the complex circle. -/
theorem C101_complex_circle (z : ι → ℂ) (draw : ι → ℝ) (hz : OnCircles z) (hd : draw ≠ 0) :
    CirclesTangent z (ccRandomTangent z draw) ∧ ccNorm z (ccRandomTangent z draw) = 1 := by
  have ht : CirclesTangent z (fun i => (draw i : ℂ) * Complex.I * z i) := by
    intro i
    simp
    ring
  refine ⟨(circlesTangent_subspace z).smul _ ht, ?_⟩
  have hne : (fun i => (draw i : ℂ) * Complex.I * z i) ≠ 0 := by
    intro h
    apply hd
    funext i
    have := congrFun h i
    have hzi : z i ≠ 0 := fun h0 => by have := hz i; rw [h0, norm_zero] at this; linarith
    simpa [hzi] using this
  have hn : npNorm (fun i => (draw i : ℂ) * Complex.I * z i) ≠ 0 :=
    fun h => hne ((npNorm_eq_zero _).mp h)
  simp only [ccNorm, ccRandomTangent]
  rw [npNorm_smul, abs_of_nonneg (inv_nonneg.mpr (npNorm_nonneg _)), inv_mul_cancel₀ hn]

omit [Fintype ι] in
/-- Random points have unit modulus for every draw without zero entries. -/
theorem C101_complex_circle_point (x y : ι → ℝ) (h : ∀ i, x i ≠ 0 ∨ y i ≠ 0) :
    OnCircles (ccRandomPoint x y) := by
  intro i
  apply ccNormalize_norm
  intro h0
  have h1 := congrArg Complex.re h0
  have h2 := congrArg Complex.im h0
  simp at h1 h2
  rcases h i with h | h
  · exact h h1
  · exact h h2

/-! ### C107 -/

/-- Cosine of the angle between two unit-modulus numbers. -/
theorem circle_dot {a b : ℂ} (ha : ‖a‖ = 1) (hb : ‖b‖ = 1) :
    (star a * b).re = a.re * b.re + a.im * b.im ∧ -1 ≤ (star a * b).re ∧ (star a * b).re ≤ 1 := by
  rw [norm_one_iff] at ha hb
  have h : (star a * b).re = a.re * b.re + a.im * b.im := by simp
  refine ⟨h, ?_, ?_⟩ <;> rw [h] <;>
    nlinarith [sq_nonneg (a.re - b.re), sq_nonneg (a.im - b.im), sq_nonneg (a.re + b.re),
      sq_nonneg (a.im + b.im)]

omit [Fintype ι] in
theorem ccLog_vector {a b : ι → ℂ} (ha : OnCircles a) (i : ι) :
    ccProj a (b - a) i = b i - ((star (a i) * b i).re : ℂ) * a i := by
  have h := (norm_one_iff _).mp (ha i)
  have hd : (star (a i) * b i).re = (a i).re * (b i).re + (a i).im * (b i).im := by simp
  apply Complex.ext
  · rw [(ccProj_re_im _ _ i).1, hd]
    simp only [Pi.sub_apply, Complex.sub_re, Complex.sub_im, Complex.re_ofReal_mul]
    linear_combination (a i).re * h
  · rw [(ccProj_re_im _ _ i).2, hd]
    simp only [Pi.sub_apply, Complex.sub_re, Complex.sub_im, Complex.im_ofReal_mul]
    linear_combination (a i).im * h

omit [Fintype ι] in
theorem ccLog_vector_norm {a b : ι → ℂ} (ha : OnCircles a) (hb : OnCircles b) (i : ι) :
    ‖ccProj a (b - a) i‖ = Real.sin (Real.arccos (star (a i) * b i).re) := by
  rw [Real.sin_arccos, ← Real.sqrt_sq (norm_nonneg (ccProj a (b - a) i)), ccLog_vector ha]
  congr 1
  have h1 := (norm_one_iff _).mp (ha i)
  have h2 := (norm_one_iff _).mp (hb i)
  have hd : (star (a i) * b i).re = (a i).re * (b i).re + (a i).im * (b i).im := by simp
  rw [Complex.sq_norm, Complex.normSq_apply, hd]
  simp only [Complex.sub_re, Complex.sub_im, Complex.re_ofReal_mul, Complex.im_ofReal_mul]
  linear_combination h2 + ((a i).re * (b i).re + (a i).im * (b i).im) ^ 2 * h1

omit [Fintype ι] in
theorem circle_eq_of_dot {a b : ℂ} (ha : ‖a‖ = 1) (hb : ‖b‖ = 1) :
    (Real.arccos (star a * b).re = 0 ↔ a = b) ∧ (Real.arccos (star a * b).re = Real.pi ↔ b = -a) := by
  obtain ⟨hd, h1, h2⟩ := circle_dot ha hb
  rw [norm_one_iff] at ha hb
  constructor
  · rw [Real.arccos_eq_zero]
    constructor
    · intro h
      have h3 : (a.re - b.re) ^ 2 + (a.im - b.im) ^ 2 ≤ 0 := by rw [hd] at h; nlinarith
      have h4 : a.re - b.re = 0 := by nlinarith [sq_nonneg (a.re - b.re), sq_nonneg (a.im - b.im)]
      have h5 : a.im - b.im = 0 := by nlinarith [sq_nonneg (a.re - b.re), sq_nonneg (a.im - b.im)]
      exact Complex.ext (by linarith) (by linarith)
    · rintro rfl
      rw [hd]; nlinarith
  · rw [Real.arccos_eq_pi]
    constructor
    · intro h
      have h3 : (a.re + b.re) ^ 2 + (a.im + b.im) ^ 2 ≤ 0 := by rw [hd] at h; nlinarith
      have h4 : a.re + b.re = 0 := by nlinarith [sq_nonneg (a.re + b.re), sq_nonneg (a.im + b.im)]
      have h5 : a.im + b.im = 0 := by nlinarith [sq_nonneg (a.re + b.re), sq_nonneg (a.im + b.im)]
      exact Complex.ext (by simp; linarith) (by simp; linarith)
    · rintro rfl
      rw [hd]; simp; nlinarith

theorem npNorm_mono {u v : ι → ℝ} (h0 : ∀ i, 0 ≤ u i) (h : ∀ i, u i ≤ v i) : npNorm u ≤ npNorm v := by
  apply Real.sqrt_le_sqrt
  refine Finset.sum_le_sum fun i _ => ?_
  rw [Real.norm_of_nonneg (h0 i), Real.norm_of_nonneg ((h0 i).trans (h i))]
  exact pow_le_pow_left₀ (h0 i) (h i) 2

/-- C107: `dist` is a metric on the manifold. -/
theorem C107_dist (a b c : ι → ℂ) (ha : OnCircles a) (hb : OnCircles b) (hc : OnCircles c) :
    ccDist a b = ccDist b a ∧ 0 ≤ ccDist a b ∧ (ccDist a b = 0 ↔ a = b) ∧
      ccDist a c ≤ ccDist a b + ccDist b c := by
  refine ⟨?_, npNorm_nonneg _, ?_, ?_⟩
  · rw [ccDist, ccDist]
    congr 1
    funext i
    rw [(circle_dot (ha i) (hb i)).1, (circle_dot (hb i) (ha i)).1]
    congr 1; ring
  · rw [ccDist, npNorm_eq_zero]
    constructor
    · intro h
      funext i
      exact (circle_eq_of_dot (ha i) (hb i)).1.mp (congrFun h i)
    · intro h
      funext i
      exact (circle_eq_of_dot (ha i) (hb i)).1.mpr (congrFun h i)
  · refine le_trans ?_ (npNorm_add_le _ _)
    refine npNorm_mono (fun i => Real.arccos_nonneg _) fun i => ?_
    have key : ∀ {x y : ℂ}, ‖x‖ = 1 → ‖y‖ = 1 →
        Real.arccos (star x * y).re = InnerProductGeometry.angle x y := by
      intro x y hx hy
      rw [InnerProductGeometry.angle, hx, hy, Complex.inner]
      simp [mul_comm]
    simp only [Pi.add_apply]
    rw [key (ha i) (hc i), key (ha i) (hb i), key (hb i) (hc i)]
    exact InnerProductGeometry.angle_le_angle_add_angle _ _ _

omit [Fintype ι] in
/-- C107 where it holds: for an entry at angle above `1e-6` and below `π` the logarithm is tangent,
its modulus is the angle, and the geodesic in its direction ends at the target. -/
theorem C107_log_partial (a b : ι → ℂ) (ha : OnCircles a) (hb : OnCircles b) (i : ι)
    (h1 : 1e-6 < Real.arccos (star (a i) * b i).re) (h2 : b i ≠ -a i) :
    ∃ v, ccLog a b i = some v ∧ (a i).re * v.re + (a i).im * v.im = 0 ∧
      ‖v‖ = Real.arccos (star (a i) * b i).re ∧ circleGeodesic (a i) v = b i := by
  set d := Real.arccos (star (a i) * b i).re with hd
  have hn := ccLog_vector_norm ha hb i
  rw [← hd] at hn
  have hd0 : 0 < d := by linarith [show (0 : ℝ) < 1e-6 by norm_num]
  have hdpi : d < Real.pi := lt_of_le_of_ne (Real.arccos_le_pi _)
    fun h => h2 ((circle_eq_of_dot (ha i) (hb i)).2.mp h)
  have hs : 0 < Real.sin d := Real.sin_pos_of_pos_of_lt_pi hd0 hdpi
  set v := ccProj a (b - a) i with hv
  have hne : ‖v‖ ≠ 0 := by rw [hn]; exact hs.ne'
  refine ⟨v * ((d / ‖v‖ : ℝ) : ℂ), ?_, ?_, ?_, ?_⟩
  · simp only [ccLog]
    rw [← hv, ← hd, if_neg (not_le.mpr h1), if_neg hne]
  · have := C55_complex_circle_partial a (b - a) ha i
    rw [← hv] at this
    rw [Complex.re_mul_ofReal, Complex.im_mul_ofReal]
    linear_combination (d / ‖v‖) * this
  · rw [norm_mul, Complex.norm_real, Real.norm_of_nonneg (div_nonneg hd0.le (norm_nonneg _)),
      mul_div_cancel₀ _ hne]
  · have hnorm : ‖v * ((d / ‖v‖ : ℝ) : ℂ)‖ = d := by
      rw [norm_mul, Complex.norm_real, Real.norm_of_nonneg (div_nonneg hd0.le (norm_nonneg _)),
        mul_div_cancel₀ _ hne]
    rw [circleGeodesic, hnorm, Real.sinc_of_ne_zero hd0.ne', mul_assoc, ← Complex.ofReal_mul]
    have : d / ‖v‖ * (Real.sin d / d) = 1 := by
      rw [hn]; field_simp
    have hcos : Real.cos d = (star (a i) * b i).re :=
      Real.cos_arccos (circle_dot (ha i) (hb i)).2.1 (circle_dot (ha i) (hb i)).2.2
    rw [this, hcos, hv, ccLog_vector ha]
    push_cast
    ring

omit [Fintype ι] in
/-- C107 fails: for different points at an angle of at most `1e-6` the logarithm is shorter than
the distance, and for antipodal entries it is not a number. -/
theorem C107_log_fails (a b : ι → ℂ) (ha : OnCircles a) (hb : OnCircles b) (i : ι) :
    (Real.arccos (star (a i) * b i).re ≤ 1e-6 → a i ≠ b i →
      ∃ v, ccLog a b i = some v ∧ ‖v‖ < Real.arccos (star (a i) * b i).re) ∧
    (b i = -a i → ccLog a b i = none) := by
  constructor
  · intro h hne
    refine ⟨ccProj a (b - a) i, ?_, ?_⟩
    · simp only [ccLog]; rw [if_pos h]
    · rw [ccLog_vector_norm ha hb]
      apply Real.sin_lt
      exact lt_of_le_of_ne (Real.arccos_nonneg _)
        fun h0 => hne ((circle_eq_of_dot (ha i) (hb i)).1.mp h0.symm)
  · intro h
    have hpi := (circle_eq_of_dot (ha i) (hb i)).2.mpr h
    have hn := ccLog_vector_norm ha hb i
    rw [hpi, Real.sin_pi] at hn
    simp only [ccLog]
    rw [hpi, if_neg, if_pos hn]
    have := Real.two_le_pi
    norm_num
    linarith

omit [Fintype ι] in
/-- C107: `pair_mean` of points without antipodal entries is a point of the manifold with equal
angle to both. -/
theorem C107_pair_mean (a b : ι → ℂ) (ha : OnCircles a) (hb : OnCircles b)
    (hne : ∀ i, b i ≠ -a i) :
    OnCircles (ccPairMean a b) ∧
      ∀ i, Real.arccos (star (a i) * ccPairMean a b i).re =
        Real.arccos (star (b i) * ccPairMean a b i).re := by
  refine ⟨fun i => ccNormalize_norm fun h => hne i (eq_neg_of_add_eq_zero_right h), fun i => ?_⟩
  congr 1
  have h1 := (norm_one_iff _).mp (ha i)
  have h2 := (norm_one_iff _).mp (hb i)
  simp only [ccPairMean, ccNormalize, Pi.add_apply]
  rw [← mul_div_assoc, ← mul_div_assoc, Complex.div_ofReal_re, Complex.div_ofReal_re]
  congr 1
  simp
  linear_combination h1 - h2

/-! ### Examples -/

/-- A point, a tangent vector, a second point at a right angle, and a point close to `1`. -/
example : OnCircles ![Complex.I, 1] ∧ CirclesTangent ![Complex.I, 1] ![2, Complex.I] ∧
    (1e-6 : ℝ) < Real.arccos (star (![Complex.I, 1] 0) * ![(1 : ℂ), 1] 0).re := by
  refine ⟨fun i => ?_, fun i => ?_, ?_⟩
  · fin_cases i <;> simp
  · fin_cases i <;> simp
  · simp
    have := Real.two_le_pi
    norm_num
    linarith

/-- Distinct points at an angle of at most `1e-6` exist. -/
example : ∃ b : ℂ, ‖b‖ = 1 ∧ (1 : ℂ) ≠ b ∧ Real.arccos (star (1 : ℂ) * b).re ≤ 1e-6 := by
  refine ⟨Complex.exp ((1e-6 : ℝ) * Complex.I), ?_, ?_, ?_⟩
  · exact Complex.norm_exp_ofReal_mul_I _
  · intro h
    have := congrArg Complex.im h
    rw [Complex.exp_ofReal_mul_I_im] at this
    have h2 : 0 < Real.sin 1e-6 :=
      Real.sin_pos_of_pos_of_lt_pi (by norm_num) (by linarith [Real.two_le_pi, show (1e-6 : ℝ) < 1 by norm_num])
    simp only [Complex.one_im] at this
    linarith
  · simp only [star_one, one_mul, Complex.exp_ofReal_mul_I_re]
    rw [Real.arccos_cos (by norm_num)]
    linarith [Real.two_le_pi, show (1e-6 : ℝ) < 1 by norm_num]

end Verif.Geo
