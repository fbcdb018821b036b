/-
C56–C61: the sphere.
-/
import Verif.Geo.Model.Sphere
import Verif.Geo.Lemmas.Dot
import Mathlib.Analysis.Calculus.Deriv.Prod
import Mathlib.Analysis.Calculus.Deriv.Mul
import Mathlib.Analysis.Calculus.Deriv.Inv
import Mathlib.Analysis.SpecialFunctions.Trigonometric.Deriv
import Mathlib.Analysis.SpecialFunctions.Trigonometric.Bounds
import Mathlib.Geometry.Euclidean.Angle.Unoriented.TriangleInequality
import Mathlib.Analysis.InnerProductSpace.PiL2

namespace Verif.Geo
open scoped BigOperators

variable {ι : Type*} [Fintype ι]

/-- Points of the unit sphere. -/
def OnSphere (x : ι → ℝ) : Prop := ∑ i, x i ^ 2 = 1

/-- Tangent vectors of the unit sphere at `x`. -/
def SphereTangent (x v : ι → ℝ) : Prop := ∑ i, x i * v i = 0

theorem OnSphere.dot {x : ι → ℝ} (h : OnSphere x) : tensordot x x = 1 := by
  simpa [tensordot, OnSphere, sq] using h

theorem onSphere_iff (x : ι → ℝ) : OnSphere x ↔ tensordot x x = 1 := by
  simp [tensordot, OnSphere, sq]

theorem onSphere_iff_norm (x : ι → ℝ) : OnSphere x ↔ npNorm x = 1 := by
  rw [onSphere_iff, ← npNorm_sq_real, pow_eq_one_iff_of_nonneg (npNorm_nonneg x) two_ne_zero]

theorem sphereTangent_subspace (x : ι → ℝ) : IsSubspace (SphereTangent x) where
  zero := by simp [SphereTangent]
  add hu hv := by
    have := tensordot_inner.add_right x _ _ |>.trans (congrArg₂ (· + ·) hu hv)
    simpa [SphereTangent, tensordot] using this
  smul c u hu := by
    have := tensordot_inner.smul_right c x u |>.trans (congrArg (c * ·) hu)
    simpa [SphereTangent, tensordot] using this

/-! ### C56 -/

/-- C56: at points of the sphere `projection` is the orthogonal projection onto the tangent
space. -/
theorem C56_projection (x : ι → ℝ) (hx : OnSphere x) :
    IsOrthProj (sphereInner x) (SphereTangent x) (sphereProj x) := by
  refine tensordot_inner.orthProj (sphereTangent_subspace x) ?_ ?_
  · intro v
    change tensordot x (v - tensordot x v • x) = 0
    rw [tensordot_inner.sub_right, tensordot_inner.smul_right, hx.dot]
    ring
  · intro v w hw
    change tensordot x w = 0 at hw
    simp [sphereProj, sphereInner, tensordot_inner.smul_left, hw]

/-- C56: transport, gradient conversion and `to_tangent_space` give tangent vectors, and the
converted gradient represents the directional derivative. -/
theorem C56_tangent (x : ι → ℝ) (hx : OnSphere x) (a g v : ι → ℝ) :
    SphereTangent x (sphereTransport sphereProj a x v) ∧ SphereTangent x (sphereE2rg x g) ∧
      SphereTangent x (sphereToTangent x v) ∧
      (SphereTangent x v → sphereInner x (sphereE2rg x g) v = ∑ i, g i * v i) :=
  ⟨(C56_projection x hx).mem v, (C56_projection x hx).mem g, (C56_projection x hx).mem v,
    fun hv => (C56_projection x hx).represents g hv⟩

/-- The metric is an inner product and `norm` its norm. -/
theorem C56_metric (x v : ι → ℝ) :
    IsInner (sphereInner x) ∧ sphereNorm x v = Real.sqrt (sphereInner x v v) :=
  ⟨tensordot_inner, npNorm_eq_sqrt v⟩

/-! ### C57 -/

theorem ne_zero_of_tangent {x v : ι → ℝ} (hx : OnSphere x) (hv : SphereTangent x v) :
    1 ≤ tensordot (x + v) (x + v) := by
  change tensordot x v = 0 at hv
  rw [tensordot_inner.add_left, tensordot_inner.add_right, tensordot_inner.add_right, hx.dot, hv,
    tensordot_inner.symm v x, hv]
  linarith [tensordot_inner.nonneg v]

theorem onSphere_normalize {a : ι → ℝ} (h : a ≠ 0) : OnSphere (sphereNormalize a) := by
  rw [onSphere_iff_norm]
  exact npNorm_inv_smul h

theorem sphereNormalize_of_onSphere {a : ι → ℝ} (h : OnSphere a) : sphereNormalize a = a := by
  rw [sphereNormalize, (onSphere_iff_norm a).mp h]
  simp

theorem sphereExp_eq (x v : ι → ℝ) :
    sphereExp x v = Real.cos (npNorm v) • x + Real.sinc (npNorm v) • v := by
  simp [sphereExp, sphereNorm, npSinc_div_pi]

theorem sinc_mul_self (r : ℝ) : Real.sinc r * r = Real.sin r := by
  by_cases h : r = 0
  · simp [h]
  · rw [Real.sinc_of_ne_zero h, div_mul_cancel₀ _ h]

/-- C57: `retraction` and `exp` of a tangent vector are points of the sphere, the retraction never
divides by zero, and both return the point itself for the zero vector. -/
theorem C57_stays (x v : ι → ℝ) (hx : OnSphere x) (hv : SphereTangent x v) :
    1 ≤ npNorm (x + v) ∧ OnSphere (sphereRetraction x v) ∧ OnSphere (sphereExp x v) ∧
      sphereRetraction x sphereZero = x ∧ sphereExp x sphereZero = x := by
  have h1 := ne_zero_of_tangent hx hv
  have h2 : 1 ≤ npNorm (x + v) := by
    rw [npNorm_eq_sqrt]
    exact Real.one_le_sqrt.mpr h1
  refine ⟨h2, ?_, ?_, ?_, ?_⟩
  · apply onSphere_normalize
    intro h
    rw [(npNorm_eq_zero _).mpr h] at h2
    linarith
  · rw [onSphere_iff, sphereExp_eq]
    change tensordot x v = 0 at hv
    simp only [tensordot_inner.add_left, tensordot_inner.add_right, tensordot_inner.smul_left,
      tensordot_inner.smul_right, hx.dot, hv, tensordot_inner.symm v x]
    rw [← npNorm_sq_real]
    have h3 := sinc_mul_self (npNorm v)
    have h4 := Real.cos_sq_add_sin_sq (npNorm v)
    rw [← h3] at h4
    nlinarith [h4]
  · simp [sphereRetraction, sphereZero, sphereNormalize_of_onSphere hx]
  · have : npNorm (0 : ι → ℝ) = 0 := (npNorm_eq_zero _).mpr rfl
    simp [sphereExp_eq, sphereZero, this]

/-- C57: the exponential map has the tangent vector as initial velocity. -/
theorem C57_exp_velocity (x v : ι → ℝ) :
    HasDerivAt (fun t : ℝ => sphereExp x (t • v)) v 0 := by
  have h : (fun t : ℝ => sphereExp x (t • v)) =
      fun t : ℝ => Real.cos (t * npNorm v) • x + (Real.sinc (t * npNorm v) * t) • v := by
    funext t
    rw [sphereExp_eq, npNorm_smul, smul_smul]
    rcases abs_choice t with ht | ht <;> rw [ht]
    rw [neg_mul, Real.cos_neg, Real.sinc_neg]
  rw [h, hasDerivAt_pi]
  intro i
  have hc : HasDerivAt (fun t : ℝ => Real.cos (t * npNorm v)) 0 0 := by
    have := ((hasDerivAt_id (0 : ℝ)).mul_const (npNorm v)).cos
    simpa using this
  have hs : HasDerivAt (fun t : ℝ => Real.sinc (t * npNorm v) * t) 1 0 := by
    by_cases hn : npNorm v = 0
    · simpa [hn] using hasDerivAt_id' (0 : ℝ)
    · have h2 : (fun t : ℝ => Real.sinc (t * npNorm v) * t) =
          fun t => Real.sin (t * npNorm v) / npNorm v := by
        funext t
        rw [← sinc_mul_self]
        field_simp
      rw [h2]
      have := ((hasDerivAt_id (0 : ℝ)).mul_const (npNorm v)).sin.div_const (npNorm v)
      simpa [hn] using this
  have := (hc.mul_const (x i)).fun_add (hs.mul_const (v i))
  simpa using this

/-- C57: the retraction has the tangent vector as initial velocity. -/
theorem C57_retraction_velocity (x v : ι → ℝ) (hx : OnSphere x) (hv : SphereTangent x v) :
    HasDerivAt (fun t : ℝ => sphereRetraction x (t • v)) v 0 := by
  change tensordot x v = 0 at hv
  have h : (fun t : ℝ => sphereRetraction x (t • v)) =
      fun t : ℝ => (Real.sqrt (1 + t ^ 2 * tensordot v v))⁻¹ • (x + t • v) := by
    funext t
    rw [sphereRetraction, sphereNormalize, npNorm_eq_sqrt]
    congr 3
    simp only [tensordot_inner.add_left, tensordot_inner.add_right, tensordot_inner.smul_left,
      tensordot_inner.smul_right, hx.dot, hv, tensordot_inner.symm v x]
    ring
  rw [h, hasDerivAt_pi]
  intro i
  have h1 : HasDerivAt (fun t : ℝ => 1 + t ^ 2 * tensordot v v) 0 0 := by
    have := (((hasDerivAt_id (0 : ℝ)).pow 2).mul_const (tensordot v v)).const_add 1
    simpa using this
  have h2 : HasDerivAt (fun t : ℝ => (Real.sqrt (1 + t ^ 2 * tensordot v v))⁻¹) 0 0 := by
    have := (h1.sqrt (by simp)).fun_inv (by simp)
    simpa using this
  have h3 : HasDerivAt (fun t : ℝ => x i + t * v i) (v i) 0 := by
    simpa using ((hasDerivAt_id (0 : ℝ)).mul_const (v i)).const_add (x i)
  have := h2.fun_mul h3
  simpa using this

/-! ### C58 -/

theorem dot_bounds {a b : ι → ℝ} (ha : OnSphere a) (hb : OnSphere b) :
    -1 ≤ tensordot a b ∧ tensordot a b ≤ 1 := by
  have := tensordot_inner.cauchy a b
  rw [ha.dot, hb.dot] at this
  exact abs_le.mp (abs_le_one_iff_mul_self_le_one.mpr (by nlinarith))

/-- C58: clamping never changes the value for points of the sphere. -/
theorem C58_clamp (a b : ι → ℝ) (ha : OnSphere a) (hb : OnSphere b) :
    sphereDist a b = Real.arccos (∑ i, a i * b i) := by
  obtain ⟨h1, h2⟩ := dot_bounds ha hb
  simp only [sphereDist, sphereInner]
  rw [min_eq_left h2, max_eq_left h1]
  rfl

theorem sphereDist_eq {a b : ι → ℝ} (ha : OnSphere a) (hb : OnSphere b) :
    sphereDist a b = Real.arccos (tensordot a b) := C58_clamp a b ha hb

theorem eq_of_dot_eq_one {a b : ι → ℝ} (ha : OnSphere a) (hb : OnSphere b)
    (h : tensordot a b = 1) : a = b := by
  have : tensordot (a - b) (a - b) = 0 := by
    rw [tensordot_inner.sub_left, tensordot_inner.sub_right, tensordot_inner.sub_right, ha.dot,
      hb.dot, tensordot_inner.symm b a, h]
    ring
  exact sub_eq_zero.mp (tensordot_inner.definite _ this)

/-- C58: `dist` is a metric on the sphere with values in `[0, π]`. -/
theorem C58_metric (a b c : ι → ℝ) (ha : OnSphere a) (hb : OnSphere b) (hc : OnSphere c) :
    sphereDist a b = sphereDist b a ∧ 0 ≤ sphereDist a b ∧ sphereDist a b ≤ Real.pi ∧
      (sphereDist a b = 0 ↔ a = b) ∧
      sphereDist a c ≤ sphereDist a b + sphereDist b c := by
  refine ⟨?_, ?_, ?_, ?_, ?_⟩
  · rw [sphereDist_eq ha hb, sphereDist_eq hb ha, tensordot_inner.symm]
  · exact Real.arccos_nonneg _
  · exact Real.arccos_le_pi _
  · rw [sphereDist_eq ha hb, Real.arccos_eq_zero]
    constructor
    · intro h
      exact eq_of_dot_eq_one ha hb (le_antisymm (dot_bounds ha hb).2 h)
    · rintro rfl
      exact ha.dot.ge
  · have key : ∀ {u w : ι → ℝ}, OnSphere u → OnSphere w → sphereDist u w =
        InnerProductGeometry.angle (WithLp.toLp 2 u : EuclideanSpace ℝ ι) (WithLp.toLp 2 w) := by
      intro u w hu hw
      rw [sphereDist_eq hu hw, InnerProductGeometry.angle]
      have hn : ∀ {u : ι → ℝ}, OnSphere u → ‖(WithLp.toLp 2 u : EuclideanSpace ℝ ι)‖ = 1 := by
        intro u hu
        rw [EuclideanSpace.norm_eq]
        simp only [Real.norm_eq_abs, sq_abs]
        rw [show ∑ i, u i ^ 2 = 1 from hu, Real.sqrt_one]
      rw [hn hu, hn hw]
      congr 1
      simp [tensordot, PiLp.inner_apply, mul_comm]
    rw [key ha hc, key ha hb, key hb hc]
    exact InnerProductGeometry.angle_le_angle_add_angle _ _ _

/-- C58: the exponential map moves by the norm of the vector, up to `π`. -/
theorem C58_dist_exp (x v : ι → ℝ) (hx : OnSphere x) (hv : SphereTangent x v)
    (hn : sphereNorm x v ≤ Real.pi) : sphereDist x (sphereExp x v) = sphereNorm x v := by
  rw [sphereDist_eq hx (C57_stays x v hx hv).2.2.1, sphereExp_eq]
  change tensordot x v = 0 at hv
  rw [tensordot_inner.add_right, tensordot_inner.smul_right, tensordot_inner.smul_right, hx.dot, hv]
  simp only [mul_one, mul_zero, add_zero]
  exact Real.arccos_cos (npNorm_nonneg v) hn

/-! ### C59 -/

section C59
variable {a b : ι → ℝ}

theorem log_vector (ha : OnSphere a) : sphereProj a (b - a) = b - tensordot a b • a := by
  simp only [sphereProj, sphereInner, tensordot_inner.sub_right, ha.dot]
  module

theorem log_vector_norm (ha : OnSphere a) (hb : OnSphere b) :
    npNorm (sphereProj a (b - a)) = Real.sin (sphereDist a b) := by
  rw [sphereDist_eq ha hb, Real.sin_arccos, npNorm_eq_sqrt, log_vector ha]
  congr 1
  simp only [tensordot_inner.sub_left, tensordot_inner.sub_right, tensordot_inner.smul_left,
    tensordot_inner.smul_right, ha.dot, hb.dot, tensordot_inner.symm b a]
  ring

theorem dist_mem (a b : ι → ℝ) : 0 ≤ sphereDist a b ∧ sphereDist a b ≤ Real.pi :=
  ⟨Real.arccos_nonneg _, Real.arccos_le_pi _⟩

/-- Norm of the computed logarithm. -/
noncomputable def logLength (eps d : ℝ) : ℝ := (d + eps) / (Real.sin d + eps) * Real.sin d

theorem log_norm (ha : OnSphere a) (hb : OnSphere b) {eps : ℝ} (he : 0 < eps) :
    npNorm (sphereLog sphereProj eps a b) = logLength eps (sphereDist a b) := by
  have hd := dist_mem a b
  have hs : 0 ≤ Real.sin (sphereDist a b) := Real.sin_nonneg_of_nonneg_of_le_pi hd.1 hd.2
  simp only [sphereLog, sphereNorm, npNorm_smul, log_vector_norm ha hb, logLength]
  rw [abs_of_nonneg]
  exact div_nonneg (by linarith) (by linarith)

theorem sin_eq_self_iff {d : ℝ} (h0 : 0 ≤ d) : Real.sin d = d ↔ d = 0 := by
  constructor
  · intro h
    rcases h0.eq_or_lt with h' | h'
    · exact h'.symm
    · exact absurd h (Real.sin_lt h').ne
  · rintro rfl; simp

theorem logLength_bounds {eps d : ℝ} (he : 0 < eps) (h0 : 0 ≤ d) (hpi : d ≤ Real.pi) :
    0 ≤ logLength eps d ∧ logLength eps d ≤ d ∧
      d - logLength eps d = eps * (d - Real.sin d) / (Real.sin d + eps) ∧
      (logLength eps d = d ↔ d = 0) := by
  have hs : 0 ≤ Real.sin d := Real.sin_nonneg_of_nonneg_of_le_pi h0 hpi
  have hse : 0 < Real.sin d + eps := by linarith
  have hdiff : d - logLength eps d = eps * (d - Real.sin d) / (Real.sin d + eps) := by
    rw [logLength]; field_simp; ring
  have hsd : Real.sin d ≤ d := Real.sin_le h0
  have hnn : 0 ≤ eps * (d - Real.sin d) / (Real.sin d + eps) :=
    div_nonneg (mul_nonneg he.le (by linarith)) hse.le
  refine ⟨mul_nonneg (div_nonneg (by linarith) hse.le) hs, by linarith, hdiff, ?_⟩
  constructor
  · intro h
    rw [h, sub_self, eq_comm, div_eq_zero_iff, mul_eq_zero] at hdiff
    rcases hdiff with (h' | h') | h'
    · exact absurd h' he.ne'
    · exact (sin_eq_self_iff h0).mp (by linarith)
    · exact absurd h' hse.ne'
  · rintro rfl
    simp [logLength]

/-- C59 fails: because of the machine epsilon in the scaling factor, the norm of `log(a, b)` is
`dist(a, b)` only when the two points are equal. -/
theorem C59_norm_log_iff (ha : OnSphere a) (hb : OnSphere b) {eps : ℝ} (he : 0 < eps) :
    sphereNorm a (sphereLog sphereProj eps a b) = sphereDist a b ↔ a = b := by
  have hd := dist_mem a b
  rw [sphereNorm, log_norm ha hb he, (logLength_bounds he hd.1 hd.2).2.2.2]
  exact (C58_metric a b a ha hb ha).2.2.2.1

theorem log_tangent (ha : OnSphere a) (eps : ℝ) :
    SphereTangent a (sphereLog sphereProj eps a b) :=
  (sphereTangent_subspace a).smul _ ((C56_projection a ha).mem _)

/-- C59 fails: `exp(a, log(a, b)) = b` only when the two points are equal. -/
theorem C59_exp_log_iff (ha : OnSphere a) (hb : OnSphere b) {eps : ℝ} (he : 0 < eps) :
    sphereExp a (sphereLog sphereProj eps a b) = b ↔ a = b := by
  have hd := dist_mem a b
  obtain ⟨h0, hle, -, hiff⟩ := logLength_bounds he hd.1 hd.2
  have key := C58_dist_exp a _ ha (log_tangent (b := b) ha eps)
    (by rw [sphereNorm, log_norm ha hb he]; linarith)
  constructor
  · intro h
    rw [h] at key
    exact (C59_norm_log_iff ha hb he).mp key.symm
  · rintro rfl
    have hz : sphereLog sphereProj eps a a = 0 := by
      rw [← npNorm_eq_zero, log_norm ha ha he, ((C58_metric a a a ha ha ha).2.2.2.1).mpr rfl]
      simp [logLength]
    rw [hz]
    exact (C57_stays a 0 ha (sphereTangent_subspace a).zero).2.2.2.2

/-- C59, what holds: `log(a, b)` is tangent, its exponential
falls short of `b` by exactly `ε (d - sin d) / (sin d + ε)`, where `d = dist(a, b)`, and this is
less than `ε` when `d ≤ π/2`. -/
theorem C59_partial (ha : OnSphere a) (hb : OnSphere b) {eps : ℝ} (he : 0 < eps) :
    SphereTangent a (sphereLog sphereProj eps a b) ∧
    sphereDist (sphereExp a (sphereLog sphereProj eps a b)) b =
      eps * (sphereDist a b - Real.sin (sphereDist a b)) / (Real.sin (sphereDist a b) + eps) ∧
    (sphereDist a b ≤ Real.pi / 2 →
      sphereDist (sphereExp a (sphereLog sphereProj eps a b)) b < eps) := by
  have hd := dist_mem a b
  obtain ⟨h0, hle, hdiff, hiff⟩ := logLength_bounds he hd.1 hd.2
  have htan := log_tangent (b := b) ha eps
  have main : sphereDist (sphereExp a (sphereLog sphereProj eps a b)) b =
      sphereDist a b - logLength eps (sphereDist a b) := by
    rw [sphereDist_eq (C57_stays a _ ha htan).2.2.1 hb, sphereExp_eq, log_norm ha hb he]
    set d := sphereDist a b with hdd
    set τ := logLength eps d with hτ
    have hs : 0 ≤ Real.sin d := Real.sin_nonneg_of_nonneg_of_le_pi hd.1 hd.2
    have hcos : tensordot a b = Real.cos d := by
      rw [hdd, sphereDist_eq ha hb, Real.cos_arccos (dot_bounds ha hb).1 (dot_bounds ha hb).2]
    have hvb : tensordot (sphereProj a (b - a)) b = Real.sin d ^ 2 := by
      rw [log_vector ha, tensordot_inner.sub_left, tensordot_inner.smul_left, hb.dot, hcos]
      nlinarith [Real.cos_sq_add_sin_sq d]
    rw [tensordot_inner.add_left, tensordot_inner.smul_left, tensordot_inner.smul_left, hcos]
    have hlog : tensordot (sphereLog sphereProj eps a b) b =
        (d + eps) / (Real.sin d + eps) * Real.sin d ^ 2 := by
      simp only [sphereLog, sphereNorm, log_vector_norm ha hb, tensordot_inner.smul_left, hvb]
      rw [← hdd]
    have hτs : (d + eps) / (Real.sin d + eps) * Real.sin d ^ 2 = τ * Real.sin d := by
      rw [hτ, logLength]; ring
    rw [hlog, hτs, ← mul_assoc, sinc_mul_self, ← Real.cos_sub, ← Real.cos_neg, neg_sub]
    exact Real.arccos_cos (by linarith) (by linarith [hd.2])
  refine ⟨htan, by rw [main, hdiff], ?_⟩
  intro hhalf
  rw [main, hdiff]
  have hs : 0 ≤ Real.sin (sphereDist a b) := Real.sin_nonneg_of_nonneg_of_le_pi hd.1 hd.2
  rw [div_lt_iff₀ (by linarith)]
  have hbound := Real.mul_le_sin hd.1 hhalf
  have hpi := Real.pi_le_four
  have hpp := Real.pi_pos
  have h2 : sphereDist a b ≤ 2 * Real.sin (sphereDist a b) := by
    have : sphereDist a b = Real.pi / 2 * (2 / Real.pi * sphereDist a b) := by field_simp
    calc sphereDist a b = Real.pi / 2 * (2 / Real.pi * sphereDist a b) := this
      _ ≤ Real.pi / 2 * Real.sin (sphereDist a b) :=
        mul_le_mul_of_nonneg_left hbound (by positivity)
      _ ≤ 2 * Real.sin (sphereDist a b) := mul_le_mul_of_nonneg_right (by linarith) hs
  nlinarith [hbound, h2, hs, he]

/-- C59: for antipodal points `log` is zero, and `exp(a, log(a, b)) = a`. -/
theorem C59_antipodal (ha : OnSphere a) {eps : ℝ} :
    sphereLog sphereProj eps a (-a) = 0 ∧ sphereExp a (sphereLog sphereProj eps a (-a)) = a := by
  have : sphereLog sphereProj eps a (-a) = 0 := by
    have h := log_vector (b := -a) ha
    rw [tensordot_inner.neg_right, ha.dot] at h
    simp only [sphereLog, h]
    simp
  exact ⟨this, by rw [this]; exact (C57_stays a 0 ha (sphereTangent_subspace a).zero).2.2.2.2⟩

end C59

/-! ### C60 -/

theorem sphereE2rh_eq {x : ι → ℝ} (hx : OnSphere x) (g h v : ι → ℝ) :
    sphereE2rh x g h v = sphereProj x h - tensordot x g • v := by
  simp only [sphereE2rh, subE2rh, sphereWeingarten, sphereInner, sphereProj,
    tensordot_inner.sub_right, tensordot_inner.smul_right, hx.dot]
  module

/-- C60: the converted Hessian maps tangent vectors to tangent vectors and is symmetric when the
Euclidean Hessian is. -/
theorem C60_symmetric (x g : ι → ℝ) (hx : OnSphere x) (H : (ι → ℝ) → ι → ℝ)
    (hH : ∀ u v, ∑ i, u i * H v i = ∑ i, H u i * v i) :
    IsSymmOn (sphereInner x) (SphereTangent x) fun v => sphereE2rh x g (H v) v := by
  have hP := C56_projection x hx
  refine ⟨?_, ?_⟩
  · intro v hv
    rw [sphereE2rh_eq hx]
    have := (sphereTangent_subspace x).add (hP.mem (H v))
      ((sphereTangent_subspace x).smul (-tensordot x g) hv)
    simpa [sub_eq_add_neg] using this
  · intro u v hu hv
    simp only [sphereE2rh_eq hx]
    change tensordot _ _ = tensordot _ _
    rw [tensordot_inner.sub_right, tensordot_inner.sub_left, tensordot_inner.smul_left,
      tensordot_inner.smul_right]
    congr 1
    have h1 : tensordot u (sphereProj x (H v)) = tensordot u (H v) := by
      rw [tensordot_inner.symm, tensordot_inner.symm u]
      exact hP.represents (H v) hu
    rw [h1]
    exact (hH u v).trans (hP.represents (H u) hv).symm

theorem hasDerivAt_tensordot {c d : ℝ → ι → ℝ} {c' d' : ι → ℝ} {t : ℝ} (hc : HasDerivAt c c' t)
    (hd : HasDerivAt d d' t) :
    HasDerivAt (fun s => tensordot (c s) (d s)) (tensordot c' (d t) + tensordot (c t) d') t := by
  have := HasDerivAt.fun_sum (u := Finset.univ) (fun i _ =>
    ((hasDerivAt_pi.mp hc) i).mul ((hasDerivAt_pi.mp hd) i))
  simpa [tensordot, Finset.sum_add_distrib] using this

theorem sphere_velocity {c : ℝ → ι → ℝ} {v : ι → ℝ} (hon : ∀ t, OnSphere (c t))
    (hc : HasDerivAt c v 0) : SphereTangent (c 0) v := by
  have h1 := hasDerivAt_tensordot hc hc
  have h2 : HasDerivAt (fun s => tensordot (c s) (c s)) 0 0 := by
    have : (fun s => tensordot (c s) (c s)) = fun _ => 1 := funext fun s => (hon s).dot
    rw [this]
    exact hasDerivAt_const _ _
  have := h1.unique h2
  rw [tensordot_inner.symm v] at this
  change tensordot (c 0) v = 0
  linarith

/-- C60: along every differentiable curve `c` on the sphere with velocity `v`, the derivative of
the Riemannian gradient field projected to the tangent space is the converted Hessian; `g` is the
Euclidean gradient field and `H` its derivative along the curve. -/
theorem C60_derivative (c : ℝ → ι → ℝ) (v : ι → ℝ) (hon : ∀ t, OnSphere (c t))
    (hc : HasDerivAt c v 0) (g : (ι → ℝ) → ι → ℝ) (H : ι → ℝ)
    (hg : HasDerivAt (fun t => g (c t)) H 0) :
    ∃ d, HasDerivAt (fun t => sphereE2rg (c t) (g (c t))) d 0 ∧
      sphereProj (c 0) d = sphereE2rh (c 0) (g (c 0)) H v := by
  have hv := sphere_velocity hon hc
  refine ⟨H - ((tensordot v (g (c 0)) + tensordot (c 0) H) • c 0 +
    tensordot (c 0) (g (c 0)) • v), ?_, ?_⟩
  · have h1 := hasDerivAt_tensordot hc hg
    have := hg.sub (h1.smul hc)
    simp only [add_comm] at this ⊢
    exact this
  · rw [sphereE2rh_eq (hon 0)]
    change tensordot (c 0) v = 0 at hv
    simp only [sphereProj, sphereInner, tensordot_inner.sub_right, tensordot_inner.add_right,
      tensordot_inner.smul_right, (hon 0).dot, hv]
    module

/-! ### C61 -/

/-- C61: for points that are not antipodal `pair_mean` is a point of the sphere at half the
distance from both. -/
theorem C61_pair_mean (a b : ι → ℝ) (ha : OnSphere a) (hb : OnSphere b) (hanti : b ≠ -a) :
    OnSphere (spherePairMean a b) ∧
      sphereDist a (spherePairMean a b) = sphereDist a b / 2 ∧
      sphereDist b (spherePairMean a b) = sphereDist a b / 2 := by
  have hne : a + b ≠ 0 := fun h => hanti (eq_neg_of_add_eq_zero_right h)
  have hm : OnSphere (spherePairMean a b) := onSphere_normalize hne
  have hd := dist_mem a b
  have hcos : tensordot a b = Real.cos (sphereDist a b) := by
    rw [sphereDist_eq ha hb, Real.cos_arccos (dot_bounds ha hb).1 (dot_bounds ha hb).2]
  have hn2 : npNorm (a + b) ^ 2 = (2 * Real.cos (sphereDist a b / 2)) ^ 2 := by
    rw [npNorm_sq_real]
    simp only [tensordot_inner.add_left, tensordot_inner.add_right, ha.dot, hb.dot,
      tensordot_inner.symm b a, hcos]
    have := Real.cos_sq (sphereDist a b / 2)
    rw [mul_div_cancel₀ _ (two_ne_zero)] at this
    rw [mul_pow, this]; ring
  have hc0 : 0 ≤ Real.cos (sphereDist a b / 2) :=
    Real.cos_nonneg_of_mem_Icc ⟨by linarith [hd.1, Real.pi_pos], by linarith [hd.2]⟩
  have hn : npNorm (a + b) = 2 * Real.cos (sphereDist a b / 2) :=
    (sq_eq_sq₀ (npNorm_nonneg _) (by linarith)).mp hn2
  have hnpos : npNorm (a + b) ≠ 0 := fun h => hne ((npNorm_eq_zero _).mp h)
  have hcpos : Real.cos (sphereDist a b / 2) ≠ 0 := by
    intro h; rw [h] at hn; exact hnpos (by linarith)
  have h2 := Real.cos_sq (sphereDist a b / 2)
  rw [mul_div_cancel₀ _ (two_ne_zero)] at h2
  have val : (2 * Real.cos (sphereDist a b / 2))⁻¹ * (1 + Real.cos (sphereDist a b)) =
      Real.cos (sphereDist a b / 2) := by
    field_simp
    linarith
  refine ⟨hm, ?_, ?_⟩
  · rw [sphereDist_eq ha hm, spherePairMean, sphereNormalize, tensordot_inner.smul_right,
      tensordot_inner.add_right, ha.dot, hcos, hn, val]
    exact Real.arccos_cos (by linarith [hd.1]) (by linarith [hd.2, Real.pi_pos])
  · rw [sphereDist_eq hb hm, spherePairMean, sphereNormalize, tensordot_inner.smul_right,
      tensordot_inner.add_right, hb.dot, tensordot_inner.symm b a, hcos, hn, add_comm, val]
    exact Real.arccos_cos (by linarith [hd.1]) (by linarith [hd.2, Real.pi_pos])

/-! ### Examples: the hypotheses are met on the circle -/

example : OnSphere ![(3 : ℝ) / 5, 4 / 5] ∧ SphereTangent ![(3 : ℝ) / 5, 4 / 5] ![4, -3] ∧
    ![(0 : ℝ), 1] ≠ -![(3 : ℝ) / 5, 4 / 5] := by
  refine ⟨by norm_num [OnSphere], by norm_num [SphereTangent], fun h => ?_⟩
  have := congrFun h 1
  norm_num at this

/-- A curve on the circle (hypotheses of `C60_derivative`). -/
example : (∀ t, OnSphere ![Real.cos t, Real.sin t]) ∧
    HasDerivAt (fun t => ![Real.cos t, Real.sin t]) ![0, 1] 0 := by
  refine ⟨fun t => by simp [OnSphere], ?_⟩
  rw [hasDerivAt_pi]
  intro i
  fin_cases i
  · simpa using Real.hasDerivAt_cos 0
  · simpa using Real.hasDerivAt_sin 0

end Verif.Geo
