/-
C78–C80, C55 and C101 for the manifold of positive matrices.
-/
import Verif.Geo.Model.Positive
import Verif.Geo.Spec
import Verif.Geo.Lemmas.Dot
import Mathlib.Analysis.SpecialFunctions.ExpDeriv
import Mathlib.Analysis.SpecialFunctions.Exp
import Mathlib.Analysis.Complex.Exponential
import Mathlib.Analysis.Calculus.Deriv.Prod
import Mathlib.Analysis.InnerProductSpace.PiL2
import Mathlib.Tactic.Positivity
import Mathlib.Tactic.FieldSimp

namespace Verif.Geo
open scoped BigOperators

variable {ι : Type*}

/-- A point of the manifold: all entries positive. -/
def PosPoint (p : ι → ℝ) : Prop := ∀ i, 0 < p i

/-! ### C78 -/

section
variable [Fintype ι]

theorem posInner_eq (p a b : ι → ℝ) : posInner p a b = ∑ i, a i * b i / p i ^ 2 := by
  refine Finset.sum_congr rfl fun i _ => ?_
  rw [Pi.div_apply, Pi.div_apply]; ring

/-- C78: the metric is an inner product at every point, and `norm` is its norm. -/
theorem C78_metric (p : ι → ℝ) (hp : PosPoint p) :
    IsInner (posInner p) ∧ ∀ v, posNorm p v ^ 2 = posInner p v v := by
  have h : IsInner (posInner p) := by
    refine ⟨?_, ?_, ?_, ?_, ?_⟩
    · intro u v w
      rw [posInner, show (u + v) / p = u / p + v / p from funext fun i => add_div _ _ _,
        tensordot_inner.add_left]; rfl
    · intro c u v
      simp only [posInner, smul_div_assoc, tensordot_inner.smul_left]
    · intro u v; exact tensordot_inner.symm _ _
    · intro u; exact tensordot_inner.nonneg _
    · intro u h0
      have := tensordot_inner.definite _ h0
      funext i
      have hi := congrFun this i
      rw [Pi.div_apply, Pi.zero_apply, div_eq_zero_iff] at hi
      exact hi.resolve_right (hp i).ne'
  exact ⟨h, fun v => Real.sq_sqrt (h.nonneg v)⟩

/-- C78: `exp` is positive, `exp` and `log` invert each other, and they measure the distance. -/
theorem C78_exp_log (a b v : ι → ℝ) (ha : PosPoint a) (hb : PosPoint b) :
    PosPoint (posExp a v) ∧ posExp a (posLog a b) = b ∧ posLog a (posExp a v) = v ∧
      posNorm a (posLog a b) = posDist a b ∧ posDist a (posExp a v) = posNorm a v := by
  have h3 : posLog a (posExp a v) = v := by
    funext i
    rw [posLog, posExp, Real.log_mul (ha i).ne' (Real.exp_pos _).ne', Real.log_exp, add_sub_cancel_left,
      mul_div_cancel₀ _ (ha i).ne']
  have h4 : ∀ b, posNorm a (posLog a b) = posDist a b := by
    intro b
    rw [posNorm, posDist]
    congr 1
    rw [posInner]
    refine Finset.sum_congr rfl fun i _ => ?_
    rw [Pi.div_apply, posLog, mul_div_cancel_left₀ _ (ha i).ne']
    ring
  refine ⟨fun i => mul_pos (ha i) (Real.exp_pos _), ?_, h3, h4 b, ?_⟩
  · funext i
    rw [posExp, posLog, mul_div_cancel_left₀ _ (ha i).ne', Real.exp_sub, Real.exp_log (hb i),
      Real.exp_log (ha i), mul_div_cancel₀ _ (ha i).ne']
  · rw [← h4, h3]

/-- C78: the distance is a metric. -/
theorem C78_dist (a b c : ι → ℝ) (ha : PosPoint a) (hb : PosPoint b) :
    0 ≤ posDist a b ∧ posDist a b = posDist b a ∧ (posDist a b = 0 ↔ a = b) ∧
      posDist a c ≤ posDist a b + posDist b c := by
  have hd : ∀ a b : ι → ℝ, posDist a b =
      npNorm fun i => Real.log (a i) - Real.log (b i) := fun a b => (npNorm_eq_sqrt _).symm
  refine ⟨Real.sqrt_nonneg _, ?_, ?_, ?_⟩
  · rw [posDist, posDist]
    congr 1
    refine Finset.sum_congr rfl fun i _ => by ring
  · rw [hd, npNorm_eq_zero]
    constructor
    · intro h
      funext i
      exact Real.log_injOn_pos (ha i) (hb i) (sub_eq_zero.mp (congrFun h i))
    · rintro rfl
      funext i; simp
  · have hn : ∀ u : ι → ℝ, npNorm u = ‖WithLp.toLp 2 u‖ := by
      intro u
      rw [EuclideanSpace.norm_eq, npNorm]
    rw [hd, hd, hd, hn, hn, hn]
    refine le_trans (le_of_eq ?_) (norm_add_le _ _)
    congr 1
    ext i
    simp

omit [Fintype ι] in
/-- C55: `to_tangent_space` is the identity, every vector is tangent. -/
theorem C55_positive (p v : ι → ℝ) : posProj p v = v := rfl

/-- C78, C101: random points are positive and random tangent vectors have norm one. -/
theorem C101_positive (p draw : ι → ℝ) (hp : PosPoint p) :
    PosPoint (posRandomPoint draw) ∧ (draw ≠ 0 → posNorm p (posRandomTangent p draw) = 1) := by
  refine ⟨fun i => Real.exp_pos _, fun h => ?_⟩
  obtain ⟨hI, hN⟩ := C78_metric p hp
  have h0 : draw * p ≠ 0 := by
    intro h0
    refine h (funext fun i => ?_)
    exact (mul_eq_zero.mp (congrFun h0 i)).resolve_right (hp i).ne'
  have h1 : 0 ≤ posNorm p (draw * p) := Real.sqrt_nonneg _
  have h2 : posNorm p (draw * p) ≠ 0 := by
    intro h2
    have := hN (draw * p)
    rw [h2] at this
    exact h0 (hI.definite _ (by rw [← this]; ring))
  have h3 : posNorm p (posRandomTangent p draw) ^ 2 = 1 := by
    rw [hN, posRandomTangent, hI.smul_left, hI.smul_right, ← hN]
    field_simp
  have h4 : 0 ≤ posNorm p (posRandomTangent p draw) := Real.sqrt_nonneg _
  nlinarith

/-! ### C79 -/

omit [Fintype ι] in
/-- C79: the retraction is positive and returns the point at zero. -/
theorem C79_positive (p v : ι → ℝ) (hp : PosPoint p) :
    PosPoint (posRetract p v) ∧ posRetract p (posZero p) = p := by
  constructor
  · intro i
    have hi := hp i
    have : posRetract p v i = ((p i + v i) ^ 2 + p i ^ 2) / (2 * p i) := by
      rw [posRetract]; field_simp; ring
    rw [this]
    have : 0 < p i ^ 2 := by positivity
    have := sq_nonneg (p i + v i)
    apply div_pos <;> linarith
  · funext i; simp [posRetract, posZero]

omit [Fintype ι] in
/-- C79: along every tangent vector the retraction agrees with the geodesic up to an error of third
order; both have the tangent vector as initial velocity. -/
theorem C79_second_order (p v : ι → ℝ) (hp : PosPoint p) :
    (∀ i, ∃ C, ∀ t : ℝ, |t * (v i / p i)| ≤ 1 →
      |posRetract p (t • v) i - posExp p (t • v) i| ≤ C * |t| ^ 3) ∧
    HasDerivAt (fun t : ℝ => posRetract p (t • v)) v 0 ∧
    HasDerivAt (fun t : ℝ => posExp p (t • v)) v 0 := by
  refine ⟨fun i => ⟨p i * |v i / p i| ^ 3 * (2 / 9), fun t ht => ?_⟩, ?_, ?_⟩
  · have hi := hp i
    have h1 := Real.exp_bound ht (n := 3) (by norm_num)
    have h2 : posRetract p (t • v) i - posExp p (t • v) i = -(p i * (Real.exp (t * (v i / p i)) -
        ∑ m ∈ Finset.range 3, (t * (v i / p i)) ^ m / m.factorial)) := by
      simp only [posRetract, posExp, Pi.smul_apply, smul_eq_mul, Finset.sum_range_succ,
        Finset.sum_range_zero, Nat.factorial]
      rw [mul_div_assoc]
      field_simp
      push_cast
      ring
    rw [h2, abs_neg, abs_mul, abs_of_pos hi]
    have h3 : |t * (v i / p i)| ^ 3 = |t| ^ 3 * |v i / p i| ^ 3 := by rw [abs_mul, mul_pow]
    rw [h3] at h1
    norm_num [Nat.factorial] at h1
    nlinarith [mul_le_mul_of_nonneg_left h1 hi.le]
  · rw [hasDerivAt_pi]
    intro i
    have h := (hasDerivAt_id (0 : ℝ)).mul_const (v i)
    have h2 := (h.pow 2).div_const (p i) |>.div_const 2
    have := (h.const_add (p i)).add h2
    refine this.congr_deriv (by simp)
  · rw [hasDerivAt_pi]
    intro i
    have h := ((hasDerivAt_id (0 : ℝ)).mul_const (v i)).div_const (p i)
    have := h.exp.const_mul (p i)
    refine this.congr_deriv ?_
    simp [mul_div_cancel₀ _ (hp i).ne']

/-! ### C80 -/

/-- C80: the converted gradient represents the Euclidean differential. -/
theorem C80_gradient (p G v : ι → ℝ) (hp : PosPoint p) :
    posInner p (posE2rg p G) v = tensordot G v := by
  rw [posInner_eq, tensordot]
  refine Finset.sum_congr rfl fun i _ => ?_
  have := (hp i).ne'
  rw [posE2rg, Pi.mul_apply, Pi.pow_apply]
  field_simp

/-- C80: the converted Hessian is symmetric for the metric when the Euclidean one is. -/
theorem C80_symmetric (p G : ι → ℝ) (hp : PosPoint p) (H : (ι → ℝ) → ι → ℝ)
    (hH : ∀ u v, tensordot u (H v) = tensordot (H u) v) :
    IsSymmOn (posInner p) (fun _ => True) fun v => posE2rh p G (H v) v := by
  refine ⟨fun _ => trivial, fun {u v} _ _ => ?_⟩
  have e : ∀ u v, posInner p u (posE2rh p G (H v) v) =
      tensordot u (H v) + ∑ i, u i * v i * G i / p i := by
    intro u v
    rw [posInner_eq, tensordot, ← Finset.sum_add_distrib]
    refine Finset.sum_congr rfl fun i _ => ?_
    have := (hp i).ne'
    simp only [posE2rh, Pi.add_apply, Pi.mul_apply, Pi.pow_apply]
    field_simp
  rw [e, (C78_metric p hp).1.symm, e, hH, tensordot_inner.symm]
  congr 1
  refine Finset.sum_congr rfl fun i _ => by ring

/-- C80: the quadratic form of the converted Hessian is the second derivative of the cost along the
geodesic.  `f` is the cost, `G` its Euclidean gradient field, `H` the derivative of `G` along the
geodesic through `p` with velocity `v`. -/
theorem C80_second_derivative (p v : ι → ℝ) (hp : PosPoint p) (f : (ι → ℝ) → ℝ)
    (G : (ι → ℝ) → ι → ℝ) (H : ι → ℝ)
    (hf : ∀ (c : ℝ → ι → ℝ) (c' : ι → ℝ) (t : ℝ), HasDerivAt c c' t → PosPoint (c t) →
      HasDerivAt (fun s => f (c s)) (tensordot (G (c t)) c') t)
    (hG : HasDerivAt (fun t : ℝ => G (posExp p (t • v))) H 0) :
    ∃ φ : ℝ → ℝ, (∀ t, HasDerivAt (fun s : ℝ => f (posExp p (s • v))) (φ t) t) ∧
      φ 0 = posInner p (posE2rg p (G p)) v ∧
      HasDerivAt φ (posInner p (posE2rh p (G p) H v) v) 0 := by
  have hd : ∀ t, HasDerivAt (fun s : ℝ => posExp p (s • v))
      (fun i => v i * Real.exp (t * v i / p i)) t := by
    intro t
    rw [hasDerivAt_pi]
    intro i
    have h := ((hasDerivAt_id t).mul_const (v i)).div_const (p i)
    have := h.exp.const_mul (p i)
    refine this.congr_deriv ?_
    have := (hp i).ne'
    simp only [id]
    field_simp
  have h0 : posExp p ((0 : ℝ) • v) = p := by funext i; simp [posExp]
  refine ⟨fun t => tensordot (G (posExp p (t • v))) fun i => v i * Real.exp (t * v i / p i),
    fun t => hf _ _ t (hd t) fun i => mul_pos (hp i) (Real.exp_pos _), ?_, ?_⟩
  · rw [C80_gradient p (G p) v hp]
    simp only [h0]
    refine Finset.sum_congr rfl fun i _ => by simp
  · rw [hasDerivAt_pi] at hG
    have h1 : ∀ i, HasDerivAt (fun t : ℝ => G (posExp p (t • v)) i * (v i *
        Real.exp (t * v i / p i))) (H i * v i + G p i * (v i * (v i / p i))) 0 := by
      intro i
      have h := ((hasDerivAt_id (0 : ℝ)).mul_const (v i)).div_const (p i)
      have h2 := h.exp.const_mul (v i)
      have h3 := (hG i).mul h2
      refine h3.congr_deriv ?_
      rw [h0]
      simp
    have h2 := HasDerivAt.fun_sum (u := Finset.univ) fun i _ => h1 i
    refine h2.congr_deriv ?_
    rw [posInner_eq]
    refine Finset.sum_congr rfl fun i _ => ?_
    have := (hp i).ne'
    simp only [posE2rh, Pi.add_apply, Pi.mul_apply, Pi.pow_apply]
    field_simp

/-- C80: the parallel transport preserves the metric, composes with itself along any path of points,
and carries the velocity of a geodesic along; the default transporter is the identity. -/
theorem C80_transport (a b c u v : ι → ℝ) (ha : PosPoint a) (hb : PosPoint b) :
    posInner b (posTransport true a b u) (posTransport true a b v) = posInner a u v ∧
    posTransport true b c (posTransport true a b v) = posTransport true a c v ∧
    posTransport true a a v = v ∧
    (∀ t, HasDerivAt (fun s : ℝ => posExp a (s • v))
      (posTransport true a (posExp a (t • v)) v) t) ∧
    posTransport false a b v = v := by
  refine ⟨?_, ?_, ?_, ?_, rfl⟩
  · rw [posInner_eq, posInner_eq]
    refine Finset.sum_congr rfl fun i _ => ?_
    have := (ha i).ne'
    have := (hb i).ne'
    simp only [posTransport, posParallel, if_true, Pi.mul_apply, Pi.div_apply]
    field_simp
  · funext i
    have := (ha i).ne'
    have := (hb i).ne'
    simp only [posTransport, posParallel, if_true, Pi.mul_apply, Pi.div_apply]
    field_simp
  · funext i
    have := (ha i).ne'
    simp only [posTransport, posParallel, if_true, Pi.mul_apply, Pi.div_apply]
    field_simp
  · intro t
    rw [hasDerivAt_pi]
    intro i
    have h := ((hasDerivAt_id t).mul_const (v i)).div_const (a i)
    have := h.exp.const_mul (a i)
    refine this.congr_deriv ?_
    have := (ha i).ne'
    simp only [posTransport, posParallel, if_true, Pi.mul_apply, Pi.div_apply, posExp,
      Pi.smul_apply, smul_eq_mul, id]
    field_simp

end

/-! ### Examples -/

example : PosPoint ![(1 : ℝ), 2] ∧ ![(1 : ℝ), 2] ≠ ![2, 1] ∧
    posRetract ![(1 : ℝ), 2] ![-3, 1] 0 = 5 / 2 := by
  refine ⟨fun i => by fin_cases i <;> simp, fun h => ?_, ?_⟩
  · have := congrFun h 0
    simp at this
  · simp [posRetract]; norm_num

-- a cost, its gradient field and Hessian as assumed in `C80_second_derivative`: the sum of squares
example (v : Fin 2 → ℝ) (f : (Fin 2 → ℝ) → ℝ) (hf : f = fun x => ∑ i, x i ^ 2)
    (c : ℝ → Fin 2 → ℝ) (c' : Fin 2 → ℝ) (t : ℝ) (hc : HasDerivAt c c' t) :
    HasDerivAt (fun s => f (c s)) (tensordot ((2 : ℝ) • c t) c') t ∧
      HasDerivAt (fun s : ℝ => (2 : ℝ) • posExp (fun _ => 1) (s • v)) ((2 : ℝ) • v) 0 := by
  constructor
  · rw [hasDerivAt_pi] at hc
    have := HasDerivAt.fun_sum (u := Finset.univ) fun i _ => (hc i).pow 2
    rw [hf]
    refine this.congr_deriv ?_
    refine Finset.sum_congr rfl fun i _ => ?_
    simp
  · exact (C79_second_order (fun _ => 1) v fun _ => one_pos).2.2.const_smul (2 : ℝ)

end Verif.Geo
