/-
Costs with Lipschitz gradient on a space with an inner product: the quadratic upper bound, along
straight lines and along retractions.
-/
import Mathlib.Analysis.Calculus.Deriv.MeanValue
import Mathlib.Analysis.Calculus.Deriv.Pow
import Verif.Geo.Spec

namespace Verif.Geo

variable {E : Type*} [AddCommGroup E] [Module ℝ E]

/-- A cost on arrays with the Euclidean gradient `egrad`, which is Lipschitz with constant `L`, and
the Euclidean Hessian `ehess`; `B` is the Euclidean inner product. -/
structure SmoothCost (B : E → E → ℝ) (cost : E → ℝ) (egrad : E → E) (ehess : E → E → E) (L : ℝ) :
    Prop where
  nonneg : 0 ≤ L
  grad : ∀ x d, HasDerivAt (fun t : ℝ => cost (x + t • d)) (B (egrad x) d) 0
  lip : ∀ x y, B (egrad y - egrad x) (egrad y - egrad x) ≤ L ^ 2 * B (y - x) (y - x)
  hess : ∀ x d w, HasDerivAt (fun t : ℝ => B (egrad (x + t • d)) w) (B (ehess x d) w) 0

namespace IsInner
variable {B : E → E → ℝ} (h : IsInner B)
include h

/-- Cauchy–Schwarz with bounds on the lengths. -/
theorem abs_le {u v : E} {a b : ℝ} (ha : 0 ≤ a) (hb : 0 ≤ b) (hu : B u u ≤ a ^ 2)
    (hv : B v v ≤ b ^ 2) : |B u v| ≤ a * b := by
  refine abs_le_of_sq_le_sq ?_ (mul_nonneg ha hb)
  calc B u v ^ 2 ≤ B u u * B v v := h.cauchy u v
    _ ≤ a ^ 2 * b ^ 2 := mul_le_mul hu hv (h.nonneg v) (sq_nonneg a)
    _ = (a * b) ^ 2 := by ring

end IsInner

namespace SmoothCost
variable {B : E → E → ℝ} {cost : E → ℝ} {egrad : E → E} {ehess : E → E → E} {L : ℝ}

/-- The gradient changes by at most `L * |t|` times the length along a line. -/
theorem line_lip (hs : SmoothCost B cost egrad ehess L) (h : IsInner B) (x d : E) (t : ℝ) :
    |B (egrad (x + t • d)) d - B (egrad x) d| ≤ L * |t| * B d d := by
  rw [← h.sub_left]
  have h1 := hs.lip x (x + t • d)
  rw [add_sub_cancel_left, h.smul_left, h.smul_right] at h1
  have h0 := h.nonneg d
  have h2 := h.abs_le (u := egrad (x + t • d) - egrad x) (v := d) (a := L * |t| * √(B d d))
    (b := √(B d d)) (mul_nonneg (mul_nonneg hs.nonneg (abs_nonneg t)) (Real.sqrt_nonneg _))
    (Real.sqrt_nonneg _) (by
      rw [mul_pow, mul_pow, Real.sq_sqrt h0, sq_abs]
      calc _ ≤ _ := h1
        _ = _ := by ring) (Real.sq_sqrt h0).ge
  rwa [mul_assoc, Real.mul_self_sqrt h0] at h2

/-- The quadratic upper bound. -/
theorem upper (hs : SmoothCost B cost egrad ehess L) (h : IsInner B) (x y : E) :
    cost y ≤ cost x + B (egrad x) (y - x) + L / 2 * B (y - x) (y - x) := by
  obtain ⟨d, hd⟩ : ∃ d, d = y - x := ⟨_, rfl⟩
  rw [← hd]
  have hline : ∀ t : ℝ, HasDerivAt (fun s : ℝ => cost (x + s • d)) (B (egrad (x + t • d)) d) t := by
    intro t
    have h1 := hs.grad (x + t • d) d
    rw [← sub_self t] at h1
    have h2 := HasDerivAt.comp t (h₂ := fun s : ℝ => cost (x + t • d + s • d))
      (h := fun s : ℝ => s - t) h1
      ((hasDerivAt_id t).sub_const t)
    rw [mul_one] at h2
    refine h2.congr_of_eventuallyEq (Filter.Eventually.of_forall fun s => ?_)
    change cost (x + s • d) = cost (x + t • d + (s - t) • d)
    congr 1
    module
  have hφ : ∀ t : ℝ, HasDerivAt
      (fun s : ℝ => cost (x + s • d) - s * B (egrad x) d - L / 2 * B d d * s ^ 2)
      (B (egrad (x + t • d)) d - B (egrad x) d - L * t * B d d) t := by
    intro t
    have h1 := ((hline t).sub ((hasDerivAt_id t).mul_const (B (egrad x) d))).sub
      ((hasDerivAt_pow 2 t).const_mul (L / 2 * B d d))
    refine h1.congr_deriv ?_
    simp only [one_mul, Nat.cast_ofNat, Nat.add_one_sub_one, pow_one]
    ring
  have hanti : AntitoneOn
      (fun s : ℝ => cost (x + s • d) - s * B (egrad x) d - L / 2 * B d d * s ^ 2) (Set.Icc 0 1) := by
    refine antitoneOn_of_deriv_nonpos (convex_Icc 0 1)
      (fun t _ => (hφ t).continuousAt.continuousWithinAt)
      (fun t _ => (hφ t).differentiableAt.differentiableWithinAt) fun t ht => ?_
    rw [interior_Icc] at ht
    rw [(hφ t).deriv]
    have := (abs_le.1 (hs.line_lip h x d t)).2
    rw [abs_of_pos ht.1] at this
    linarith
  have := hanti (Set.left_mem_Icc.2 zero_le_one) (Set.right_mem_Icc.2 zero_le_one) zero_le_one
  simp only [one_smul, one_mul, one_pow, mul_one, zero_smul, add_zero, zero_mul, sub_zero, ne_eq,
    OfNat.ofNat_ne_zero, not_false_eq_true, zero_pow, mul_zero] at this
  rw [hd] at this ⊢
  rw [add_sub_cancel] at this
  linarith

/-- The curvature of the cost is at most `L`. -/
theorem curv (hs : SmoothCost B cost egrad ehess L) (h : IsInner B) (x d : E) :
    |B (ehess x d) d| ≤ L * B d d := by
  have := (hs.hess x d d).le_of_lip' (C := L * B d d) (mul_nonneg hs.nonneg (h.nonneg d))
    (Filter.Eventually.of_forall fun t => ?_)
  · simpa using this
  · have := hs.line_lip h x d t
    simp only [Real.norm_eq_abs, zero_smul, add_zero, sub_zero]
    linarith

/-- The upper bound along a curve that leaves the point `x` in the direction `v` and stays within
`α |v|` of the point and `β |v|²` of the straight line. -/
theorem retract (hs : SmoothCost B cost egrad ehess L) (h : IsInner B) {x y v : E} {α β G : ℝ}
    (hβ : 0 ≤ β) (hG : 0 ≤ G) (h1 : B (y - x) (y - x) ≤ α ^ 2 * B v v)
    (h2 : B (y - x - v) (y - x - v) ≤ (β * B v v) ^ 2) (hg : B (egrad x) (egrad x) ≤ G ^ 2) :
    cost y ≤ cost x + B (egrad x) v + (α ^ 2 * L + 2 * β * G) / 2 * B v v := by
  have h3 := hs.upper h x y
  have h4 := (abs_le.1 (h.abs_le hG (mul_nonneg hβ (h.nonneg v)) hg h2)).2
  rw [h.sub_right] at h4
  have h5 := mul_le_mul_of_nonneg_left h1 (div_nonneg hs.nonneg zero_le_two)
  linarith

end SmoothCost

end Verif.Geo
