/-
Derivatives of half the square of an angle, and of half the square of the squared logarithm.
-/
import Verif.Geo.Lemmas.TraceDeriv
import Mathlib.Analysis.SpecialFunctions.Trigonometric.InverseDeriv
import Mathlib.Analysis.SpecialFunctions.Trigonometric.Bounds
import Mathlib.Analysis.SpecialFunctions.Arcosh

namespace Verif.Geo
open scoped Topology
open Filter

/-- The square of the angle is at most a multiple of one minus the cosine. -/
theorem arccos_sq_le {u : ℝ} (h : -1 ≤ u) (h' : u ≤ 1) :
    Real.arccos u ^ 2 ≤ Real.pi ^ 2 / 2 * (1 - u) := by
  have h1 := Real.cos_le_one_sub_mul_cos_sq (x := Real.arccos u)
    (by rw [abs_of_nonneg (Real.arccos_nonneg u)]; exact Real.arccos_le_pi u)
  rw [Real.cos_arccos h h'] at h1
  have hpi := Real.pi_pos
  have h2 : 2 / Real.pi ^ 2 * Real.arccos u ^ 2 ≤ 1 - u := by linarith
  rw [div_mul_eq_mul_div, div_le_iff₀ (by positivity)] at h2
  linarith

/-- The derivative of half the square of an angle below `π`.  At angle zero the derivative is zero. -/
theorem hasDerivAt_half_arccos_sq {u : ℝ → ℝ} {u' : ℝ} (hu : HasDerivAt u u' 0)
    (h1 : ∀ t, u t ≤ 1) (h2 : ∀ t, -1 ≤ u t) (h0 : u 0 ≠ -1) :
    HasDerivAt (fun t => Real.arccos (u t) ^ 2 / 2)
      (-(Real.arccos (u 0) / Real.sin (Real.arccos (u 0)) * u')) 0 := by
  by_cases h : u 0 = 1
  · have hu0 : u' = 0 := by
      refine IsLocalMax.hasDerivAt_eq_zero (f := u) (a := 0) ?_ hu
      exact Eventually.of_forall fun t => by rw [h]; exact h1 t
    subst hu0
    rw [mul_zero, neg_zero]
    refine hasDerivAt_of_sq_bound (l := fun _ => 0) (q := fun t => 1 - u t)
      (C := Real.pi ^ 2 / 2 / 2) (hasDerivAt_const _ _) (by simpa using hu.const_sub 1)
      (by simp [h]) (Eventually.of_forall fun t => ?_)
    rw [h, Real.arccos_one]
    have := arccos_sq_le (h2 t) (h1 t)
    simp only [ne_eq, OfNat.ofNat_ne_zero, not_false_eq_true, zero_pow, zero_div, sub_zero]
    rw [abs_of_nonneg (by positivity)]
    linarith
  · have h3 := (Real.hasDerivAt_arccos h0 h).comp (0 : ℝ) hu
    have h4 := (h3.fun_pow 2).div_const 2
    refine h4.congr_deriv ?_
    simp only [Function.comp_apply, Real.sin_arccos]
    push_cast
    ring

end Verif.Geo
