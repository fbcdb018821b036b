/-
Lemmas about `tensordot` and `npNorm`.
-/
import Verif.Geo.Model.NumPy
import Verif.Geo.Spec

namespace Verif.Geo
open scoped BigOperators

variable {ι : Type*} [Fintype ι]

theorem tensordot_inner : IsInner (E := ι → ℝ) tensordot where
  add_left u v w := by simp [tensordot, add_mul, Finset.sum_add_distrib]
  smul_left c u v := by simp [tensordot, Finset.mul_sum, mul_assoc]
  symm u v := by simp [tensordot, mul_comm]
  nonneg u := Finset.sum_nonneg fun i _ => mul_self_nonneg (u i)
  definite u h := by
    have := (Finset.sum_eq_zero_iff_of_nonneg (fun i _ => mul_self_nonneg (u i))).mp h
    funext i
    exact mul_self_eq_zero.mp (this i (Finset.mem_univ i))

section
variable {𝕜 : Type*} [RCLike 𝕜]

theorem retensordot_inner : IsInner (E := ι → 𝕜) retensordot where
  add_left u v w := by simp [retensordot, add_mul, Finset.sum_add_distrib]
  smul_left c u v := by
    simp only [retensordot, Pi.smul_apply, RCLike.real_smul_eq_coe_mul, star_mul', map_sum,
      Finset.mul_sum]
    refine Finset.sum_congr rfl fun i _ => ?_
    simp [mul_assoc]
  symm u v := by
    simp only [retensordot, map_sum]
    refine Finset.sum_congr rfl fun i _ => ?_
    rw [← RCLike.conj_re]
    simp [mul_comm]
  nonneg u := by
    simp only [retensordot, map_sum]
    refine Finset.sum_nonneg fun i _ => ?_
    simp only [RCLike.star_def, RCLike.conj_mul]
    rw [← RCLike.ofReal_pow, RCLike.ofReal_re]
    positivity
  definite u h := by
    simp only [retensordot, map_sum, RCLike.star_def, RCLike.conj_mul] at h
    have h' : ∑ i, ‖u i‖ ^ 2 = 0 := by
      rw [← h]
      refine Finset.sum_congr rfl fun i _ => ?_
      rw [← RCLike.ofReal_pow, RCLike.ofReal_re]
    have := (Finset.sum_eq_zero_iff_of_nonneg (fun i _ => by positivity)).mp h'
    funext i
    simpa using this i (Finset.mem_univ i)

theorem retensordot_self (u : ι → 𝕜) : retensordot u u = ∑ i, ‖u i‖ ^ 2 := by
  simp only [retensordot, map_sum, RCLike.star_def, RCLike.conj_mul]
  refine Finset.sum_congr rfl fun i _ => ?_
  rw [← RCLike.ofReal_pow, RCLike.ofReal_re]

theorem npNorm_sq (u : ι → 𝕜) : npNorm u ^ 2 = retensordot u u := by
  rw [npNorm, retensordot_self, Real.sq_sqrt (Finset.sum_nonneg fun i _ => by positivity)]

theorem npNorm_nonneg (u : ι → 𝕜) : 0 ≤ npNorm u := Real.sqrt_nonneg _

theorem npNorm_eq_zero (u : ι → 𝕜) : npNorm u = 0 ↔ u = 0 := by
  rw [← sq_eq_zero_iff, npNorm_sq]
  exact retensordot_inner.eq_zero_iff u

theorem npNorm_smul (c : ℝ) (u : ι → 𝕜) : npNorm (c • u) = |c| * npNorm u := by
  have h : npNorm (c • u) ^ 2 = (|c| * npNorm u) ^ 2 := by
    rw [npNorm_sq, mul_pow, npNorm_sq, retensordot_inner.smul_left, retensordot_inner.smul_right,
      sq_abs]
    ring
  exact (sq_eq_sq₀ (npNorm_nonneg _) (mul_nonneg (abs_nonneg _) (npNorm_nonneg _))).mp h

end

theorem retensordot_real (u v : ι → ℝ) : retensordot u v = tensordot u v := by
  simp [retensordot, tensordot]

theorem npNorm_sq_real (u : ι → ℝ) : npNorm u ^ 2 = tensordot u u := by
  rw [npNorm_sq, retensordot_real]

theorem npNorm_eq_sqrt (u : ι → ℝ) : npNorm u = Real.sqrt (tensordot u u) := by
  rw [← npNorm_sq_real, Real.sqrt_sq (npNorm_nonneg u)]

theorem npNorm_inv_smul {u : ι → ℝ} (h : u ≠ 0) : npNorm ((npNorm u)⁻¹ • u) = 1 := by
  have hn : npNorm u ≠ 0 := fun h' => h ((npNorm_eq_zero u).mp h')
  rw [npNorm_smul, abs_of_nonneg (inv_nonneg.mpr (npNorm_nonneg u)), inv_mul_cancel₀ hn]

theorem npSinc_div_pi (x : ℝ) : npSinc (x / Real.pi) = Real.sinc x := by
  rw [npSinc, mul_div_cancel₀ _ Real.pi_ne_zero]

end Verif.Geo
