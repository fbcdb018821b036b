/-
The quotient `⟪x, A x⟫ / 2` on the unit sphere of an inner product space, near an eigenvector for a
smallest eigenvalue that is simple: curvature, and the accuracy of the quadratic model of the cost
and of the linear model of the gradient along the normalising retraction.
-/
import Mathlib.Analysis.InnerProductSpace.Basic
import Mathlib.Tactic.Module

namespace Verif.Geo
open scoped InnerProductSpace

variable {V : Type*} [NormedAddCommGroup V] [InnerProductSpace ℝ V]

/-- Component of `w` orthogonal to the unit vector `y`. -/
noncomputable def rayPerp (y w : V) : V := w - ⟪y, w⟫_ℝ • y

theorem rayPerp_sq {y : V} (hy : ⟪y, y⟫_ℝ = 1) (w : V) :
    ⟪rayPerp y w, rayPerp y w⟫_ℝ = ⟪w, w⟫_ℝ - ⟪y, w⟫_ℝ ^ 2 := by
  unfold rayPerp
  simp only [inner_sub_left, inner_sub_right, real_inner_smul_left, real_inner_smul_right, hy,
    real_inner_comm w y]
  ring

theorem rayPerp_norm {y : V} (hy : ⟪y, y⟫_ℝ = 1) (w : V) : ‖rayPerp y w‖ ≤ ‖w‖ := by
  refine abs_le_of_sq_le_sq' ?_ (norm_nonneg _) |>.2
  rw [← real_inner_self_eq_norm_sq, ← real_inner_self_eq_norm_sq, rayPerp_sq hy]
  linarith [sq_nonneg ⟪y, w⟫_ℝ]

theorem rayPerp_add (y u w : V) : rayPerp y (u + w) = rayPerp y u + rayPerp y w := by
  unfold rayPerp
  rw [inner_add_right]
  module

theorem rayPerp_smul (y : V) (a : ℝ) (w : V) : rayPerp y (a • w) = a • rayPerp y w := by
  unfold rayPerp
  rw [real_inner_smul_right]
  module

theorem rayPerp_self {y : V} (hy : ⟪y, y⟫_ℝ = 1) : rayPerp y y = 0 := by
  unfold rayPerp
  rw [hy]
  module

section
variable {A : V →ₗ[ℝ] V} {K : ℝ} (hK : ∀ w, ‖A w‖ ≤ K * ‖w‖) {x v y : V} {s : ℝ}
include hK

theorem ray_inner_le (u w : V) : |⟪u, A w⟫_ℝ| ≤ K * ‖u‖ * ‖w‖ := by
  refine (abs_real_inner_le_norm _ _).trans ?_
  calc ‖u‖ * ‖A w‖ ≤ ‖u‖ * (K * ‖w‖) := mul_le_mul_of_nonneg_left (hK w) (norm_nonneg _)
    _ = K * ‖u‖ * ‖w‖ := by ring

/-- The quadratic model of the cost. -/
theorem ray_cost (hsym : ∀ u w, ⟪A u, w⟫_ℝ = ⟪u, A w⟫_ℝ) (hK0 : 0 ≤ K) (hx : ⟪x, x⟫_ℝ = 1)
    (hs : s ^ 2 = 1 + ‖v‖ ^ 2) (hy : y = s⁻¹ • (x + v)) :
    |1 / 2 * ⟪y, A y⟫_ℝ - (1 / 2 * ⟪x, A x⟫_ℝ + ⟪x, A v⟫_ℝ +
      1 / 2 * (⟪v, A v⟫_ℝ - ⟪x, A x⟫_ℝ * ‖v‖ ^ 2))| ≤ 2 * K * ‖v‖ ^ 3 := by
  have hx1 : ‖x‖ = 1 := by
    rw [real_inner_self_eq_norm_sq] at hx
    exact (pow_eq_one_iff_of_nonneg (norm_nonneg _) two_ne_zero).1 hx
  have hρ := ray_inner_le hK x x
  have ha := ray_inner_le hK x v
  have hb := ray_inner_le hK v v
  rw [hx1] at hρ ha
  have hyy : ⟪y, A y⟫_ℝ = (⟪x, A x⟫_ℝ + 2 * ⟪x, A v⟫_ℝ + ⟪v, A v⟫_ℝ) / s ^ 2 := by
    rw [hy]
    simp only [map_smul, map_add, inner_add_left, inner_add_right, real_inner_smul_left,
      real_inner_smul_right]
    rw [← hsym v x, real_inner_comm x (A v)]
    field_simp
    ring
  rw [hyy]
  obtain ⟨t, ht⟩ : ∃ t, t = ‖v‖ := ⟨_, rfl⟩
  have ht0 : 0 ≤ t := by rw [ht]; exact norm_nonneg _
  rw [← ht] at hs ha hb ⊢
  generalize ⟪x, A x⟫_ℝ = ρ at *
  generalize ⟪x, A v⟫_ℝ = a at *
  generalize ⟪v, A v⟫_ℝ = b at *
  have hs0 : 0 < s ^ 2 := by rw [hs]; positivity
  have e : 1 / 2 * ((ρ + 2 * a + b) / s ^ 2) - (1 / 2 * ρ + a + 1 / 2 * (b - ρ * t ^ 2)) =
      (-(t ^ 2 * a) - 1 / 2 * t ^ 2 * b + 1 / 2 * t ^ 4 * ρ) / s ^ 2 := by
    rw [eq_div_iff hs0.ne', sub_mul, mul_assoc, div_mul_cancel₀ _ hs0.ne', hs]
    ring
  rw [e, abs_div, abs_of_pos hs0, div_le_iff₀ hs0, hs]
  have h1 : t ^ 2 * |a| ≤ t ^ 2 * (K * t) :=
    mul_le_mul_of_nonneg_left (by linarith) (by positivity)
  have h2 : 1 / 2 * t ^ 2 * |b| ≤ 1 / 2 * t ^ 2 * (K * t ^ 2) :=
    mul_le_mul_of_nonneg_left (by rw [sq]; linarith) (by positivity)
  have h3 : 1 / 2 * t ^ 4 * |ρ| ≤ 1 / 2 * t ^ 4 * K :=
    mul_le_mul_of_nonneg_left (by linarith) (by positivity)
  have h4 : |-(t ^ 2 * a) - 1 / 2 * t ^ 2 * b + 1 / 2 * t ^ 4 * ρ| ≤
      t ^ 2 * |a| + 1 / 2 * t ^ 2 * |b| + 1 / 2 * t ^ 4 * |ρ| := by
    refine (abs_add_le _ _).trans (add_le_add ((abs_sub _ _).trans (add_le_add ?_ ?_)) ?_)
    · rw [abs_neg, abs_mul, abs_of_nonneg (by positivity)]
    · rw [abs_mul, abs_of_nonneg (by positivity)]
    · rw [abs_mul, abs_of_nonneg (by positivity)]
  have h5 : K * t ^ 3 * (1 + t) ≤ K * t ^ 3 * (2 * (1 + t ^ 2)) :=
    mul_le_mul_of_nonneg_left (by nlinarith [sq_nonneg (t - 1)]) (by positivity)
  nlinarith

/-- The linear model of the gradient. -/
theorem ray_grad (hx : ⟪x, x⟫_ℝ = 1)
    (hv : ⟪x, v⟫_ℝ = 0) (hs0 : 0 < s) (hs : s ^ 2 = 1 + ‖v‖ ^ 2) (hy : y = s⁻¹ • (x + v)) :
    ‖rayPerp y (A y)‖ ≤
      ‖rayPerp x (A x) + (rayPerp x (A v) - ⟪x, A x⟫_ℝ • v)‖ + K * ‖v‖ ^ 2 := by
  have hx1 : ‖x‖ = 1 := by
    rw [real_inner_self_eq_norm_sq] at hx
    exact (pow_eq_one_iff_of_nonneg (norm_nonneg _) two_ne_zero).1 hx
  have hvv := real_inner_self_eq_norm_sq v
  have hvx : ⟪v, x⟫_ℝ = 0 := by rw [real_inner_comm]; exact hv
  have hyy : ⟪y, y⟫_ℝ = 1 := by
    rw [hy]
    simp only [inner_add_left, inner_add_right, real_inner_smul_left, real_inner_smul_right, hx, hv,
      hvx, hvv]
    field_simp
    linarith
  have hyx : ⟪y, x⟫_ℝ = s⁻¹ := by
    rw [hy, real_inner_smul_left, inner_add_left, hx, hvx]
    ring
  obtain ⟨r, hr⟩ : ∃ r, r = rayPerp x (A x) + (rayPerp x (A v) - ⟪x, A x⟫_ℝ • v) := ⟨_, rfl⟩
  rw [← hr]
  have hAy : A y = s⁻¹ • (r + ⟪x, A v⟫_ℝ • x) + ⟪x, A x⟫_ℝ • y := by
    rw [hr, hy, map_smul, map_add]
    unfold rayPerp
    module
  have hP : rayPerp y (A y) = s⁻¹ • (rayPerp y r + ⟪x, A v⟫_ℝ • rayPerp y x) := by
    rw [hAy, rayPerp_add, rayPerp_smul, rayPerp_add, rayPerp_smul, rayPerp_smul, rayPerp_self hyy]
    module
  have hs1 : 1 ≤ s := by
    by_contra hc
    have : s ^ 2 < 1 := by nlinarith
    linarith [sq_nonneg ‖v‖]
  have hxp : ‖rayPerp y x‖ ≤ ‖v‖ := by
    refine abs_le_of_sq_le_sq' ?_ (norm_nonneg _) |>.2
    rw [← real_inner_self_eq_norm_sq, rayPerp_sq hyy, hx, hyx, inv_pow, hs]
    have : 0 < 1 + ‖v‖ ^ 2 := by positivity
    have h1 : (1 + ‖v‖ ^ 2)⁻¹ * (1 + ‖v‖ ^ 2) = 1 := inv_mul_cancel₀ this.ne'
    nlinarith [inv_pos.2 this, sq_nonneg ‖v‖, mul_nonneg (sq_nonneg ‖v‖) (inv_pos.2 this).le,
      inv_le_one_of_one_le₀ (by linarith [sq_nonneg ‖v‖] : (1 : ℝ) ≤ 1 + ‖v‖ ^ 2)]
  have ha := ray_inner_le hK x v
  rw [hx1] at ha
  rw [hP, norm_smul, norm_inv, Real.norm_of_nonneg hs0.le]
  have h1 : ‖rayPerp y r + ⟪x, A v⟫_ℝ • rayPerp y x‖ ≤ ‖r‖ + K * ‖v‖ ^ 2 := by
    refine (norm_add_le _ _).trans (add_le_add (rayPerp_norm hyy r) ?_)
    rw [norm_smul, Real.norm_eq_abs]
    calc |⟪x, A v⟫_ℝ| * ‖rayPerp y x‖ ≤ (K * ‖v‖) * ‖v‖ :=
          mul_le_mul (by linarith) hxp (norm_nonneg _) ((abs_nonneg _).trans (by linarith))
      _ = K * ‖v‖ ^ 2 := by ring
  refine le_trans ?_ h1
  exact mul_le_of_le_one_left (norm_nonneg _) (inv_le_one_of_one_le₀ hs1)

variable {u : V} {lam gap : ℝ}

omit hK in
/-- The quadratic form in terms of the component along the eigenvector. -/
theorem ray_gap (hsym : ∀ u w, ⟪A u, w⟫_ℝ = ⟪u, A w⟫_ℝ) (hu : ⟪u, u⟫_ℝ = 1) (hAu : A u = lam • u)
    (hgap : ∀ w, ⟪u, w⟫_ℝ = 0 → (lam + gap) * ‖w‖ ^ 2 ≤ ⟪w, A w⟫_ℝ) (z : V) :
    (lam + gap) * ‖z‖ ^ 2 - gap * ⟪u, z⟫_ℝ ^ 2 ≤ ⟪z, A z⟫_ℝ := by
  obtain ⟨w, hw⟩ : ∃ w, w = z - ⟪u, z⟫_ℝ • u := ⟨_, rfl⟩
  have h0 : ⟪u, w⟫_ℝ = 0 := by
    rw [hw, inner_sub_right, real_inner_smul_right, hu]
    ring
  have hz : z = w + ⟪u, z⟫_ℝ • u := by rw [hw]; module
  have h1 := hgap w h0
  have h2 : ‖z‖ ^ 2 = ‖w‖ ^ 2 + ⟪u, z⟫_ℝ ^ 2 := by
    rw [← real_inner_self_eq_norm_sq, ← real_inner_self_eq_norm_sq]
    generalize ⟪u, z⟫_ℝ = c at *
    rw [hz]
    simp only [inner_add_left, inner_add_right, real_inner_smul_left, real_inner_smul_right, hu, h0,
      real_inner_comm u w]
    ring
  have h3 : ⟪z, A z⟫_ℝ = ⟪w, A w⟫_ℝ + lam * ⟪u, z⟫_ℝ ^ 2 := by
    generalize ⟪u, z⟫_ℝ = c at *
    rw [hz]
    have h4 : ⟪u, A w⟫_ℝ = 0 := by rw [← hsym, hAu, real_inner_smul_left, h0, mul_zero]
    simp only [map_add, map_smul, inner_add_left, inner_add_right, real_inner_smul_left,
      real_inner_smul_right, hAu, hu, h4, real_inner_comm u w, h0]
    ring
  rw [h2, h3]
  nlinarith

omit hK in
/-- Points with a small quotient are near the eigenvector. -/
theorem ray_near (hsym : ∀ u w, ⟪A u, w⟫_ℝ = ⟪u, A w⟫_ℝ) (hu : ⟪u, u⟫_ℝ = 1) (hAu : A u = lam • u)
    (hgap : ∀ w, ⟪u, w⟫_ℝ = 0 → (lam + gap) * ‖w‖ ^ 2 ≤ ⟪w, A w⟫_ℝ) (hx : ⟪x, x⟫_ℝ = 1) {e : ℝ}
    (he : ⟪x, A x⟫_ℝ ≤ lam + e) : gap * (1 - ⟪u, x⟫_ℝ ^ 2) ≤ e := by
  have := ray_gap hsym hu hAu hgap x
  rw [← real_inner_self_eq_norm_sq, hx] at this
  linarith

omit hK in
/-- The curvature. -/
theorem ray_curv (hsym : ∀ u w, ⟪A u, w⟫_ℝ = ⟪u, A w⟫_ℝ) (hu : ⟪u, u⟫_ℝ = 1) (hAu : A u = lam • u)
    (hgap : ∀ w, ⟪u, w⟫_ℝ = 0 → (lam + gap) * ‖w‖ ^ 2 ≤ ⟪w, A w⟫_ℝ) (hg : 0 < gap)
    (hx : ⟪x, x⟫_ℝ = 1) (hv : ⟪x, v⟫_ℝ = 0) {e : ℝ} (he : ⟪x, A x⟫_ℝ ≤ lam + e) :
    (gap - 2 * e) * ‖v‖ ^ 2 ≤ ⟪v, A v⟫_ℝ - ⟪x, A x⟫_ℝ * ‖v‖ ^ 2 := by
  have h1 := ray_near hsym hu hAu hgap hx he
  have h2 := ray_gap hsym hu hAu hgap v
  have h3 : ⟪u, v⟫_ℝ ^ 2 ≤ (1 - ⟪u, x⟫_ℝ ^ 2) * ‖v‖ ^ 2 := by
    have h4 : ⟪u, v⟫_ℝ = ⟪rayPerp x u, v⟫_ℝ := by
      rw [rayPerp, inner_sub_left, real_inner_smul_left, hv]
      ring
    have h5 := real_inner_mul_inner_self_le (rayPerp x u) v
    rw [rayPerp_sq hx, hu, real_inner_self_eq_norm_sq, real_inner_comm u x] at h5
    rw [h4, sq]
    exact h5
  have h6 : gap * ⟪u, v⟫_ℝ ^ 2 ≤ e * ‖v‖ ^ 2 := by
    calc gap * ⟪u, v⟫_ℝ ^ 2 ≤ gap * ((1 - ⟪u, x⟫_ℝ ^ 2) * ‖v‖ ^ 2) :=
          mul_le_mul_of_nonneg_left h3 hg.le
      _ = gap * (1 - ⟪u, x⟫_ℝ ^ 2) * ‖v‖ ^ 2 := by ring
      _ ≤ e * ‖v‖ ^ 2 := mul_le_mul_of_nonneg_right h1 (sq_nonneg _)
  have h7 : ⟪x, A x⟫_ℝ * ‖v‖ ^ 2 ≤ (lam + e) * ‖v‖ ^ 2 := mul_le_mul_of_nonneg_right he (sq_nonneg _)
  linarith

/-- The gradient. -/
theorem ray_small (hsym : ∀ u w, ⟪A u, w⟫_ℝ = ⟪u, A w⟫_ℝ) (hu : ⟪u, u⟫_ℝ = 1) (hAu : A u = lam • u)
    (hgap : ∀ w, ⟪u, w⟫_ℝ = 0 → (lam + gap) * ‖w‖ ^ 2 ≤ ⟪w, A w⟫_ℝ) (hg : 0 < gap)
    (hx : ⟪x, x⟫_ℝ = 1) {e : ℝ} (he : ⟪x, A x⟫_ℝ ≤ lam + e) :
    ‖rayPerp x (A x)‖ ≤ 2 * K * Real.sqrt (e / gap) := by
  have h1 := ray_near hsym hu hAu hgap hx he
  obtain ⟨z, hz⟩ : ∃ z, z = rayPerp u x := ⟨_, rfl⟩
  have hz2 : ‖z‖ ≤ Real.sqrt (e / gap) := by
    refine Real.le_sqrt_of_sq_le ?_
    rw [← real_inner_self_eq_norm_sq, hz, rayPerp_sq hu, hx, le_div_iff₀ hg]
    linarith
  have hu1 : ‖u‖ = 1 := by
    rw [real_inner_self_eq_norm_sq] at hu
    exact (pow_eq_one_iff_of_nonneg (norm_nonneg _) two_ne_zero).1 hu
  have hlam : |lam| ≤ K := by
    have := hK u
    rwa [hAu, norm_smul, hu1, mul_one, mul_one, Real.norm_eq_abs] at this
  have hK0 : 0 ≤ K := (abs_nonneg _).trans hlam
  have hAx : A x = (A z - lam • z) + lam • x := by
    rw [hz, rayPerp, map_sub, map_smul, hAu]
    module
  have hg' : rayPerp x (A x) = rayPerp x (A z - lam • z) := by
    rw [hAx, rayPerp_add, rayPerp_smul, rayPerp_self hx]
    module
  rw [hg']
  refine (rayPerp_norm hx _).trans ((norm_sub_le _ _).trans ?_)
  rw [norm_smul, Real.norm_eq_abs]
  have h2 := hK z
  have h3 : |lam| * ‖z‖ ≤ K * ‖z‖ := mul_le_mul_of_nonneg_right hlam (norm_nonneg _)
  have h4 : K * ‖z‖ ≤ K * Real.sqrt (e / gap) := mul_le_mul_of_nonneg_left hz2 hK0
  linarith

/-- The curvature from above. -/
theorem ray_curv_le (hx : ⟪x, x⟫_ℝ = 1) :
    ⟪v, A v⟫_ℝ - ⟪x, A x⟫_ℝ * ‖v‖ ^ 2 ≤ 2 * K * ‖v‖ ^ 2 := by
  have hx1 : ‖x‖ = 1 := by
    rw [real_inner_self_eq_norm_sq] at hx
    exact (pow_eq_one_iff_of_nonneg (norm_nonneg _) two_ne_zero).1 hx
  have hρ := ray_inner_le hK x x
  have hb := ray_inner_le hK v v
  rw [hx1] at hρ
  have h1 := (abs_le.1 hρ).1
  have h2 := (abs_le.1 hb).2
  nlinarith [sq_nonneg ‖v‖]

omit hK in
/-- A small gradient means a small angle to the eigenvector. -/
theorem ray_angle (hsym : ∀ u w, ⟪A u, w⟫_ℝ = ⟪u, A w⟫_ℝ) (hu : ⟪u, u⟫_ℝ = 1) (hAu : A u = lam • u)
    (hgap : ∀ w, ⟪u, w⟫_ℝ = 0 → (lam + gap) * ‖w‖ ^ 2 ≤ ⟪w, A w⟫_ℝ)
    (hx : ⟪x, x⟫_ℝ = 1) :
    gap * ⟪u, x⟫_ℝ ^ 2 * Real.sqrt (1 - ⟪u, x⟫_ℝ ^ 2) ≤ ‖rayPerp x (A x)‖ := by
  obtain ⟨z, hz⟩ : ∃ z, z = rayPerp u x := ⟨_, rfl⟩
  obtain ⟨c, hc⟩ : ∃ c, c = ⟪u, x⟫_ℝ := ⟨_, rfl⟩
  have hzz : ⟪z, z⟫_ℝ = 1 - c ^ 2 := by rw [hz, rayPerp_sq hu, hx, hc]
  have huz : ⟪u, z⟫_ℝ = 0 := by
    rw [hz, rayPerp, inner_sub_right, real_inner_smul_right, hu]
    ring
  have hzu : ⟪z, u⟫_ℝ = 0 := by rw [real_inner_comm]; exact huz
  have hxz : x = z + c • u := by rw [hz, rayPerp, hc]; module
  have hzn : ‖z‖ = Real.sqrt (1 - c ^ 2) := by
    rw [← hzz, real_inner_self_eq_norm_sq, Real.sqrt_sq (norm_nonneg _)]
  have hAz : ⟪u, A z⟫_ℝ = 0 := by
    rw [← hsym, hAu, real_inner_smul_left, huz, mul_zero]
  have h1 : ⟪z, A x⟫_ℝ = ⟪z, A z⟫_ℝ := by
    rw [hxz, map_add, map_smul, hAu, inner_add_right, real_inner_smul_right, real_inner_smul_right,
      hzu]
    ring
  have h2 : ⟪x, A x⟫_ℝ = ⟪z, A z⟫_ℝ + c ^ 2 * lam := by
    nth_rw 1 [hxz]
    rw [inner_add_left, h1, real_inner_smul_left, ← hsym u x, hAu, real_inner_smul_left, ← hc]
    ring
  have h3 : ⟪z, x⟫_ℝ = 1 - c ^ 2 := by
    rw [hxz, inner_add_right, real_inner_smul_right, hzu, hzz]
    ring
  have h4 : ⟪z, rayPerp x (A x)⟫_ℝ = c ^ 2 * (⟪z, A z⟫_ℝ - lam * (1 - c ^ 2)) := by
    rw [rayPerp, inner_sub_right, real_inner_smul_right, h1, h2, h3]
    ring
  have h5 := hgap z huz
  rw [← real_inner_self_eq_norm_sq, hzz] at h5
  have h6 := real_inner_le_norm z (rayPerp x (A x))
  rw [h4, hzn] at h6
  have h7 : c ^ 2 * (gap * (1 - c ^ 2)) ≤ c ^ 2 * (⟪z, A z⟫_ℝ - lam * (1 - c ^ 2)) :=
    mul_le_mul_of_nonneg_left (by linarith) (sq_nonneg c)
  have h0 : 0 ≤ 1 - c ^ 2 := by rw [← hzz]; exact real_inner_self_nonneg
  rw [← hc]
  rcases h0.eq_or_lt with h0 | h0
  · rw [← h0, Real.sqrt_zero, mul_zero]
    exact norm_nonneg _
  · have hs := Real.sqrt_pos.2 h0
    refine le_of_mul_le_mul_left ?_ hs
    have h8 : Real.sqrt (1 - c ^ 2) * (gap * c ^ 2 * Real.sqrt (1 - c ^ 2)) =
        c ^ 2 * (gap * (Real.sqrt (1 - c ^ 2) * Real.sqrt (1 - c ^ 2))) := by ring
    rw [h8, Real.mul_self_sqrt h0.le]
    exact h7.trans h6

omit hK in
/-- The gradient dominates the distance of the quotient to its minimum. -/
theorem ray_domination (hsym : ∀ u w, ⟪A u, w⟫_ℝ = ⟪u, A w⟫_ℝ) (hu : ⟪u, u⟫_ℝ = 1)
    (hAu : A u = lam • u)
    (hgap : ∀ w, ⟪u, w⟫_ℝ = 0 → (lam + gap) * ‖w‖ ^ 2 ≤ ⟪w, A w⟫_ℝ) (hg : 0 < gap)
    (hx : ⟪x, x⟫_ℝ = 1) :
    ⟪u, x⟫_ℝ ^ 4 * gap * (⟪x, A x⟫_ℝ - lam) ≤ ‖rayPerp x (A x)‖ ^ 2 := by
  obtain ⟨z, hz⟩ : ∃ z, z = rayPerp u x := ⟨_, rfl⟩
  obtain ⟨c, hc⟩ : ∃ c, c = ⟪u, x⟫_ℝ := ⟨_, rfl⟩
  have hzz : ⟪z, z⟫_ℝ = 1 - c ^ 2 := by rw [hz, rayPerp_sq hu, hx, hc]
  have huz : ⟪u, z⟫_ℝ = 0 := by
    rw [hz, rayPerp, inner_sub_right, real_inner_smul_right, hu]
    ring
  have hzu : ⟪z, u⟫_ℝ = 0 := by rw [real_inner_comm]; exact huz
  have hxz : x = z + c • u := by rw [hz, rayPerp, hc]; module
  have h1 : ⟪z, A x⟫_ℝ = ⟪z, A z⟫_ℝ := by
    rw [hxz, map_add, map_smul, hAu, inner_add_right, real_inner_smul_right, real_inner_smul_right,
      hzu]
    ring
  have h2 : ⟪x, A x⟫_ℝ = ⟪z, A z⟫_ℝ + c ^ 2 * lam := by
    nth_rw 1 [hxz]
    rw [inner_add_left, h1, real_inner_smul_left, ← hsym u x, hAu, real_inner_smul_left, ← hc]
    ring
  have h3 : ⟪z, x⟫_ℝ = 1 - c ^ 2 := by
    rw [hxz, inner_add_right, real_inner_smul_right, hzu, hzz]
    ring
  have h4 : ⟪z, rayPerp x (A x)⟫_ℝ = c ^ 2 * (⟪x, A x⟫_ℝ - lam) := by
    rw [rayPerp, inner_sub_right, real_inner_smul_right, h1, h2, h3]
    ring
  have h5 := hgap z huz
  rw [← real_inner_self_eq_norm_sq, hzz] at h5
  have h6 := real_inner_mul_inner_self_le z (rayPerp x (A x))
  rw [h4, hzz, real_inner_self_eq_norm_sq] at h6
  obtain ⟨d, hd⟩ : ∃ d, d = ⟪x, A x⟫_ℝ - lam := ⟨_, rfl⟩
  have h0 : 0 ≤ 1 - c ^ 2 := by rw [← hzz]; exact real_inner_self_nonneg
  have h7 : gap * (1 - c ^ 2) ≤ d := by rw [hd, h2]; linarith
  rw [← hc, ← hd]
  rw [← hd] at h6
  have h8 : 0 ≤ d := (mul_nonneg hg.le h0).trans h7
  rcases h8.eq_or_lt with h8 | h8
  · rw [← h8, mul_zero]
    exact sq_nonneg _
  · refine le_of_mul_le_mul_right ?_ h8
    have h9 : (1 - c ^ 2) * ‖rayPerp x (A x)‖ ^ 2 * gap ≤ d * ‖rayPerp x (A x)‖ ^ 2 := by
      have := mul_le_mul_of_nonneg_right h7 (sq_nonneg ‖rayPerp x (A x)‖)
      linarith
    have h10 := mul_le_mul_of_nonneg_right h6 hg.le
    linarith

end

end Verif.Geo
