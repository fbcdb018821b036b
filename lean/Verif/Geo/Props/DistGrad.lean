/-
C121: the negative of `log` is the Riemannian gradient of half the squared distance.  For every
manifold with `dist` and `log`: along every differentiable curve `c` of points through `x` with
velocity `v`, the derivative of `dist(c(t), p)² / 2` at zero is `-inner_product(x, log(x, p), v)`.
This is what makes `gradient` the gradient of `objective` in `compute_centroid`
(nelder_mead.py:14-27).
-/
import Verif.Geo.Lemmas.DistDeriv
import Verif.Geo.Props.Metric

namespace Verif.Geo
open scoped BigOperators Topology
open Matrix Filter

/-! ### Euclidean spaces -/

/-- **C121** (Euclidean, complex Euclidean, symmetric, skew-symmetric: every curve of arrays). -/
theorem C121_euclidean {ι 𝕜 : Type*} [Fintype ι] [RCLike 𝕜] {c : ℝ → ι → 𝕜} {x p v : ι → 𝕜}
    (hc : ∀ i, HasDerivAt (fun t => c t i) (v i) 0) (h0 : c 0 = x) :
    HasDerivAt (fun t => eucDist (c t) p ^ 2 / 2) (-eucInner x (eucLog x p) v) 0 := by
  simp only [eucDist, npNorm_sq, retensordot_self]
  have key : HasDerivAt (fun t => ∑ i, ‖(c t - p) i‖ ^ 2)
      (∑ i, 2 * RCLike.re (star (x i - p i) * v i)) 0 := by
    refine HasDerivAt.fun_sum fun i _ => ?_
    have h1 := (hc i).sub_const (p i)
    have h2 := h1.star.fun_mul h1
    have h3 := (RCLike.reCLM (K := 𝕜)).hasFDerivAt.comp_hasDerivAt (0 : ℝ) h2
    refine (h3.congr_deriv ?_).congr_of_eventuallyEq (Eventually.of_forall fun t => ?_)
    · simp only [RCLike.reCLM_apply, map_add, h0]
      have : RCLike.re (star (v i) * (x i - p i)) = RCLike.re (star (x i - p i) * v i) := by
        rw [← RCLike.conj_re, RCLike.star_def, map_mul, RCLike.conj_conj, mul_comm]
      rw [this]; ring
    · simp only [Function.comp_apply, RCLike.reCLM_apply, Pi.sub_apply, RCLike.star_def,
        RCLike.conj_mul]
      norm_cast
  refine (key.div_const 2).congr_deriv ?_
  rw [eucInner, eucLog, retensordot, map_sum, ← Finset.sum_neg_distrib, Finset.sum_div]
  refine Finset.sum_congr rfl fun i _ => ?_
  rw [Pi.sub_apply, ← neg_sub (x i) (p i), star_neg, neg_mul, map_neg]
  ring

/-! ### Positive arrays -/

/-- **C121** (positive arrays). -/
theorem C121_positive {ι : Type*} [Fintype ι] {c : ℝ → ι → ℝ} {x p v : ι → ℝ} (hx : PosPoint x)
    (hc : ∀ i, HasDerivAt (fun t => c t i) (v i) 0) (h0 : c 0 = x) :
    HasDerivAt (fun t => posDist (c t) p ^ 2 / 2) (-posInner x (posLog x p) v) 0 := by
  have e : ∀ t, posDist (c t) p ^ 2 = ∑ i, (Real.log (c t i) - Real.log (p i)) ^ 2 := by
    intro t
    rw [posDist, Real.sq_sqrt (tensordot_inner.nonneg _), tensordot]
    exact Finset.sum_congr rfl fun i _ => (sq _).symm
  simp only [e]
  have key : HasDerivAt (fun t => ∑ i, (Real.log (c t i) - Real.log (p i)) ^ 2)
      (∑ i, 2 * (Real.log (x i) - Real.log (p i)) * (v i / x i)) 0 := by
    refine HasDerivAt.fun_sum fun i _ => ?_
    have hne : c 0 i ≠ 0 := by rw [h0]; exact (hx i).ne'
    have h1 := (((hc i).log hne).sub_const (Real.log (p i))).fun_pow 2
    refine h1.congr_deriv ?_
    rw [h0]; push_cast; ring
  refine (key.div_const 2).congr_deriv ?_
  rw [posInner_eq, ← Finset.sum_neg_distrib, Finset.sum_div]
  refine Finset.sum_congr rfl fun i _ => ?_
  have := (hx i).ne'
  rw [posLog]
  field_simp
  ring

/-! ### Sphere -/

/-- The exact derivative on the sphere. -/
theorem sphere_half_dist_sq {ι : Type*} [Fintype ι] {c : ℝ → ι → ℝ} {x p v : ι → ℝ}
    (hon : ∀ t, OnSphere (c t)) (hp : OnSphere p) (hc : HasDerivAt c v 0) (h0 : c 0 = x)
    (hne : p ≠ -x) :
    HasDerivAt (fun t => sphereDist (c t) p ^ 2 / 2)
      (-(sphereDist x p / Real.sin (sphereDist x p) * tensordot (sphereProj x (p - x)) v)) 0 := by
  have hx : OnSphere x := h0 ▸ hon 0
  have hv : tensordot x v = 0 := by have := sphere_velocity hon hc; rw [h0] at this; exact this
  simp only [fun t => sphereDist_eq (hon t) hp]
  have hu : HasDerivAt (fun t => tensordot (c t) p) (tensordot v p) 0 := by
    have := hasDerivAt_tensordot hc (hasDerivAt_const (0 : ℝ) p)
    simpa [tensordot_inner.zero_right] using this
  have hm : tensordot (c 0) p ≠ -1 := by
    intro h
    rw [h0] at h
    apply hne
    have hnx : OnSphere (-x) := by
      rw [onSphere_iff, tensordot_neg_neg, hx.dot]
    refine (eq_of_dot_eq_one hp hnx ?_)
    rw [tensordot_inner.symm, tensordot_neg_left, h, neg_neg]
  have key := hasDerivAt_half_arccos_sq hu (fun t => (dot_bounds (hon t) hp).2)
    (fun t => (dot_bounds (hon t) hp).1) hm
  refine key.congr_deriv ?_
  rw [h0, ← sphereDist_eq hx hp, log_vector hx, tensordot_inner.sub_left, tensordot_inner.smul_left,
    hv, mul_zero, sub_zero, tensordot_inner.symm v p]

/-- How far the guarded quotient of `log` is from the exact one. -/
theorem guard_error {d s eps w n : ℝ} (hs : 0 ≤ s) (hds : s ≤ d) (hd : s = 0 → d = 0) (he : 0 ≤ eps)
    (hw : |w| ≤ s * n) :
    |-(d / s * w) + (d + eps) / (s + eps) * w| ≤ eps * ((d - s) / (s + eps)) * n := by
  rcases hs.eq_or_lt with h | h
  · have hd0 := hd h.symm
    have hw0 : w = 0 := by
      rw [← h, zero_mul] at hw
      exact abs_eq_zero.1 (le_antisymm hw (abs_nonneg _))
    rw [← h, hd0, hw0]; simp
  · have e : -(d / s * w) + (d + eps) / (s + eps) * w = -(eps * ((d - s) / (s + eps)) * (w / s)) := by
      field_simp
      ring
    rw [e, abs_neg, abs_mul, abs_of_nonneg (mul_nonneg he (div_nonneg (by linarith) (by linarith)))]
    refine mul_le_mul_of_nonneg_left ?_ (mul_nonneg he (div_nonneg (by linarith) (by linarith)))
    rw [abs_div, abs_of_pos h, div_le_iff₀ h, mul_comm]
    exact hw

/-- The distance between points of the sphere and its sine. -/
theorem sphereDist_sin {ι : Type*} [Fintype ι] {x p : ι → ℝ} (hx : OnSphere x) (hp : OnSphere p)
    (hne : p ≠ -x) : 0 ≤ Real.sin (sphereDist x p) ∧ Real.sin (sphereDist x p) ≤ sphereDist x p ∧
      (Real.sin (sphereDist x p) = 0 → sphereDist x p = 0) := by
  obtain ⟨h0, hpi⟩ := dist_mem x p
  refine ⟨Real.sin_nonneg_of_nonneg_of_le_pi h0 hpi, Real.sin_le h0, fun h => ?_⟩
  by_contra hd
  have hlt : sphereDist x p < Real.pi := by
    refine lt_of_le_of_ne hpi fun h' => hne ?_
    rw [sphereDist_eq hx hp, Real.arccos_eq_pi] at h'
    have hnx : OnSphere (-x) := by
      rw [onSphere_iff, tensordot_neg_neg, hx.dot]
    refine (eq_of_dot_eq_one hp hnx ?_)
    have := (dot_bounds hx hp).1
    rw [tensordot_inner.symm, tensordot_neg_left, le_antisymm h' this, neg_neg]
  exact (Real.sin_pos_of_pos_of_lt_pi (lt_of_le_of_ne h0 (Ne.symm hd)) hlt).ne' h

theorem tensordot_abs_le {ι : Type*} [Fintype ι] (a b : ι → ℝ) :
    |tensordot a b| ≤ npNorm a * npNorm b := by
  rw [← abs_of_nonneg (mul_nonneg (npNorm_nonneg a) (npNorm_nonneg b))]
  refine sq_le_sq.1 ?_
  rw [mul_pow, npNorm_sq_real, npNorm_sq_real]
  exact tensordot_inner.cauchy a b

/-- **C121** (sphere; partial).  The guard `eps` in the quotient of `log` separates the two sides by
at most `eps (d - sin d) / (sin d + eps)` times the norm of the velocity; without the guard
(`eps = 0`) they are equal.  The target is not antipodal to the point. -/
theorem C121_sphere_partial {ι : Type*} [Fintype ι] {c : ℝ → ι → ℝ} {x p v : ι → ℝ}
    (hon : ∀ t, OnSphere (c t)) (hp : OnSphere p) (hc : HasDerivAt c v 0) (h0 : c 0 = x)
    (hne : p ≠ -x) {eps : ℝ} (he : 0 ≤ eps) :
    ∃ D, HasDerivAt (fun t => sphereDist (c t) p ^ 2 / 2) D 0 ∧
      |D + sphereInner x (sphereLog sphereProj eps x p) v| ≤
        eps * ((sphereDist x p - Real.sin (sphereDist x p)) / (Real.sin (sphereDist x p) + eps)) *
          sphereNorm x v := by
  have hx : OnSphere x := h0 ▸ hon 0
  obtain ⟨h1, h2, h3⟩ := sphereDist_sin hx hp hne
  refine ⟨_, sphere_half_dist_sq hon hp hc h0 hne, ?_⟩
  have e : sphereInner x (sphereLog sphereProj eps x p) v =
      (sphereDist x p + eps) / (Real.sin (sphereDist x p) + eps) *
        tensordot (sphereProj x (p - x)) v := by
    simp only [sphereInner, sphereLog, sphereNorm, log_vector_norm hx hp, tensordot_inner.smul_left]
  rw [e]
  refine guard_error h1 h2 h3 he ?_
  rw [← log_vector_norm hx hp]
  exact tensordot_abs_le _ _

/-- C121 fails on the sphere as soon as the guard is positive: for points at a distance strictly
between zero and `π`, the derivative in the direction of `log` is not the one of the metric. -/
theorem C121_sphere_negation {ι : Type*} [Fintype ι] {c : ℝ → ι → ℝ} {x p v : ι → ℝ}
    (hon : ∀ t, OnSphere (c t)) (hp : OnSphere p) (hc : HasDerivAt c v 0) (h0 : c 0 = x)
    (hne : p ≠ -x) (hne' : p ≠ x) (hv : tensordot p v ≠ 0) {eps : ℝ} (he : 0 < eps) :
    ¬ HasDerivAt (fun t => sphereDist (c t) p ^ 2 / 2)
      (-sphereInner x (sphereLog sphereProj eps x p) v) 0 := by
  have hx : OnSphere x := h0 ▸ hon 0
  obtain ⟨h1, h2, h3⟩ := sphereDist_sin hx hp hne
  have hd0 : sphereDist x p ≠ 0 := fun h =>
    hne' ((C58_metric x p p hx hp hp).2.2.2.1.1 h).symm
  have hs : 0 < Real.sin (sphereDist x p) := lt_of_le_of_ne h1 fun h => hd0 (h3 h.symm)
  have hvx : tensordot x v = 0 := by have := sphere_velocity hon hc; rw [h0] at this; exact this
  have hw : tensordot (sphereProj x (p - x)) v = tensordot p v := by
    rw [log_vector hx, tensordot_inner.sub_left, tensordot_inner.smul_left, hvx, mul_zero, sub_zero]
  intro h
  have hu := h.unique (sphere_half_dist_sq hon hp hc h0 hne)
  have e : sphereInner x (sphereLog sphereProj eps x p) v =
      (sphereDist x p + eps) / (Real.sin (sphereDist x p) + eps) * tensordot p v := by
    simp only [sphereInner, sphereLog, sphereNorm, log_vector_norm hx hp, tensordot_inner.smul_left,
      hw]
  rw [e, hw, neg_inj] at hu
  have hq := mul_right_cancel₀ hv hu
  rw [div_eq_div_iff (by positivity) hs.ne'] at hq
  have hlt : Real.sin (sphereDist x p) < sphereDist x p :=
    lt_of_le_of_ne h2 fun h => hd0 ((sin_eq_self_iff (dist_mem x p).1).1 h)
  nlinarith

/-- **C121** (spheres in a subspace; partial). -/
theorem C121_sphere_subspace_partial {ι : Type*} [Fintype ι] {S : (ι → ℝ) → Prop}
    (hS : IsSubspace S) {M : Matrix ι ι ℝ} (hM : IsOrthProj tensordot S M.mulVec)
    {c : ℝ → ι → ℝ} {x p v : ι → ℝ} (hon : ∀ t, OnSubspaceSphere S (c t))
    (hp : OnSubspaceSphere S p) (hc : HasDerivAt c v 0) (h0 : c 0 = x) (hne : p ≠ -x) {eps : ℝ}
    (he : 0 ≤ eps) :
    ∃ D, HasDerivAt (fun t => sphereDist (c t) p ^ 2 / 2) D 0 ∧
      |D + sphereInner x (sphereLog (subspaceProj M) eps x p) v| ≤
        eps * ((sphereDist x p - Real.sin (sphereDist x p)) / (Real.sin (sphereDist x p) + eps)) *
          sphereNorm x v := by
  have hx : OnSubspaceSphere S x := h0 ▸ hon 0
  have e : subspaceProj M x (p - x) = sphereProj x (p - x) := by
    refine hM.fixes ?_
    rw [log_vector hx.2, sub_eq_add_neg, ← neg_smul]
    exact hS.add hp.1 (hS.smul _ hx.1)
  have e' : sphereLog (subspaceProj M) eps x p = sphereLog sphereProj eps x p := by
    simp only [sphereLog, e]
  rw [e']
  exact C121_sphere_partial (fun t => (hon t).2) hp.2 hc h0 hne he

/-! ### Oblique manifold -/

/-- **C121** (oblique manifold; partial): as for the sphere, summed over the columns. -/
theorem C121_oblique_partial {m n : Type*} [Fintype m] [Fintype n] {c : ℝ → Matrix m n ℝ}
    {X P V : Matrix m n ℝ} (hon : ∀ t, OnOblique (c t)) (hp : OnOblique P) (hc : MatDeriv c V 0)
    (h0 : c 0 = X) (hne : ∀ j, colOf P j ≠ -colOf X j) {eps : ℝ} (he : 0 ≤ eps) :
    ∃ D, HasDerivAt (fun t => oblDist (c t) P ^ 2 / 2) D 0 ∧
      |D + oblInner X (oblLog eps X P) V| ≤
        ∑ j, eps * ((sphereDist (colOf X j) (colOf P j) - Real.sin (sphereDist (colOf X j) (colOf P j)))
          / (Real.sin (sphereDist (colOf X j) (colOf P j)) + eps)) *
            sphereNorm (colOf X j) (colOf V j) := by
  have hX : OnOblique X := h0 ▸ hon 0
  have hcol : ∀ j, HasDerivAt (fun t => colOf (c t) j) (colOf V j) 0 := fun j =>
    hasDerivAt_pi.2 fun i => hc i j
  choose D hD hb using fun j => C121_sphere_partial (fun t => hon t j) (hp j) (hcol j)
    (by rw [h0]) (hne j) he
  refine ⟨∑ j, D j, ?_, ?_⟩
  · have h1 := HasDerivAt.fun_sum (u := Finset.univ) fun j _ => hD j
    refine h1.congr_of_eventuallyEq (Eventually.of_forall fun t => ?_)
    simp only
    rw [(C63_distance (c t) P 0 (hon t) hp).1, Finset.sum_div]
  · rw [oblInner_eq, ← Finset.sum_add_distrib]
    refine (Finset.abs_sum_le_sum_abs _ _).trans (Finset.sum_le_sum fun j _ => ?_)
    rw [(C63_columns X P X V eps j).2.2.2.2.2 hX hp]
    exact hb j

/-! ### Complex circles -/

/-- **C121** (complex circles; partial).  Below an angle of `1e-6` the code takes the chord for the
arc; this separates the two sides by at most `1e-18` times the entries of the velocity.  No entry of
the target is antipodal. -/
theorem C121_complex_circle_partial {ι : Type*} [Fintype ι] {c : ℝ → ι → ℂ} {x p v L : ι → ℂ}
    (hon : ∀ t, OnCircles (c t)) (hp : OnCircles p) (hc : ∀ i, HasDerivAt (fun t => c t i) (v i) 0)
    (h0 : c 0 = x) (hL : ∀ i, ccLog x p i = some (L i)) :
    ∃ D, HasDerivAt (fun t => ccDist (c t) p ^ 2 / 2) D 0 ∧
      |D + ccInner x L v| ≤ ∑ i, (if Real.arccos (star (x i) * p i).re ≤ 1e-6 then 1e-18 * ‖v i‖ else 0) := by
  have hx : OnCircles x := h0 ▸ hon 0
  have hne : ∀ i, p i ≠ -x i := by
    intro i h
    have := (C107_log_fails x p hx hp i).2 h
    rw [hL i] at this
    exact absurd this (by simp)
  set d : ι → ℝ := fun i => Real.arccos (star (x i) * p i).re with hd
  set w : ι → ℂ := fun i => ccProj x (p - x) i with hw
  have hwn : ∀ i, ‖w i‖ = Real.sin (d i) := fun i => ccLog_vector_norm hx hp i
  have hdpi : ∀ i, d i < Real.pi := fun i => lt_of_le_of_ne (Real.arccos_le_pi _)
    fun h => hne i ((circle_eq_of_dot (hx i) (hp i)).2.mp h)
  have hd0 : ∀ i, 0 ≤ d i := fun i => Real.arccos_nonneg _
  -- velocities are tangent
  have hre : ∀ {f : ℝ → ℂ} {f' : ℂ}, HasDerivAt f f' 0 → HasDerivAt (fun t => (f t).re) f'.re 0 :=
    fun h => Complex.reCLM.hasFDerivAt.comp_hasDerivAt (0 : ℝ) h
  have him : ∀ {f : ℝ → ℂ} {f' : ℂ}, HasDerivAt f f' 0 → HasDerivAt (fun t => (f t).im) f'.im 0 :=
    fun h => Complex.imCLM.hasFDerivAt.comp_hasDerivAt (0 : ℝ) h
  have hv : ∀ i, (x i).re * (v i).re + (x i).im * (v i).im = 0 := by
    intro i
    have h1 := ((hre (hc i)).fun_mul (hre (hc i))).fun_add ((him (hc i)).fun_mul (him (hc i)))
    have h2 : HasDerivAt (fun t => (c t i).re * (c t i).re + (c t i).im * (c t i).im) 0 0 := by
      have : (fun t => (c t i).re * (c t i).re + (c t i).im * (c t i).im) = fun _ => 1 := by
        funext t
        have := (norm_one_iff _).1 (hon t i)
        rw [← this]; ring
      rw [this]; exact hasDerivAt_const _ _
    have h3 := h1.unique h2
    rw [h0] at h3
    linarith
  -- derivative of one entry
  have hone : ∀ i, HasDerivAt (fun t => Real.arccos (star (c t i) * p i).re ^ 2 / 2)
      (-(d i / Real.sin (d i) * (star (w i) * v i).re)) 0 := by
    intro i
    have hu : HasDerivAt (fun t => (star (c t i) * p i).re) (star (v i) * p i).re 0 :=
      hre ((hc i).star.mul_const (p i))
    have hm : (star (c 0 i) * p i).re ≠ -1 := by
      rw [h0]
      intro h
      exact hne i ((circle_eq_of_dot (hx i) (hp i)).2.1 (by rw [h, Real.arccos_neg_one]))
    have key := hasDerivAt_half_arccos_sq hu (fun t => (circle_dot (hon t i) (hp i)).2.2)
      (fun t => (circle_dot (hon t i) (hp i)).2.1) hm
    refine key.congr_deriv ?_
    rw [h0]
    have : (star (w i) * v i).re = (star (v i) * p i).re := by
      simp only [hw, ccLog_vector hx i]
      simp only [star_sub, star_mul', RCLike.star_def, Complex.mul_re, Complex.mul_im,
        Complex.sub_re, Complex.sub_im, Complex.conj_re, Complex.conj_im, Complex.ofReal_re,
        Complex.ofReal_im]
      have := hv i
      linear_combination (-((x i).re * (p i).re + (x i).im * (p i).im)) * this
    rw [this]
  refine ⟨∑ i, -(d i / Real.sin (d i) * (star (w i) * v i).re), ?_, ?_⟩
  · have h1 := HasDerivAt.fun_sum (u := Finset.univ) fun i _ => hone i
    refine h1.congr_of_eventuallyEq (Eventually.of_forall fun t => ?_)
    simp only
    rw [ccDist, npNorm_sq_real, tensordot, Finset.sum_div]
    exact Finset.sum_congr rfl fun i _ => by rw [← sq]
  · rw [ccInner, Complex.re_sum, ← Finset.sum_add_distrib]
    refine (Finset.abs_sum_le_sum_abs _ _).trans (Finset.sum_le_sum fun i _ => ?_)
    have hLi := hL i
    simp only [ccLog] at hLi
    change (if d i ≤ 1e-6 then some (w i) else if ‖w i‖ = 0 then none else
      some (w i * ((d i / ‖w i‖ : ℝ) : ℂ))) = some (L i) at hLi
    change |_| ≤ if d i ≤ 1e-6 then _ else _
    by_cases hsmall : d i ≤ 1e-6
    · rw [if_pos hsmall] at hLi ⊢
      rw [← Option.some.inj hLi]
      have hwv : |(star (w i) * v i).re| ≤ Real.sin (d i) * ‖v i‖ := by
        rw [← hwn i]
        refine (Complex.abs_re_le_norm _).trans ?_
        rw [norm_mul, norm_star]
      rcases (hd0 i).eq_or_lt with h | h
      · rw [← h, Real.sin_zero, zero_mul] at hwv
        rw [abs_eq_zero.1 (le_antisymm hwv (abs_nonneg _)), mul_zero, neg_zero, add_zero, abs_zero]
        positivity
      · have hs : 0 < Real.sin (d i) := Real.sin_pos_of_pos_of_lt_pi h (hdpi i)
        have hcube := (Real.sin_gt_sub_cube h).le
        have hc3 : d i ^ 3 ≤ (1e-6 : ℝ) ^ 3 := pow_le_pow_left₀ h.le hsmall 3
        have hgap : d i - Real.sin (d i) ≤ 1e-18 := by norm_num at hc3 ⊢; linarith
        have e : -(d i / Real.sin (d i) * (star (w i) * v i).re) + (star (w i) * v i).re =
            -((d i - Real.sin (d i)) * ((star (w i) * v i).re / Real.sin (d i))) := by
          field_simp; ring
        rw [e, abs_neg, abs_mul, abs_of_nonneg (sub_nonneg.2 (Real.sin_le h.le))]
        refine mul_le_mul hgap ?_ (abs_nonneg _) (by norm_num)
        rw [abs_div, abs_of_pos hs, div_le_iff₀ hs, mul_comm ‖v i‖]
        exact hwv
    · rw [if_neg hsmall] at hLi ⊢
      by_cases hz : ‖w i‖ = 0
      · rw [if_pos hz] at hLi; exact absurd hLi (by simp)
      · rw [if_neg hz] at hLi
        obtain hLw := Option.some.inj hLi
        rw [← hLw, hwn i]
        have : (star (w i * ((d i / Real.sin (d i) : ℝ) : ℂ)) * v i).re =
            d i / Real.sin (d i) * (star (w i) * v i).re := by
          rw [star_mul', RCLike.star_def, Complex.conj_ofReal]
          rw [mul_comm (starRingEnd ℂ (w i)), mul_assoc, Complex.re_ofReal_mul]
        rw [this, neg_add_cancel, abs_zero]

/-! ### Poincaré balls -/

/-- One ball. -/
theorem ball_half_dist_sq {ι : Type*} [Fintype ι] {c : ℝ → ι → ℝ} {a b v : ι → ℝ} (ha : InBall a)
    (hb : InBall b) (hab : a ≠ b) (hc : HasDerivAt c v 0) (h0 : c 0 = a) :
    HasDerivAt (fun t => pbDist1 (c t) b ^ 2 / 2) (-(pbFactor a ^ 2 * tensordot
      ((Real.artanh (npNorm (pbMobius (-a) b)) / npNorm (pbMobius (-a) b) / (pbFactor a / 2)) •
        pbMobius (-a) b) v)) 0 := by
  have hA := sub_pos.mpr ha.dot
  have hB := sub_pos.mpr hb.dot
  have ha' := inBall_neg ha
  have hD := mobDen_pos ha' hb
  -- the argument of `arccosh`
  set u : ℝ → ℝ := fun t => 1 + 2 * tensordot (c t - b) (c t - b) /
      ((1 - tensordot (c t) (c t)) * (1 - tensordot b b)) with hu
  have he : ∀ t, pbDist1 (c t) b = Real.arcosh (u t) := by
    intro t
    simp only [pbDist1, npNorm_sq_real, hu]
  have hu' : HasDerivAt u (4 * (tensordot a v * (1 - 2 * tensordot a b + tensordot b b) -
      tensordot b v * (1 - tensordot a a)) /
        ((1 - tensordot a a) ^ 2 * (1 - tensordot b b))) 0 := by
    have h1 := hasDerivAt_dot (hc.sub_const b) (hc.sub_const b)
    have h2 := ((hasDerivAt_dot hc hc).const_sub 1).mul_const (1 - tensordot b b)
    have hne : (1 - tensordot (c 0) (c 0)) * (1 - tensordot b b) ≠ 0 := by rw [h0]; positivity
    have h3 := ((h1.const_mul 2).div h2 hne).const_add 1
    refine h3.congr_deriv ?_
    simp only [h0, tensordot_inner.sub_left, tensordot_inner.sub_right, tensordot_inner.symm v a,
      tensordot_inner.symm v b, tensordot_inner.symm b a]
    field_simp
    ring
  have hN : 0 < tensordot (a - b) (a - b) := by
    refine lt_of_le_of_ne (tensordot_inner.nonneg _) fun h => hab ?_
    exact sub_eq_zero.1 (tensordot_inner.definite _ h.symm)
  have hu1 : 1 < u 0 := by
    simp only [hu, h0]
    have : 0 < 2 * tensordot (a - b) (a - b) / ((1 - tensordot a a) * (1 - tensordot b b)) := by
      positivity
    linarith
  have h4 := (Real.hasDerivAt_arcosh hu1).comp (0 : ℝ) hu'
  have h5 := (h4.fun_pow 2).div_const 2
  simp only [he]
  refine h5.congr_deriv ?_
  set w := pbMobius (-a) b with hw
  set r := npNorm w with hr
  have hr0 : r ≠ 0 := fun h => hab ((mobius_eq_zero ha hb).1 h)
  have hrpos : 0 < r := lt_of_le_of_ne (npNorm_nonneg _) (Ne.symm hr0)
  have hr1 : r < 1 := (inBall_norm _).mp (C87_mobius ha' hb).2
  have hgap : 1 - r ^ 2 = (1 - tensordot a a) * (1 - tensordot b b) / mobDen (-a) b := by
    rw [hr, npNorm_sq_real, hw, mobius_gap hD.ne', tensordot_neg_neg]
  have hdist : Real.arcosh (u 0) = 2 * Real.artanh r := by rw [← he, h0, dist1_eq ha hb]
  have hcosh : u 0 = 1 + 2 * (r ^ 2 / (1 - r ^ 2)) := by
    rw [← cosh_two_artanh hrpos.le hr1, ← hdist, Real.cosh_arcosh hu1.le]
  have hgp : 0 < 1 - r ^ 2 := by nlinarith
  have hsq : √(u 0 ^ 2 - 1) = 2 * r / (1 - r ^ 2) := by
    rw [show u 0 ^ 2 - 1 = (2 * r / (1 - r ^ 2)) ^ 2 by rw [hcosh]; field_simp; ring]
    exact Real.sqrt_sq (by positivity)
  have hwv : tensordot w v * mobDen (-a) b = -(tensordot a v * (1 - 2 * tensordot a b + tensordot b b) -
      tensordot b v * (1 - tensordot a a)) := by
    have e1 : tensordot (-a) (-a) = tensordot a a := tensordot_neg_neg a a
    rw [hw, mobius_eq]
    simp only [tensordot_inner.smul_left, tensordot_inner.add_left, e1, tensordot_neg_left a]
    field_simp
    ring
  simp only [Function.comp_apply]
  rw [hdist, hsq, tensordot_inner.smul_left]
  have hkey : 4 * (tensordot a v * (1 - 2 * tensordot a b + tensordot b b) -
      tensordot b v * (1 - tensordot a a)) / ((1 - tensordot a a) ^ 2 * (1 - tensordot b b)) =
      -(4 * tensordot w v / ((1 - tensordot a a) * (1 - r ^ 2))) := by
    rw [hgap, ← neg_eq_iff_eq_neg.2 hwv]
    field_simp
  rw [hkey, pbFactor]
  push_cast
  field_simp
  ring

/-- **C121** (Poincaré balls), for targets at which `log` is defined, that is different in every
ball. -/
theorem C121_poincare {κ ι : Type*} [Fintype κ] [Fintype ι] {c : ℝ → κ → ι → ℝ} {X P V L : κ → ι → ℝ}
    (hX : InBalls X) (hP : InBalls P) (hc : ∀ k, HasDerivAt (fun t => c t k) (V k) 0) (h0 : c 0 = X)
    (hL : ∀ k, pbLog X P k = some (L k)) :
    HasDerivAt (fun t => pbDist (c t) P ^ 2 / 2) (-pbInner X L V) 0 := by
  have e : ∀ t, pbDist (c t) P ^ 2 / 2 = ∑ k, pbDist1 (c t k) (P k) ^ 2 / 2 := by
    intro t
    rw [pbDist, npNorm_sq_real, tensordot, Finset.sum_div]
    exact Finset.sum_congr rfl fun i _ => by rw [← sq]
  simp only [e]
  rw [pbInner_eq, ← Finset.sum_neg_distrib]
  refine HasDerivAt.fun_sum fun k _ => ?_
  have ha := hX k
  have hb := hP k
  have hLk : pbLog1 (X k) (P k) = some (L k) := hL k
  have hab : X k ≠ P k := by
    intro h
    have := (mobius_eq_zero ha hb).mpr h
    rw [pbLog1] at hLk
    simp [this] at hLk
  rw [log1_eq ha hb hab] at hLk
  have hLe := Option.some.inj hLk
  have hck := hc k
  have h0k : c 0 k = X k := by rw [h0]
  refine (ball_half_dist_sq ha hb hab (hc k) (by rw [h0])).congr_deriv ?_
  rw [← hLe]

/-! ### Positive definite matrices -/

section PD
open scoped ComplexOrder
variable {κ : Type*} [Fintype κ] {n : ℕ} {𝕜 : Type*} [RCLike 𝕜]

/-- The linear model of half the squared logarithm. -/
theorem log_sq_quad {a : ℝ} (ha : 0 < a) : ∃ C, ∀ᶠ b in 𝓝[Set.univ] a,
    |Real.log b ^ 2 / 2 - Real.log a ^ 2 / 2 - Real.log a / a * (b - a)| ≤ C * (b - a) ^ 2 := by
  rw [nhdsWithin_univ]
  refine local_quad (f := fun b => Real.log b ^ 2 / 2) (f' := fun b => Real.log b / b)
    (f'' := (a⁻¹ * a - Real.log a * 1) / a ^ 2) ?_ ?_
  · filter_upwards [eventually_gt_nhds ha] with b hb
    refine (((Real.hasDerivAt_log hb.ne').fun_pow 2).div_const 2).congr_deriv ?_
    push_cast
    field_simp
  · exact (Real.hasDerivAt_log ha.ne').div (hasDerivAt_id a) ha.ne'

/-- **C121** (positive definite matrices, real and Hermitian). -/
theorem C121_positive_definite {c : ℝ → Stack κ (Fin n) (Fin n) 𝕜} {A B V L : Stack κ (Fin n) (Fin n) 𝕜}
    (hon : ∀ t, PDPoint (c t)) (hB : PDPoint B) (hc : StackDeriv c V 0) (h0 : c 0 = A)
    (hL : IsPdLog A B L) {δ : ℝ → ℝ} (hδ : ∀ t, IsPdDist (c t) B (δ t)) :
    HasDerivAt (fun t => δ t ^ 2 / 2) (-pdInner A L V) 0 := by
  have hA : PDPoint A := h0 ▸ hon 0
  choose q hq using fun k => exists_isCholesky (hB k)
  have hqu := fun k => (hq k).isUnit
  choose w v he using fun t k =>
    exists_isEigh (A := whiten (q k) (c t k)) (posDef_whiten (hqu k) (hon t k)).isHermitian
  have hwpos : ∀ t k i, 0 < w t k i := fun t k i =>
    (he t k).eigenvalue_pos (posDef_whiten (hqu k) (hon t k)) i
  have hδe : ∀ t, δ t ^ 2 / 2 = ∑ k, ∑ i, Real.log (w t k i) ^ 2 / 2 := by
    intro t
    have h1 : IsPdDist B (c t) (pdDist (w t) (v t)) := ⟨q, w t, v t, hq, he t, rfl⟩
    rw [C82_dist_symm hB (hδ t) h1, pdDist_sq (he t), Finset.sum_div]
    exact Finset.sum_congr rfl fun k _ => Finset.sum_div _ _ _
  simp only [hδe]
  -- the derivative of the sum over the spectra
  have hder : HasDerivAt (fun t => ∑ k, ∑ i, Real.log (w t k i) ^ 2 / 2)
      (∑ k, trDot (spectral (fun x => Real.log x / x) (w 0 k) (v 0 k)) (whiten (q k) (V k))) 0 := by
    refine HasDerivAt.fun_sum fun k _ => ?_
    have hM : MatDeriv (fun t => whiten (q k) (c t k)) (whiten (q k) (V k)) 0 := by
      have h1 := ((MatDeriv.const (q k)⁻¹ 0).mul ((stackDeriv_iff.1 hc) k)).mul
        (MatDeriv.const ((q k)⁻¹)ᴴ 0)
      refine h1.congr_deriv ?_
      simp [whiten]
    exact hasDerivAt_eigh_sum hM (fun t => he t k) (f := fun x => Real.log x ^ 2 / 2)
      (f' := fun x => Real.log x / x) (S := Set.univ) (by simp) fun i => log_sq_quad (hwpos 0 k i)
  refine hder.congr_deriv ?_
  -- a factor of the point in terms of the factor of the target
  set S : Stack κ (Fin n) (Fin n) 𝕜 := fun k => spectral Real.sqrt (w 0 k) (v 0 k) with hS
  set Si : Stack κ (Fin n) (Fin n) 𝕜 := fun k => spectral (fun x => 1 / Real.sqrt x) (w 0 k) (v 0 k)
    with hSi
  have hor := fun k => (he 0 k).orth
  have hor' := fun k => (he 0 k).orth'
  have hSS : ∀ k, S k * Si k = 1 := fun k => by
    rw [hS, hSi]
    simp only
    rw [spectral_mul _ _ (hor k)]
    exact spectral_one _ (hor' k) fun i =>
      mul_one_div_cancel (Real.sqrt_ne_zero'.2 (hwpos 0 k i))
  have hSu : ∀ k, IsUnit (S k) := fun k => IsUnit.of_mul_eq_one _ (hSS k)
  have hSinv : ∀ k, (S k)⁻¹ = Si k := fun k => inv_eq_right_inv (hSS k)
  have hSh : ∀ k, (S k)ᴴ = S k := fun k => spectral_conjTranspose _
  have hSih : ∀ k, (Si k)ᴴ = Si k := fun k => spectral_conjTranspose _
  set C : Stack κ (Fin n) (Fin n) 𝕜 := fun k => q k * S k with hC
  have hCu : ∀ k, IsUnit (C k) := fun k => (hqu k).mul (hSu k)
  have hCC : ∀ k, C k * (C k)ᴴ = A k := by
    intro k
    have h1 : S k * S k = whiten (q k) (A k) := by
      have h2 : whiten (q k) (A k) = spectral (fun x => x) (w 0 k) (v 0 k) := by
        rw [← h0]; exact (he 0 k).prod
      rw [h2, hS]
      simp only
      rw [spectral_mul _ _ (hor k)]
      exact spectral_congr fun i => Real.mul_self_sqrt (hwpos 0 k i).le
    rw [hC]
    simp only
    rw [conjTranspose_mul, hSh, ← Matrix.mul_assoc, Matrix.mul_assoc (q k), h1, unwhiten (hqu k)]
  -- the logarithm
  set N : Stack κ (Fin n) (Fin n) 𝕜 := fun k => spectral (fun x => -Real.log x) (w 0 k) (v 0 k) with hN
  have hNh : ∀ k, (N k)ᴴ = N k := fun k => spectral_conjTranspose _
  have hLc : L = fun k => C k * N k * (C k)ᴴ := by
    have hherm : HermStack fun k => C k * N k * (C k)ᴴ := by
      have hc3 : ∀ X Y : Matrix (Fin n) (Fin n) 𝕜, Yᴴ = Y → (X * Y * Xᴴ)ᴴ = X * Y * Xᴴ := by
        intro X Y hY
        rw [conjTranspose_mul, conjTranspose_mul, conjTranspose_conjTranspose, hY, Matrix.mul_assoc]
      rw [hermStack_iff]
      exact fun k => hc3 _ _ (hNh k)
    refine C82_log_exp (A := A) hherm ?_
    have hexp : pdExp A (fun k => C k * N k * (C k)ᴴ) = B := by
      funext k
      rw [pdExp_apply, exp_solve (hCu k) (hCC k), whiten_mul (hCu k)]
      have h1 : IsEigh (N k) (fun i => -Real.log (w 0 k i)) (v 0 k) := ⟨hor k, rfl⟩
      have h2 : NormedSpace.exp (N k) = Si k * Si k := by
        rw [exp_spectral h1, hSi]
        simp only
        rw [spectral_mul _ _ (hor k)]
        simp only [spectral]
        congr 3
        funext i
        rw [Real.exp_neg, Real.exp_log (hwpos 0 k i), div_mul_div_comm, one_mul,
          Real.mul_self_sqrt (hwpos 0 k i).le, one_div]
      rw [h2, hC]
      simp only
      rw [conjTranspose_mul, hSh]
      calc q k * S k * (Si k * Si k) * (S k * (q k)ᴴ) =
          q k * (S k * Si k) * (Si k * S k) * (q k)ᴴ := by simp only [Matrix.mul_assoc]
        _ = q k * (q k)ᴴ := by
          rw [hSS, mul_eq_one_comm.1 (hSS k), Matrix.mul_one, Matrix.mul_one]
        _ = B k := (hq k).prod
    rw [hexp]; exact hL
  have hLh := (C82_exp_log hB hL).1
  rw [pdInner_metric hLh, pdMetric_whiten hCC hCu, stackDot_eq, ← Finset.sum_neg_distrib]
  refine Finset.sum_congr rfl fun k _ => ?_
  rw [hLc]
  simp only
  rw [whiten_mul (hCu k)]
  have h3 : whiten (C k) (V k) = Si k * whiten (q k) (V k) * Si k := by
    simp only [whiten, hC, Matrix.mul_inv_rev, hSinv, conjTranspose_mul, hSih, Matrix.mul_assoc]
  have h4 : trDot (N k) (Si k * whiten (q k) (V k) * Si k) =
      trDot (Si k * N k * Si k) (whiten (q k) (V k)) := by
    rw [trDot, trDot, conjTranspose_mul, conjTranspose_mul, hSih, hNh]
    congr 1
    calc (N k * (Si k * whiten (q k) (V k) * Si k)).trace =
        (N k * Si k * whiten (q k) (V k) * Si k).trace := by simp only [Matrix.mul_assoc]
      _ = _ := by rw [trace_mul_comm]; simp only [Matrix.mul_assoc]
  have h5 : Si k * N k * Si k = -spectral (fun x => Real.log x / x) (w 0 k) (v 0 k) := by
    rw [hSi, hN]
    simp only
    rw [spectral_mul _ _ (hor k), spectral_mul _ _ (hor k)]
    have h6 : -spectral (fun x => Real.log x / x) (w 0 k) (v 0 k) =
        spectral (fun x => -(Real.log x / x)) (w 0 k) (v 0 k) := by
      simp only [spectral]
      rw [← Matrix.neg_mul, ← Matrix.mul_neg, diagonal_neg]
      congr 3
      funext i
      push_cast; rfl
    rw [h6]
    refine spectral_congr fun i => ?_
    have h7 := Real.mul_self_sqrt (hwpos 0 k i).le
    have h8 := Real.sqrt_ne_zero'.2 (hwpos 0 k i)
    rw [← h7, Real.sqrt_mul_self (Real.sqrt_nonneg _)]
    field_simp
  rw [h3, h4, h5, trDot, trDot, conjTranspose_neg, Matrix.neg_mul, trace_neg, map_neg, neg_neg]

/-- **C121** (Hermitian positive definite matrices of determinant one). -/
theorem C121_special_hpd {c : ℝ → Stack κ (Fin n) (Fin n) ℂ} {A B V L : Stack κ (Fin n) (Fin n) ℂ}
    (hon : ∀ t, SHPDPoint (c t)) (hB : SHPDPoint B) (hc : StackDeriv c V 0) (h0 : c 0 = A)
    (hL : IsPdLog A B L) {δ : ℝ → ℝ} (hδ : ∀ t, IsPdDist (c t) B (δ t)) :
    HasDerivAt (fun t => δ t ^ 2 / 2) (-pdInner A L V) 0 :=
  C121_positive_definite (fun t => (hon t).1) hB.1 hc h0 hL hδ

end PD

end Verif.Geo
