/-
The logarithm and the gradient of half the squared distance (C121): unitary and special orthogonal
groups.
-/
import Verif.Geo.Lemmas.TraceDeriv
import Verif.Geo.Props.Metric

namespace Verif.Geo
open scoped BigOperators Topology
open Matrix Filter

/-! ### Lemmas -/

/-- The linear model of half the squared angle on the unit circle, away from `-1`. -/
theorem arg_sq_quad {b : ℂ} (hb : ‖b‖ = 1) (hb1 : b ≠ -1) : ∃ C, ∀ᶠ a in 𝓝[{a | ‖a‖ = 1}] b,
    |a.arg ^ 2 / 2 - b.arg ^ 2 / 2 - RCLike.re (star ((b.arg : ℂ) * Complex.I * b) * (a - b))| ≤
      C * ‖a - b‖ ^ 2 := by
  have hslit : b ∈ Complex.slitPlane := by
    rw [Complex.mem_slitPlane_iff_arg]
    refine ⟨fun h => hb1 ?_, fun h => by simp [h] at hb⟩
    rw [← exp_arg_of_norm_one hb, h, Complex.exp_pi_mul_I]
  obtain ⟨K, hK⟩ := (Complex.hasStrictDerivAt_log hslit).hasDerivAt.isBigO_sub.bound
  set C := ((4 * Real.pi + 1) * (Real.pi ^ 2 / 4)) with hC
  refine ⟨C / 2 + (K + Real.pi), ?_⟩
  rw [eventually_nhdsWithin_iff]
  filter_upwards [hK] with a ha ha1
  have ha1 : ‖a‖ = 1 := ha1
  have hup := arg_sq_le ha1 hb
  have hlo := arg_sq_le hb ha1
  have hlip : |a.arg - b.arg| ≤ K * ‖a - b‖ := by
    have h1 := Complex.abs_im_le_norm (Complex.log a - Complex.log b)
    rw [Complex.sub_im, Complex.log_im, Complex.log_im] at h1
    exact h1.trans ha
  rw [← hC] at hup hlo
  have e1 : (star (2 * (b.arg : ℂ) * Complex.I * b) * (a - b)).re =
      2 * (star ((b.arg : ℂ) * Complex.I * b) * (a - b)).re := by
    have : star (2 * (b.arg : ℂ) * Complex.I * b) * (a - b) =
        ((2 : ℝ) : ℂ) * (star ((b.arg : ℂ) * Complex.I * b) * (a - b)) := by
      simp only [star_mul', Complex.ofReal_ofNat]
      have : star (2 : ℂ) = 2 := by simp
      rw [this]; ring
    rw [this, Complex.re_ofReal_mul]
  have e2 : (star (2 * (a.arg : ℂ) * Complex.I * a) * (b - a)).re =
      -(2 * (star ((b.arg : ℂ) * Complex.I * b) * (a - b)).re) -
        2 * (star ((a.arg : ℂ) * Complex.I * a - (b.arg : ℂ) * Complex.I * b) * (a - b)).re := by
    have : star (2 * (a.arg : ℂ) * Complex.I * a) * (b - a) =
        ((-2 : ℝ) : ℂ) * (star ((b.arg : ℂ) * Complex.I * b) * (a - b)) +
          ((-2 : ℝ) : ℂ) * (star ((a.arg : ℂ) * Complex.I * a - (b.arg : ℂ) * Complex.I * b) *
            (a - b)) := by
      simp only [star_mul', star_sub]
      have : star (2 : ℂ) = 2 := by simp
      rw [this]; push_cast; ring
    rw [this, Complex.add_re, Complex.re_ofReal_mul, Complex.re_ofReal_mul]
    ring
  rw [e1] at hup
  rw [e2, norm_sub_rev] at hlo
  -- the two linear models differ little
  have hG : ‖(a.arg : ℂ) * Complex.I * a - (b.arg : ℂ) * Complex.I * b‖ ≤
      (K + Real.pi) * ‖a - b‖ := by
    have e3 : (a.arg : ℂ) * Complex.I * a - (b.arg : ℂ) * Complex.I * b =
        ((a.arg - b.arg : ℝ) : ℂ) * Complex.I * a + (b.arg : ℂ) * Complex.I * (a - b) := by
      push_cast; ring
    rw [e3]
    refine (norm_add_le _ _).trans ?_
    rw [norm_mul, norm_mul, norm_mul, norm_mul, Complex.norm_I, ha1, Complex.norm_real,
      Complex.norm_real, Real.norm_eq_abs, Real.norm_eq_abs, mul_one, mul_one, mul_one]
    have := mul_le_mul_of_nonneg_right (Complex.abs_arg_le_pi b) (norm_nonneg (a - b))
    linarith
  have hR : |(star ((a.arg : ℂ) * Complex.I * a - (b.arg : ℂ) * Complex.I * b) * (a - b)).re| ≤
      (K + Real.pi) * ‖a - b‖ ^ 2 := by
    refine (Complex.abs_re_le_norm _).trans ?_
    rw [norm_mul, norm_star, sq, ← mul_assoc]
    exact mul_le_mul_of_nonneg_right hG (norm_nonneg _)
  have hKpi : 0 ≤ (K + Real.pi) * ‖a - b‖ ^ 2 := (abs_nonneg _).trans hR
  have hR' := abs_le.1 hR
  change |a.arg ^ 2 / 2 - b.arg ^ 2 / 2 - (star ((b.arg : ℂ) * Complex.I * b) * (a - b)).re| ≤ _
  rw [abs_le]
  constructor <;> nlinarith [hR'.1, hR'.2]

section
variable {κ n : Type*} [Fintype κ] [Fintype n] [DecidableEq n]

theorem eigenvalue_ne_neg_one {v : Matrix n n ℂ} (hv : vᴴ * v = 1) {a : n → ℂ}
    (h : ∀ x, (v * diagonal a * vᴴ) *ᵥ x = -x → x = 0) (i : n) : a i ≠ -1 := by
  intro hi
  have h1 : (v * diagonal a * vᴴ) *ᵥ (v *ᵥ Pi.single i (1 : ℂ)) = -(v *ᵥ Pi.single i (1 : ℂ)) := by
    rw [mulVec_mulVec, Matrix.mul_assoc _ _ v, hv, Matrix.mul_one, ← mulVec_mulVec, ← mulVec_neg]
    congr 1
    ext j
    rw [mulVec_diagonal, Pi.neg_apply]
    by_cases hj : j = i
    · subst hj; simp [hi]
    · simp [Pi.single_eq_of_ne hj]
  have h2 := congrArg (fun z => vᴴ *ᵥ z) (h _ h1)
  change vᴴ *ᵥ (v *ᵥ _) = vᴴ *ᵥ 0 at h2
  rw [mulVec_mulVec, hv, one_mulVec, mulVec_zero] at h2
  simpa using congrFun h2 i

omit [DecidableEq n] in
theorem gInner_re (X A B : Stack κ n n ℂ) : (gInner X A B).re = ∑ k, trDot (A k) (B k) := by
  unfold gInner
  rw [Complex.re_sum, Fintype.sum_prod_type]
  refine Finset.sum_congr rfl fun k _ => ?_
  rw [trDot_eq_sum, Fintype.sum_prod_type]
  rfl

/-- **C121** (unitary group): a curve through `A` with velocity `V` in the Lie algebra, towards a
point `B` that is not antipodal to `A` in any direction. -/
theorem C121_unitary {c : ℝ → Stack κ n n ℂ} {A B V L : Stack κ n n ℂ}
    (hon : ∀ t, OnUnitary (c t)) (hB : OnUnitary B) (hV : InLie V)
    (hc : StackDeriv c (gEmbed A V) 0) (h0 : c 0 = A) (hL : IsGLog A B L)
    (hcut : ∀ k x, ((A k)ᴴ * B k) *ᵥ x = -x → x = 0)
    {δ : ℝ → ℝ} (hδ : ∀ t, IsGDist (c t) B (δ t)) :
    HasDerivAt (fun t => δ t ^ 2 / 2) (-(gInner A L V).re) 0 := by
  have hA : OnUnitary A := h0 ▸ hon 0
  have hu := fun t k => quotient_unitary (hon t) hB k
  choose θ v hθ hv he using fun t k => exists_unitary_diag (hu t k)
  set a : ℝ → κ → n → ℂ := fun t k i => Complex.exp (θ t k i * Complex.I) with ha
  have ha1 : ∀ t k i, ‖a t k i‖ = 1 := fun t k i => Complex.norm_exp_ofReal_mul_I _
  have hq : ∀ t k, (c t k)ᴴ * B k = v t k * diagonal (a t k) * (v t k)ᴴ := fun t k => he t k
  have hδe : ∀ t, δ t ^ 2 / 2 = ∑ k, ∑ i, (a t k i).arg ^ 2 / 2 := by
    intro t
    obtain ⟨W, hW, hd⟩ := hδ t
    have hW' := (isGLog_iff (hon t) hB).mp hW
    rw [hd, gNorm_sq, Finset.sum_div]
    refine Finset.sum_congr rfl fun k _ => ?_
    have h1 := hW' k
    rw [hq] at h1
    rw [(h1.sq_norm (hv t k) (ha1 t k)).2, Finset.sum_div]
  simp only [hδe]
  rw [gInner_re, ← Finset.sum_neg_distrib]
  refine HasDerivAt.fun_sum fun k _ => ?_
  have hM : MatDeriv (fun t => (c t k)ᴴ * B k) ((A k * V k)ᴴ * B k) 0 := by
    have h1 := ((stackDeriv_iff.1 hc) k).conjTranspose.mul (MatDeriv.const (B k) 0)
    refine h1.congr_deriv ?_
    simp [gEmbed, multiprod]
  have key := hasDerivAt_spectrum_sum hM (w := fun t => a t k) (v := fun t => v t k)
    (fun t => hv t k) (fun t => hq t k) (F := fun z => z.arg ^ 2 / 2)
    (g := fun z => (z.arg : ℂ) * Complex.I * z) (S := {z | ‖z‖ = 1})
    (Eventually.of_forall fun t i => ha1 t k i) fun i => by
      refine arg_sq_quad (ha1 0 k i) (eigenvalue_ne_neg_one (hv 0 k) ?_ i)
      rw [← hq 0 k, h0]
      exact hcut k
  refine key.congr_deriv ?_
  -- the gradient in terms of the logarithm
  have hLk := (isGLog_iff hA hB).mp hL k
  have hq0 : (A k)ᴴ * B k = v 0 k * diagonal (a 0 k) * (v 0 k)ᴴ := by rw [← h0]; exact hq 0 k
  have hLe : L k = v 0 k * diagonal (fun i => ((a 0 k i).arg : ℂ) * Complex.I) * (v 0 k)ᴴ := by
    rw [hq0] at hLk
    exact (hLk.sq_norm (hv 0 k) (ha1 0 k)).1
  have hprod : v 0 k * diagonal (fun i => ((a 0 k i).arg : ℂ) * Complex.I * a 0 k i) * (v 0 k)ᴴ =
      L k * ((A k)ᴴ * B k) := by
    rw [hLe, hq0]
    have : ∀ d d' : n → ℂ, v 0 k * diagonal d * (v 0 k)ᴴ * (v 0 k * diagonal d' * (v 0 k)ᴴ) =
        v 0 k * diagonal (fun i => d i * d' i) * (v 0 k)ᴴ := by
      intro d d'
      rw [← diagonal_mul_diagonal]
      calc _ = v 0 k * diagonal d * ((v 0 k)ᴴ * v 0 k) * diagonal d' * (v 0 k)ᴴ := by
            simp only [Matrix.mul_assoc]
        _ = _ := by rw [hv 0 k, Matrix.mul_one]; simp only [Matrix.mul_assoc]
    rw [this]
  have hVk : (V k)ᴴ = -V k := hV k
  have hQ : ((A k)ᴴ * B k) * ((A k)ᴴ * B k)ᴴ = 1 := mul_eq_one_comm.mp (quotient_unitary hA hB k)
  rw [hprod, trDot_mul_right, conjTranspose_mul, hVk]
  have e : -V k * (A k)ᴴ * B k * ((A k)ᴴ * B k)ᴴ = -V k := by
    rw [Matrix.mul_assoc, Matrix.mul_assoc, ← Matrix.mul_assoc (A k)ᴴ, hQ, Matrix.mul_one]
  rw [e, trDot, trDot, Matrix.mul_neg, trace_neg, map_neg]

/-- **C121** (special orthogonal group), where the logarithm is real. -/
theorem C121_special_orthogonal {c : ℝ → Stack κ n n ℝ} {A B V L : Stack κ n n ℝ}
    (hon : ∀ t, OnSO (c t)) (hB : OnSO B) (hV : InLie V)
    (hc : StackDeriv c (gEmbed A V) 0) (h0 : c 0 = A) (hL : IsGLog (cplx A) (cplx B) (cplx L))
    {δ : ℝ → ℝ} (hδ : ∀ t, IsGDist (cplx (c t)) (cplx B) (δ t)) :
    HasDerivAt (fun t => δ t ^ 2 / 2) (-gInner A L V) 0 := by
  have hA : OnSO A := h0 ▸ hon 0
  have hAc := onUnitary_cplx hA.1
  have hBc := onUnitary_cplx hB.1
  have hq : ∀ k, (cplx A k)ᴴ * cplx B k = ((A k)ᴴ * B k).map Complex.ofReal := by
    intro k
    change ((A k).map Complex.ofReal)ᴴ * (B k).map Complex.ofReal = _
    rw [map_conjTranspose_real, ← map_mul_real]
  have key := C121_unitary (c := fun t => cplx (c t)) (A := cplx A) (B := cplx B) (V := cplx V)
    (L := cplx L) (fun t => onUnitary_cplx (hon t).1) hBc
    (fun k => by
      change ((V k).map Complex.ofReal)ᴴ = -(V k).map Complex.ofReal
      rw [map_conjTranspose_real, show (V k)ᴴ = -V k from hV k]
      ext i j
      simp)
    (fun k i j => by
      have h1 : HasDerivAt (fun t => ((c t k i j : ℝ) : ℂ)) ((gEmbed A V k i j : ℝ) : ℂ) 0 :=
        (hc k i j).ofReal_comp
      refine h1.congr_deriv ?_
      change _ = ((A k).map Complex.ofReal * (V k).map Complex.ofReal) i j
      rw [← map_mul_real]
      rfl)
    (by rw [h0]) hL ?_ hδ
  · refine key.congr_deriv ?_
    rw [gInner_re]
    congr 1
    unfold gInner
    rw [Fintype.sum_prod_type]
    refine Finset.sum_congr rfl fun k _ => ?_
    rw [trDot_eq_sum, Fintype.sum_prod_type]
    refine Finset.sum_congr rfl fun i _ => Finset.sum_congr rfl fun j _ => ?_
    simp [cplx]
  · intro k x hx
    by_contra hne
    rw [hq] at hx
    obtain ⟨y, hy, hQy⟩ := real_eigenvector hne hx
    have hQ : ((A k)ᴴ * B k)ᴴ * ((A k)ᴴ * B k) = 1 := by
      rw [conjTranspose_mul, conjTranspose_conjTranspose, Matrix.mul_assoc,
        ← Matrix.mul_assoc (A k), hA.1.right, Matrix.one_mul]
      exact hB.1 k
    have hl := (isGLog_iff hAc hBc).mp hL k
    rw [hq] at hl
    exact hy ((logm_real_iff hQ hl).1 ⟨L k, rfl⟩ y hQy)

end

end Verif.Geo
