/-
The triangle inequality behind the distance of unitary matrices: moving along a geodesic of length
`l` changes the Frobenius norm of the principal logarithm by at most `l`.
-/
import Verif.Geo.Lemmas.PdTriangle
import Verif.Geo.Props.GroupLog
import Verif.Geo.Props.Grassmann
import Mathlib.Analysis.SpecialFunctions.Trigonometric.Bounds

namespace Verif.Geo
open scoped BigOperators
open Matrix

/-! ### Scalars -/

/-- The principal argument is the smallest angle. -/
theorem abs_arg_exp_le (x : ℝ) : |(Complex.exp (x * Complex.I)).arg| ≤ |x| := by
  by_cases hpi : |x| < Real.pi
  · have h4 := abs_lt.mp hpi
    rw [Complex.arg_exp_mul_I, (toIocMod_eq_self Real.two_pi_pos).mpr]
    exact ⟨h4.1, by linarith [h4.2]⟩
  · exact (Complex.abs_arg_le_pi _).trans (not_lt.mp hpi)

theorem exp_arg_of_norm_one {a : ℂ} (ha : ‖a‖ = 1) : Complex.exp (a.arg * Complex.I) = a := by
  have := Complex.norm_mul_exp_arg_mul_I a
  rwa [ha, Complex.ofReal_one, one_mul] at this

theorem abs_sub_sin_le (x : ℝ) : |x - Real.sin x| ≤ 2 * x ^ 2 := by
  rcases le_total 0 x with h | h
  · rw [abs_sub_comm]; exact sub_sin_le h
  · have := sub_sin_le (x := -x) (by linarith)
    rw [Real.sin_neg] at this
    have e : -Real.sin x - -x = x - Real.sin x := by ring
    rw [e] at this
    nlinarith

theorem sq_le_norm_exp_sub_one {φ : ℝ} (h : |φ| ≤ Real.pi) :
    φ ^ 2 ≤ Real.pi ^ 2 / 4 * ‖Complex.exp (φ * Complex.I) - 1‖ ^ 2 := by
  rw [mul_comm (φ : ℂ), Complex.norm_exp_I_mul_ofReal_sub_one, Real.norm_eq_abs, sq_abs]
  have h1 := Real.mul_abs_le_abs_sin (x := φ / 2) (by
    rw [abs_div, abs_of_pos (by norm_num : (0 : ℝ) < 2)]; linarith)
  rw [abs_div, abs_of_pos (by norm_num : (0 : ℝ) < 2)] at h1
  have hpi := Real.pi_pos
  have h2 : |φ| ≤ Real.pi * |Real.sin (φ / 2)| := by
    have h3 := mul_le_mul_of_nonneg_left h1 hpi.le
    have e : Real.pi * (2 / Real.pi * (|φ| / 2)) = |φ| := by field_simp
    linarith
  have h3 := pow_le_pow_left₀ (abs_nonneg φ) h2 2
  rw [sq_abs, mul_pow, sq_abs] at h3
  nlinarith

/-- A second order upper bound for the square of the principal argument on the unit circle. -/
theorem arg_sq_le {a b : ℂ} (ha : ‖a‖ = 1) (hb : ‖b‖ = 1) :
    a.arg ^ 2 ≤ b.arg ^ 2 + (star (2 * b.arg * Complex.I * b) * (a - b)).re +
      ((4 * Real.pi + 1) * (Real.pi ^ 2 / 4)) * ‖a - b‖ ^ 2 := by
  set θ := b.arg with hθ
  set q := a * star b with hq
  have hbb : star b * b = 1 := by
    rw [Complex.star_def, Complex.conj_mul', hb]; norm_num
  have hqn : ‖q‖ = 1 := by rw [hq, norm_mul, norm_star, ha, hb, one_mul]
  set φ := q.arg with hφ
  have hqe : Complex.exp (φ * Complex.I) = q := exp_arg_of_norm_one hqn
  have hae : a = q * b := by rw [hq, mul_assoc, hbb, mul_one]
  have hbe : Complex.exp (θ * Complex.I) = b := exp_arg_of_norm_one hb
  have h1 : a.arg ^ 2 ≤ (θ + φ) ^ 2 := by
    have e : a = Complex.exp (((θ + φ : ℝ) : ℂ) * Complex.I) := by
      rw [hae, ← hqe, ← hbe, ← Complex.exp_add]
      congr 1
      push_cast; ring
    rw [e, ← sq_abs, ← sq_abs (θ + φ)]
    exact pow_le_pow_left₀ (abs_nonneg _) (abs_arg_exp_le _) 2
  have hsin : q.im = Real.sin φ := by rw [← hqe, Complex.exp_ofReal_mul_I_im]
  have h2 : (star (2 * θ * Complex.I * b) * (a - b)).re = 2 * θ * Real.sin φ := by
    have e : star (2 * (θ : ℂ) * Complex.I * b) * (a - b) = (2 * θ) * (-Complex.I * (q - 1)) := by
      rw [star_mul', star_mul', star_mul']
      have i1 : star Complex.I = -Complex.I := Complex.conj_I
      have i2 : star (θ : ℂ) = θ := Complex.conj_ofReal θ
      have i3 : star (2 : ℂ) = 2 := Complex.conj_ofNat 2
      rw [i1, i2, i3, hq]
      linear_combination (-(2 * (θ : ℂ) * Complex.I)) * (-hbb)
    rw [e]
    have e2 : (2 * (θ : ℂ)) = ((2 * θ : ℝ) : ℂ) := by push_cast; ring
    rw [e2, Complex.re_ofReal_mul]
    simp [hsin]
  have h3 : ‖a - b‖ = ‖Complex.exp (φ * Complex.I) - 1‖ := by
    rw [hqe, hae]
    have : q * b - b = (q - 1) * b := by ring
    rw [this, norm_mul, hb, mul_one]
  have hφpi : |φ| ≤ Real.pi := Complex.abs_arg_le_pi q
  have h4 := sq_le_norm_exp_sub_one hφpi
  have h5 := abs_le.mp (abs_sub_sin_le φ)
  have h6 := abs_le.mp (Complex.abs_arg_le_pi b)
  rw [h2, h3]
  have hpi := Real.pi_pos
  have h7 : θ * (φ - Real.sin φ) ≤ Real.pi * (2 * φ ^ 2) := by
    calc θ * (φ - Real.sin φ) ≤ |θ * (φ - Real.sin φ)| := le_abs_self _
      _ = |θ| * |φ - Real.sin φ| := abs_mul _ _
      _ ≤ _ := mul_le_mul (Complex.abs_arg_le_pi b) (abs_sub_sin_le φ) (abs_nonneg _) hpi.le
  have h8 := mul_le_mul_of_nonneg_left h4 (show 0 ≤ 4 * Real.pi + 1 by positivity)
  nlinarith

theorem norm_exp_I_sub_one_sub_le (x : ℝ) :
    ‖Complex.exp (x * Complex.I) - 1 - x * Complex.I‖ ≤ x ^ 2 * Real.exp |x| := by
  have h := Complex.norm_exp_sub_sum_le_norm_mul_exp (x * Complex.I) 2
  simp only [Finset.sum_range_succ, Finset.sum_range_zero, pow_zero, Nat.factorial_zero,
    Nat.factorial_one, Nat.cast_one, div_one, pow_one, Complex.norm_real, Real.norm_eq_abs,
    zero_add, norm_mul, Complex.norm_I, mul_one, sq_abs, ← sub_sub] at h
  exact h

theorem norm_exp_I_sub_one_le (x : ℝ) : ‖Complex.exp (x * Complex.I) - 1‖ ≤ |x| := by
  rw [mul_comm]; exact Real.norm_exp_I_mul_ofReal_sub_one_le

/-! ### Matrices -/

section
variable {n : Type*} [Fintype n] [DecidableEq n]

theorem trDot_diag_entries {v : Matrix n n ℂ} (hv : vᴴ * v = 1) (d : n → ℂ) :
    trDot (v * diagonal d * vᴴ) (v * diagonal d * vᴴ) = ∑ i, ‖d i‖ ^ 2 := by
  have hv' : (vᴴ)ᴴ * vᴴ = 1 := by rw [conjTranspose_conjTranspose]; exact mul_eq_one_comm.mp hv
  have := trDot_unitary hv' hv' (diagonal d) (diagonal d)
  rw [conjTranspose_conjTranspose] at this
  rw [this, trDot_self_eq]
  refine Finset.sum_congr rfl fun i _ => ?_
  rw [Finset.sum_eq_single i]
  · rw [diagonal_apply_eq]
  · intro j _ hj
    rw [diagonal_apply_ne _ hj.symm, norm_zero, sq, mul_zero]
  · intro h; exact absurd (Finset.mem_univ i) h

theorem unitary_diag_norm {v : Matrix n n ℂ} (hv : vᴴ * v = 1) {a : n → ℂ}
    (h : (v * diagonal a * vᴴ)ᴴ * (v * diagonal a * vᴴ) = 1) (i : n) : ‖a i‖ = 1 := by
  have h1 : (diagonal a)ᴴ * diagonal a = (1 : Matrix n n ℂ) := by
    have h2 := congrArg (fun M => vᴴ * M * v) h
    rw [Matrix.mul_one, hv] at h2
    rw [← h2, conjTranspose_mul, conjTranspose_mul, conjTranspose_conjTranspose]
    calc (diagonal a)ᴴ * diagonal a = 1 * (diagonal a)ᴴ * 1 * diagonal a * 1 := by simp
      _ = _ := by rw [← hv]; simp only [Matrix.mul_assoc]
  have h3 := congrFun (congrFun h1 i) i
  rw [diagonal_conjTranspose, diagonal_mul_diagonal, diagonal_apply_eq, one_apply_eq,
    Pi.star_apply, Complex.star_def, Complex.conj_mul'] at h3
  have h4 : ‖a i‖ ^ 2 = 1 := by exact_mod_cast h3
  exact (pow_eq_one_iff_of_nonneg (norm_nonneg _) two_ne_zero).mp h4

/-- The square norm of the principal logarithm of a unitary matrix, from any diagonalisation. -/
theorem IsLogm.sq_norm {v L : Matrix n n ℂ} (hv : vᴴ * v = 1) {a : n → ℂ} (ha : ∀ i, ‖a i‖ = 1)
    (h : IsLogm (v * diagonal a * vᴴ) L) :
    L = v * diagonal (fun i => ((a i).arg : ℂ) * Complex.I) * vᴴ ∧
      trDot L L = ∑ i, (a i).arg ^ 2 := by
  have h1 := isLogm_unitary_diag hv (w := fun i => (a i).arg)
    fun i => ⟨Complex.neg_pi_lt_arg _, Complex.arg_le_pi _⟩
  simp only [fun i => exp_arg_of_norm_one (ha i)] at h1
  have h2 := h.unique h1
  exact ⟨h2, by rw [h2, trDot_unitary_diag hv]⟩

/-- The principal logarithm of a product is at most as long as the sum of the lengths. -/
theorem unitary_triangle {P H L₀ L₁ : Matrix n n ℂ} (hP : Pᴴ * P = 1) (hH : Hᴴ = -H)
    (h₀ : IsLogm P L₀) (h₁ : IsLogm (P * NormedSpace.exp H) L₁) :
    Real.sqrt (trDot L₁ L₁) ≤ Real.sqrt (trDot L₀ L₀) + Real.sqrt (trDot H H) := by
  obtain ⟨w, v, hv, hHd⟩ := exists_skew_diag hH
  have hv' : v * vᴴ = 1 := mul_eq_one_comm.mp hv
  set e : ℝ → Matrix n n ℂ := fun t =>
    v * diagonal (fun i => Complex.exp (((t * w i : ℝ) : ℂ) * Complex.I)) * vᴴ with he
  have hdmul : ∀ d d' : n → ℂ, v * diagonal d * vᴴ * (v * diagonal d' * vᴴ) =
      v * diagonal (fun i => d i * d' i) * vᴴ := by
    intro d d'
    calc v * diagonal d * vᴴ * (v * diagonal d' * vᴴ) =
        v * diagonal d * (vᴴ * v) * diagonal d' * vᴴ := by simp only [Matrix.mul_assoc]
      _ = _ := by rw [hv, Matrix.mul_one, Matrix.mul_assoc v, diagonal_mul_diagonal]
  have hone : (1 : Matrix n n ℂ) = v * diagonal (fun _ => (1 : ℂ)) * vᴴ := by
    rw [diagonal_one, Matrix.mul_one, hv']
  have he0 : e 0 = 1 := by
    rw [he, hone]; simp
  have he1 : e 1 = NormedSpace.exp H := by
    rw [hHd, exp_unitary_diag hv]
    simp [he]
  have hadd : ∀ s t, e (s + t) = e s * e t := by
    intro s t
    simp only [he]
    rw [hdmul]
    congr 3
    funext i
    rw [← Complex.exp_add]
    congr 1
    push_cast; ring
  have huni : ∀ t, (e t)ᴴ * e t = 1 := by
    intro t
    have hH' : (e t)ᴴ = e (-t) := by
      simp only [he]
      rw [conjTranspose_mul, conjTranspose_mul, conjTranspose_conjTranspose, diagonal_conjTranspose,
        ← Matrix.mul_assoc]
      congr 3
      funext i
      rw [Pi.star_apply]
      change (starRingEnd ℂ) (Complex.exp _) = _
      rw [← Complex.exp_conj, map_mul, Complex.conj_I, Complex.conj_ofReal]
      congr 1
      push_cast; ring
    rw [hH', ← hadd, neg_add_cancel, he0]
  have hX : ∀ t, (P * e t)ᴴ * (P * e t) = 1 := by
    intro t
    rw [conjTranspose_mul, Matrix.mul_assoc, ← Matrix.mul_assoc Pᴴ, hP, Matrix.one_mul, huni]
  -- the principal logarithms along the geodesic
  choose L hL using fun t => exists_isLogm (hX t)
  choose θ W hθ hW hPe using fun t => exists_unitary_diag (hX t)
  set b : ℝ → n → ℂ := fun t i => Complex.exp (θ t i * Complex.I) with hb
  have hbn : ∀ t i, ‖b t i‖ = 1 := fun t i => Complex.norm_exp_ofReal_mul_I _
  have hPe' : ∀ t, P * e t = W t * diagonal (b t) * (W t)ᴴ := hPe
  have hLd : ∀ t, L t = W t * diagonal (fun i => ((b t i).arg : ℂ) * Complex.I) * (W t)ᴴ ∧
      trDot (L t) (L t) = ∑ i, (b t i).arg ^ 2 := by
    intro t
    refine IsLogm.sq_norm (hW t) (hbn t) ?_
    rw [← hPe' t]; exact hL t
  -- constants
  set l := Real.sqrt (trDot H H) with hl
  set c := Real.sqrt (∑ i, (w i ^ 2 * Real.exp |w i|) ^ 2) with hc
  set K := (4 * Real.pi + 1) * (Real.pi ^ 2 / 4) with hK
  have hpi := Real.pi_pos
  have hK0 : 0 ≤ K := by positivity
  have hl2 : trDot H H = ∑ i, w i ^ 2 := by rw [hHd, trDot_unitary_diag hv]
  have hsub : ∀ d d' : n → ℂ, v * diagonal d * vᴴ - v * diagonal d' * vᴴ =
      v * diagonal (fun i => d i - d' i) * vᴴ := by
    intro d d'
    rw [← Matrix.sub_mul, ← Matrix.mul_sub, diagonal_sub]
  have hlen : ∀ h, 0 < h → h ≤ 1 → Real.sqrt (trDot (e h - 1) (e h - 1)) ≤ h * l + c * h ^ 2 := by
    intro h hh hh1
    have e1 : e h - 1 = h • H + (e h - 1 - h • H) := by abel
    have e0 : h • H = v * diagonal (fun i => ((h * w i : ℝ) : ℂ) * Complex.I) * vᴴ := by
      conv_lhs => rw [hHd]
      rw [← Matrix.smul_mul, ← Matrix.mul_smul, ← diagonal_smul]
      congr 3
      funext i
      rw [Pi.smul_apply, Complex.real_smul]
      push_cast; ring
    have e2 : e h - 1 - h • H = v * diagonal (fun i => Complex.exp (((h * w i : ℝ) : ℂ) * Complex.I)
        - 1 - ((h * w i : ℝ) : ℂ) * Complex.I) * vᴴ := by
      rw [hone, e0, he]
      simp only
      rw [hsub, hsub]
    rw [e1]
    refine (trDot_inner.sqrt_triangle _ _).trans (add_le_add ?_ ?_)
    · rw [trDot_inner.smul_left, trDot_inner.smul_right, ← mul_assoc, ← sq,
        Real.sqrt_mul (sq_nonneg h), Real.sqrt_sq hh.le]
    · rw [e2, trDot_diag_entries hv]
      have h3 : ∑ i, ‖Complex.exp (((h * w i : ℝ) : ℂ) * Complex.I) - 1 -
          ((h * w i : ℝ) : ℂ) * Complex.I‖ ^ 2 ≤
          (∑ i, (w i ^ 2 * Real.exp |w i|) ^ 2) * (h ^ 2) ^ 2 := by
        rw [Finset.sum_mul]
        refine Finset.sum_le_sum fun i _ => ?_
        rw [← mul_pow]
        refine pow_le_pow_left₀ (norm_nonneg _) ?_ 2
        refine (norm_exp_I_sub_one_sub_le _).trans ?_
        have h4 : Real.exp |h * w i| ≤ Real.exp |w i| := by
          rw [Real.exp_le_exp, abs_mul, abs_of_pos hh]
          have := mul_le_mul_of_nonneg_right hh1 (abs_nonneg (w i))
          linarith
        have h5 := mul_le_mul_of_nonneg_left h4 (sq_nonneg (h * w i))
        rw [mul_pow] at h5 ⊢
        linarith
      refine (Real.sqrt_le_sqrt h3).trans ?_
      rw [Real.sqrt_mul (Finset.sum_nonneg fun _ _ => sq_nonneg _), Real.sqrt_sq (sq_nonneg h)]
  have hquad : ∀ h, 0 < h → trDot (e h - 1) (e h - 1) ≤ trDot H H * h ^ 2 := by
    intro h hh
    rw [hl2, hone, he]
    simp only
    rw [hsub, trDot_diag_entries hv, Finset.sum_mul]
    refine Finset.sum_le_sum fun i _ => ?_
    rw [← mul_pow, ← sq_abs (w i * h)]
    refine pow_le_pow_left₀ (norm_nonneg _) ?_ 2
    rw [mul_comm (w i)]
    exact norm_exp_I_sub_one_le _
  -- one step
  have hstep : ∀ t h, 0 ≤ t → 0 < h → t + h ≤ 1 →
      ∑ i, (b (t + h) i).arg ^ 2 ≤ ∑ i, (b t i).arg ^ 2 +
        2 * Real.sqrt (∑ i, (b t i).arg ^ 2) * (h * l + c * h ^ 2) + K * trDot H H * h ^ 2 := by
    intro t h ht hh hth
    have hpt := sum_le_of_pointwise (𝕜 := ℂ) (hW (t + h)) (hW t) (a := b (t + h)) (b := b t)
      (g := fun i => 2 * (b t i).arg * Complex.I * b t i)
      (fa := fun i => (b (t + h) i).arg ^ 2) (fb := fun i => (b t i).arg ^ 2) (C := K)
      fun i j => arg_sq_le (hbn _ _) (hbn _ _)
    rw [← hPe' (t + h), ← hPe' t] at hpt
    have hd : P * e (t + h) - P * e t = P * e t * (e h - 1) := by
      rw [hadd, Matrix.mul_sub, Matrix.mul_one, ← Matrix.mul_assoc]
    have hg : W t * diagonal (fun i => 2 * ((b t i).arg : ℂ) * Complex.I * b t i) * (W t)ᴴ =
        P * e t * ((2 : ℝ) • L t) := by
      rw [hPe' t, (hLd t).1]
      have : (2 : ℝ) • (W t * diagonal (fun i => ((b t i).arg : ℂ) * Complex.I) * (W t)ᴴ) =
          W t * diagonal (fun i => 2 * ((b t i).arg : ℂ) * Complex.I) * (W t)ᴴ := by
        rw [← Matrix.smul_mul, ← Matrix.mul_smul, ← diagonal_smul]
        congr 3
        funext i
        rw [Pi.smul_apply, Complex.real_smul]
        push_cast; ring
      rw [this]
      calc _ = W t * (diagonal (b t) * diagonal
            (fun i => 2 * ((b t i).arg : ℂ) * Complex.I)) * (W t)ᴴ := by
            rw [diagonal_mul_diagonal]
            congr 3
            funext i; ring
        _ = W t * diagonal (b t) * 1 * diagonal
            (fun i => 2 * ((b t i).arg : ℂ) * Complex.I) * (W t)ᴴ := by
            rw [Matrix.mul_one]; simp only [Matrix.mul_assoc]
        _ = _ := by rw [← hW t]; simp only [Matrix.mul_assoc]
    rw [hd, hg] at hpt
    have h1 : trDot (P * e t * ((2 : ℝ) • L t)) (P * e t * (e h - 1)) =
        2 * trDot (L t) (e h - 1) := by
      rw [trDot_mul_left, ← Matrix.mul_assoc, hX, Matrix.one_mul, trDot_inner.smul_left]
    have h2 : trDot (P * e t * (e h - 1)) (P * e t * (e h - 1)) = trDot (e h - 1) (e h - 1) := by
      rw [trDot_mul_left, ← Matrix.mul_assoc, hX, Matrix.one_mul]
    rw [h1, h2] at hpt
    have h3 := trDot_le_sqrt (L t) (e h - 1)
    rw [(hLd t).2] at h3
    have h4 := mul_le_mul_of_nonneg_left (hlen h hh (by linarith))
      (Real.sqrt_nonneg (∑ i, (b t i).arg ^ 2))
    have h5 := mul_le_mul_of_nonneg_left (hquad h hh) hK0
    linarith
  have hfin := sqrt_le_of_steps (F := fun t => ∑ i, (b t i).arg ^ 2) (l := l) (c := c)
    (M := K * trDot H H) (fun t => Finset.sum_nonneg fun _ _ => sq_nonneg _) (Real.sqrt_nonneg _)
    (Real.sqrt_nonneg _) (mul_nonneg hK0 (trDot_self_nonneg H)) hstep
  simp only [← (hLd _).2] at hfin
  have hz : L 0 = L₀ := by
    have := hL 0
    rw [he0, Matrix.mul_one] at this
    exact this.unique h₀
  have ho : L 1 = L₁ := by
    have := hL 1
    rw [he1] at this
    exact this.unique h₁
  rw [hz, ho] at hfin
  exact hfin

end

end Verif.Geo
