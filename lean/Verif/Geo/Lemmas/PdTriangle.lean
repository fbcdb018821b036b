/-
The triangle inequality behind the distance of positive definite matrices: moving along a geodesic
of length `l` changes the Frobenius norm of the logarithm of a congruent matrix by at most `l`.
-/
import Verif.Geo.Lemmas.StepTriangle
import Verif.Geo.Lemmas.Whiten
import Verif.Geo.Props.Euclidean

namespace Verif.Geo
open scoped BigOperators ComplexOrder
open Matrix

/-! ### Scalars -/

theorem abs_exp_sub_one_le_mul (x : ℝ) : |Real.exp x - 1| ≤ |x| * Real.exp |x| := by
  have h := Complex.norm_exp_sub_sum_le_norm_mul_exp (x : ℂ) 1
  simp only [Finset.sum_range_one, pow_zero, Nat.factorial_zero, Nat.cast_one, div_one, pow_one,
    Complex.norm_real, Real.norm_eq_abs] at h
  rw [← Complex.ofReal_exp, ← Complex.ofReal_one, ← Complex.ofReal_sub, Complex.norm_real] at h
  exact h

theorem abs_exp_sub_one_sub_le_mul (x : ℝ) : |Real.exp x - 1 - x| ≤ x ^ 2 * Real.exp |x| := by
  have h := Complex.norm_exp_sub_sum_le_norm_mul_exp (x : ℂ) 2
  simp only [Finset.sum_range_succ, Finset.sum_range_zero, pow_zero, Nat.factorial_zero,
    Nat.factorial_one, Nat.cast_one, div_one, pow_one, Complex.norm_real, Real.norm_eq_abs,
    zero_add, sq_abs] at h
  rw [← Complex.ofReal_exp, ← Complex.ofReal_one, ← Complex.ofReal_add, ← Complex.ofReal_sub,
    Complex.norm_real, ← sub_sub] at h
  exact h

/-- A second order upper bound for the square of the logarithm. -/
theorem log_sq_le {a b R : ℝ} (ha : 0 < a) (hb : 0 < b) (haR : 1 / a ≤ R) (hbR : 1 / b ≤ R)
    (hb' : b ≤ R) : Real.log a ^ 2 ≤ Real.log b ^ 2 + 2 * Real.log b / b * (a - b) +
      (2 * R ^ 3 + R ^ 2) * (a - b) ^ 2 := by
  have hR : 0 < R := lt_of_lt_of_le (by positivity) hbR
  set y := Real.log b with hy
  set x := Real.log a - y with hx
  have hxd : x = Real.log (a / b) := by rw [hx, hy, Real.log_div ha.ne' hb.ne']
  have hup : x ≤ (a - b) / b := by
    rw [hxd]
    have := Real.log_le_sub_one_of_pos (div_pos ha hb)
    rw [sub_div, div_self hb.ne']; exact this
  have hlo : (a - b) / a ≤ x := by
    rw [hxd]
    have := Real.one_sub_inv_le_log_of_pos (div_pos ha hb)
    rw [inv_div] at this
    rw [sub_div, div_self ha.ne']; exact this
  have hy1 : |y| ≤ R := by
    rw [abs_le]
    constructor
    · have := Real.log_le_sub_one_of_pos (one_div_pos.mpr hb)
      rw [one_div, Real.log_inv] at this
      rw [one_div] at hbR
      linarith
    · have := Real.log_le_sub_one_of_pos hb
      linarith
  have hab : 0 ≤ (a - b) / b - x ∧ (a - b) / b - x ≤ R ^ 2 * (a - b) ^ 2 := by
    refine ⟨by linarith, ?_⟩
    have e : (a - b) / b - (a - b) / a = (1 / a) * (1 / b) * (a - b) ^ 2 := by
      field_simp
    have h2 : (1 / a) * (1 / b) ≤ R * R :=
      mul_le_mul haR hbR (by positivity) hR.le
    have h3 := mul_le_mul_of_nonneg_right h2 (sq_nonneg (a - b))
    nlinarith
  have hx2 : x ^ 2 ≤ R ^ 2 * (a - b) ^ 2 := by
    rw [← mul_pow, ← sq_abs, ← sq_abs (R * (a - b))]
    refine pow_le_pow_left₀ (abs_nonneg _) ?_ 2
    rw [abs_mul, abs_of_pos hR]
    have h1 : |(a - b) / b| ≤ R * |a - b| := by
      rw [abs_div, abs_of_pos hb, div_eq_mul_one_div, mul_comm]
      exact mul_le_mul_of_nonneg_right hbR (abs_nonneg _)
    have h2 : |(a - b) / a| ≤ R * |a - b| := by
      rw [abs_div, abs_of_pos ha, div_eq_mul_one_div, mul_comm]
      exact mul_le_mul_of_nonneg_right haR (abs_nonneg _)
    rw [abs_le] at h1 h2 ⊢
    exact ⟨by linarith, by linarith⟩
  have hlog : Real.log a = y + x := by rw [hx]; ring
  rw [hlog]
  have h4 : y * x ≤ y * ((a - b) / b) + R * (R ^ 2 * (a - b) ^ 2) := by
    have h5 : y * x = y * ((a - b) / b) + (-y) * ((a - b) / b - x) := by ring
    have h6 : (-y) * ((a - b) / b - x) ≤ R * (R ^ 2 * (a - b) ^ 2) :=
      mul_le_mul (by have := abs_le.mp hy1; linarith) hab.2 hab.1 hR.le
    linarith
  have h7 : 2 * y / b * (a - b) = 2 * (y * ((a - b) / b)) := by ring
  rw [h7]
  nlinarith

/-! ### Matrices -/

section
variable {𝕜 : Type*} [RCLike 𝕜] {n : Type*} [Fintype n] [DecidableEq n]

theorem trDot_spectral {v : Matrix n n 𝕜} (hv : vᴴ * v = 1) (f : ℝ → ℝ) (w : n → ℝ) :
    trDot (spectral f w v) (spectral f w v) = ∑ i, f (w i) ^ 2 := by
  rw [trDot, spectral_conjTranspose, spectral_mul _ _ hv, spectral_trace _ hv, RCLike.ofReal_re]
  exact Finset.sum_congr rfl fun i _ => (sq _).symm

theorem spectral_sub (f g : ℝ → ℝ) (w : n → ℝ) (v : Matrix n n 𝕜) :
    spectral f w v - spectral g w v = spectral (fun x => f x - g x) w v := by
  simp only [spectral]
  rw [← Matrix.sub_mul, ← Matrix.mul_sub, diagonal_sub]
  congr 3
  funext i
  push_cast; rfl

omit [DecidableEq n] in
theorem trDot_congr_le (C Y : Matrix n n 𝕜) :
    trDot (C * Y * Cᴴ) (C * Y * Cᴴ) ≤ trDot C C ^ 2 * trDot Y Y := by
  have h1 := trDot_mul_le (C * Y) Cᴴ
  rw [trDot_conjTranspose] at h1
  have h2 := mul_le_mul_of_nonneg_right (trDot_mul_le C Y) (trDot_self_nonneg C)
  nlinarith

/-- An eigenvalue is bounded by the Frobenius norm. -/
theorem eigenvalue_sq_le {A v : Matrix n n 𝕜} {w : n → ℝ} (h : IsEigh A w v) (i : n) :
    w i ^ 2 ≤ trDot A A := by
  have h1 : A = spectral (fun x => x) w v := h.prod
  rw [h1, trDot_spectral h.orth]
  exact Finset.single_le_sum (f := fun i => w i ^ 2) (fun _ _ => sq_nonneg _) (Finset.mem_univ i)

/-- Along `t ↦ C exp(tH) Cᴴ` the Frobenius norm of the logarithm grows at most by the norm of
`H`. -/
theorem posdef_triangle {C H : Matrix n n 𝕜} (hC : IsUnit C) (hH : Hᴴ = H) {w₀ w₁ : n → ℝ}
    {v₀ v₁ : Matrix n n 𝕜} (h₀ : IsEigh (C * Cᴴ) w₀ v₀)
    (h₁ : IsEigh (C * NormedSpace.exp H * Cᴴ) w₁ v₁) :
    Real.sqrt (∑ i, Real.log (w₁ i) ^ 2) ≤
      Real.sqrt (∑ i, Real.log (w₀ i) ^ 2) + Real.sqrt (trDot H H) := by
  obtain ⟨w, v, hE⟩ := exists_isEigh (A := H) hH
  have hv := hE.orth
  have hv' := hE.orth'
  -- the geodesic
  set e : ℝ → Matrix n n 𝕜 := fun t => spectral (fun x => Real.exp (t * x)) w v with he
  have he0 : e 0 = 1 := spectral_one _ hv' fun i => by simp
  have he1 : e 1 = NormedSpace.exp H := by
    rw [exp_spectral hE]
    exact spectral_congr fun i => by simp
  have hadd : ∀ s t, e (s + t) = e s * e t := by
    intro s t
    rw [he]
    simp only
    rw [spectral_mul _ _ hv]
    exact spectral_congr fun i => by rw [add_mul, Real.exp_add]
  have hherm : ∀ t, (e t)ᴴ = e t := fun t => spectral_conjTranspose _
  have hposd : ∀ t, (C * e t * Cᴴ).PosDef := by
    intro t
    refine posDef_congr hC ?_
    have h1 : IsEigh (e t) (fun i => Real.exp (t * w i)) v := ⟨hv, rfl⟩
    exact h1.posDef fun i => Real.exp_pos _
  choose b W hb using fun t => exists_isEigh (A := C * e t * Cᴴ) (hposd t).isHermitian
  have hbpos : ∀ t i, 0 < b t i := fun t i => (hb t).eigenvalue_pos (hposd t) i
  -- bounds on the eigenvalues along the geodesic
  set E : ℝ := ∑ i, Real.exp |w i| ^ 2 with hEdef
  have hE0 : 0 ≤ E := Finset.sum_nonneg fun _ _ => sq_nonneg _
  have hebound : ∀ t, |t| ≤ 1 → trDot (e t) (e t) ≤ E := by
    intro t ht
    rw [he]
    simp only
    rw [trDot_spectral hv]
    refine Finset.sum_le_sum fun i _ => pow_le_pow_left₀ (Real.exp_pos _).le ?_ 2
    rw [Real.exp_le_exp]
    refine (le_abs_self _).trans ?_
    rw [abs_mul]
    have := mul_le_mul_of_nonneg_right ht (abs_nonneg (w i))
    linarith
  set Q : ℝ := trDot C C ^ 2 * E with hQ
  set Q' : ℝ := trDot (C⁻¹)ᴴ (C⁻¹)ᴴ ^ 2 * E with hQ'
  have hQ0 : 0 ≤ Q := by positivity
  have hQ0' : 0 ≤ Q' := by positivity
  set R : ℝ := 1 + Q + Q' with hR
  have hbR : ∀ t i, |t| ≤ 1 → b t i ≤ R := by
    intro t i ht
    have h1 := (eigenvalue_sq_le (hb t) i).trans ((trDot_congr_le C (e t)).trans
      (mul_le_mul_of_nonneg_left (hebound t ht) (sq_nonneg _)))
    change b t i ^ 2 ≤ Q at h1
    nlinarith [sq_nonneg (b t i - 1)]
  have hbR' : ∀ t i, |t| ≤ 1 → 1 / b t i ≤ R := by
    intro t i ht
    -- the inverse is congruent to `exp(-tH)`
    have h2 : IsEigh ((C⁻¹)ᴴ * e (-t) * ((C⁻¹)ᴴ)ᴴ) (fun i => 1 / b t i) (W t) := by
      refine ⟨(hb t).orth, ?_⟩
      rw [conjTranspose_conjTranspose]
      have h3 : C * e t * Cᴴ * ((C⁻¹)ᴴ * e (-t) * C⁻¹) = 1 := by
        calc C * e t * Cᴴ * ((C⁻¹)ᴴ * e (-t) * C⁻¹) =
            C * e t * (Cᴴ * (C⁻¹)ᴴ) * e (-t) * C⁻¹ := by simp only [Matrix.mul_assoc]
          _ = C * (e t * e (-t)) * C⁻¹ := by
              rw [mul_invH hC, Matrix.mul_one]; simp only [Matrix.mul_assoc]
          _ = 1 := by rw [← hadd, add_neg_cancel, he0, Matrix.mul_one, mul_inv' hC]
      have h4 : (C⁻¹)ᴴ * e (-t) * C⁻¹ * (C * e t * Cᴴ) = 1 := mul_eq_one_comm.mp h3
      have h5 : C * e t * Cᴴ = spectral (fun x => x) (b t) (W t) := (hb t).prod
      have h6 : spectral (fun x => x) (b t) (W t) * spectral (fun x => 1 / x) (b t) (W t) = 1 := by
        rw [spectral_mul _ _ (hb t).orth]
        exact spectral_one _ (hb t).orth' fun i => mul_one_div_cancel (hbpos t i).ne'
      rw [h5] at h4
      change _ = spectral (fun x => 1 / x) (b t) (W t)
      calc (C⁻¹)ᴴ * e (-t) * C⁻¹ = (C⁻¹)ᴴ * e (-t) * C⁻¹ * (spectral (fun x => x) (b t) (W t) *
            spectral (fun x => 1 / x) (b t) (W t)) := by rw [h6, Matrix.mul_one]
        _ = _ := by rw [← Matrix.mul_assoc, h4, Matrix.one_mul]
    have h1 := (eigenvalue_sq_le h2 i).trans ((trDot_congr_le (C⁻¹)ᴴ (e (-t))).trans
      (mul_le_mul_of_nonneg_left (hebound (-t) (by rwa [abs_neg])) (sq_nonneg _)))
    change (1 / b t i) ^ 2 ≤ Q' at h1
    nlinarith [sq_nonneg (1 / b t i - 1)]
  have hR0 : 0 ≤ R := by positivity
  -- the constants of the step
  set l := Real.sqrt (trDot H H) with hl
  set c := Real.sqrt (∑ i, (w i ^ 2 * Real.exp |w i|) ^ 2) with hc
  set K := 2 * R ^ 3 + R ^ 2 with hK
  set M := K * (trDot C C ^ 2 * ∑ i, (Real.exp |w i| * (|w i| * Real.exp |w i|)) ^ 2) with hM
  have hM0 : 0 ≤ M := by
    have : 0 ≤ ∑ i, (Real.exp |w i| * (|w i| * Real.exp |w i|)) ^ 2 :=
      Finset.sum_nonneg fun _ _ => sq_nonneg _
    positivity
  have hlen : ∀ h, 0 < h → h ≤ 1 → Real.sqrt (trDot (e h - 1) (e h - 1)) ≤ h * l + c * h ^ 2 := by
    intro h hh hh1
    have e1 : e h - 1 = h • H + (e h - 1 - h • H) := by abel
    have e2 : e h - 1 - h • H = spectral (fun x => Real.exp (h * x) - 1 - h * x) w v := by
      have h1 : (1 : Matrix n n 𝕜) = spectral (fun _ => 1) w v := (spectral_one _ hv' fun _ => rfl).symm
      have h2 : h • H = spectral (fun x => h * x) w v := by
        conv_lhs => rw [hE.prod]
        rw [spectral, ← Matrix.smul_mul, ← Matrix.mul_smul, ← diagonal_smul]
        congr 3
        funext i
        rw [Pi.smul_apply, RCLike.real_smul_eq_coe_mul]
        push_cast; rfl
      rw [h1, h2, he]
      simp only
      rw [spectral_sub, spectral_sub]
    rw [e1]
    refine (trDot_inner.sqrt_triangle _ _).trans (add_le_add ?_ ?_)
    · rw [trDot_inner.smul_left, trDot_inner.smul_right, ← mul_assoc, ← sq,
        Real.sqrt_mul (sq_nonneg h), Real.sqrt_sq hh.le]
    · rw [e2, trDot_spectral hv]
      have h3 : ∑ i, (Real.exp (h * w i) - 1 - h * w i) ^ 2 ≤
          (∑ i, (w i ^ 2 * Real.exp |w i|) ^ 2) * (h ^ 2) ^ 2 := by
        rw [Finset.sum_mul]
        refine Finset.sum_le_sum fun i _ => ?_
        rw [← mul_pow, ← sq_abs]
        refine pow_le_pow_left₀ (abs_nonneg _) ?_ 2
        refine (abs_exp_sub_one_sub_le_mul _).trans ?_
        have h4 : Real.exp |h * w i| ≤ Real.exp |w i| := by
          rw [Real.exp_le_exp, abs_mul, abs_of_pos hh]
          have := mul_le_mul_of_nonneg_right hh1 (abs_nonneg (w i))
          linarith
        have h5 := mul_le_mul_of_nonneg_left h4 (sq_nonneg (h * w i))
        rw [mul_pow] at h5 ⊢
        linarith
      refine (Real.sqrt_le_sqrt h3).trans ?_
      rw [Real.sqrt_mul (Finset.sum_nonneg fun _ _ => sq_nonneg _), Real.sqrt_sq (sq_nonneg h)]
  have hdiff : ∀ t h, 0 ≤ t → 0 < h → t + h ≤ 1 →
      trDot (C * e (t + h) * Cᴴ - C * e t * Cᴴ) (C * e (t + h) * Cᴴ - C * e t * Cᴴ) ≤
        (trDot C C ^ 2 * ∑ i, (Real.exp |w i| * (|w i| * Real.exp |w i|)) ^ 2) * h ^ 2 := by
    intro t h ht hh hth
    rw [← Matrix.sub_mul, ← Matrix.mul_sub]
    refine (trDot_congr_le C _).trans ?_
    rw [mul_assoc]
    refine mul_le_mul_of_nonneg_left ?_ (sq_nonneg _)
    rw [he]
    simp only
    rw [spectral_sub, trDot_spectral hv, Finset.sum_mul]
    refine Finset.sum_le_sum fun i _ => ?_
    rw [← mul_pow, ← sq_abs]
    refine pow_le_pow_left₀ (abs_nonneg _) ?_ 2
    have h1 : Real.exp ((t + h) * w i) - Real.exp (t * w i) =
        Real.exp (t * w i) * (Real.exp (h * w i) - 1) := by
      rw [add_mul, Real.exp_add]; ring
    rw [h1, abs_mul, abs_of_pos (Real.exp_pos _)]
    have hmono : ∀ s : ℝ, 0 ≤ s → s ≤ 1 → |s * w i| ≤ |w i| := by
      intro s hs hs1
      rw [abs_mul, abs_of_nonneg hs]
      have := mul_le_mul_of_nonneg_right hs1 (abs_nonneg (w i))
      linarith
    have h2 : Real.exp (t * w i) ≤ Real.exp |w i| := by
      rw [Real.exp_le_exp]
      exact (le_abs_self _).trans (hmono t ht (by linarith))
    have h3 : |Real.exp (h * w i) - 1| ≤ h * |w i| * Real.exp |w i| := by
      refine (abs_exp_sub_one_le_mul _).trans ?_
      rw [abs_mul, abs_of_pos hh]
      refine mul_le_mul_of_nonneg_left ?_ (by positivity)
      rw [Real.exp_le_exp]
      have := hmono h hh.le (by linarith)
      rwa [abs_mul, abs_of_pos hh] at this
    have h4 := mul_le_mul h2 h3 (abs_nonneg _) (Real.exp_pos _).le
    linarith
  -- one step
  have hstep : ∀ t h, 0 ≤ t → 0 < h → t + h ≤ 1 →
      ∑ i, Real.log (b (t + h) i) ^ 2 ≤ ∑ i, Real.log (b t i) ^ 2 +
        2 * Real.sqrt (∑ i, Real.log (b t i) ^ 2) * (h * l + c * h ^ 2) + M * h ^ 2 := by
    intro t h ht hh hth
    have hA := hb (t + h)
    have hB := hb t
    have hpt := sum_le_of_pointwise (𝕜 := 𝕜) hA.orth hB.orth (a := fun i => (b (t + h) i : 𝕜))
      (b := fun i => (b t i : 𝕜)) (g := fun i => ((2 * Real.log (b t i) / b t i : ℝ) : 𝕜))
      (fa := fun i => Real.log (b (t + h) i) ^ 2) (fb := fun i => Real.log (b t i) ^ 2) (C := K)
      (by
        intro i j
        have h1 := log_sq_le (hbpos (t + h) i) (hbpos t j)
          (hbR' (t + h) i (by rw [abs_of_nonneg (by linarith)]; exact hth))
          (hbR' t j (by rw [abs_of_nonneg ht]; linarith))
          (hbR t j (by rw [abs_of_nonneg ht]; linarith))
        have h2 : ((b (t + h) i : 𝕜) - (b t j : 𝕜)) = ((b (t + h) i - b t j : ℝ) : 𝕜) := by
          push_cast; rfl
        rw [h2, RCLike.norm_ofReal, sq_abs, RCLike.star_def, RCLike.conj_ofReal,
          ← RCLike.ofReal_mul, RCLike.ofReal_re]
        exact h1)
    rw [← hA.prod, ← hB.prod] at hpt
    -- the linear term
    obtain ⟨S, hS, hSd⟩ : ∃ S : Matrix n n 𝕜, C * e t * Cᴴ = S * Sᴴ ∧
        C * e (t + h) * Cᴴ - C * e t * Cᴴ = S * (e h - 1) * Sᴴ := by
      refine ⟨C * e (t / 2), ?_, ?_⟩
      · rw [conjTranspose_mul, hherm]
        calc C * e t * Cᴴ = C * (e (t / 2) * e (t / 2)) * Cᴴ := by
              rw [← hadd]; congr 3; ring
          _ = _ := by simp only [Matrix.mul_assoc]
      · rw [conjTranspose_mul, hherm]
        have h1 : e (t + h) = e (t / 2) * e h * e (t / 2) := by
          rw [← hadd, ← hadd]; congr 1; ring
        have h2 : e t = e (t / 2) * e (t / 2) := by
          rw [← hadd]; congr 1; ring
        calc C * e (t + h) * Cᴴ - C * e t * Cᴴ =
            C * (e (t / 2) * e h * e (t / 2) - e (t / 2) * e (t / 2)) * Cᴴ := by
              rw [← Matrix.sub_mul, ← Matrix.mul_sub, h1, h2]
          _ = C * (e (t / 2) * (e h - 1) * e (t / 2)) * Cᴴ := by
              rw [show e (t / 2) * (e h - 1) * e (t / 2) =
                e (t / 2) * e h * e (t / 2) - e (t / 2) * e (t / 2) by
                rw [Matrix.mul_sub, Matrix.sub_mul, Matrix.mul_one]]
          _ = _ := by simp only [Matrix.mul_assoc]
    set g : n → 𝕜 := fun i => ((2 * Real.log (b t i) / b t i : ℝ) : 𝕜) with hg
    set G := W t * diagonal g * (W t)ᴴ with hG
    have hlin : trDot G (C * e (t + h) * Cᴴ - C * e t * Cᴴ) ≤
        2 * Real.sqrt (∑ i, Real.log (b t i) ^ 2) * (h * l + c * h ^ 2) := by
      have h1 : trDot G (S * (e h - 1) * Sᴴ) = trDot (Sᴴ * G * S) (e h - 1) := by
        rw [trDot_mul_right (Sᴴ * G) S, trDot_mul_left Sᴴ G, conjTranspose_conjTranspose,
          Matrix.mul_assoc]
      rw [hSd, h1]
      refine (trDot_le_sqrt _ _).trans ?_
      -- `Sᴴ G S` has the eigenvalues `2 log b`
      set D : Matrix n n 𝕜 := diagonal fun i => (((Real.sqrt (b t i))⁻¹ : ℝ) : 𝕜) with hD
      have hDH : Dᴴ = D := by
        rw [hD, diagonal_conjTranspose]; congr 1; funext i
        rw [Pi.star_apply, RCLike.star_def, RCLike.conj_ofReal]
      set Y := Sᴴ * W t * D with hY
      have hW := hB.orth
      have hYY : Yᴴ * Y = 1 := by
        rw [hY, conjTranspose_mul, conjTranspose_mul, conjTranspose_conjTranspose, hDH]
        calc D * ((W t)ᴴ * S) * (Sᴴ * W t * D) = D * ((W t)ᴴ * (S * Sᴴ) * W t) * D := by
              simp only [Matrix.mul_assoc]
          _ = D * (((W t)ᴴ * W t) * diagonal (fun i => (b t i : 𝕜)) * ((W t)ᴴ * W t)) * D := by
              rw [← hS, hB.prod]; simp only [Matrix.mul_assoc]
          _ = 1 := by
              rw [hW, Matrix.one_mul, Matrix.mul_one, hD, diagonal_mul_diagonal,
                diagonal_mul_diagonal, ← diagonal_one]
              congr 1; funext i
              rw [← RCLike.ofReal_mul, ← RCLike.ofReal_mul, ← RCLike.ofReal_one]
              congr 1
              have h5 := Real.mul_self_sqrt (hbpos t i).le
              have h6 : Real.sqrt (b t i) ≠ 0 := (Real.sqrt_pos.mpr (hbpos t i)).ne'
              field_simp
              rw [sq, h5]
      have hsp : Sᴴ * G * S = spectral (fun x => 2 * Real.log x) (b t) Y := by
        have h7 : (diagonal g : Matrix n n 𝕜) =
            D * diagonal (fun i => ((2 * Real.log (b t i) : ℝ) : 𝕜)) * D := by
          rw [hD, diagonal_mul_diagonal, diagonal_mul_diagonal, hg]
          congr 1; funext i
          rw [← RCLike.ofReal_mul, ← RCLike.ofReal_mul]
          congr 1
          have h5 := Real.mul_self_sqrt (hbpos t i).le
          have h6 : Real.sqrt (b t i) ≠ 0 := (Real.sqrt_pos.mpr (hbpos t i)).ne'
          have h8 := (hbpos t i).ne'
          field_simp
          rw [sq, h5]
        rw [spectral, hG, h7, hY, conjTranspose_mul (Sᴴ * W t), conjTranspose_mul Sᴴ,
          conjTranspose_conjTranspose, hDH]
        simp only [Matrix.mul_assoc]
      have h9 : trDot (Sᴴ * G * S) (Sᴴ * G * S) = 2 ^ 2 * ∑ i, Real.log (b t i) ^ 2 := by
        rw [hsp, trDot_spectral hYY, Finset.mul_sum]
        exact Finset.sum_congr rfl fun i _ => mul_pow _ _ _
      rw [h9, Real.sqrt_mul (by norm_num), Real.sqrt_sq (by norm_num)]
      exact mul_le_mul_of_nonneg_left (hlen h hh (by linarith)) (by positivity)
    have hquad := mul_le_mul_of_nonneg_left (hdiff t h ht hh hth)
      (show 0 ≤ K by rw [hK]; positivity)
    have e3 : M * h ^ 2 = K * ((trDot C C ^ 2 *
        ∑ i, (Real.exp |w i| * (|w i| * Real.exp |w i|)) ^ 2) * h ^ 2) := by rw [hM]; ring
    rw [e3]
    linarith
  have hfin := sqrt_le_of_steps (F := fun t => ∑ i, Real.log (b t i) ^ 2) (l := l) (c := c) (M := M)
    (fun t => Finset.sum_nonneg fun _ _ => sq_nonneg _) (Real.sqrt_nonneg _) (Real.sqrt_nonneg _)
    hM0 hstep
  have hz : ∑ i, Real.log (b 0 i) ^ 2 = ∑ i, Real.log (w₀ i) ^ 2 := by
    have := hb 0
    rw [he0, Matrix.mul_one] at this
    exact eigh_sum_unique this h₀ fun x => Real.log x ^ 2
  have ho : ∑ i, Real.log (b 1 i) ^ 2 = ∑ i, Real.log (w₁ i) ^ 2 := by
    have := hb 1
    rw [he1] at this
    exact eigh_sum_unique this h₁ fun x => Real.log x ^ 2
  simp only [hz, ho] at hfin
  exact hfin

end

end Verif.Geo
