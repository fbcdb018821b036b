/-
First variation of the length of the principal logarithm of a unitary matrix, and the directions of
the two halves of a shortest geodesic of a unitary group.
-/
import Verif.Geo.Lemmas.UnitaryTriangle

namespace Verif.Geo
open scoped BigOperators
open Matrix

variable {n : Type*} [Fintype n] [DecidableEq n]

/-- To first order, the square length of the principal logarithm of `P * exp (h • H)` is at most what
the inner product of `H` with the logarithm of `P` says.  This holds also where `-1` is an eigenvalue
of `P`. -/
theorem unitary_step {P H L₀ : Matrix n n ℂ} (hP : Pᴴ * P = 1) (hH : Hᴴ = -H) (h₀ : IsLogm P L₀) :
    ∃ C, ∀ h : ℝ, 0 < h → h ≤ 1 → ∀ L, IsLogm (P * NormedSpace.exp (h • H)) L →
      trDot L L ≤ trDot L₀ L₀ + 2 * h * trDot L₀ H + C * h ^ 2 := by
  obtain ⟨w, v, hv, hHd⟩ := exists_skew_diag hH
  have hv' : v * vᴴ = 1 := mul_eq_one_comm.mp hv
  have hone : (1 : Matrix n n ℂ) = v * diagonal (fun _ => (1 : ℂ)) * vᴴ := by
    rw [diagonal_one, Matrix.mul_one, hv']
  have hsub : ∀ d d' : n → ℂ, v * diagonal d * vᴴ - v * diagonal d' * vᴴ =
      v * diagonal (fun i => d i - d' i) * vᴴ := by
    intro d d'
    rw [← Matrix.sub_mul, ← Matrix.mul_sub, diagonal_sub]
  have e0 : ∀ h : ℝ, h • H = v * diagonal (fun i => ((h * w i : ℝ) : ℂ) * Complex.I) * vᴴ := by
    intro h
    conv_lhs => rw [hHd]
    rw [← Matrix.smul_mul, ← Matrix.mul_smul, ← diagonal_smul]
    congr 3
    funext i
    rw [Pi.smul_apply, Complex.real_smul]
    push_cast; ring
  have hexp : ∀ h : ℝ, NormedSpace.exp (h • H) =
      v * diagonal (fun i => Complex.exp (((h * w i : ℝ) : ℂ) * Complex.I)) * vᴴ := by
    intro h
    rw [e0, exp_unitary_diag hv]
  set c := Real.sqrt (∑ i, (w i ^ 2 * Real.exp |w i|) ^ 2) with hc
  set K := (4 * Real.pi + 1) * (Real.pi ^ 2 / 4) with hK
  have hpi := Real.pi_pos
  have hK0 : 0 ≤ K := by positivity
  have hl2 : trDot H H = ∑ i, w i ^ 2 := by rw [hHd, trDot_unitary_diag hv]
  have hrest : ∀ h : ℝ, 0 < h → h ≤ 1 →
      Real.sqrt (trDot (NormedSpace.exp (h • H) - 1 - h • H) (NormedSpace.exp (h • H) - 1 - h • H))
        ≤ c * h ^ 2 := by
    intro h hh hh1
    have e2 : NormedSpace.exp (h • H) - 1 - h • H =
        v * diagonal (fun i => Complex.exp (((h * w i : ℝ) : ℂ) * Complex.I)
        - 1 - ((h * w i : ℝ) : ℂ) * Complex.I) * vᴴ := by
      rw [hexp, hone, e0, hsub, hsub]
    rw [e2, trDot_diag_entries hv]
    have h3 : ∑ i, ‖Complex.exp (((h * w i : ℝ) : ℂ) * Complex.I) - 1 -
        ((h * w i : ℝ) : ℂ) * Complex.I‖ ^ 2 ≤
        (∑ i, (w i ^ 2 * Real.exp |w i|) ^ 2) * (h ^ 2) ^ 2 := by
      rw [Finset.sum_mul]
      refine Finset.sum_le_sum fun i _ => ?_
      rw [← mul_pow]
      refine pow_le_pow_left₀ (norm_nonneg _) ?_ 2
      refine (norm_exp_I_sub_one_sub_le _).trans ?_
      have h4 : Real.exp |h * w i| ≤ Real.exp |w i| := by
        rw [Real.exp_le_exp, abs_mul, abs_of_pos hh]
        have := mul_le_mul_of_nonneg_right hh1 (abs_nonneg (w i))
        linarith
      have h5 := mul_le_mul_of_nonneg_left h4 (sq_nonneg (h * w i))
      rw [mul_pow] at h5 ⊢
      linarith
    refine (Real.sqrt_le_sqrt h3).trans ?_
    rw [Real.sqrt_mul (Finset.sum_nonneg fun _ _ => sq_nonneg _), Real.sqrt_sq (sq_nonneg h)]
  have hquad : ∀ h : ℝ, 0 < h → trDot (NormedSpace.exp (h • H) - 1) (NormedSpace.exp (h • H) - 1) ≤
      trDot H H * h ^ 2 := by
    intro h hh
    rw [hl2, hone, hexp, hsub, trDot_diag_entries hv, Finset.sum_mul]
    refine Finset.sum_le_sum fun i _ => ?_
    rw [← mul_pow, ← sq_abs (w i * h)]
    refine pow_le_pow_left₀ (norm_nonneg _) ?_ 2
    rw [mul_comm (w i)]
    exact norm_exp_I_sub_one_le _
  have huni : ∀ h : ℝ, (P * NormedSpace.exp (h • H))ᴴ * (P * NormedSpace.exp (h • H)) = 1 := by
    intro h
    have hs : (h • H)ᴴ = -(h • H) := by
      rw [conjTranspose_smul, hH, star_trivial, smul_neg]
    rw [conjTranspose_mul, Matrix.mul_assoc, ← Matrix.mul_assoc Pᴴ, hP, Matrix.one_mul,
      ← Matrix.exp_conjTranspose, hs,
      ← exp_add_of_commute _ _ (Commute.neg_left (Commute.refl (h • H))), neg_add_cancel,
      NormedSpace.exp_zero]
  obtain ⟨θ, W, hθ, hW, hPe⟩ := exists_unitary_diag hP
  set b : n → ℂ := fun i => Complex.exp (θ i * Complex.I) with hb
  have hbn : ∀ i, ‖b i‖ = 1 := fun i => Complex.norm_exp_ofReal_mul_I _
  have hPe' : P = W * diagonal b * Wᴴ := hPe
  have hLd := IsLogm.sq_norm (L := L₀) hW hbn (by rw [← hPe']; exact h₀)
  refine ⟨2 * Real.sqrt (trDot L₀ L₀) * c + K * trDot H H, fun h hh hh1 L hL => ?_⟩
  obtain ⟨θ', W', hθ', hW', hQe⟩ := exists_unitary_diag (huni h)
  set a : n → ℂ := fun i => Complex.exp (θ' i * Complex.I) with ha
  have han : ∀ i, ‖a i‖ = 1 := fun i => Complex.norm_exp_ofReal_mul_I _
  have hQe' : P * NormedSpace.exp (h • H) = W' * diagonal a * W'ᴴ := hQe
  have hLa := IsLogm.sq_norm (L := L) hW' han (by rw [← hQe']; exact hL)
  have hpt := sum_le_of_pointwise (𝕜 := ℂ) hW' hW (a := a) (b := b)
    (g := fun i => 2 * (b i).arg * Complex.I * b i)
    (fa := fun i => (a i).arg ^ 2) (fb := fun i => (b i).arg ^ 2) (C := K)
    fun i j => arg_sq_le (han _) (hbn _)
  rw [← hQe', ← hPe', ← hLa.2, ← hLd.2] at hpt
  have hd : P * NormedSpace.exp (h • H) - P = P * (NormedSpace.exp (h • H) - 1) := by
    rw [Matrix.mul_sub, Matrix.mul_one]
  have hg : W * diagonal (fun i => 2 * ((b i).arg : ℂ) * Complex.I * b i) * Wᴴ =
      P * ((2 : ℝ) • L₀) := by
    rw [hLd.1]
    conv_rhs => rw [hPe']
    have : (2 : ℝ) • (W * diagonal (fun i => ((b i).arg : ℂ) * Complex.I) * Wᴴ) =
        W * diagonal (fun i => 2 * ((b i).arg : ℂ) * Complex.I) * Wᴴ := by
      rw [← Matrix.smul_mul, ← Matrix.mul_smul, ← diagonal_smul]
      congr 3
      funext i
      rw [Pi.smul_apply, Complex.real_smul]
      push_cast; ring
    rw [this]
    calc _ = W * (diagonal b * diagonal
          (fun i => 2 * ((b i).arg : ℂ) * Complex.I)) * Wᴴ := by
          rw [diagonal_mul_diagonal]
          congr 3
          funext i; ring
      _ = W * diagonal b * 1 * diagonal
          (fun i => 2 * ((b i).arg : ℂ) * Complex.I) * Wᴴ := by
          rw [Matrix.mul_one]; simp only [Matrix.mul_assoc]
      _ = _ := by rw [← hW]; simp only [Matrix.mul_assoc]
  rw [hd, hg] at hpt
  have h1 : trDot (P * ((2 : ℝ) • L₀)) (P * (NormedSpace.exp (h • H) - 1)) =
      2 * trDot L₀ (NormedSpace.exp (h • H) - 1) := by
    rw [trDot_mul_left, ← Matrix.mul_assoc, hP, Matrix.one_mul, trDot_inner.smul_left]
  have h2 : trDot (P * (NormedSpace.exp (h • H) - 1)) (P * (NormedSpace.exp (h • H) - 1)) =
      trDot (NormedSpace.exp (h • H) - 1) (NormedSpace.exp (h • H) - 1) := by
    rw [trDot_mul_left, ← Matrix.mul_assoc, hP, Matrix.one_mul]
  rw [h1, h2] at hpt
  have h3 := trDot_le_sqrt L₀ (NormedSpace.exp (h • H) - 1 - h • H)
  have h4 := mul_le_mul_of_nonneg_left (hrest h hh hh1) (Real.sqrt_nonneg (trDot L₀ L₀))
  have h5 := mul_le_mul_of_nonneg_left (hquad h hh) hK0
  have h6 : trDot L₀ (NormedSpace.exp (h • H) - 1) =
      h * trDot L₀ H + trDot L₀ (NormedSpace.exp (h • H) - 1 - h • H) := by
    rw [← trDot_inner.smul_right, ← trDot_inner.add_right, add_sub_cancel]
  rw [h6] at hpt
  linarith

end Verif.Geo
