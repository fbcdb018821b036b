/-
How far the retractions by normalisation, by the polar factor and by the QR factor are from the point
and from the straight line, for vectors of any length.
-/
import Verif.Geo.Lemmas.StepTriangle

namespace Verif.Geo
open Matrix
open scoped BigOperators

/-! ## Normalisation -/

theorem two_sub_inv_le {s : ℝ} (hs : 1 ≤ s) : 2 * (1 - s⁻¹) ≤ s ^ 2 - 1 := by
  have h0 : 0 < s := by linarith
  have h1 : s⁻¹ * s = 1 := inv_mul_cancel₀ h0.ne'
  have h2 : s⁻¹ ≤ 1 := inv_le_one_of_one_le₀ hs
  have h3 : 0 ≤ s⁻¹ := inv_nonneg.2 h0.le
  nlinarith [mul_nonneg h3 (mul_nonneg (sub_nonneg.2 hs) (sub_nonneg.2 hs)),
    mul_nonneg (sub_nonneg.2 hs) (sub_nonneg.2 h2)]

theorem one_sub_sq_le {s : ℝ} (hs : 1 ≤ s) : (1 - s) ^ 2 ≤ (1 / 2 * (s ^ 2 - 1)) ^ 2 := by
  have : 0 ≤ (s - 1) ^ 2 * ((s + 1) ^ 2 - 4) := mul_nonneg (sq_nonneg _) (by nlinarith)
  nlinarith

section
variable {E : Type*} [AddCommGroup E] [Module ℝ E] {B : E → E → ℝ}

/-- Normalising `x + v`, for `v` orthogonal to the unit vector `x`. -/
theorem normalize_bounds (h : IsInner B) {x v : E} {s : ℝ} (hx : B x x = 1) (hv : B x v = 0)
    (hs : 0 < s) (hs2 : s ^ 2 = 1 + B v v) :
    B (s⁻¹ • (x + v) - x) (s⁻¹ • (x + v) - x) ≤ B v v ∧
      B (s⁻¹ • (x + v) - x - v) (s⁻¹ • (x + v) - x - v) ≤ (1 / 2 * B v v) ^ 2 := by
  have h0 := h.nonneg v
  have hs1 : 1 ≤ s := by nlinarith
  have h1 : s⁻¹ * s = 1 := inv_mul_cancel₀ hs.ne'
  have hvx : B v x = 0 := by rw [h.symm, hv]
  have hn : B v v = s ^ 2 - 1 := by linarith
  constructor
  · have e : B (s⁻¹ • (x + v) - x) (s⁻¹ • (x + v) - x) = 2 * (1 - s⁻¹) := by
      simp only [h.sub_left, h.sub_right, h.smul_left, h.smul_right, h.add_left, h.add_right, hx, hv,
        hvx, hn]
      linear_combination (s⁻¹ * s + 1) * h1
    rw [e, hn]
    exact two_sub_inv_le hs1
  · have e : B (s⁻¹ • (x + v) - x - v) (s⁻¹ • (x + v) - x - v) = (1 - s) ^ 2 := by
      simp only [h.sub_left, h.sub_right, h.smul_left, h.smul_right, h.add_left, h.add_right, hx, hv,
        hvx, hn]
      linear_combination (s⁻¹ * s + 1 - 2 * s) * h1
    rw [e, hn]
    exact one_sub_sq_le hs1

end

/-! ## Polar and QR factors -/

section
variable {𝕜 : Type*} [RCLike 𝕜] {l m : Type*} [Fintype l] [Fintype m] {n : ℕ}

theorem svd_one_le {Y u : Matrix m (Fin n) 𝕜} {s : Fin n → ℝ} {vt : Matrix (Fin n) (Fin n) 𝕜}
    (h : IsSVD Y u s vt) {W : Matrix l (Fin n) 𝕜} (hY : Yᴴ * Y = 1 + Wᴴ * W) (k : Fin n) :
    1 ≤ s k := by
  have h4 := svd_sq h hY k
  have h5 : 0 ≤ ∑ i, ‖(W * vtᴴ) i k‖ ^ 2 := Finset.sum_nonneg fun _ _ => sq_nonneg _
  have h7 := h.nonneg k
  nlinarith

theorem svd_sum {Y u : Matrix m (Fin n) 𝕜} {s : Fin n → ℝ} {vt : Matrix (Fin n) (Fin n) 𝕜}
    (h : IsSVD Y u s vt) {W : Matrix l (Fin n) 𝕜} (hY : Yᴴ * Y = 1 + Wᴴ * W) :
    ∑ k, (s k ^ 2 - 1) = trDot W W := by
  have h1 : trDot (W * vtᴴ) (W * vtᴴ) = trDot W W := by
    rw [trDot_mul_right, conjTranspose_conjTranspose, Matrix.mul_assoc, h.orthV', Matrix.mul_one]
  rw [← h1, trDot_self_eq, Finset.sum_comm]
  refine Finset.sum_congr rfl fun k _ => ?_
  rw [sq, svd_sq h hY k]
  ring

/-- The Frobenius norm is invariant under orthonormal columns on the left and a unitary matrix on the
right. -/
theorem trDot_diag_mul {u : Matrix m (Fin n) 𝕜} {vt : Matrix (Fin n) (Fin n) 𝕜} (hu : uᴴ * u = 1)
    (hv : vt * vtᴴ = 1) (d : Fin n → ℝ) :
    trDot (u * diagonal (fun k => ((d k : ℝ) : 𝕜)) * vt)
      (u * diagonal (fun k => ((d k : ℝ) : 𝕜)) * vt) = ∑ k, d k ^ 2 := by
  rw [trDot_mul_right, Matrix.mul_assoc _ vt, hv, Matrix.mul_one, trDot_mul_left,
    ← Matrix.mul_assoc, hu, Matrix.one_mul, trDot_self_eq]
  refine Finset.sum_congr rfl fun k _ => ?_
  rw [Finset.sum_eq_single k]
  · rw [diagonal_apply_eq, RCLike.norm_ofReal, sq_abs]
  · intro j _ hj
    rw [diagonal_apply_ne _ hj.symm, norm_zero]
    ring
  · intro hk
    exact absurd (Finset.mem_univ k) hk

/-- Replacing `X + V` by its polar factor, for `V` tangent at `X`. -/
theorem polar_bounds {X V u : Matrix m (Fin n) 𝕜} {s : Fin n → ℝ} {vt : Matrix (Fin n) (Fin n) 𝕜}
    (hX : Xᴴ * X = 1) (hV : Xᴴ * V + Vᴴ * X = 0) (h : IsSVD (X + V) u s vt) :
    trDot (u * vt - X) (u * vt - X) ≤ trDot V V ∧
      trDot (u * vt - X - V) (u * vt - X - V) ≤ (1 / 2 * trDot V V) ^ 2 := by
  have hY : (X + V)ᴴ * (X + V) = 1 + Vᴴ * V := by
    rw [conjTranspose_add, Matrix.add_mul, Matrix.mul_add, Matrix.mul_add, hX,
      show (1 : Matrix (Fin n) (Fin n) 𝕜) + Xᴴ * V + (Vᴴ * X + Vᴴ * V) =
        1 + (Xᴴ * V + Vᴴ * X) + Vᴴ * V by abel, hV, add_zero]
  have hs1 := svd_one_le h hY
  have hsum := svd_sum h hY
  constructor
  · have e1 : trDot (u * vt) (u * vt) = n := by
      have : trDot (u * vt) (u * vt) = RCLike.re ((u * vt)ᴴ * (u * vt)).trace := rfl
      rw [this, h.polar_orth]
      simp
    have e2 : trDot X X = n := by
      have : trDot X X = RCLike.re (Xᴴ * X).trace := rfl
      rw [this, hX]
      simp
    obtain ⟨S, hS⟩ : ∃ S, S = vtᴴ * diagonal (fun k => (((s k)⁻¹ : ℝ) : 𝕜)) * vt := ⟨_, rfl⟩
    have hSh : Sᴴ = S := by
      rw [hS, conjTranspose_mul, conjTranspose_mul, conjTranspose_conjTranspose,
        diagonal_conjTranspose, Matrix.mul_assoc]
      congr 2
      congr 1
      funext k
      simp
    have hYS : (X + V) * S = u * vt := by
      rw [hS, h.prod]
      have : (diagonal fun k => ((s k : ℝ) : 𝕜)) * diagonal (fun k => (((s k)⁻¹ : ℝ) : 𝕜)) = 1 := by
        rw [diagonal_mul_diagonal, ← diagonal_one]
        congr 1
        funext k
        rw [← RCLike.ofReal_mul, mul_inv_cancel₀ (by linarith [hs1 k]), RCLike.ofReal_one]
      calc u * (diagonal fun k => ((s k : ℝ) : 𝕜)) * vt *
            (vtᴴ * diagonal (fun k => (((s k)⁻¹ : ℝ) : 𝕜)) * vt)
          = u * (diagonal fun k => ((s k : ℝ) : 𝕜)) * (vt * vtᴴ) *
              diagonal (fun k => (((s k)⁻¹ : ℝ) : 𝕜)) * vt := by simp only [Matrix.mul_assoc]
        _ = u * ((diagonal fun k => ((s k : ℝ) : 𝕜)) *
              diagonal (fun k => (((s k)⁻¹ : ℝ) : 𝕜))) * vt := by
            rw [h.orthV, Matrix.mul_one]; simp only [Matrix.mul_assoc]
        _ = u * vt := by rw [this, Matrix.mul_one]
    have e3 : trDot (u * vt) X = ∑ k, (s k)⁻¹ := by
      have hsk : (Vᴴ * X)ᴴ = -(Vᴴ * X) := by
        rw [conjTranspose_mul, conjTranspose_conjTranspose]
        exact eq_neg_of_add_eq_zero_left hV
      have hYX : (X + V)ᴴ * X = 1 + Vᴴ * X := by rw [conjTranspose_add, Matrix.add_mul, hX]
      rw [← hYS, trDot_mul_left, hYX, trDot_inner.add_right, trDot_herm_skew hSh hsk, add_zero]
      have : trDot S 1 = RCLike.re (Sᴴ * 1).trace := rfl
      rw [this, Matrix.mul_one, hSh, hS, Matrix.mul_assoc, trace_mul_comm, Matrix.mul_assoc, h.orthV,
        Matrix.mul_one, trace_diagonal, map_sum]
      exact Finset.sum_congr rfl fun k _ => RCLike.ofReal_re _
    rw [trDot_inner.sub_left, trDot_inner.sub_right, trDot_inner.sub_right, e1, e2,
      trDot_inner.symm X, e3, ← hsum]
    have : ∑ k : Fin n, 2 * (1 - (s k)⁻¹) ≤ ∑ k, (s k ^ 2 - 1) :=
      Finset.sum_le_sum fun k _ => two_sub_inv_le (hs1 k)
    rw [← Finset.mul_sum, Finset.sum_sub_distrib] at this
    simp only [Finset.sum_const, Finset.card_univ, Fintype.card_fin, nsmul_eq_mul, mul_one] at this
    linarith
  · have e : u * vt - X - V =
        u * diagonal (fun k => ((1 - s k : ℝ) : 𝕜)) * vt := by
      have : (diagonal fun k => ((1 - s k : ℝ) : 𝕜)) = 1 - diagonal fun k => ((s k : ℝ) : 𝕜) := by
        rw [← diagonal_one, diagonal_sub]
        congr 1
        funext k
        push_cast
        rfl
      rw [this, Matrix.mul_sub, Matrix.mul_one, Matrix.sub_mul, ← h.prod, sub_sub]
    rw [e, trDot_diag_mul h.orthU h.orthV, ← hsum, Finset.mul_sum]
    calc ∑ k, (1 - s k) ^ 2 ≤ ∑ k, (1 / 2 * (s k ^ 2 - 1)) ^ 2 :=
          Finset.sum_le_sum fun k _ => one_sub_sq_le (hs1 k)
      _ ≤ (∑ k, 1 / 2 * (s k ^ 2 - 1)) ^ 2 :=
          Finset.sum_sq_le_sq_sum_of_nonneg fun k _ => by nlinarith [hs1 k]

theorem gram_frob_le (A : Matrix l (Fin n) 𝕜) :
    trDot (Aᴴ * A) (Aᴴ * A) ≤ trDot A A ^ 2 := by
  refine (trDot_mul_le Aᴴ A).trans (le_of_eq ?_)
  rw [trDot_conjTranspose, sq]

/-- The QR factor of `Y` is within `√2 ‖W‖²` of `Y`. -/
theorem qr_bounds {Y q : Matrix m (Fin n) 𝕜} {R : Matrix (Fin n) (Fin n) 𝕜} (h : IsQR Y q R)
    (hd : ∀ i, ∃ d : ℝ, 0 ≤ d ∧ R i i = (d : 𝕜)) {W : Matrix l (Fin n) 𝕜}
    (hY : Yᴴ * Y = 1 + Wᴴ * W) :
    trDot (q - Y) (q - Y) ≤ trDot W W ∧ trDot (q - Y) (q - Y) ≤ 2 * trDot W W ^ 2 := by
  obtain ⟨hUU, hE⟩ := qr_defect h hd hY
  obtain ⟨U, hU⟩ : ∃ U, U = R - 1 := ⟨_, rfl⟩
  rw [← hU] at hUU hE
  have hτ := trDot_self_nonneg W
  have hυ := trDot_self_nonneg U
  have hqY : trDot (q - Y) (q - Y) = trDot U U := by
    have : q - Y = -(q * U) := by rw [hU, Matrix.mul_sub, h.prod, Matrix.mul_one]; abel
    rw [this, trDot_inner.neg_left, trDot_inner.neg_right, neg_neg, trDot_mul_left,
      ← Matrix.mul_assoc, h.orth, Matrix.one_mul]
  rw [hqY]
  refine ⟨hUU, ?_⟩
  -- the Hermitian part of `U`
  have h1 : trDot (U + Uᴴ) (U + Uᴴ) ≤ 4 * trDot W W ^ 2 := by
    have e : U + Uᴴ = Wᴴ * W - Uᴴ * U := by rw [← hE]; abel
    have hW := gram_frob_le W
    have hU' := gram_frob_le U
    have h5 : trDot U U ^ 2 ≤ trDot W W ^ 2 := pow_le_pow_left₀ hυ hUU 2
    have h6 := trDot_inner.nonneg (Wᴴ * W + Uᴴ * U)
    rw [trDot_inner.add_left, trDot_inner.add_right, trDot_inner.add_right,
      trDot_inner.symm (Uᴴ * U)] at h6
    rw [e, trDot_inner.sub_left, trDot_inner.sub_right, trDot_inner.sub_right,
      trDot_inner.symm (Uᴴ * U)]
    linarith
  have h2 : 2 * trDot U U ≤ trDot (U + Uᴴ) (U + Uᴴ) := by
    have h3 : 0 ≤ trDot U Uᴴ := by
      rw [trDot_eq_sum]
      refine Finset.sum_nonneg fun i _ => Finset.sum_nonneg fun j _ => ?_
      rw [conjTranspose_apply, hU]
      rcases lt_trichotomy i j with hij | hij | hij
      · rw [Matrix.sub_apply, Matrix.sub_apply, h.upper j i hij, one_apply_ne hij.ne']
        simp
      · subst hij
        obtain ⟨d, _, hd⟩ := hd i
        have : (R - 1) i i = ((d - 1 : ℝ) : 𝕜) := by
          rw [Matrix.sub_apply, hd, one_apply_eq]; push_cast; rfl
        rw [this, RCLike.star_def, RCLike.conj_ofReal, ← RCLike.ofReal_mul, RCLike.ofReal_re]
        exact mul_self_nonneg _
      · rw [Matrix.sub_apply, Matrix.sub_apply, h.upper i j hij, one_apply_ne hij.ne']
        simp
    rw [trDot_inner.add_left, trDot_inner.add_right, trDot_inner.add_right, trDot_inner.symm Uᴴ U,
      trDot_conjTranspose]
    linarith
  linarith

end

end Verif.Geo
