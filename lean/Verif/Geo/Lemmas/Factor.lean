/-
Perturbation of QR and polar factors of matrices `Y` with `Yᴴ Y = 1 + Wᴴ W`.
-/
import Verif.Geo.Lemmas.MatrixCalc
import Verif.Geo.Lemmas.Spectral
import Mathlib.LinearAlgebra.Matrix.Block
import Mathlib.LinearAlgebra.Matrix.NonsingularInverse
import Mathlib.Analysis.SpecialFunctions.Log.Basic

namespace Verif.Geo
open scoped BigOperators
open Matrix

variable {l m n p : Type*} {𝕜 : Type*} [RCLike 𝕜]

theorem trDot_self_eq [Fintype m] [Fintype n] (A : Matrix m n 𝕜) :
    trDot A A = ∑ i, ∑ j, ‖A i j‖ ^ 2 := by
  rw [trDot_eq_sum]
  refine Finset.sum_congr rfl fun i _ => Finset.sum_congr rfl fun j _ => ?_
  rw [RCLike.star_def, RCLike.conj_mul, ← RCLike.ofReal_pow, RCLike.ofReal_re]

theorem trDot_self_nonneg [Fintype m] [Fintype n] (A : Matrix m n 𝕜) : 0 ≤ trDot A A :=
  trDot_inner.nonneg A

theorem gram_apply_self [Fintype m] (A : Matrix m n 𝕜) (j : n) :
    (Aᴴ * A) j j = ((∑ i, ‖A i j‖ ^ 2 : ℝ) : 𝕜) := by
  rw [mul_apply, RCLike.ofReal_sum]
  refine Finset.sum_congr rfl fun i _ => ?_
  rw [conjTranspose_apply, RCLike.star_def, RCLike.conj_mul, RCLike.ofReal_pow]

theorem colSq_le [Fintype m] [Fintype n] (A : Matrix m n 𝕜) (j : n) :
    ∑ i, ‖A i j‖ ^ 2 ≤ trDot A A := by
  rw [trDot_self_eq, Finset.sum_comm]
  exact Finset.single_le_sum (f := fun j => ∑ i, ‖A i j‖ ^ 2)
    (fun j _ => Finset.sum_nonneg fun i _ => sq_nonneg _) (Finset.mem_univ j)

/-- Entries of a Gram matrix are bounded by the squared Frobenius norm. -/
theorem gram_entry_le [Fintype m] [Fintype n] (A : Matrix m n 𝕜) (i j : n) :
    ‖(Aᴴ * A) i j‖ ≤ trDot A A := by
  have h1 : ‖(Aᴴ * A) i j‖ ≤ ∑ k, ‖A k i‖ * ‖A k j‖ := by
    rw [mul_apply]
    refine (norm_sum_le _ _).trans (Finset.sum_le_sum fun k _ => ?_)
    rw [conjTranspose_apply, norm_mul, norm_star]
  have h2 : ∑ k, ‖A k i‖ * ‖A k j‖ ≤ ∑ k, (‖A k i‖ ^ 2 + ‖A k j‖ ^ 2) / 2 :=
    Finset.sum_le_sum fun k _ => by nlinarith [sq_nonneg (‖A k i‖ - ‖A k j‖)]
  have h3 : ∑ k, (‖A k i‖ ^ 2 + ‖A k j‖ ^ 2) / 2 ≤ trDot A A := by
    rw [← Finset.sum_div, Finset.sum_add_distrib]
    linarith [colSq_le A i, colSq_le A j]
  linarith

/-- Entries of a matrix with orthonormal columns are at most one in modulus. -/
theorem orth_entry_le [Fintype m] [DecidableEq n] {q : Matrix m n 𝕜} (h : qᴴ * q = 1) (i : m)
    (j : n) : ‖q i j‖ ≤ 1 := by
  have h1 := gram_apply_self q j
  rw [h, one_apply_eq] at h1
  have h2 : ∑ i, ‖q i j‖ ^ 2 = 1 := by exact_mod_cast h1.symm
  have h3 := Finset.single_le_sum (f := fun i => ‖q i j‖ ^ 2) (fun i _ => sq_nonneg _)
    (Finset.mem_univ i)
  rw [h2] at h3
  nlinarith [norm_nonneg (q i j)]

theorem trDot_one [Fintype n] [DecidableEq n] : trDot (1 : Matrix n n 𝕜) 1 = Fintype.card n := by
  simp [trDot]

/-- `det (1 + Wᴴ W) ≥ 1`. -/
theorem one_le_det_one_add_gram [Fintype m] [Fintype n] [DecidableEq n] (W : Matrix m n 𝕜) :
    ∃ d : ℝ, 1 ≤ d ∧ (1 + Wᴴ * W).det = (d : 𝕜) := by
  obtain ⟨w, v, h⟩ := exists_isEigh (A := Wᴴ * W) (isHermitian_conjTranspose_mul_self W)
  have hw : ∀ i, 0 ≤ w i := by
    intro i
    have h1 : (W * v)ᴴ * (W * v) = diagonal fun i => ((w i : ℝ) : 𝕜) := by
      have : (W * v)ᴴ * (W * v) = vᴴ * (Wᴴ * W) * v := by
        rw [conjTranspose_mul]; simp only [Matrix.mul_assoc]
      rw [this, h.prod]
      calc vᴴ * (v * diagonal (fun i => ((w i : ℝ) : 𝕜)) * vᴴ) * v
          = vᴴ * v * diagonal (fun i => ((w i : ℝ) : 𝕜)) * (vᴴ * v) := by
            simp only [Matrix.mul_assoc]
        _ = _ := by rw [h.orth, Matrix.one_mul, Matrix.mul_one]
    have h2 := gram_apply_self (W * v) i
    rw [h1, diagonal_apply_eq] at h2
    have h3 : w i = ∑ k, ‖(W * v) k i‖ ^ 2 := by exact_mod_cast h2
    rw [h3]
    exact Finset.sum_nonneg fun _ _ => sq_nonneg _
  have h1 : (1 : Matrix n n 𝕜) + Wᴴ * W = v * diagonal (fun i => ((1 + w i : ℝ) : 𝕜)) * vᴴ := by
    have e : (diagonal fun i => ((1 + w i : ℝ) : 𝕜)) = 1 + diagonal fun i => ((w i : ℝ) : 𝕜) := by
      rw [← diagonal_one, diagonal_add]; congr 1; funext i; simp
    rw [e, Matrix.mul_add, Matrix.add_mul, Matrix.mul_one, ← h.prod, h.orth']
  refine ⟨∏ i, (1 + w i), ?_, ?_⟩
  · refine Finset.prod_induction (fun i => 1 + w i) (1 ≤ ·) (fun a b ha hb => ?_) le_rfl
      fun i _ => by linarith [hw i]
    nlinarith
  · have hv : v.det * vᴴ.det = 1 := by rw [← det_mul, h.orth', det_one]
    rw [h1, det_mul, det_mul, det_diagonal, mul_right_comm, hv, one_mul]
    push_cast
    rfl

/-- Columns of `Y` are linearly independent. -/
theorem gram_injective [Fintype l] [Fintype m] [Fintype n] [DecidableEq n] {Y : Matrix m n 𝕜}
    {W : Matrix l n 𝕜} (hY : Yᴴ * Y = 1 + Wᴴ * W) {y : n → 𝕜} (hy : Y *ᵥ y = 0) : y = 0 := by
  obtain ⟨d, hd, hdet⟩ := one_le_det_one_add_gram W
  have h1 : (1 + Wᴴ * W) *ᵥ y = 0 := by rw [← hY, ← mulVec_mulVec, hy, mulVec_zero]
  refine eq_zero_of_mulVec_eq_zero ?_ h1
  rw [hdet]
  have : d ≠ 0 := by linarith
  exact_mod_cast this

/-- A QR factor of a matrix with independent columns has no zero on its diagonal. -/
theorem IsQR.diag_ne_zero [Fintype m] {n : ℕ} {A q : Matrix m (Fin n) 𝕜}
    {r : Matrix (Fin n) (Fin n) 𝕜} (h : IsQR A q r) (hA : ∀ y, A *ᵥ y = 0 → y = 0) (i : Fin n) :
    r i i ≠ 0 := by
  have hu : IsUnit r := by
    rw [← Matrix.mulVec_injective_iff_isUnit]
    intro y z hyz
    have : A *ᵥ (y - z) = 0 := by
      rw [← h.prod, ← mulVec_mulVec, mulVec_sub, hyz, sub_self, mulVec_zero]
    exact sub_eq_zero.mp (hA _ this)
  have hd := (Matrix.isUnit_iff_isUnit_det _).mp hu
  have tri : BlockTriangular r id := fun i j hij => h.upper i j hij
  rw [det_of_isUpperTriangular tri] at hd
  exact fun hi => hd.ne_zero (Finset.prod_eq_zero (Finset.mem_univ i) hi)

section QR
variable [Fintype l] [Fintype m] {n : ℕ}

/-- The triangular factor of `Y`: its distance to the identity, and the equation it satisfies. -/
theorem qr_defect {Y q : Matrix m (Fin n) 𝕜} {R : Matrix (Fin n) (Fin n) 𝕜} (h : IsQR Y q R)
    (hd : ∀ i, ∃ d : ℝ, 0 ≤ d ∧ R i i = (d : 𝕜)) {W : Matrix l (Fin n) 𝕜}
    (hY : Yᴴ * Y = 1 + Wᴴ * W) :
    trDot (R - 1) (R - 1) ≤ trDot W W ∧ (R - 1) + (R - 1)ᴴ + (R - 1)ᴴ * (R - 1) = Wᴴ * W := by
  choose d hd0 hRd using hd
  have hRR : Rᴴ * R = 1 + Wᴴ * W := by
    rw [← hY, ← h.prod, conjTranspose_mul, Matrix.mul_assoc, ← Matrix.mul_assoc _ q, h.orth,
      Matrix.one_mul]
  have tri : BlockTriangular R id := fun i j hij => h.upper i j hij
  have hdet : R.det = ((∏ i, d i : ℝ) : 𝕜) := by
    rw [det_of_isUpperTriangular tri]
    push_cast
    exact Finset.prod_congr rfl fun i _ => hRd i
  obtain ⟨D, hD1, hD⟩ := one_le_det_one_add_gram W
  have hprod : (∏ i, d i) * (∏ i, d i) = D := by
    have : star R.det * R.det = (D : 𝕜) := by
      rw [← det_conjTranspose, ← det_mul, hRR, hD]
    rw [hdet, RCLike.star_def, RCLike.conj_ofReal] at this
    exact_mod_cast this
  have hP0 : 0 ≤ ∏ i, d i := Finset.prod_nonneg fun i _ => hd0 i
  have hP1 : 1 ≤ ∏ i, d i := by nlinarith
  have hpos : ∀ i, 0 < d i := by
    intro i
    rcases (hd0 i).lt_or_eq with h | h
    · exact h
    · exfalso
      rw [Finset.prod_eq_zero (Finset.mem_univ i) h.symm] at hP1
      linarith
  have hsum : (n : ℝ) ≤ ∑ i, d i := by
    have h1 : 0 ≤ ∑ i, Real.log (d i) := by
      rw [← Real.log_prod (fun i _ => (hpos i).ne')]
      exact Real.log_nonneg hP1
    have h2 : ∑ i, Real.log (d i) ≤ ∑ i, (d i - 1) :=
      Finset.sum_le_sum fun i _ => Real.log_le_sub_one_of_pos (hpos i)
    simp only [Finset.sum_sub_distrib, Finset.sum_const, Finset.card_univ, Fintype.card_fin,
      nsmul_eq_mul, mul_one] at h2
    linarith
  obtain ⟨U, hU⟩ : ∃ U, U = R - 1 := ⟨_, rfl⟩
  rw [← hU]
  have hUU : trDot U U ≤ trDot W W := by
    have h1 : trDot R R = n + trDot W W := by
      have : trDot R R = RCLike.re (Rᴴ * R).trace := rfl
      rw [this, hRR, trace_add, map_add]
      simp [trDot]
    have h2 : trDot (1 : Matrix (Fin n) (Fin n) 𝕜) R = ∑ i, d i := by
      simp [trDot, trace, hRd]
    rw [hU, trDot_inner.sub_left, trDot_inner.sub_right, trDot_inner.sub_right, h1,
      trDot_inner.symm R 1, h2, trDot_one, Fintype.card_fin]
    linarith
  have hE : U + Uᴴ + Uᴴ * U = Wᴴ * W := by
    have : Rᴴ * R = 1 + (U + Uᴴ + Uᴴ * U) := by
      have : R = 1 + U := by rw [hU]; abel
      rw [this, conjTranspose_add, conjTranspose_one, Matrix.add_mul, Matrix.mul_add,
        Matrix.mul_add, Matrix.one_mul, Matrix.mul_one, Matrix.one_mul]
      abel
    rw [hRR] at this
    exact (add_left_cancel this).symm
  exact ⟨hUU, hE⟩

/-- The orthonormal QR factor of `Y` is within `2 n ‖W‖²` of `Y`, entry by entry. -/
theorem qr_close {Y q : Matrix m (Fin n) 𝕜} {R : Matrix (Fin n) (Fin n) 𝕜} (h : IsQR Y q R)
    (hd : ∀ i, ∃ d : ℝ, 0 ≤ d ∧ R i i = (d : 𝕜)) {W : Matrix l (Fin n) 𝕜}
    (hY : Yᴴ * Y = 1 + Wᴴ * W) (i : m) (j : Fin n) :
    ‖q i j - Y i j‖ ≤ 2 * n * trDot W W := by
  obtain ⟨hUU, hE⟩ := qr_defect h hd hY
  choose d hd0 hRd using hd
  set U := R - 1 with hU
  have hτ := trDot_self_nonneg W
  have hsmall : ∀ i j, ‖(U + Uᴴ) i j‖ ≤ 2 * trDot W W := by
    intro i j
    have : U + Uᴴ = Wᴴ * W - Uᴴ * U := by rw [← hE]; abel
    rw [this, Matrix.sub_apply]
    refine (norm_sub_le _ _).trans ?_
    linarith [gram_entry_le W i j, gram_entry_le U i j]
  have hUle : ∀ i j, ‖U i j‖ ≤ 2 * trDot W W := by
    intro i j
    rcases lt_trichotomy i j with hij | hij | hij
    · have h1 := hsmall i j
      have h2 : U j i = 0 := by
        rw [hU, Matrix.sub_apply, h.upper j i hij, one_apply_ne hij.ne', sub_zero]
      rwa [Matrix.add_apply, conjTranspose_apply, h2, star_zero, add_zero] at h1
    · subst hij
      have h1 := hsmall i i
      have h2 : U i i = ((d i - 1 : ℝ) : 𝕜) := by
        rw [hU, Matrix.sub_apply, hRd, one_apply_eq]; push_cast; rfl
      rw [Matrix.add_apply, conjTranspose_apply, h2, RCLike.star_def, RCLike.conj_ofReal,
        ← RCLike.ofReal_add, RCLike.norm_ofReal] at h1
      rw [h2, RCLike.norm_ofReal]
      have : |d i - 1 + (d i - 1)| = 2 * |d i - 1| := by
        rw [← two_mul, abs_mul, abs_two]
      rw [this] at h1
      linarith [abs_nonneg (d i - 1)]
    · have : U i j = 0 := by
        rw [hU, Matrix.sub_apply, h.upper i j hij, one_apply_ne hij.ne', sub_zero]
      rw [this, norm_zero]
      linarith
  have hqY : q i j - Y i j = -(q * U) i j := by
    have : q * U = Y - q := by rw [hU, Matrix.mul_sub, h.prod, Matrix.mul_one]
    rw [this, Matrix.sub_apply]; ring
  rw [hqY, norm_neg, mul_apply]
  calc ‖∑ k, q i k * U k j‖ ≤ ∑ k, ‖q i k * U k j‖ := norm_sum_le _ _
    _ ≤ ∑ _k : Fin n, 2 * trDot W W := Finset.sum_le_sum fun k _ => by
        rw [norm_mul]
        calc ‖q i k‖ * ‖U k j‖ ≤ 1 * (2 * trDot W W) :=
              mul_le_mul (orth_entry_le h.orth i k) (hUle k j) (norm_nonneg _) zero_le_one
          _ = _ := one_mul _
    _ = 2 * n * trDot W W := by simp; ring

end QR

section SVD
variable [Fintype l] [Fintype m] {n : ℕ}

theorem IsSVD.orthV' {n : ℕ} {Y u : Matrix m (Fin n) 𝕜} {s : Fin n → ℝ}
    {vt : Matrix (Fin n) (Fin n) 𝕜} (h : IsSVD Y u s vt) : vtᴴ * vt = 1 :=
  mul_eq_one_comm.mp h.orthV

/-- The polar factor `u vt` has orthonormal columns. -/
theorem IsSVD.polar_orth {Y u : Matrix m (Fin n) 𝕜} {s : Fin n → ℝ}
    {vt : Matrix (Fin n) (Fin n) 𝕜} (h : IsSVD Y u s vt) : (u * vt)ᴴ * (u * vt) = 1 := by
  rw [conjTranspose_mul, Matrix.mul_assoc, ← Matrix.mul_assoc _ u, h.orthU, Matrix.one_mul,
    h.orthV']

/-- The singular values of `Y`. -/
theorem svd_sq {Y u : Matrix m (Fin n) 𝕜} {s : Fin n → ℝ} {vt : Matrix (Fin n) (Fin n) 𝕜}
    (h : IsSVD Y u s vt) {W : Matrix l (Fin n) 𝕜} (hY : Yᴴ * Y = 1 + Wᴴ * W) (k : Fin n) :
    s k * s k = 1 + ∑ i, ‖(W * vtᴴ) i k‖ ^ 2 := by
  have h1 : vt * (Yᴴ * Y) * vtᴴ = diagonal fun k => ((s k * s k : ℝ) : 𝕜) := by
    have e : Yᴴ * Y = vtᴴ * diagonal (fun k => ((s k * s k : ℝ) : 𝕜)) * vt := by
      have hdd : (diagonal fun k => ((s k : ℝ) : 𝕜))ᴴ * (diagonal fun k => ((s k : ℝ) : 𝕜)) =
          diagonal fun k => ((s k * s k : ℝ) : 𝕜) := by
        rw [diagonal_conjTranspose, diagonal_mul_diagonal]
        congr 1; funext k
        simp
      rw [← hdd, h.prod, conjTranspose_mul, conjTranspose_mul]
      calc vtᴴ * ((diagonal fun k => ((s k : ℝ) : 𝕜))ᴴ * uᴴ) *
            (u * (diagonal fun k => ((s k : ℝ) : 𝕜)) * vt)
          = vtᴴ * (diagonal fun k => ((s k : ℝ) : 𝕜))ᴴ * (uᴴ * u) *
            (diagonal fun k => ((s k : ℝ) : 𝕜)) * vt := by simp only [Matrix.mul_assoc]
        _ = _ := by rw [h.orthU, Matrix.mul_one]; simp only [Matrix.mul_assoc]
    rw [e]
    calc vt * (vtᴴ * diagonal (fun k => ((s k * s k : ℝ) : 𝕜)) * vt) * vtᴴ
        = vt * vtᴴ * diagonal (fun k => ((s k * s k : ℝ) : 𝕜)) * (vt * vtᴴ) := by
          simp only [Matrix.mul_assoc]
      _ = _ := by rw [h.orthV, Matrix.one_mul, Matrix.mul_one]
  have h2 : vt * (Yᴴ * Y) * vtᴴ = 1 + (W * vtᴴ)ᴴ * (W * vtᴴ) := by
    rw [hY, Matrix.mul_add, Matrix.add_mul, Matrix.mul_one, h.orthV, conjTranspose_mul,
      conjTranspose_conjTranspose]
    simp only [Matrix.mul_assoc]
  have h3 := congrFun (congrFun (h1.symm.trans h2) k) k
  rw [diagonal_apply_eq, Matrix.add_apply, one_apply_eq, gram_apply_self] at h3
  exact_mod_cast h3

/-- The polar factor of `Y` is within `n ‖W‖²` of `Y`, entry by entry. -/
theorem polar_close {Y u : Matrix m (Fin n) 𝕜} {s : Fin n → ℝ} {vt : Matrix (Fin n) (Fin n) 𝕜}
    (h : IsSVD Y u s vt) {W : Matrix l (Fin n) 𝕜} (hY : Yᴴ * Y = 1 + Wᴴ * W) (i : m) (j : Fin n) :
    ‖(u * vt) i j - Y i j‖ ≤ n * trDot W W := by
  have hs : ∀ k, |s k - 1| ≤ trDot W W := by
    intro k
    have h4 := svd_sq h hY k
    have h5 : 0 ≤ ∑ i, ‖(W * vtᴴ) i k‖ ^ 2 := Finset.sum_nonneg fun _ _ => sq_nonneg _
    have h6 : ∑ i, ‖(W * vtᴴ) i k‖ ^ 2 ≤ trDot W W := by
      refine (colSq_le _ _).trans (le_of_eq ?_)
      rw [trDot_mul_right, conjTranspose_conjTranspose, Matrix.mul_assoc, h.orthV', Matrix.mul_one]
    have h7 := h.nonneg k
    have h8 : 1 ≤ s k := by nlinarith
    rw [abs_of_nonneg (by linarith)]
    nlinarith
  have e : (u * vt) i j - Y i j = -∑ k, u i k * ((s k - 1 : ℝ) : 𝕜) * vt k j := by
    rw [h.prod, mul_apply, mul_apply, ← Finset.sum_neg_distrib, ← Finset.sum_sub_distrib]
    refine Finset.sum_congr rfl fun k _ => ?_
    rw [mul_diagonal]; push_cast; ring
  rw [e, norm_neg]
  have hτ := trDot_self_nonneg W
  calc ‖∑ k, u i k * ((s k - 1 : ℝ) : 𝕜) * vt k j‖
      ≤ ∑ k, ‖u i k * ((s k - 1 : ℝ) : 𝕜) * vt k j‖ := norm_sum_le _ _
    _ ≤ ∑ _k : Fin n, trDot W W := Finset.sum_le_sum fun k _ => by
        rw [norm_mul, norm_mul, RCLike.norm_ofReal]
        have h1 := orth_entry_le h.orthU i k
        have h2 := orth_entry_le h.orthV' k j
        calc ‖u i k‖ * |s k - 1| * ‖vt k j‖ ≤ 1 * trDot W W * 1 :=
              mul_le_mul (mul_le_mul h1 (hs k) (abs_nonneg _) zero_le_one) h2 (norm_nonneg _)
                (by linarith)
          _ = _ := by ring
    _ = n * trDot W W := by simp

end SVD

end Verif.Geo
