/-
Lemmas for the triangle inequality of distances that sum a function of eigenvalues: a bound on small
steps gives a bound on the whole curve, and sums over two spectra are compared by means of the
overlaps of the eigenvectors.
-/
import Verif.Geo.Lemmas.Factor
import Verif.Geo.Lemmas.Svd
import Mathlib.Analysis.Complex.Trigonometric
import Mathlib.Analysis.SpecialFunctions.Log.Basic
import Mathlib.Analysis.SpecialFunctions.Complex.Arg

namespace Verif.Geo
open scoped BigOperators
open Matrix

/-! ### From steps to curves -/

/-- If every small step raises `F` by at most twice the square root of `F` times the length of the
step, up to second order, then the square root of `F` grows at most by the length of the curve. -/
theorem sqrt_le_of_steps {F : ℝ → ℝ} {l c M : ℝ} (hF : ∀ t, 0 ≤ F t) (hc : 0 ≤ c)
    (hl : 0 ≤ l) (hM : 0 ≤ M) (hstep : ∀ t h, 0 ≤ t → 0 < h → t + h ≤ 1 →
      F (t + h) ≤ F t + 2 * Real.sqrt (F t) * (h * l + c * h ^ 2) + M * h ^ 2) :
    Real.sqrt (F 1) ≤ Real.sqrt (F 0) + l := by
  -- the square roots moved away from zero
  have key : ∀ ε : ℝ, 0 < ε → Real.sqrt (F 1 + ε ^ 2) ≤ Real.sqrt (F 0 + ε ^ 2) + l := by
    intro ε hε
    have one : ∀ t h, 0 ≤ t → 0 < h → t + h ≤ 1 → Real.sqrt (F (t + h) + ε ^ 2) ≤
        Real.sqrt (F t + ε ^ 2) + (h * l + c * h ^ 2 + M * h ^ 2 / (2 * ε)) := by
      intro t h ht hh hth
      set ρ := Real.sqrt (F t + ε ^ 2) with hρ
      set r := Real.sqrt (F t) with hr
      have hρ2 : ρ ^ 2 = F t + ε ^ 2 := Real.sq_sqrt (by have := hF t; positivity)
      have hρε : ε ≤ ρ := Real.le_sqrt_of_sq_le (by have := hF t; linarith)
      have hrρ : r ≤ ρ := Real.sqrt_le_sqrt (by nlinarith)
      have hr0 : 0 ≤ r := Real.sqrt_nonneg _
      have ha : 0 ≤ h * l + c * h ^ 2 := by positivity
      have hb : 0 ≤ M * h ^ 2 / (2 * ε) := by positivity
      refine Real.sqrt_le_iff.mpr ⟨by positivity, ?_⟩
      have hs := hstep t h ht hh hth
      have h1 : r * (h * l + c * h ^ 2) ≤ ρ * (h * l + c * h ^ 2) :=
        mul_le_mul_of_nonneg_right hrρ ha
      have h2 : M * h ^ 2 ≤ 2 * ρ * (M * h ^ 2 / (2 * ε)) := by
        have h3 : 2 * ε * (M * h ^ 2 / (2 * ε)) = M * h ^ 2 := by field_simp
        have h4 := mul_le_mul_of_nonneg_right hρε hb
        linarith
      nlinarith [sq_nonneg (h * l + c * h ^ 2 + M * h ^ 2 / (2 * ε))]
    have walk : ∀ (N : ℕ), 0 < N → Real.sqrt (F 1 + ε ^ 2) ≤
        Real.sqrt (F 0 + ε ^ 2) + l + (c + M / (2 * ε)) / N := by
      intro N hN
      have hN' : (0 : ℝ) < N := by exact_mod_cast hN
      set h : ℝ := 1 / N with hh
      have hh0 : 0 < h := by positivity
      have ind : ∀ k : ℕ, k ≤ N → Real.sqrt (F (k * h) + ε ^ 2) ≤
          Real.sqrt (F 0 + ε ^ 2) + k * (h * l + c * h ^ 2 + M * h ^ 2 / (2 * ε)) := by
        intro k
        induction k with
        | zero => intro _; simp
        | succ k ih =>
          intro hk
          have h1 := ih (Nat.le_of_succ_le hk)
          have hkN : ((k : ℝ) + 1) ≤ N := by exact_mod_cast hk
          have h2 := one (k * h) h (by positivity) hh0 (by
            have : (k : ℝ) * h + h = ((k : ℝ) + 1) / N := by rw [hh]; ring
            rw [this, div_le_one hN']; exact hkN)
          have e : ((k + 1 : ℕ) : ℝ) * h = k * h + h := by push_cast; ring
          rw [e]
          push_cast
          linarith
      have h1 := ind N le_rfl
      have e : (N : ℝ) * h = 1 := by rw [hh]; field_simp
      rw [e] at h1
      have e2 : (N : ℝ) * (h * l + c * h ^ 2 + M * h ^ 2 / (2 * ε)) =
          l + (c + M / (2 * ε)) / N := by
        rw [hh]; field_simp; ring
      rw [e2] at h1
      linarith
    refine le_of_forall_pos_le_add fun δ hδ => ?_
    obtain ⟨N, hN⟩ := exists_nat_gt (max 0 ((c + M / (2 * ε)) / δ))
    have hN0 : (0 : ℝ) < N := lt_of_le_of_lt (le_max_left _ _) hN
    have hN1 := lt_of_le_of_lt (le_max_right _ _) hN
    have h1 := walk N (by exact_mod_cast hN0)
    have h2 : (c + M / (2 * ε)) / N ≤ δ := by
      rw [div_le_iff₀ hN0]
      rw [div_lt_iff₀ hδ] at hN1
      linarith
    linarith
  refine le_of_forall_pos_le_add fun ε hε => ?_
  have h1 := key ε hε
  have h2 : Real.sqrt (F 1) ≤ Real.sqrt (F 1 + ε ^ 2) := Real.sqrt_le_sqrt (by nlinarith)
  have h3 : Real.sqrt (F 0 + ε ^ 2) ≤ Real.sqrt (F 0) + ε := by
    refine Real.sqrt_le_iff.mpr ⟨by have := Real.sqrt_nonneg (F 0); positivity, ?_⟩
    have := Real.sq_sqrt (hF 0)
    nlinarith [Real.sqrt_nonneg (F 0)]
  linarith

/-! ### Frobenius norms -/

section
variable {𝕜 : Type*} [RCLike 𝕜] {m n p : Type*} [Fintype m] [Fintype n] [Fintype p]

/-- The Frobenius norm of a product is at most the product of the norms. -/
theorem trDot_mul_le (A : Matrix m n 𝕜) (B : Matrix n p 𝕜) :
    trDot (A * B) (A * B) ≤ trDot A A * trDot B B := by
  rw [trDot_self_eq, trDot_self_eq A, trDot_self_eq B, Finset.sum_mul]
  refine Finset.sum_le_sum fun i _ => ?_
  rw [Finset.sum_comm (f := fun k j => ‖B k j‖ ^ 2), Finset.mul_sum]
  refine Finset.sum_le_sum fun j _ => ?_
  have h1 : ‖(A * B) i j‖ ≤ ∑ k, ‖A i k‖ * ‖B k j‖ := by
    rw [mul_apply]
    exact (norm_sum_le _ _).trans (Finset.sum_le_sum fun k _ => (norm_mul _ _).le)
  calc ‖(A * B) i j‖ ^ 2 ≤ (∑ k, ‖A i k‖ * ‖B k j‖) ^ 2 :=
        pow_le_pow_left₀ (norm_nonneg _) h1 2
    _ ≤ _ := Finset.sum_mul_sq_le_sq_mul_sq _ _ _

/-- Cauchy–Schwarz in terms of the norms. -/
theorem trDot_le_sqrt (A B : Matrix m n 𝕜) :
    trDot A B ≤ Real.sqrt (trDot A A) * Real.sqrt (trDot B B) := by
  rw [← Real.sqrt_mul (trDot_self_nonneg A)]
  exact Real.le_sqrt_of_sq_le (trDot_inner.cauchy A B)

/-! ### Overlaps of eigenvectors -/

variable [DecidableEq n]

theorem trDot_unitary {U W : Matrix n n 𝕜} (hU : Uᴴ * U = 1) (hW : Wᴴ * W = 1)
    (A B : Matrix n n 𝕜) : trDot (Uᴴ * A * W) (Uᴴ * B * W) = trDot A B := by
  have hU' : U * Uᴴ = 1 := mul_eq_one_comm.mp hU
  have hW' : W * Wᴴ = 1 := mul_eq_one_comm.mp hW
  rw [trDot_mul_right, Matrix.mul_assoc _ W, hW', Matrix.mul_one, trDot_mul_left,
    conjTranspose_conjTranspose, ← Matrix.mul_assoc, hU', Matrix.one_mul]

/-- A comparison of two functions at every pair of eigenvalues gives a comparison of their sums
over the spectra. -/
theorem sum_le_of_pointwise {U W : Matrix n n 𝕜} (hU : Uᴴ * U = 1) (hW : Wᴴ * W = 1)
    {a b g : n → 𝕜} {fa fb : n → ℝ} {C : ℝ}
    (h : ∀ i j, fa i ≤ fb j + RCLike.re (star (g j) * (a i - b j)) + C * ‖a i - b j‖ ^ 2) :
    ∑ i, fa i ≤ ∑ j, fb j +
      trDot (W * diagonal g * Wᴴ) (U * diagonal a * Uᴴ - W * diagonal b * Wᴴ) +
      C * trDot (U * diagonal a * Uᴴ - W * diagonal b * Wᴴ)
        (U * diagonal a * Uᴴ - W * diagonal b * Wᴴ) := by
  set O := Uᴴ * W with hO
  have hOO : Oᴴ * O = 1 := by
    rw [hO, conjTranspose_mul, conjTranspose_conjTranspose, Matrix.mul_assoc, ← Matrix.mul_assoc U,
      mul_eq_one_comm.mp hU, Matrix.one_mul, hW]
  have hOO' : O * Oᴴ = 1 := mul_eq_one_comm.mp hOO
  have e1 : Uᴴ * (W * diagonal g * Wᴴ) * W = O * diagonal g := by
    rw [hO]
    calc Uᴴ * (W * diagonal g * Wᴴ) * W = Uᴴ * W * diagonal g * (Wᴴ * W) := by
          simp only [Matrix.mul_assoc]
      _ = _ := by rw [hW, Matrix.mul_one]
  have e2 : Uᴴ * (U * diagonal a * Uᴴ - W * diagonal b * Wᴴ) * W =
      diagonal a * O - O * diagonal b := by
    rw [hO, Matrix.mul_sub, Matrix.sub_mul]
    congr 1
    · calc Uᴴ * (U * diagonal a * Uᴴ) * W = (Uᴴ * U) * diagonal a * (Uᴴ * W) := by
            simp only [Matrix.mul_assoc]
        _ = _ := by rw [hU, Matrix.one_mul]
    · calc Uᴴ * (W * diagonal b * Wᴴ) * W = Uᴴ * W * diagonal b * (Wᴴ * W) := by
            simp only [Matrix.mul_assoc]
        _ = _ := by rw [hW, Matrix.mul_one]
  have e3 : ∀ i j, (diagonal a * O - O * diagonal b) i j = (a i - b j) * O i j := by
    intro i j
    rw [Matrix.sub_apply, diagonal_mul, mul_diagonal]; ring
  have row : ∀ i, ∑ j, ‖O i j‖ ^ 2 = 1 := by
    intro i
    have h1 := congrFun (congrFun hOO' i) i
    rw [mul_apply, one_apply_eq] at h1
    have h2 : ∀ j, O i j * Oᴴ j i = ((‖O i j‖ ^ 2 : ℝ) : 𝕜) := by
      intro j
      rw [conjTranspose_apply, RCLike.star_def, RCLike.mul_conj]
      push_cast; rfl
    simp only [h2] at h1
    exact_mod_cast h1
  have col : ∀ j, ∑ i, ‖O i j‖ ^ 2 = 1 := by
    intro j
    have h1 := gram_apply_self O j
    rw [hOO, one_apply_eq] at h1
    exact_mod_cast h1.symm
  rw [← trDot_unitary hU hW (W * diagonal g * Wᴴ), ← trDot_unitary hU hW
    (U * diagonal a * Uᴴ - W * diagonal b * Wᴴ), e1, e2, trDot_eq_sum, trDot_self_eq]
  have hsum : ∑ i, fa i = ∑ i, ∑ j, ‖O i j‖ ^ 2 * fa i := by
    refine Finset.sum_congr rfl fun i _ => ?_
    rw [← Finset.sum_mul, row, one_mul]
  have hsum' : ∑ j, fb j = ∑ i, ∑ j, ‖O i j‖ ^ 2 * fb j := by
    rw [Finset.sum_comm]
    refine Finset.sum_congr rfl fun i _ => ?_
    rw [← Finset.sum_mul, col, one_mul]
  rw [hsum, hsum', Finset.mul_sum, ← Finset.sum_add_distrib, ← Finset.sum_add_distrib]
  refine Finset.sum_le_sum fun i _ => ?_
  rw [Finset.mul_sum, ← Finset.sum_add_distrib, ← Finset.sum_add_distrib]
  refine Finset.sum_le_sum fun j _ => ?_
  rw [e3, mul_diagonal, norm_mul, mul_pow]
  have e4 : RCLike.re (star (O i j * g j) * ((a i - b j) * O i j)) =
      ‖O i j‖ ^ 2 * RCLike.re (star (g j) * (a i - b j)) := by
    have : star (O i j * g j) * ((a i - b j) * O i j) =
        ((‖O i j‖ ^ 2 : ℝ) : 𝕜) * (star (g j) * (a i - b j)) := by
      have h2 : O i j * star (O i j) = ((‖O i j‖ ^ 2 : ℝ) : 𝕜) := by
        rw [RCLike.star_def, RCLike.mul_conj]; push_cast; rfl
      rw [← h2, star_mul']; ring
    rw [this, RCLike.re_ofReal_mul]
  rw [e4]
  have := mul_le_mul_of_nonneg_left (h i j) (sq_nonneg ‖O i j‖)
  linarith

end

end Verif.Geo
