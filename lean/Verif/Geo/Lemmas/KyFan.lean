/-
The maximum principle of Ky Fan: the trace of a Hermitian matrix restricted to a subspace of dimension
`k` is at most the sum of its `k` largest eigenvalues.
-/
import Mathlib.Analysis.Matrix.Spectrum
import Verif.Geo.Lemmas.Factor
import Verif.Geo.Lemmas.Stack

namespace Verif.Geo
open Matrix
open scoped BigOperators

variable {m n : Type*} {𝕜 : Type*} [RCLike 𝕜]

/-- The weights of the directions `u` in the span of `X`. -/
theorem weight_bounds [Fintype m] [Fintype n] [DecidableEq n] {k : ℕ} {u : Matrix m n 𝕜}
    (hu : uᴴ * u = 1) {X : Matrix m (Fin k) 𝕜} (hX : Xᴴ * X = 1) :
    (∀ i, ∑ j, ‖(uᴴ * X) i j‖ ^ 2 ≤ 1) ∧ ∑ i, ∑ j, ‖(uᴴ * X) i j‖ ^ 2 ≤ k := by
  constructor
  · intro i
    have h1 : (u - X * (Xᴴ * u))ᴴ * (u - X * (Xᴴ * u)) = 1 - uᴴ * X * (uᴴ * X)ᴴ := by
      rw [conjTranspose_sub, Matrix.sub_mul, Matrix.mul_sub, Matrix.mul_sub, hu, conjTranspose_mul,
        conjTranspose_mul, conjTranspose_mul, conjTranspose_conjTranspose,
        show uᴴ * X * Xᴴ * (X * (Xᴴ * u)) = uᴴ * X * (Xᴴ * X) * (Xᴴ * u) by
          simp only [Matrix.mul_assoc], hX, Matrix.mul_one]
      rw [← Matrix.mul_assoc uᴴ X (Xᴴ * u), sub_sub, Matrix.mul_assoc (uᴴ * X) Xᴴ u]
      rw [sub_self, add_zero, conjTranspose_conjTranspose]
    have h2 := congrArg RCLike.re (congrFun (congrFun h1 i) i)
    have h3 : ∀ {q : Type _} [Fintype q] (D : Matrix n q 𝕜),
        RCLike.re ((D * Dᴴ) i i) = ∑ l, ‖D i l‖ ^ 2 := by
      intro q _ D
      rw [Matrix.mul_apply, map_sum]
      refine Finset.sum_congr rfl fun l _ => ?_
      rw [conjTranspose_apply, RCLike.star_def, RCLike.mul_conj, ← RCLike.ofReal_pow,
        RCLike.ofReal_re]
    have h4 : RCLike.re (((u - X * (Xᴴ * u))ᴴ * (u - X * (Xᴴ * u))) i i) =
        ∑ l, ‖(u - X * (Xᴴ * u)) l i‖ ^ 2 := by
      rw [Matrix.mul_apply, map_sum]
      refine Finset.sum_congr rfl fun l _ => ?_
      rw [conjTranspose_apply, RCLike.star_def, RCLike.conj_mul, ← RCLike.ofReal_pow,
        RCLike.ofReal_re]
    rw [h4, Matrix.sub_apply, map_sub, h3, Matrix.one_apply_eq, RCLike.one_re] at h2
    have h5 := Finset.sum_nonneg fun l (_ : l ∈ Finset.univ) =>
      sq_nonneg ‖(u - X * (Xᴴ * u)) l i‖
    linarith
  · have h1 := trDot_self_nonneg (X - u * (uᴴ * X))
    have h2 : trDot X X = k := by
      rw [trDot, hX, trace_one, Fintype.card_fin]
      simp
    have h3 : trDot (u * (uᴴ * X)) (u * (uᴴ * X)) = trDot (uᴴ * X) (uᴴ * X) := by
      rw [trDot_mul_left, ← Matrix.mul_assoc uᴴ u, hu, Matrix.one_mul]
    have h4 : trDot (u * (uᴴ * X)) X = trDot (uᴴ * X) (uᴴ * X) := trDot_mul_left _ _ _
    rw [trDot_inner.sub_left, trDot_inner.sub_right, trDot_inner.sub_right,
      trDot_inner.symm X (u * (uᴴ * X)), h2, h3, h4] at h1
    rw [← trDot_self_eq]
    linarith

theorem trace_diag_weights [Fintype m] [Fintype n] [DecidableEq n] {k : ℕ} (u : Matrix m n 𝕜)
    (w : n → ℝ) (X : Matrix m (Fin k) 𝕜) :
    RCLike.re (Xᴴ * (u * diagonal (fun i => (w i : 𝕜)) * uᴴ) * X).trace =
      ∑ i, w i * ∑ j, ‖(uᴴ * X) i j‖ ^ 2 := by
  have e : Xᴴ * (u * diagonal (fun i => (w i : 𝕜)) * uᴴ) * X =
      (uᴴ * X)ᴴ * (diagonal (fun i => (w i : 𝕜)) * (uᴴ * X)) := by
    rw [conjTranspose_mul, conjTranspose_conjTranspose]
    simp only [Matrix.mul_assoc]
  rw [e]
  change trDot (uᴴ * X) (diagonal (fun i => (w i : 𝕜)) * (uᴴ * X)) = _
  rw [trDot_eq_sum]
  refine Finset.sum_congr rfl fun i _ => ?_
  rw [Finset.mul_sum]
  refine Finset.sum_congr rfl fun j _ => ?_
  rw [diagonal_mul, ← mul_assoc, mul_comm (star _), mul_assoc, RCLike.star_def, RCLike.conj_mul,
    ← RCLike.ofReal_pow, ← RCLike.ofReal_mul, RCLike.ofReal_re]

theorem weighted_sum_le [Fintype n] {w q : n → ℝ} {k θ : ℝ} (h0 : ∀ i, 0 ≤ q i) (h1 : ∀ i, q i ≤ 1)
    (hk : θ * ∑ i, q i ≤ θ * k) : ∑ i, w i * q i ≤ k * θ + ∑ i, max (w i - θ) 0 := by
  have h : ∀ i, w i * q i ≤ θ * q i + max (w i - θ) 0 := fun i => by
    have h2 : (w i - θ) * q i ≤ max (w i - θ) 0 := by
      rcases le_or_gt (w i - θ) 0 with hc | hc
      · exact (mul_nonpos_of_nonpos_of_nonneg hc (h0 i)).trans (le_max_right _ _)
      · exact (mul_le_of_le_one_right hc.le (h1 i)).trans (le_max_left _ _)
    linarith
  refine (Finset.sum_le_sum fun i _ => h i).trans ?_
  rw [Finset.sum_add_distrib, ← Finset.mul_sum]
  linarith

/-- Bound with a threshold, for matrices `u * diag(w) * uᴴ`. -/
theorem trace_le_threshold [Fintype m] [Fintype n] [DecidableEq n] {k : ℕ} {u : Matrix m n 𝕜}
    (hu : uᴴ * u = 1) (w : n → ℝ) {X : Matrix m (Fin k) 𝕜} (hX : Xᴴ * X = 1) {θ : ℝ}
    (hθ : 0 ≤ θ) :
    RCLike.re (Xᴴ * (u * diagonal (fun i => (w i : 𝕜)) * uᴴ) * X).trace ≤
      k * θ + ∑ i, max (w i - θ) 0 := by
  rw [trace_diag_weights]
  obtain ⟨h1, h2⟩ := weight_bounds hu hX
  exact weighted_sum_le (fun i => Finset.sum_nonneg fun j _ => sq_nonneg _) h1
    (mul_le_mul_of_nonneg_left h2 hθ)

/-- Bound with any threshold, in terms of the roots of the characteristic polynomial. -/
theorem trace_le_charpoly [Fintype n] [DecidableEq n] {k : ℕ} {A : Matrix n n 𝕜}
    (hA : A.IsHermitian) {w : n → ℝ}
    (hw : A.charpoly = ∏ j, (Polynomial.X - Polynomial.C (w j : 𝕜))) {X : Matrix n (Fin k) 𝕜}
    (hX : Xᴴ * X = 1) (θ : ℝ) :
    RCLike.re (Xᴴ * A * X).trace ≤ k * θ + ∑ j, max (w j - θ) 0 := by
  have hr : Multiset.map hA.eigenvalues Finset.univ.val = Multiset.map w Finset.univ.val := by
    have h1 : A.charpoly.roots = Multiset.map ((RCLike.ofReal : ℝ → 𝕜) ∘ w) Finset.univ.val := by
      rw [hw, Polynomial.roots_prod]
      · simp
      · simp [Finset.prod_ne_zero_iff, Polynomial.X_sub_C_ne_zero]
    rw [hA.roots_charpoly_eq_eigenvalues, ← Multiset.map_map, ← Multiset.map_map] at h1
    exact Multiset.map_injective RCLike.ofReal_injective h1
  have hs : ∑ j, max (w j - θ) 0 = ∑ j, max (hA.eigenvalues j - θ) 0 := by
    have h1 := congrArg (fun s => (Multiset.map (fun x : ℝ => max (x - θ) 0) s).sum) hr
    simp only [Multiset.map_map] at h1
    exact h1.symm
  have hU : (hA.eigenvectorUnitary : Matrix n n 𝕜)ᴴ * (hA.eigenvectorUnitary : Matrix n n 𝕜) = 1 :=
    Unitary.coe_star_mul_self _
  have hU' : (hA.eigenvectorUnitary : Matrix n n 𝕜) * (hA.eigenvectorUnitary : Matrix n n 𝕜)ᴴ = 1 :=
    Unitary.coe_mul_star_self _
  obtain ⟨U, hUe⟩ : ∃ U : Matrix n n 𝕜, (hA.eigenvectorUnitary : Matrix n n 𝕜) = U := ⟨_, rfl⟩
  have hsp : A = U * diagonal (fun i => (hA.eigenvalues i : 𝕜)) * Uᴴ := by
    rw [← hUe]
    exact hA.spectral_theorem
  rw [hUe] at hU hU'
  rw [hs]
  conv_lhs => rw [hsp]
  rw [trace_diag_weights]
  obtain ⟨h1, -⟩ := weight_bounds hU hX
  have h2 : ∑ i, ∑ j, ‖(Uᴴ * X) i j‖ ^ 2 = k := by
    rw [← trDot_self_eq, trDot_mul_left, conjTranspose_conjTranspose, ← Matrix.mul_assoc, hU',
      Matrix.one_mul, trDot, hX, trace_one, Fintype.card_fin]
    simp
  exact weighted_sum_le (fun i => Finset.sum_nonneg fun j _ => sq_nonneg _) h1 (by rw [h2])

/-- With the threshold at the least of the `k` largest values the bound is their sum. -/
theorem threshold_sum [Fintype n] [DecidableEq n] {k : ℕ} {w : n → ℝ} {idx : Fin k → n}
    (hi : Function.Injective idx) {θ : ℝ}
    (h1 : ∀ i, θ ≤ w (idx i)) (h2 : ∀ j, (∀ i, idx i ≠ j) → w j ≤ θ) :
    k * θ + ∑ j, max (w j - θ) 0 = ∑ i, w (idx i) := by
  have h3 : ∑ j, max (w j - θ) 0 = ∑ j ∈ Finset.univ.image idx, (w j - θ) := by
    rw [← Finset.sum_subset (Finset.subset_univ (Finset.univ.image idx))]
    · refine Finset.sum_congr rfl fun j hj => ?_
      obtain ⟨i, -, rfl⟩ := Finset.mem_image.1 hj
      exact max_eq_left (sub_nonneg.2 (h1 i))
    · intro j _ hj
      refine max_eq_right (sub_nonpos.2 (h2 j fun i hij => hj ?_))
      exact Finset.mem_image.2 ⟨i, Finset.mem_univ _, hij⟩
  rw [h3, Finset.sum_image fun a _ b _ h => hi h, Finset.sum_sub_distrib]
  simp

end Verif.Geo
