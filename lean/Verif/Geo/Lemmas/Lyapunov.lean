/-
The Lyapunov equation `S X + X S = Q` with positive definite `S`.
-/
import Verif.Geo.Lemmas.Spectral
import Verif.Geo.Model.Lapack

namespace Verif.Geo
open scoped BigOperators ComplexOrder
open Matrix

variable {n : Type*} [Fintype n] [DecidableEq n] {𝕜 : Type*} [RCLike 𝕜] {S : Matrix n n 𝕜}

theorem lyapunov_diag {w : n → ℝ} {v : Matrix n n 𝕜} (h : IsEigh S w v) (X : Matrix n n 𝕜) (i j : n) :
    (vᴴ * (S * X + X * Sᴴ) * v) i j = ((w i + w j : ℝ) : 𝕜) * (vᴴ * X * v) i j := by
  have e1 : vᴴ * S = diagonal (fun i => (w i : 𝕜)) * vᴴ := by
    conv_lhs => rw [h.prod]
    rw [Matrix.mul_assoc, ← Matrix.mul_assoc, h.orth, Matrix.one_mul]
  have e2 : Sᴴ * v = v * diagonal (fun i => (w i : 𝕜)) := by
    rw [h.herm]
    conv_lhs => rw [h.prod]
    rw [Matrix.mul_assoc, h.orth, Matrix.mul_one]
  have e3 : vᴴ * (S * X + X * Sᴴ) * v =
      diagonal (fun i => (w i : 𝕜)) * (vᴴ * X * v) + (vᴴ * X * v) * diagonal (fun i => (w i : 𝕜)) := by
    calc vᴴ * (S * X + X * Sᴴ) * v = vᴴ * S * X * v + vᴴ * X * (Sᴴ * v) := by
          simp only [Matrix.mul_add, Matrix.add_mul, Matrix.mul_assoc]
      _ = _ := by rw [e1, e2]; simp only [Matrix.mul_assoc]
  rw [e3, Matrix.add_apply, diagonal_mul, mul_diagonal]
  push_cast
  ring

/-- The equation has at most one solution. -/
theorem lyapunov_unique (hS : S.PosDef) {Q X Y : Matrix n n 𝕜} (hX : IsLyapunov S Q X)
    (hY : IsLyapunov S Q Y) : X = Y := by
  obtain ⟨w, v, h⟩ := exists_isEigh hS.isHermitian
  have hw := h.eigenvalue_pos hS
  have hz : vᴴ * (X - Y) * v = 0 := by
    ext i j
    have h1 := lyapunov_diag h (X - Y) i j
    have h2 : S * (X - Y) + (X - Y) * Sᴴ = 0 := by
      have : S * (X - Y) + (X - Y) * Sᴴ = (S * X + X * Sᴴ) - (S * Y + Y * Sᴴ) := by
        rw [Matrix.mul_sub, Matrix.sub_mul]; abel
      rw [this, hX, hY, sub_self]
    rw [h2, Matrix.mul_zero, Matrix.zero_mul, Matrix.zero_apply] at h1
    have h3 : ((w i + w j : ℝ) : 𝕜) ≠ 0 := by
      have := (add_pos (hw i) (hw j)).ne'
      exact_mod_cast this
    rw [Matrix.zero_apply]
    exact (mul_eq_zero.mp h1.symm).resolve_left h3
  have : X - Y = v * (vᴴ * (X - Y) * v) * vᴴ := by
    calc X - Y = (v * vᴴ) * (X - Y) * (v * vᴴ) := by rw [h.orth', Matrix.one_mul, Matrix.mul_one]
      _ = _ := by simp only [Matrix.mul_assoc]
  rw [hz, Matrix.mul_zero, Matrix.zero_mul] at this
  exact sub_eq_zero.mp this

/-- The equation has a solution. -/
theorem exists_lyapunov (hS : S.PosDef) (Q : Matrix n n 𝕜) : ∃ X, IsLyapunov S Q X := by
  obtain ⟨w, v, h⟩ := exists_isEigh hS.isHermitian
  have hw := h.eigenvalue_pos hS
  let Z : Matrix n n 𝕜 := of fun i j => (vᴴ * Q * v) i j / ((w i + w j : ℝ) : 𝕜)
  refine ⟨v * Z * vᴴ, ?_⟩
  have hZ : vᴴ * (v * Z * vᴴ) * v = Z := by
    calc vᴴ * (v * Z * vᴴ) * v = (vᴴ * v) * Z * (vᴴ * v) := by simp only [Matrix.mul_assoc]
      _ = Z := by rw [h.orth, Matrix.one_mul, Matrix.mul_one]
  have h1 : vᴴ * (S * (v * Z * vᴴ) + (v * Z * vᴴ) * Sᴴ) * v = vᴴ * Q * v := by
    ext i j
    rw [lyapunov_diag h, hZ]
    have h3 : ((w i + w j : ℝ) : 𝕜) ≠ 0 := by
      have := (add_pos (hw i) (hw j)).ne'
      exact_mod_cast this
    exact mul_div_cancel₀ _ h3
  have h2 := congrArg (fun M => v * M * vᴴ) h1
  have h4 : ∀ M : Matrix n n 𝕜, v * (vᴴ * M * v) * vᴴ = M := by
    intro M
    calc v * (vᴴ * M * v) * vᴴ = (v * vᴴ) * M * (v * vᴴ) := by simp only [Matrix.mul_assoc]
      _ = M := by rw [h.orth', Matrix.one_mul, Matrix.mul_one]
  change v * (vᴴ * _ * v) * vᴴ = v * (vᴴ * _ * v) * vᴴ at h2
  rwa [h4, h4] at h2

/-- With a Gram matrix, singular or not, the equation has a solution for the right-hand sides that
occur in projections. -/
theorem exists_lyapunov_gram {m : Type*} [Fintype m] (Y A B : Matrix m n 𝕜) :
    ∃ X, IsLyapunov (Yᴴ * Y) (Yᴴ * A + Bᴴ * Y) X := by
  have hS := posSemidef_conjTranspose_mul_self Y
  obtain ⟨w, v, h⟩ := exists_isEigh hS.isHermitian
  have hd : (Y * v)ᴴ * (Y * v) = diagonal fun i => (w i : 𝕜) := by
    calc (Y * v)ᴴ * (Y * v) = vᴴ * (Yᴴ * Y) * v := by
          rw [conjTranspose_mul]; simp only [Matrix.mul_assoc]
      _ = (vᴴ * v) * diagonal (fun i => (w i : 𝕜)) * (vᴴ * v) := by
          conv_lhs => rw [h.prod]
          simp only [Matrix.mul_assoc]
      _ = _ := by rw [h.orth, Matrix.one_mul, Matrix.mul_one]
  have hsum : ∀ i, w i = ∑ l, ‖(Y * v) l i‖ ^ 2 := by
    intro i
    have h1 := congrFun (congrFun hd i) i
    rw [diagonal_apply_eq, Matrix.mul_apply] at h1
    have h2 : ((∑ l, ‖(Y * v) l i‖ ^ 2 : ℝ) : 𝕜) = (w i : 𝕜) := by
      rw [← h1]
      push_cast
      refine Finset.sum_congr rfl fun l _ => ?_
      rw [conjTranspose_apply, RCLike.star_def, RCLike.conj_mul]
    exact_mod_cast h2.symm
  have hw : ∀ i, 0 ≤ w i := fun i => by
    rw [hsum]
    positivity
  have hz : ∀ i, w i = 0 → ∀ l, (Y * v) l i = 0 := by
    intro i hi l
    rw [hsum, Finset.sum_eq_zero_iff_of_nonneg fun _ _ => by positivity] at hi
    simpa using hi l (Finset.mem_univ l)
  have hQ : ∀ i j, w i + w j = 0 → (vᴴ * (Yᴴ * A + Bᴴ * Y) * v) i j = 0 := by
    intro i j hij
    have hi : w i = 0 := by linarith [hw i, hw j]
    have hj : w j = 0 := by linarith [hw i, hw j]
    have e : vᴴ * (Yᴴ * A + Bᴴ * Y) * v = (Y * v)ᴴ * (A * v) + (B * v)ᴴ * (Y * v) := by
      simp only [conjTranspose_mul, Matrix.mul_add, Matrix.add_mul, Matrix.mul_assoc]
    rw [e, Matrix.add_apply, Matrix.mul_apply, Matrix.mul_apply]
    simp only [conjTranspose_apply, hz i hi, hz j hj, star_zero, zero_mul, mul_zero,
      Finset.sum_const_zero, add_zero]
  let Z : Matrix n n 𝕜 := of fun i j => (vᴴ * (Yᴴ * A + Bᴴ * Y) * v) i j / ((w i + w j : ℝ) : 𝕜)
  refine ⟨v * Z * vᴴ, ?_⟩
  have hZ : vᴴ * (v * Z * vᴴ) * v = Z := by
    calc vᴴ * (v * Z * vᴴ) * v = (vᴴ * v) * Z * (vᴴ * v) := by simp only [Matrix.mul_assoc]
      _ = Z := by rw [h.orth, Matrix.one_mul, Matrix.mul_one]
  have h1 : vᴴ * (Yᴴ * Y * (v * Z * vᴴ) + (v * Z * vᴴ) * (Yᴴ * Y)ᴴ) * v =
      vᴴ * (Yᴴ * A + Bᴴ * Y) * v := by
    ext i j
    rw [lyapunov_diag h, hZ]
    by_cases h0 : w i + w j = 0
    · rw [h0, RCLike.ofReal_zero, zero_mul, hQ i j h0]
    · have h3 : ((w i + w j : ℝ) : 𝕜) ≠ 0 := by exact_mod_cast h0
      exact mul_div_cancel₀ _ h3
  have h2 := congrArg (fun M => v * M * vᴴ) h1
  have h4 : ∀ M : Matrix n n 𝕜, v * (vᴴ * M * v) * vᴴ = M := by
    intro M
    calc v * (vᴴ * M * v) * vᴴ = (v * vᴴ) * M * (v * vᴴ) := by simp only [Matrix.mul_assoc]
      _ = M := by rw [h.orth', Matrix.one_mul, Matrix.mul_one]
  change v * (vᴴ * _ * v) * vᴴ = v * (vᴴ * _ * v) * vᴴ at h2
  rwa [h4, h4] at h2

/-- The solution for a skew right-hand side is skew. -/
theorem lyapunov_skew (hS : S.PosDef) {Q X : Matrix n n 𝕜} (hX : IsLyapunov S Q X) (hQ : Qᴴ = -Q) :
    Xᴴ = -X := by
  have h1 : IsLyapunov S Q (-Xᴴ) := by
    have h2 := congrArg conjTranspose hX
    rw [conjTranspose_add, conjTranspose_mul, conjTranspose_mul, conjTranspose_conjTranspose, hQ]
      at h2
    rw [IsLyapunov, Matrix.mul_neg, Matrix.neg_mul, ← neg_add, add_comm, h2, neg_neg]
  have e := lyapunov_unique hS hX h1
  calc Xᴴ = -(-Xᴴ) := (neg_neg _).symm
    _ = -X := by rw [← e]

end Verif.Geo
