/-
Functions of singular values, for factorisations `a = u diag(s) vt` with square `vt`.
-/
import Verif.Geo.Lemmas.Factor

namespace Verif.Geo
open scoped BigOperators
open Matrix

variable {m n : Type*} {𝕜 : Type*} [RCLike 𝕜]

section
variable [Fintype n] [DecidableEq n] {w : n → ℝ} {v : Matrix n n 𝕜} (f g : ℝ → ℝ)

theorem spectral_mul (hv : vᴴ * v = 1) :
    spectral f w v * spectral g w v = spectral (fun x => f x * g x) w v := by
  simp only [spectral]
  calc v * diagonal (fun i => ((f (w i) : ℝ) : 𝕜)) * vᴴ *
        (v * diagonal (fun i => ((g (w i) : ℝ) : 𝕜)) * vᴴ)
      = v * diagonal (fun i => ((f (w i) : ℝ) : 𝕜)) * (vᴴ * v) *
          diagonal (fun i => ((g (w i) : ℝ) : 𝕜)) * vᴴ := by simp only [Matrix.mul_assoc]
    _ = _ := by
      rw [hv, Matrix.mul_one, Matrix.mul_assoc v, diagonal_mul_diagonal]
      congr 3
      funext i
      push_cast
      rfl

theorem spectral_conjTranspose : (spectral f w v)ᴴ = spectral f w v := by
  rw [spectral, conjTranspose_mul, conjTranspose_mul, conjTranspose_conjTranspose,
    diagonal_conjTranspose, Matrix.mul_assoc]
  congr 3
  funext i
  simp

theorem spectral_one (hv : v * vᴴ = 1) (hf : ∀ i, f (w i) = 1) : spectral f w v = 1 := by
  rw [spectral]
  have : (diagonal fun i => ((f (w i) : ℝ) : 𝕜)) = 1 := by
    rw [← diagonal_one]; congr 1; funext i; simp [hf i]
  rw [this, Matrix.mul_one, hv]

theorem spectral_congr {f g : ℝ → ℝ} (h : ∀ i, f (w i) = g (w i)) :
    spectral f w v = spectral g w v := by
  simp only [spectral, h]

theorem spectral_trace (hv : vᴴ * v = 1) :
    (spectral f w v).trace = ((∑ i, f (w i) : ℝ) : 𝕜) := by
  rw [spectral, trace_mul_comm, ← Matrix.mul_assoc, hv, Matrix.one_mul, trace_diagonal]
  push_cast
  rfl

end

/-- A singular value decomposition with the values in any order. -/
structure IsSVDAny [Fintype m] [Fintype n] [DecidableEq n] (A u : Matrix m n 𝕜) (s : n → ℝ)
    (vt : Matrix n n 𝕜) : Prop where
  orthU : uᴴ * u = 1
  orthV : vt * vtᴴ = 1
  nonneg : ∀ i, 0 ≤ s i
  prod : A = u * diagonal (fun i => (s i : 𝕜)) * vt

theorem IsSVD.any [Fintype m] {p : ℕ} {A u : Matrix m (Fin p) 𝕜} {s : Fin p → ℝ}
    {vt : Matrix (Fin p) (Fin p) 𝕜} (h : IsSVD A u s vt) : IsSVDAny A u s vt :=
  ⟨h.orthU, h.orthV, h.nonneg, h.prod⟩

theorem eigh_sum_unique [Fintype n] [DecidableEq n] {M : Matrix n n 𝕜} {w w' : n → ℝ}
    {v v' : Matrix n n 𝕜} (h : IsEigh M w v) (h' : IsEigh M w' v') (f : ℝ → ℝ) :
    ∑ i, f (w i) = ∑ i, f (w' i) := by
  have h1 := spectral_trace (𝕜 := 𝕜) (w := w) f h.orth
  rw [h.spectral_unique h' f, spectral_trace f h'.orth] at h1
  exact_mod_cast h1.symm

section
variable [Fintype m] [Fintype n] [DecidableEq n] {A u : Matrix m n 𝕜} {s : n → ℝ}
  {vt : Matrix n n 𝕜}

theorem IsSVDAny.orthV' (h : IsSVDAny A u s vt) : vtᴴ * vt = 1 := mul_eq_one_comm.mp h.orthV

/-- Squared singular values are the eigenvalues of the Gram matrix. -/
theorem IsSVDAny.gram (h : IsSVDAny A u s vt) : IsEigh (Aᴴ * A) (fun i => s i ^ 2) vtᴴ := by
  refine ⟨by rw [conjTranspose_conjTranspose, h.orthV], ?_⟩
  have hdd : (diagonal fun k => ((s k : ℝ) : 𝕜))ᴴ * (diagonal fun k => ((s k : ℝ) : 𝕜)) =
      diagonal fun k => ((s k ^ 2 : ℝ) : 𝕜) := by
    rw [diagonal_conjTranspose, diagonal_mul_diagonal]
    congr 1; funext k
    simp [sq]
  rw [← hdd, conjTranspose_conjTranspose]
  conv_lhs => rw [h.prod, conjTranspose_mul, conjTranspose_mul]
  calc vtᴴ * ((diagonal fun k => ((s k : ℝ) : 𝕜))ᴴ * uᴴ) *
        (u * (diagonal fun k => ((s k : ℝ) : 𝕜)) * vt)
      = vtᴴ * (diagonal fun k => ((s k : ℝ) : 𝕜))ᴴ * (uᴴ * u) *
        (diagonal fun k => ((s k : ℝ) : 𝕜)) * vt := by simp only [Matrix.mul_assoc]
    _ = _ := by rw [h.orthU, Matrix.mul_one]; simp only [Matrix.mul_assoc]

/-- `u f(s) vt` for a function vanishing at zero. -/
theorem IsSVDAny.map_eq (h : IsSVDAny A u s vt) {f : ℝ → ℝ} (hf : f 0 = 0) :
    u * diagonal (fun i => ((f (s i) : ℝ) : 𝕜)) * vt =
      A * spectral (fun x => f (Real.sqrt x) / Real.sqrt x) (fun i => s i ^ 2) vtᴴ := by
  rw [spectral, conjTranspose_conjTranspose]
  conv_rhs => rw [h.prod]
  calc u * diagonal (fun i => ((f (s i) : ℝ) : 𝕜)) * vt
      = u * (diagonal (fun i => ((s i : ℝ) : 𝕜)) *
          diagonal (fun i => ((f (Real.sqrt (s i ^ 2)) / Real.sqrt (s i ^ 2) : ℝ) : 𝕜))) * vt := by
        rw [diagonal_mul_diagonal]
        congr 3
        funext i
        rw [Real.sqrt_sq (h.nonneg i), ← RCLike.ofReal_mul]
        by_cases h0 : s i = 0
        · rw [h0, hf]; simp
        · rw [mul_div_cancel₀ _ h0]
    _ = u * diagonal (fun i => ((s i : ℝ) : 𝕜)) * (vt * vtᴴ) *
          diagonal (fun i => ((f (Real.sqrt (s i ^ 2)) / Real.sqrt (s i ^ 2) : ℝ) : 𝕜)) * vt := by
        rw [h.orthV, Matrix.mul_one]; simp only [Matrix.mul_assoc]
    _ = _ := by simp only [Matrix.mul_assoc]

/-- Squared Frobenius norm of `u f(s) vt`. -/
theorem IsSVDAny.map_norm (h : IsSVDAny A u s vt) (f : ℝ → ℝ) :
    trDot (u * diagonal (fun i => ((f (s i) : ℝ) : 𝕜)) * vt)
      (u * diagonal (fun i => ((f (s i) : ℝ) : 𝕜)) * vt) = ∑ i, f (s i) ^ 2 := by
  rw [trDot_mul_right, Matrix.mul_assoc, h.orthV, Matrix.mul_one, trDot_mul_left,
    ← Matrix.mul_assoc, h.orthU, Matrix.one_mul, trDot_self_eq]
  refine Finset.sum_congr rfl fun i _ => ?_
  rw [Finset.sum_eq_single i]
  · rw [diagonal_apply_eq, RCLike.norm_ofReal, sq_abs]
  · intro j _ hj
    rw [diagonal_apply_ne _ hj.symm]; simp
  · simp

/-- `u f(s) vt` does not depend on the decomposition when `f 0 = 0`. -/
theorem IsSVDAny.map_unique {u' : Matrix m n 𝕜} {s' : n → ℝ} {vt' : Matrix n n 𝕜}
    (h : IsSVDAny A u s vt) (h' : IsSVDAny A u' s' vt') {f : ℝ → ℝ} (hf : f 0 = 0) :
    u * diagonal (fun i => ((f (s i) : ℝ) : 𝕜)) * vt =
      u' * diagonal (fun i => ((f (s' i) : ℝ) : 𝕜)) * vt' := by
  rw [h.map_eq hf, h'.map_eq hf, h.gram.spectral_unique h'.gram]

/-- `vtᴴ f(s) vt` does not depend on the decomposition. -/
theorem IsSVDAny.gram_unique {u' : Matrix m n 𝕜} {s' : n → ℝ} {vt' : Matrix n n 𝕜}
    (h : IsSVDAny A u s vt) (h' : IsSVDAny A u' s' vt') (f : ℝ → ℝ) :
    vtᴴ * diagonal (fun i => ((f (s i) : ℝ) : 𝕜)) * vt =
      vt'ᴴ * diagonal (fun i => ((f (s' i) : ℝ) : 𝕜)) * vt' := by
  have := h.gram.spectral_unique h'.gram fun x => f (Real.sqrt x)
  simp only [spectral, conjTranspose_conjTranspose, Real.sqrt_sq (h.nonneg _),
    Real.sqrt_sq (h'.nonneg _)] at this
  exact this

/-- Sums over the singular values do not depend on the decomposition. -/
theorem IsSVDAny.sum_unique {B u' : Matrix m n 𝕜} {s' : n → ℝ} {vt' : Matrix n n 𝕜}
    (h : IsSVDAny A u s vt) (h' : IsSVDAny B u' s' vt') (hAB : Aᴴ * A = Bᴴ * B) (f : ℝ → ℝ) :
    ∑ i, f (s i) = ∑ i, f (s' i) := by
  have hB := h'.gram
  rw [← hAB] at hB
  have := eigh_sum_unique h.gram hB fun x => f (Real.sqrt x)
  simpa only [Real.sqrt_sq (h.nonneg _), Real.sqrt_sq (h'.nonneg _)] using this

theorem IsSVDAny.norm (h : IsSVDAny A u s vt) : trDot A A = ∑ i, s i ^ 2 := by
  rw [← h.map_norm fun x => x, ← h.prod]

end

end Verif.Geo
