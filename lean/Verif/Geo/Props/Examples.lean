/-
C128: the Euclidean gradients and Hessians written out in the examples.
-/
import Verif.Geo.Model.Examples
import Verif.Geo.Lemmas.Smooth
import Verif.Geo.Lemmas.Factor
import Verif.Geo.Props.SecondOrder

namespace Verif.Geo.Examples
open Matrix
open scoped BigOperators

variable {κ m n p : Type*} {𝕜 : Type*} [RCLike 𝕜]

/-! ## Specification -/

/-- `egrad x` is the gradient of `cost` at every array `x`, with respect to the inner product `B`. -/
def IsGradient {E : Type*} [AddCommGroup E] [Module ℝ E] (B : E → E → ℝ) (cost : E → ℝ)
    (egrad : E → E) : Prop :=
  ∀ x d, HasDerivAt (fun t : ℝ => cost (x + t • d)) (B (egrad x) d) 0

/-- `ehess x d` is the derivative of `egrad` at `x` in the direction `d`. -/
def IsHessian {E : Type*} [AddCommGroup E] [Module ℝ E] (B : E → E → ℝ) (egrad : E → E)
    (ehess : E → E → E) : Prop :=
  ∀ x d w, HasDerivAt (fun t : ℝ => B (egrad (x + t • d)) w) (B (ehess x d) w) 0

/-! ## Derivatives of polynomials in the step -/

section
variable {E : Type*} [AddCommGroup E] [Module ℝ E] {B : E → E → ℝ}

theorem hasDerivAt_quartic (a b c d e f g : ℝ) :
    HasDerivAt (fun t : ℝ => a + t * b + t ^ 2 * c + t ^ 3 * d + t ^ 4 * e + t ^ 5 * f + t ^ 6 * g)
      b 0 := by
  have h1 : ∀ (k : ℕ) (r : ℝ), HasDerivAt (fun t : ℝ => t ^ (k + 2) * r) 0 0 := fun k r => by
    refine ((hasDerivAt_pow (k + 2) (0 : ℝ)).mul_const r).congr_deriv ?_
    simp
  have h := ((((((hasDerivAt_id (0 : ℝ)).mul_const b).const_add a).add (h1 0 c)).add
    (h1 1 d)).add (h1 2 e)).add (h1 3 f) |>.add (h1 4 g)
  refine h.congr_deriv ?_
  simp

/-- The derivative of a squared length. -/
theorem hasDerivAt_sq (hB : IsInner B) (R₀ R₁ R₂ R₃ : E) :
    HasDerivAt (fun t : ℝ => B (R₀ + t • R₁ + t ^ 2 • R₂ + t ^ 3 • R₃)
      (R₀ + t • R₁ + t ^ 2 • R₂ + t ^ 3 • R₃)) (2 * B R₀ R₁) 0 := by
  have e : (fun t : ℝ => B (R₀ + t • R₁ + t ^ 2 • R₂ + t ^ 3 • R₃)
      (R₀ + t • R₁ + t ^ 2 • R₂ + t ^ 3 • R₃)) = fun t => B R₀ R₀ + t * (2 * B R₀ R₁) +
        t ^ 2 * (B R₁ R₁ + 2 * B R₀ R₂) + t ^ 3 * (2 * B R₁ R₂ + 2 * B R₀ R₃) +
        t ^ 4 * (B R₂ R₂ + 2 * B R₁ R₃) + t ^ 5 * (2 * B R₂ R₃) + t ^ 6 * B R₃ R₃ := by
    funext t
    simp only [hB.add_left, hB.add_right, hB.smul_left, hB.smul_right]
    rw [hB.symm R₁ R₀, hB.symm R₂ R₀, hB.symm R₃ R₀, hB.symm R₂ R₁, hB.symm R₃ R₁, hB.symm R₃ R₂]
    ring
  rw [e]
  exact hasDerivAt_quartic _ _ _ _ _ _ _

/-- The derivative of a polynomial curve. -/
theorem hasDerivAt_curve (hB : IsInner B) (G₀ G₁ G₂ G₃ w : E) :
    HasDerivAt (fun t : ℝ => B (G₀ + t • G₁ + t ^ 2 • G₂ + t ^ 3 • G₃) w) (B G₁ w) 0 := by
  have e : (fun t : ℝ => B (G₀ + t • G₁ + t ^ 2 • G₂ + t ^ 3 • G₃) w) = fun t =>
      B G₀ w + t * B G₁ w + t ^ 2 * B G₂ w + t ^ 3 * B G₃ w + t ^ 4 * 0 + t ^ 5 * 0 + t ^ 6 * 0 := by
    funext t
    simp only [hB.add_left, hB.smul_left]
    ring
  rw [e]
  exact hasDerivAt_quartic _ _ _ _ _ _ _

end

theorem matNorm_sq [Fintype m] [Fintype n] (a : Matrix m n ℝ) : matNorm a ^ 2 = trDot a a := by
  rw [matNorm, npNorm, Real.sq_sqrt (Finset.sum_nonneg fun i _ => sq_nonneg _), trDot_self_eq,
    Fintype.sum_prod_type]

theorem trDot_smul_left' [Fintype m] [Fintype n] (c : ℝ) (a b : Matrix m n ℝ) :
    trDot (c • a) b = c * trDot a b := trDot_inner.smul_left _ _ _

/-! ## Eigenvectors and invariant subspaces -/

/-- **C128** (dominant_eigenvector.py, check_gradient.py, check_hessian.py). -/
theorem C128_eigenvector [Fintype n] {matrix : Matrix n n ℝ} (hA : matrixᵀ = matrix) :
    IsGradient tensordot (eigCost matrix) (eigGrad matrix) ∧
    IsHessian tensordot (eigGrad matrix) (eigHess matrix) := by
  have hsym : ∀ u v, tensordot u (matrix *ᵥ v) = tensordot (matrix *ᵥ u) v := fun u v => by
    change u ⬝ᵥ matrix *ᵥ v = matrix *ᵥ u ⬝ᵥ v
    rw [dotProduct_mulVec, ← mulVec_transpose, hA]
  have hcost : ∀ x, eigCost matrix x = -tensordot x (matrix *ᵥ x) := fun x => by
    rw [eigCost, neg_vecMul, neg_dotProduct, ← dotProduct_mulVec]
    rfl
  constructor
  · intro x d
    have e : (fun t : ℝ => eigCost matrix (x + t • d)) = fun t =>
        eigCost matrix x + t * tensordot (eigGrad matrix x) d + t ^ 2 * eigCost matrix d +
          t ^ 3 * 0 + t ^ 4 * 0 + t ^ 5 * 0 + t ^ 6 * 0 := by
      funext t
      simp only [hcost, eigGrad, smul_mulVec, mulVec_add, mulVec_smul, tensordot_inner.add_left,
        tensordot_inner.add_right, tensordot_inner.smul_left, tensordot_inner.smul_right]
      rw [hsym x d, tensordot_inner.symm d (matrix *ᵥ x)]
      ring
    rw [e]
    exact hasDerivAt_quartic _ _ _ _ _ _ _
  · intro x d w
    have e : ∀ t : ℝ, eigGrad matrix (x + t • d) =
        eigGrad matrix x + t • eigHess matrix x d + t ^ 2 • (0 : n → ℝ) + t ^ 3 • (0 : n → ℝ) :=
      fun t => by
        simp only [eigGrad, eigHess, mulVec_add, mulVec_smul, smul_zero, add_zero]
    simp only [e]
    exact hasDerivAt_curve tensordot_inner _ _ _ _ _

/-- **C128** (dominant_invariant_subspace.py, dominant_invariant_complex_subspace.py). -/
theorem C128_subspace [Fintype n] [Fintype p] {matrix : Matrix n n 𝕜} (hA : matrixᴴ = matrix) :
    IsGradient (E := Matrix n p 𝕜) trDot (subspaceCost matrix) (subspaceGrad matrix) ∧
    IsHessian (E := Matrix n p 𝕜) trDot (subspaceGrad matrix) (subspaceHess matrix) := by
  have hsym : ∀ u v : Matrix n p 𝕜, trDot u (matrix * v) = trDot (matrix * u) v := fun u v => by
    rw [trDot_mul_left, hA]
  have hcost : ∀ X : Matrix n p 𝕜, subspaceCost matrix X = -trDot X (matrix * X) := fun X => by
    rw [subspaceCost, trDot, Matrix.mul_assoc]
  have hg : ∀ X : Matrix n p 𝕜, subspaceGrad matrix X = (-2 : ℝ) • (matrix * X) := fun X => by
    rw [subspaceGrad, smul_mul]
  constructor
  · intro x d
    have e : (fun t : ℝ => subspaceCost matrix (x + t • d)) = fun t =>
        subspaceCost matrix x + t * trDot (subspaceGrad matrix x) d + t ^ 2 * subspaceCost matrix d +
          t ^ 3 * 0 + t ^ 4 * 0 + t ^ 5 * 0 + t ^ 6 * 0 := by
      funext t
      simp only [hcost, hg, Matrix.mul_add, Matrix.mul_smul, trDot_inner.add_left,
        trDot_inner.add_right, trDot_inner.smul_left, trDot_inner.smul_right]
      rw [hsym x d, trDot_inner.symm d (matrix * x)]
      ring
    rw [e]
    exact hasDerivAt_quartic _ _ _ _ _ _ _
  · intro x d w
    have e : ∀ t : ℝ, subspaceGrad matrix (x + t • d) = subspaceGrad matrix x +
        t • subspaceHess matrix x d + t ^ 2 • (0 : Matrix n p 𝕜) + t ^ 3 • (0 : Matrix n p 𝕜) :=
      fun t => by
        simp only [subspaceGrad, subspaceHess, Matrix.mul_add, Matrix.mul_smul, smul_zero, add_zero]
    simp only [e]
    exact hasDerivAt_curve trDot_inner _ _ _ _ _

/-! ## Least squares -/

/-- **C128** (closest_unit_norm_column_approximation.py). -/
theorem C128_column [Fintype m] [Fintype n] (matrix : Matrix m n ℝ) :
    IsGradient (E := Matrix m n ℝ) trDot (columnCost matrix) (columnGrad matrix) := by
  intro x d
  have hc : ∀ X, columnCost matrix X = 1 / 2 * trDot (X - matrix) (X - matrix) := fun X => by
    rw [columnCost, trDot_self_eq]
    simp
  have e : ∀ t : ℝ, x + t • d - matrix = (x - matrix) + t • d + t ^ 2 • (0 : Matrix m n ℝ) +
      t ^ 3 • (0 : Matrix m n ℝ) := fun t => by
    simp only [smul_zero, add_zero]; abel
  simp only [hc, e]
  refine ((hasDerivAt_sq trDot_inner (x - matrix) d 0 0).const_mul (1 / 2)).congr_deriv ?_
  rw [columnGrad]
  ring

/-- The inner product of the arguments `(u, s, vt)` of low_rank_matrix_approximation.py. -/
noncomputable def tripleDot [Fintype m] [Fintype n] [Fintype p]
    (a b : Matrix m p ℝ × (p → ℝ) × Matrix p n ℝ) : ℝ :=
  trDot a.1 b.1 + tensordot a.2.1 b.2.1 + trDot a.2.2 b.2.2

/-- **C128** (low_rank_matrix_approximation.py). -/
theorem C128_low_rank [Fintype m] [Fintype n] [Fintype p] [DecidableEq p] (matrix : Matrix m n ℝ) :
    IsGradient (E := Matrix m p ℝ × (p → ℝ) × Matrix p n ℝ) tripleDot
      (fun x => lowRankCost matrix x.1 x.2.1 x.2.2) fun x => lowRankGrad matrix x.1 x.2.1 x.2.2 := by
  rintro ⟨u, s, v⟩ ⟨du, ds, dv⟩
  obtain ⟨R, hR⟩ : ∃ R, u * diagonal s * v - matrix = R := ⟨_, rfl⟩
  have e : ∀ t : ℝ, (u + t • du) * diagonal (s + t • ds) * (v + t • dv) - matrix =
      R + t • (du * diagonal s * v + u * diagonal ds * v + u * diagonal s * dv) +
      t ^ 2 • (du * diagonal ds * v + du * diagonal s * dv + u * diagonal ds * dv) +
      t ^ 3 • (du * diagonal ds * dv) := fun t => by
    have hd : diagonal (s + t • ds) = diagonal s + t • diagonal ds := by
      rw [← diagonal_smul, diagonal_add]
      rfl
    rw [← hR, hd]
    simp only [Matrix.add_mul, Matrix.mul_add, Matrix.smul_mul, Matrix.mul_smul]
    module
  have h := hasDerivAt_sq (B := trDot) trDot_inner R
    (du * diagonal s * v + u * diagonal ds * v + u * diagonal s * dv)
    (du * diagonal ds * v + du * diagonal s * dv + u * diagonal ds * dv) (du * diagonal ds * dv)
  simp only [← e, ← matNorm_sq] at h
  refine h.congr_deriv ?_
  have h1 : trDot R (du * diagonal s * v) = trDot (R * (diagonal s * v)ᵀ) du := by
    rw [Matrix.mul_assoc, trDot_inner.symm R, trDot_mul_right, conjTranspose_eq_transpose_of_trivial,
      trDot_inner.symm]
  have h2 : trDot R (u * diagonal ds * v) = tensordot (uᵀ * R * vᵀ).diag ds := by
    rw [trDot_inner.symm R, trDot_mul_right, trDot_mul_left, conjTranspose_eq_transpose_of_trivial,
      conjTranspose_eq_transpose_of_trivial, trDot_inner.symm, Matrix.mul_assoc uᵀ, trDot_eq_sum,
      tensordot]
    refine Finset.sum_congr rfl fun i _ => ?_
    rw [Finset.sum_eq_single i]
    · simp
    · intro j _ hj
      simp [diagonal_apply_ne' _ hj]
    · simp
  have h3 : trDot R (u * diagonal s * dv) = trDot ((u * diagonal s)ᵀ * R) dv := by
    rw [trDot_inner.symm R, trDot_mul_left, conjTranspose_eq_transpose_of_trivial, trDot_inner.symm]
  simp only [tripleDot, lowRankGrad, hR, Matrix.smul_mul, trDot_inner.smul_left,
    tensordot_inner.smul_left, trDot_inner.add_right, h1, h2, h3]
  ring

/-- **C128** (low_rank_psd_matrix_approximation.py). -/
theorem C128_psd [Fintype n] [Fintype p] {matrix : Matrix n n ℝ} (hA : matrixᵀ = matrix) :
    IsGradient (E := Matrix n p ℝ) trDot (psdCost matrix) (psdGrad matrix) ∧
    IsHessian (E := Matrix n p ℝ) trDot (psdGrad matrix) (psdHess matrix) := by
  have e : ∀ (Y U : Matrix n p ℝ) (t : ℝ), (Y + t • U) * (Y + t • U)ᵀ - matrix =
      (Y * Yᵀ - matrix) + t • (Y * Uᵀ + U * Yᵀ) + t ^ 2 • (U * Uᵀ) + t ^ 3 • (0 : Matrix n n ℝ) :=
    fun Y U t => by
      simp only [transpose_add, transpose_smul, Matrix.add_mul, Matrix.mul_add, Matrix.smul_mul,
        Matrix.mul_smul, smul_zero]
      module
  constructor
  · intro Y U
    have h := hasDerivAt_sq (B := trDot) trDot_inner (Y * Yᵀ - matrix) (Y * Uᵀ + U * Yᵀ) (U * Uᵀ)
      (0 : Matrix n n ℝ)
    simp only [← e, ← matNorm_sq] at h
    refine h.congr_deriv ?_
    obtain ⟨R, hR⟩ : ∃ R, Y * Yᵀ - matrix = R := ⟨_, rfl⟩
    have hRt : Rᵀ = R := by
      rw [← hR, transpose_sub, hA, transpose_mul, transpose_transpose]
    have h1 : trDot R (U * Yᵀ) = trDot (R * Y) U := by
      rw [trDot_inner.symm R, trDot_mul_right, conjTranspose_eq_transpose_of_trivial,
        transpose_transpose, trDot_inner.symm]
    have h2 : trDot R (Y * Uᵀ) = trDot R (U * Yᵀ) := by
      rw [← trDot_transpose R, hRt, transpose_mul, transpose_transpose]
    rw [psdGrad, hR, Matrix.smul_mul, trDot_inner.smul_left, trDot_inner.add_right, h2, h1]
    ring
  · intro Y U w
    have e2 : ∀ t : ℝ, psdGrad matrix (Y + t • U) = psdGrad matrix Y + t • psdHess matrix Y U +
        t ^ 2 • ((4 : ℝ) • ((Y * Uᵀ + U * Yᵀ) * U + U * Uᵀ * Y)) +
        t ^ 3 • ((4 : ℝ) • (U * Uᵀ * U)) := fun t => by
      rw [psdGrad, e, psdGrad, psdHess]
      simp only [Matrix.add_mul, Matrix.mul_add, Matrix.smul_mul, Matrix.mul_smul, smul_zero,
        add_zero, Matrix.sub_mul]
      module
    simp only [e2]
    exact hasDerivAt_curve trDot_inner _ _ _ _ _

/-- **C128** (multiple_linear_regression.py). -/
theorem C128_regression [Fintype m] [Fintype n] (samples : Matrix m n ℝ) (targets : m → ℝ) :
    IsGradient tensordot (regCost samples targets) (regGrad samples targets) ∧
    IsHessian tensordot (regGrad samples targets) (regHess samples) := by
  have hn : ∀ v : m → ℝ, npNorm v ^ 2 = tensordot v v := fun v => by
    rw [npNorm, Real.sq_sqrt (Finset.sum_nonneg fun i _ => sq_nonneg _), tensordot]
    refine Finset.sum_congr rfl fun i _ => ?_
    rw [Real.norm_eq_abs, sq_abs, sq]
  have e : ∀ (x d : n → ℝ) (t : ℝ), targets - samples *ᵥ (x + t • d) =
      (targets - samples *ᵥ x) + t • (-(samples *ᵥ d)) + t ^ 2 • (0 : m → ℝ) + t ^ 3 • (0 : m → ℝ) :=
    fun x d t => by
      simp only [mulVec_add, mulVec_smul, smul_zero, add_zero]
      module
  constructor
  · intro x d
    have h := hasDerivAt_sq (B := tensordot) tensordot_inner (targets - samples *ᵥ x)
      (-(samples *ᵥ d)) (0 : m → ℝ) 0
    simp only [← e, ← hn] at h
    refine h.congr_deriv ?_
    rw [regGrad, smul_mulVec, tensordot_inner.smul_left, tensordot_inner.neg_right]
    have h1 : tensordot (samplesᵀ *ᵥ (targets - samples *ᵥ x)) d =
        tensordot (targets - samples *ᵥ x) (samples *ᵥ d) := by
      change samplesᵀ *ᵥ _ ⬝ᵥ d = _ ⬝ᵥ samples *ᵥ d
      rw [dotProduct_mulVec, mulVec_transpose]
    rw [h1]
    ring
  · intro x d w
    have e2 : ∀ t : ℝ, regGrad samples targets (x + t • d) = regGrad samples targets x +
        t • regHess samples x d + t ^ 2 • (0 : n → ℝ) + t ^ 3 • (0 : n → ℝ) := fun t => by
      rw [regGrad, e, regGrad, regHess]
      simp only [smul_zero, add_zero, mulVec_add, smul_mulVec, mulVec_smul, mulVec_neg,
        ← mulVec_mulVec, Matrix.smul_mul]
      module
    simp only [e2]
    exact hasDerivAt_curve tensordot_inner _ _ _ _ _

/-- **C128** (optimal_rotations.py). -/
theorem C128_rotations [Fintype κ] [Fintype n] (ABt : κ → Matrix n n ℝ) :
    IsGradient (E := κ → Matrix n n ℝ) (fun a b => ∑ k, trDot (a k) (b k)) (rotCost ABt)
      (rotGrad ABt) := by
  intro x d
  have h0 : ∀ A B : Matrix n n ℝ, matTensordot A B = trDot B A := fun A B => by
    rw [trDot_eq_sum, matTensordot]
    simp [mul_comm]
  have e : (fun t : ℝ => rotCost ABt (x + t • d)) = fun t => rotCost ABt x +
      t * ∑ k, trDot (rotGrad ABt x k) (d k) + t ^ 2 * 0 + t ^ 3 * 0 + t ^ 4 * 0 + t ^ 5 * 0 +
        t ^ 6 * 0 := by
    funext t
    simp only [rotCost, h0, rotGrad, Pi.add_apply, Pi.smul_apply, Pi.neg_apply, trDot_inner.add_right,
      trDot_inner.smul_right, trDot_inner.neg_left, Finset.sum_add_distrib, ← Finset.mul_sum,
      Finset.sum_neg_distrib]
    ring
  rw [e]
  exact hasDerivAt_quartic _ _ _ _ _ _ _

/-! ## Principal components -/

theorem pca_step [Fintype m] [Fintype n] [Fintype p] (S : Matrix m n ℝ) (w h : Matrix n p ℝ)
    (t : ℝ) : S - S * (w + t • h) * (w + t • h)ᵀ =
      (S - S * w * wᵀ) + t • (-(S * h * wᵀ + S * w * hᵀ)) + t ^ 2 • (-(S * h * hᵀ)) +
        t ^ 3 • (0 : Matrix m n ℝ) := by
  simp only [transpose_add, transpose_smul, Matrix.add_mul, Matrix.mul_add, Matrix.smul_mul,
    Matrix.mul_smul, smul_zero]
  module

/-- The derivative of the gradient of pca.py. -/
noncomputable def pcaHessian [Fintype m] [Fintype n] [Fintype p] (S : Matrix m n ℝ)
    (w h : Matrix n p ℝ) : Matrix n p ℝ :=
  (-2 : ℝ) • ((Sᵀ * (S - S * w * wᵀ) + (S - S * w * wᵀ)ᵀ * S) * h -
    (Sᵀ * (S * h * wᵀ + S * w * hᵀ) + (S * h * wᵀ + S * w * hᵀ)ᵀ * S) * w)

/-- **C128** (what holds for pca.py): the gradient is right.  Missing: the Hessian, which is wrong. -/
theorem C128_pca_gradient_partial [Fintype m] [Fintype n] [Fintype p] (samples : Matrix m n ℝ) :
    IsGradient (E := Matrix n p ℝ) trDot (pcaCost samples) (pcaGrad samples) ∧
    IsHessian (E := Matrix n p ℝ) trDot (pcaGrad samples) (pcaHessian samples) := by
  constructor
  · intro w h
    have hd := hasDerivAt_sq (B := trDot) trDot_inner (samples - samples * w * wᵀ)
      (-(samples * h * wᵀ + samples * w * hᵀ)) (-(samples * h * hᵀ)) (0 : Matrix m n ℝ)
    simp only [← pca_step, ← matNorm_sq] at hd
    refine hd.congr_deriv ?_
    obtain ⟨R, hR⟩ : ∃ R, samples - samples * w * wᵀ = R := ⟨_, rfl⟩
    have h1 : trDot R (samples * h * wᵀ) = trDot (samplesᵀ * R * w) h := by
      rw [trDot_inner.symm R, trDot_mul_right, trDot_mul_left,
        conjTranspose_eq_transpose_of_trivial, conjTranspose_eq_transpose_of_trivial,
        transpose_transpose, trDot_inner.symm, Matrix.mul_assoc]
    have h2 : trDot R (samples * w * hᵀ) = trDot (Rᵀ * samples * w) h := by
      rw [Matrix.mul_assoc, trDot_inner.symm R, trDot_mul_left, conjTranspose_eq_transpose_of_trivial,
        ← trDot_transpose, transpose_mul, transpose_transpose, trDot_mul_right,
        conjTranspose_eq_transpose_of_trivial, transpose_mul, transpose_transpose, transpose_transpose,
        trDot_inner.symm]
    rw [pcaGrad, hR, Matrix.smul_mul, trDot_inner.smul_left, trDot_inner.neg_right,
      trDot_inner.add_right, h1, h2, Matrix.add_mul, trDot_inner.add_left]
    ring
  · intro w h v
    have e : ∀ t : ℝ, pcaGrad samples (w + t • h) = pcaGrad samples w + t • pcaHessian samples w h +
        t ^ 2 • ((2 : ℝ) • ((samplesᵀ * (samples * h * wᵀ + samples * w * hᵀ) +
          (samples * h * wᵀ + samples * w * hᵀ)ᵀ * samples) * h +
          (samplesᵀ * (samples * h * hᵀ) + (samples * h * hᵀ)ᵀ * samples) * w)) +
        t ^ 3 • ((2 : ℝ) • ((samplesᵀ * (samples * h * hᵀ) + (samples * h * hᵀ)ᵀ * samples) * h)) := by
      intro t
      rw [pcaGrad, pca_step, pcaGrad, pcaHessian]
      simp only [transpose_add, transpose_smul, transpose_sub, transpose_neg, transpose_zero,
        Matrix.add_mul, Matrix.mul_add, Matrix.sub_mul, Matrix.mul_sub, Matrix.smul_mul,
        Matrix.mul_smul, Matrix.mul_neg, Matrix.neg_mul, smul_zero, Matrix.mul_zero, Matrix.zero_mul]
      module
    simp only [e]
    exact hasDerivAt_curve trDot_inner _ _ _ _ _

/-- The Hessian of pca.py differs from the derivative of the gradient by a term that does not depend
on the direction. -/
theorem pca_hess_error [Fintype m] [Fintype n] [Fintype p] (S : Matrix m n ℝ) (w h : Matrix n p ℝ) :
    pcaHess S w h = pcaHessian S w h - (8 : ℝ) • (Sᵀ * S * w) := by
  rw [pcaHess, pcaHessian]
  simp only [transpose_add, transpose_sub, Matrix.add_mul, Matrix.mul_add, Matrix.sub_mul,
    Matrix.mul_sub, Matrix.mul_assoc]
  module

theorem trDot_left_injective [Fintype m] [Fintype n] {a b : Matrix m n 𝕜}
    (h : ∀ w, trDot a w = trDot b w) : a = b := by
  refine sub_eq_zero.1 (trDot_inner.definite _ ?_)
  rw [trDot_inner.sub_left, h, sub_self]

theorem pca_hess_zero [Fintype m] [Fintype n] [Fintype p] (S : Matrix m n ℝ) (w : Matrix n p ℝ)
    (hw : S * w ≠ 0) : pcaHessian S w 0 = 0 ∧ pcaHess S w 0 ≠ 0 := by
  have h0 : pcaHessian S w 0 = 0 := by
    simp only [pcaHessian, transpose_zero, Matrix.mul_zero, Matrix.zero_mul, add_zero, sub_zero,
      smul_zero]
  refine ⟨h0, fun h => hw (trDot_inner.definite _ ?_)⟩
  rw [pca_hess_error, h0, zero_sub, neg_eq_zero] at h
  have h1 := congrArg (fun M => trDot M w) h
  simp only [trDot_inner.smul_left, trDot_inner.zero_left] at h1
  rw [Matrix.mul_assoc, trDot_mul_left, conjTranspose_eq_transpose_of_trivial,
    transpose_transpose] at h1
  linarith

/-- **C128** (negative) The Hessian of pca.py is the derivative of its gradient only if all samples
vanish on the components: it is not even linear in the direction. -/
theorem C128_pca_hessian_negation [Fintype m] [Fintype n] [Fintype p] (samples : Matrix m n ℝ)
    (w : Matrix n p ℝ) (hw : samples * w ≠ 0) :
    pcaHess samples w 0 ≠ 0 ∧
    ¬IsHessian (E := Matrix n p ℝ) trDot (pcaGrad samples) (pcaHess samples) := by
  obtain ⟨h0, h2⟩ := pca_hess_zero samples w hw
  refine ⟨h2, fun hH => h2 ?_⟩
  exact (trDot_left_injective fun v =>
    (hH w 0 v).unique ((C128_pca_gradient_partial samples).2 w 0 v)).trans h0

/-! ## Correlation matrices -/

theorem corr_step [Fintype m] [Fintype n] (A : Matrix n n ℝ) (X H : Matrix m n ℝ) (t : ℝ) :
    (X + t • H)ᵀ * (X + t • H) - A = (Xᵀ * X - A) + t • (Hᵀ * X + Xᵀ * H) + t ^ 2 • (Hᵀ * H) +
      t ^ 3 • (0 : Matrix n n ℝ) := by
  simp only [transpose_add, transpose_smul, Matrix.add_mul, Matrix.mul_add, Matrix.smul_mul,
    Matrix.mul_smul, smul_zero]
  module

/-- **C128** (what holds for rank_k_correlation_matrix_approximation.py): the gradient of the cost is
twice the gradient of the example, and the Hessian is the derivative of that.  Missing: the gradient
itself, which is wrong. -/
theorem C128_correlation_partial [Fintype m] [Fintype n] {matrix : Matrix n n ℝ}
    (hA : matrixᵀ = matrix) :
    IsGradient (E := Matrix m n ℝ) trDot (corrCost matrix) (fun X => (2 : ℝ) • corrGrad matrix X) ∧
    IsHessian (E := Matrix m n ℝ) trDot (fun X => (2 : ℝ) • corrGrad matrix X) (corrHess matrix) := by
  constructor
  · intro X H
    have h := hasDerivAt_sq (B := trDot) trDot_inner (Xᵀ * X - matrix) (Hᵀ * X + Xᵀ * H) (Hᵀ * H)
      (0 : Matrix n n ℝ)
    simp only [← corr_step, ← matNorm_sq] at h
    refine (h.const_mul (1 / 4)).congr_deriv ?_
    obtain ⟨R, hR⟩ : ∃ R, Xᵀ * X - matrix = R := ⟨_, rfl⟩
    have hRt : Rᵀ = R := by
      rw [← hR, transpose_sub, hA, transpose_mul, transpose_transpose]
    have h1 : trDot R (Xᵀ * H) = trDot (X * R) H := by
      rw [trDot_mul_left, conjTranspose_eq_transpose_of_trivial]
    have h2 : trDot R (Hᵀ * X) = trDot R (Xᵀ * H) := by
      rw [← trDot_transpose R, hRt, transpose_mul, transpose_transpose]
    change _ = trDot ((2 : ℝ) • corrGrad matrix X) H
    rw [corrGrad, hR, Matrix.smul_mul, smul_smul, trDot_inner.smul_left, trDot_inner.add_right, h2, h1]
    ring
  · intro X H w
    have e : ∀ t : ℝ, (2 : ℝ) • corrGrad matrix (X + t • H) = (2 : ℝ) • corrGrad matrix X +
        t • corrHess matrix X H + t ^ 2 • (H * (Hᵀ * X + Xᵀ * H) + X * (Hᵀ * H)) +
        t ^ 3 • (H * (Hᵀ * H)) := fun t => by
      rw [corrGrad, corr_step, corrGrad, corrHess]
      simp only [Matrix.add_mul, Matrix.mul_add, Matrix.smul_mul, Matrix.mul_smul, smul_zero,
        add_zero, Matrix.mul_sub]
      module
    simp only [e]
    exact hasDerivAt_curve trDot_inner _ _ _ _ _

/-- **C128** (negative) The gradient of rank_k_correlation_matrix_approximation.py is half the
gradient of its cost, so wrong at every point that is not critical; nor is its Hessian the derivative
of its gradient. -/
theorem C128_correlation_negation [Fintype m] [Fintype n] {matrix : Matrix n n ℝ}
    (hA : matrixᵀ = matrix) (X : Matrix m n ℝ) :
    (corrGrad matrix X ≠ 0 →
      ¬IsGradient (E := Matrix m n ℝ) trDot (corrCost matrix) (corrGrad matrix)) ∧
    ((∃ H, corrHess matrix X H ≠ 0) →
      ¬IsHessian (E := Matrix m n ℝ) trDot (corrGrad matrix) (corrHess matrix)) := by
  obtain ⟨hG, hH⟩ := C128_correlation_partial (m := m) hA
  refine ⟨fun h0 hc => h0 ?_, fun ⟨H, h0⟩ hc => h0 ?_⟩
  · have h1 : (2 : ℝ) • corrGrad matrix X = corrGrad matrix X :=
      trDot_left_injective fun w => (hG X w).unique (hc X w)
    rwa [two_smul, add_eq_left] at h1
  · have h1 : (2 : ℝ) • corrHess matrix X H = corrHess matrix X H :=
      trDot_left_injective fun w => by
        rw [trDot_inner.smul_left]
        refine ((hc X H w).const_mul 2).unique ?_
        have := hH X H w
        simp only [trDot_inner.smul_left] at this
        exact this
    rwa [two_smul, add_eq_left] at h1

/-- The hypotheses can be met. -/
example : corrGrad (m := Fin 1) (0 : Matrix (Fin 1) (Fin 1) ℝ) 1 ≠ 0 ∧
    (1 : Matrix (Fin 1) (Fin 1) ℝ) * (1 : Matrix (Fin 1) (Fin 1) ℝ) ≠ 0 ∧
    corrHess (m := Fin 1) (0 : Matrix (Fin 1) (Fin 1) ℝ) 1 1 ≠ 0 := by
  refine ⟨fun h => ?_, by simp, fun h => ?_⟩
  · have := congrFun (congrFun h 0) 0
    norm_num [corrGrad] at this
  · have h1 : corrHess (m := Fin 1) (0 : Matrix (Fin 1) (Fin 1) ℝ) 1 1 =
        (1 : Matrix (Fin 1) (Fin 1) ℝ) + 1 + 1 := by
      simp only [corrHess, transpose_one, Matrix.mul_one, sub_zero, Matrix.one_mul]
    rw [h1] at h
    have h2 : (1 : ℝ) + 1 + 1 = 0 := by simpa using congrFun (congrFun h 0) 0
    norm_num at h2

end Verif.Geo.Examples
