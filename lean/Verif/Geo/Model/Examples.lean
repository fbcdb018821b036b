/-
Model of the programs in examples/: the cost functions they define for the backends, the Euclidean
gradients and Hessians they write out for the NumPy backend, and the closed-form solutions they
compare with.  Random data is a parameter; printing and the command line are not modelled.  Operators
are applied in the order Python applies them: unary minus first, `*` and `@` from the left.
-/
import Mathlib.Analysis.SpecialFunctions.Log.Basic
import Mathlib.LinearAlgebra.Matrix.DotProduct
import Mathlib.LinearAlgebra.Matrix.Trace
import Mathlib.LinearAlgebra.Matrix.Determinant.Basic
import Mathlib.LinearAlgebra.Matrix.Charpoly.Basic
import Verif.Geo.Model.NumPy

namespace Verif.Geo.Examples
open Matrix
open scoped BigOperators

variable {m n p : Type*} {𝕜 : Type*} [RCLike 𝕜]

/-- `np.linalg.norm(a)`, `torch.norm(a)`, `tf.norm(a)` of a matrix: the Frobenius norm. -/
noncomputable def matNorm [Fintype m] [Fintype n] (a : Matrix m n ℝ) : ℝ :=
  npNorm fun x : m × n => a x.1 x.2

/-- `np.tensordot(a, b, axes=2)` of two matrices, `torch.tensordot(a, b)`, `tf.tensordot(a, b, 2)`. -/
def matTensordot [Fintype m] [Fintype n] {R : Type*} [AddCommMonoid R] [Mul R] (a b : Matrix m n R) :
    R :=
  ∑ i, ∑ j, a i j * b i j

/-- `np.linalg.eig(a)`: the columns of `v` have unit length and are eigenvectors; the eigenvalues are
the roots of the characteristic polynomial, repeated according to multiplicity. -/
structure IsEig [Fintype n] [DecidableEq n] (a : Matrix n n 𝕜) (w : n → 𝕜) (v : Matrix n n 𝕜) :
    Prop where
  unit : ∀ j, ∑ i, ‖v i j‖ ^ 2 = 1
  eigen : a * v = v * diagonal w
  roots : a.charpoly = ∏ j, (Polynomial.X - Polynomial.C (w j))

/-- `np.argsort(w)`: a permutation that puts `w` in increasing order; complex numbers are ordered by
their real parts, then by their imaginary parts. -/
def IsArgsort {N : ℕ} (w : Fin N → 𝕜) (σ : Equiv.Perm (Fin N)) : Prop :=
  ∀ i j, i ≤ j → RCLike.re (w (σ i)) < RCLike.re (w (σ j)) ∨
    RCLike.re (w (σ i)) = RCLike.re (w (σ j)) ∧ RCLike.im (w (σ i)) ≤ RCLike.im (w (σ j))

/-- `np.argmax(w)`: the first index of a largest entry. -/
def IsArgmax {N : ℕ} (w : Fin N → ℝ) (i : Fin N) : Prop :=
  (∀ j, w j ≤ w i) ∧ ∀ j, w j = w i → i ≤ j

/-- `np.linalg.pinv(a)`: the Moore-Penrose inverse. -/
structure IsPinv [Fintype m] [Fintype n] (a : Matrix m n ℝ) (p : Matrix n m ℝ) : Prop where
  mul_mul : a * p * a = a
  mul_mul' : p * a * p = p
  symm : (a * p)ᵀ = a * p
  symm' : (p * a)ᵀ = p * a

/-- `indices[-k:]` of an array of `N ≥ k` indices, for `k ≥ 1` (with `k = 0` Python takes the whole
array; the examples have `k ≥ 1`). -/
def lastIndices {k N : ℕ} (hk : k ≤ N) (σ : Equiv.Perm (Fin N)) : Fin k → Fin N :=
  fun i => σ ⟨N - k + i, by omega⟩

/-- `indices[::-1][:k]` of an array of `N ≥ k` indices. -/
def firstReversed {k N : ℕ} (hk : k ≤ N) (σ : Equiv.Perm (Fin N)) : Fin k → Fin N :=
  fun i => σ ⟨N - 1 - i, by omega⟩

/-! ### dominant_eigenvector.py, advanced/check_gradient.py, advanced/check_hessian.py -/

/-- `-x.T @ matrix @ x` (dominant_eigenvector.py:23, 29, 35, 46; check_gradient.py:46). -/
def eigCost [Fintype n] (matrix : Matrix n n ℝ) (x : n → ℝ) : ℝ := ((-x) ᵥ* matrix) ⬝ᵥ x

/-- `-np.inner(x, matrix @ x)` (check_gradient.py:23, 29, 35; check_hessian.py:24, 30, 36) and
`-tf.tensordot(x, tf.tensordot(matrix, x, axes=1), axes=1)` (dominant_eigenvector.py:52). -/
def eigCostInner [Fintype n] (matrix : Matrix n n ℝ) (x : n → ℝ) : ℝ := -(x ⬝ᵥ (matrix *ᵥ x))

/-- `-2 * matrix @ x` (dominant_eigenvector.py:39; check_gradient.py:39; check_hessian.py:40). -/
def eigGrad [Fintype n] (matrix : Matrix n n ℝ) (x : n → ℝ) : n → ℝ := ((-2 : ℝ) • matrix) *ᵥ x

/-- `-2 * matrix @ d` (check_hessian.py:44). -/
def eigHess [Fintype n] (matrix : Matrix n n ℝ) (_x d : n → ℝ) : n → ℝ :=
  ((-2 : ℝ) • matrix) *ᵥ d

/-- `eigenvectors[:, np.argmax(eigenvalues)]` (dominant_eigenvector.py:78-79); `i` is the result of
`np.argmax`. -/
def eigSolution {N : ℕ} (eigenvectors : Matrix (Fin N) (Fin N) ℝ) (i : Fin N) : Fin N → ℝ :=
  fun r => eigenvectors r i

/-! ### dominant_invariant_subspace.py, dominant_invariant_complex_subspace.py -/

/-- `-np.trace(X.T @ matrix @ X)` (dominant_invariant_subspace.py:22, 28, 34) and
`-np.real(np.trace(np.conj(X.T) @ matrix @ X))`
(dominant_invariant_complex_subspace.py:22, 28, 34). -/
def subspaceCost [Fintype n] [Fintype p] (matrix : Matrix n n 𝕜) (X : Matrix n p 𝕜) : ℝ :=
  -RCLike.re (Xᴴ * matrix * X).trace

/-- `-torch.tensordot(X.conj(), matrix_ @ X).real` (dominant_invariant_complex_subspace.py:49, 55-57;
without conjugation dominant_invariant_subspace.py:49, 55). -/
def subspaceCostTensordot [Fintype n] [Fintype p] (matrix : Matrix n n 𝕜) (X : Matrix n p 𝕜) : ℝ :=
  -RCLike.re (matTensordot (X.map star) (matrix * X))

/-- `-2 * matrix @ X` (dominant_invariant_subspace.py:38, dominant_invariant_complex_subspace.py:38). -/
def subspaceGrad [Fintype n] (matrix : Matrix n n 𝕜) (X : Matrix n p 𝕜) : Matrix n p 𝕜 :=
  ((-2 : ℝ) • matrix) * X

/-- `-2 * matrix @ H` (dominant_invariant_subspace.py:42, dominant_invariant_complex_subspace.py:42). -/
def subspaceHess [Fintype n] (matrix : Matrix n n 𝕜) (_X H : Matrix n p 𝕜) : Matrix n p 𝕜 :=
  ((-2 : ℝ) • matrix) * H

/-- `eigenvectors[:, np.argsort(eigenvalues)[-subspace_dimension:]]`
(dominant_invariant_subspace.py:88-90, dominant_invariant_complex_subspace.py:92-94); `σ` is the
result of `np.argsort`. -/
def subspaceSolution {k N : ℕ} (hk : k ≤ N) (eigenvectors : Matrix (Fin N) (Fin N) 𝕜)
    (σ : Equiv.Perm (Fin N)) : Matrix (Fin N) (Fin k) 𝕜 :=
  eigenvectors.submatrix id (lastIndices hk σ)

/-! ### closest_unit_norm_column_approximation.py -/

/-- `0.5 * np.sum((X - matrix) ** 2)` (closest_unit_norm_column_approximation.py:22, 28, 34, 45, 51). -/
noncomputable def columnCost [Fintype m] [Fintype n] (matrix X : Matrix m n ℝ) : ℝ :=
  1 / 2 * ∑ i, ∑ j, (X - matrix) i j ^ 2

/-- `X - matrix` (closest_unit_norm_column_approximation.py:38). -/
def columnGrad (matrix X : Matrix m n ℝ) : Matrix m n ℝ := X - matrix

/-- `matrix / np.linalg.norm(matrix, axis=0)[np.newaxis, :]`
(closest_unit_norm_column_approximation.py:81). -/
noncomputable def columnSolution [Fintype m] (matrix : Matrix m n ℝ) : Matrix m n ℝ :=
  of fun i j => matrix i j / npNorm fun i => matrix i j

/-! ### low_rank_matrix_approximation.py -/

/-- `np.linalg.norm(u @ np.diag(s) @ vt - matrix) ** 2`
(low_rank_matrix_approximation.py:21-23, 28-30, 35-37, 52-54, 59-61). -/
noncomputable def lowRankCost [Fintype m] [Fintype n] [Fintype p] [DecidableEq p]
    (matrix : Matrix m n ℝ) (u : Matrix m p ℝ) (s : p → ℝ) (vt : Matrix p n ℝ) : ℝ :=
  matNorm (u * diagonal s * vt - matrix) ^ 2

/-- The gradient (low_rank_matrix_approximation.py:40-46). -/
def lowRankGrad [Fintype m] [Fintype n] [Fintype p] [DecidableEq p] (matrix : Matrix m n ℝ)
    (u : Matrix m p ℝ) (s : p → ℝ) (vt : Matrix p n ℝ) : Matrix m p ℝ × (p → ℝ) × Matrix p n ℝ :=
  let X := u * diagonal s * vt
  let S := diagonal s
  ((2 : ℝ) • (X - matrix) * (S * vt)ᵀ, (2 : ℝ) • (uᵀ * (X - matrix) * vtᵀ).diag,
    (2 : ℝ) • (u * S)ᵀ * (X - matrix))

/-- `u[:, indices]`, `s[indices]`, `vt[indices, :]` with `indices = np.argsort(s)[-rank:]`
(low_rank_matrix_approximation.py:96-100), given the factors of
`np.linalg.svd(matrix, full_matrices=False)`; `σ` is the result of `np.argsort`. -/
def lowRankSolution {k N : ℕ} (hk : k ≤ N) (u : Matrix m (Fin N) ℝ) (s : Fin N → ℝ)
    (vt : Matrix (Fin N) n ℝ) (σ : Equiv.Perm (Fin N)) :
    Matrix m (Fin k) ℝ × (Fin k → ℝ) × Matrix (Fin k) n ℝ :=
  (u.submatrix id (lastIndices hk σ), s ∘ lastIndices hk σ, vt.submatrix (lastIndices hk σ) id)

/-! ### low_rank_psd_matrix_approximation.py -/

/-- `np.linalg.norm(Y @ Y.T - matrix, "fro") ** 2`
(low_rank_psd_matrix_approximation.py:22, 28, 34, 49-50, 56-57). -/
noncomputable def psdCost [Fintype n] [Fintype p] (matrix : Matrix n n ℝ) (Y : Matrix n p ℝ) : ℝ :=
  matNorm (Y * Yᵀ - matrix) ^ 2

/-- `4 * (Y @ Y.T - matrix) @ Y` (low_rank_psd_matrix_approximation.py:38). -/
def psdGrad [Fintype n] [Fintype p] (matrix : Matrix n n ℝ) (Y : Matrix n p ℝ) : Matrix n p ℝ :=
  (4 : ℝ) • (Y * Yᵀ - matrix) * Y

/-- `4 * ((Y @ U.T + U @ Y.T) @ Y + (Y @ Y.T - matrix) @ U)`
(low_rank_psd_matrix_approximation.py:42). -/
def psdHess [Fintype n] [Fintype p] (matrix : Matrix n n ℝ) (Y U : Matrix n p ℝ) : Matrix n p ℝ :=
  (4 : ℝ) • ((Y * Uᵀ + U * Yᵀ) * Y + (Y * Yᵀ - matrix) * U)

/-! ### multiple_linear_regression.py -/

/-- `np.linalg.norm(targets - samples @ weights) ** 2`
(multiple_linear_regression.py:22, 28, 34, 50, 56-58). -/
noncomputable def regCost [Fintype m] [Fintype n] (samples : Matrix m n ℝ) (targets : m → ℝ)
    (weights : n → ℝ) : ℝ :=
  npNorm (targets - samples *ᵥ weights) ^ 2

/-- `-2 * samples.T @ (targets - samples @ weights)` (multiple_linear_regression.py:38). -/
def regGrad [Fintype m] [Fintype n] (samples : Matrix m n ℝ) (targets : m → ℝ) (weights : n → ℝ) :
    n → ℝ :=
  ((-2 : ℝ) • samplesᵀ) *ᵥ (targets - samples *ᵥ weights)

/-- `2 * samples.T @ samples @ vector` (multiple_linear_regression.py:42). -/
def regHess [Fintype m] [Fintype n] (samples : Matrix m n ℝ) (_weights vector : n → ℝ) : n → ℝ :=
  ((2 : ℝ) • samplesᵀ * samples) *ᵥ vector

/-- `np.linalg.pinv(samples) @ targets` (multiple_linear_regression.py:96). -/
def regSolution [Fintype m] (pinv : Matrix n m ℝ) (targets : m → ℝ) : n → ℝ := pinv *ᵥ targets

/-! ### optimal_rotations.py -/

/-- `-np.tensordot(X, ABt, axes=X.ndim)` (optimal_rotations.py:22, 28, 34, 45, 51); the matrices of
the stack are indexed by `κ`. -/
def rotCost {κ : Type*} [Fintype κ] [Fintype n] (ABt X : κ → Matrix n n ℝ) : ℝ :=
  -∑ k, matTensordot (X k) (ABt k)

/-- `-ABt` (optimal_rotations.py:38). -/
def rotGrad {κ : Type*} (ABt _X : κ → Matrix n n ℝ) : κ → Matrix n n ℝ := -ABt

/-- `compute_optimal_solution` (optimal_rotations.py:59-67) of a square matrix with at least one row,
given the factors `U`, `Vt` returned by `np.linalg.svd(ABt)`. -/
noncomputable def rotSolution {k : ℕ} (U Vt : Matrix (Fin (k + 1)) (Fin (k + 1)) ℝ) :
    Matrix (Fin (k + 1)) (Fin (k + 1)) ℝ :=
  let UVt := U * Vt
  open Classical in
  if |1 - UVt.det| < 1 / 10 ^ 10 then UVt
  else
    let J : Fin (k + 1) → ℝ := fun i => if i = Fin.last k then -1 else 1
    (of fun i j => U i j * J j) * Vt

/-! ### pca.py -/

/-- `np.linalg.norm(samples - samples @ w @ w.T) ** 2` (pca.py:22, 28, 34). -/
noncomputable def pcaCost [Fintype m] [Fintype n] [Fintype p] (samples : Matrix m n ℝ)
    (w : Matrix n p ℝ) : ℝ :=
  matNorm (samples - samples * w * wᵀ) ^ 2

/-- `projector = w @ w.T`, `norm(samples - samples @ projector) ** 2` (pca.py:63-64, 70-71). -/
noncomputable def pcaCostProjector [Fintype m] [Fintype n] [Fintype p] (samples : Matrix m n ℝ)
    (w : Matrix n p ℝ) : ℝ :=
  let projector := w * wᵀ
  matNorm (samples - samples * projector) ^ 2

/-- The gradient (pca.py:37-45). -/
def pcaGrad [Fintype m] [Fintype n] [Fintype p] (samples : Matrix m n ℝ) (w : Matrix n p ℝ) :
    Matrix n p ℝ :=
  (-2 : ℝ) • (samplesᵀ * (samples - samples * w * wᵀ) + (samples - samples * w * wᵀ)ᵀ * samples) * w

/-- The Hessian (pca.py:48-56). -/
def pcaHess [Fintype m] [Fintype n] [Fintype p] (samples : Matrix m n ℝ) (w h : Matrix n p ℝ) :
    Matrix n p ℝ :=
  (-2 : ℝ) • (samplesᵀ * (samples - samples * w * hᵀ) * w +
    samplesᵀ * (samples - samples * h * wᵀ) * w +
    samplesᵀ * (samples - samples * w * wᵀ) * h +
    (samples - samples * w * hᵀ)ᵀ * samples * w +
    (samples - samples * h * wᵀ)ᵀ * samples * w +
    (samples - samples * w * wᵀ)ᵀ * samples * h)

/-- `eigenvectors[:, np.argsort(eigenvalues)[::-1][:num_components]]` (pca.py:107-109), given the
result of `np.linalg.eig(samples.T @ samples)`; `σ` is the result of `np.argsort`. -/
def pcaSolution {k N : ℕ} (hk : k ≤ N) (eigenvectors : Matrix (Fin N) (Fin N) ℝ)
    (σ : Equiv.Perm (Fin N)) : Matrix (Fin N) (Fin k) ℝ :=
  eigenvectors.submatrix id (firstReversed hk σ)

/-! ### rank_k_correlation_matrix_approximation.py -/

/-- `0.25 * np.linalg.norm(X.T @ X - matrix) ** 2`
(rank_k_correlation_matrix_approximation.py:22, 28, 34, 49-51, 57). -/
noncomputable def corrCost [Fintype m] [Fintype n] (matrix : Matrix n n ℝ) (X : Matrix m n ℝ) : ℝ :=
  1 / 4 * matNorm (Xᵀ * X - matrix) ^ 2

/-- `0.5 * X @ (X.T @ X - matrix)` (rank_k_correlation_matrix_approximation.py:38). -/
noncomputable def corrGrad [Fintype m] [Fintype n] (matrix : Matrix n n ℝ) (X : Matrix m n ℝ) :
    Matrix m n ℝ :=
  (1 / 2 : ℝ) • X * (Xᵀ * X - matrix)

/-- `X @ (H.T @ X + X.T @ H) + H @ (X.T @ X - matrix)`
(rank_k_correlation_matrix_approximation.py:42). -/
def corrHess [Fintype m] [Fintype n] (matrix : Matrix n n ℝ) (X H : Matrix m n ℝ) : Matrix m n ℝ :=
  X * (Hᵀ * X + Xᵀ * H) + H * (Xᵀ * X - matrix)

/-! ### packing_on_the_sphere.py -/

/-- `np.triu(a, 1)`: the entries above the diagonal, zeros elsewhere. -/
def triu1 {N : ℕ} (a : Matrix (Fin N) (Fin N) ℝ) : Matrix (Fin N) (Fin N) ℝ :=
  of fun i j => if i < j then a i j else 0

/-- `tf.linalg.band_part(a, 0, -1)`: the entries on and above the diagonal, zeros elsewhere. -/
def bandPart {N : ℕ} (a : Matrix (Fin N) (Fin N) ℝ) : Matrix (Fin N) (Fin N) ℝ :=
  of fun i j => if i ≤ j then a i j else 0

/-- `a.max()` over all entries of a matrix with at least one row. -/
noncomputable def matMax {N : ℕ} (a : Matrix (Fin (N + 1)) (Fin (N + 1)) ℝ) : ℝ :=
  Finset.univ.sup' Finset.univ_nonempty fun x : Fin (N + 1) × Fin (N + 1) => a x.1 x.2

/-- `a.sum()` over all entries. -/
def matSum {N : ℕ} (a : Matrix (Fin N) (Fin N) ℝ) : ℝ := ∑ i, ∑ j, a i j

/-- The cost for autograd, JAX and PyTorch (packing_on_the_sphere.py:19-28, 33-39, 44-50), for at
least one point.  In `expY -= np.diag(np.diag(expY))` the diagonal is set to zero. -/
noncomputable def packCost {N : ℕ} [Fintype p] (epsilon : ℝ) (X : Matrix (Fin (N + 1)) p ℝ) : ℝ :=
  let Y := X * Xᵀ
  let s := matMax (triu1 Y)
  let expY : Matrix (Fin (N + 1)) (Fin (N + 1)) ℝ := of fun i j => Real.exp ((Y i j - s) / epsilon)
  let expY := expY - diagonal expY.diag
  let u := matSum (triu1 expY)
  s + epsilon * Real.log u

/-- The cost for TensorFlow (packing_on_the_sphere.py:55-61): `expY` is computed but not used. -/
noncomputable def packCostTf {N : ℕ} [Fintype p] (epsilon : ℝ) (X : Matrix (Fin (N + 1)) p ℝ) : ℝ :=
  let Y := X * Xᵀ
  let s := matMax (bandPart Y)
  let u := matSum (bandPart Y)
  s + epsilon * Real.log u

end Verif.Geo.Examples
