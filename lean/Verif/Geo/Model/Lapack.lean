/-
Contracts of the numpy/scipy linear algebra routines called by
`/repo/src/pymanopt/manifolds` and `/repo/src/pymanopt/tools/multi.py`.  The models take the
factors as arguments, the theorems assume these contracts about them: nothing else is used about
which factorisation the library chooses.
-/
import Mathlib.Analysis.RCLike.Basic
import Mathlib.LinearAlgebra.Matrix.ConjTranspose

namespace Verif.Geo
open Matrix

variable {𝕜 : Type*} [RCLike 𝕜] {m n : Type*} [Fintype m] [Fintype n] [DecidableEq n]

/-- `np.linalg.qr(a)` in reduced mode: `a` has `n` columns, the factors share `k` of them,
`k` being the smaller of the two sizes of `a`. -/
structure IsQR {k n : ℕ} (a : Matrix m (Fin n) 𝕜) (q : Matrix m (Fin k) 𝕜)
    (R : Matrix (Fin k) (Fin n) 𝕜) : Prop where
  orth : qᴴ * q = 1
  prod : q * R = a
  upper : ∀ (i : Fin k) (j : Fin n), (j : ℕ) < (i : ℕ) → R i j = 0

/-- `np.linalg.eigh(a)` of a Hermitian matrix: real eigenvalues and a unitary matrix of
eigenvectors. -/
structure IsEigh (a : Matrix n n 𝕜) (w : n → ℝ) (v : Matrix n n 𝕜) : Prop where
  orth : vᴴ * v = 1
  prod : a = v * diagonal (fun i => (w i : 𝕜)) * vᴴ

/-- `np.linalg.svd(a, full_matrices=False)`: `k` is the smaller of the two sizes of `a`. -/
structure IsSVD {k : ℕ} (a : Matrix m n 𝕜) (u : Matrix m (Fin k) 𝕜) (s : Fin k → ℝ)
    (vt : Matrix (Fin k) n 𝕜) : Prop where
  orthU : uᴴ * u = 1
  orthV : vt * vtᴴ = 1
  nonneg : ∀ i, 0 ≤ s i
  sorted : Antitone s
  prod : a = u * diagonal (fun i => (s i : 𝕜)) * vt

/-- `np.linalg.solve(a, b)`, which raises `LinAlgError` for singular `a`. -/
structure IsSolve {l : Type*} (a : Matrix n n 𝕜) (b x : Matrix n l 𝕜) : Prop where
  unit : IsUnit a
  prod : a * x = b

/-- `np.linalg.cholesky(a)` of a Hermitian positive definite matrix: lower triangular with positive
diagonal. -/
structure IsCholesky {n : ℕ} (a c : Matrix (Fin n) (Fin n) 𝕜) : Prop where
  prod : c * cᴴ = a
  lower : ∀ i j, i < j → c i j = 0
  diag : ∀ i, ∃ d : ℝ, 0 < d ∧ c i i = (d : 𝕜)

/-- `scipy.linalg.solve_continuous_lyapunov(a, q)`. -/
def IsLyapunov (a q x : Matrix n n 𝕜) : Prop := a * x + x * aᴴ = q

end Verif.Geo
