/-
Model of examples/notebooks/mixture_of_gaussians.py: the cost over
`Product([SymmetricPositiveDefinite(D + 1, k=K), Euclidean(K - 1)])` and the parameters read off its
result.  The samples are a parameter; plotting and printing are not modelled.  The notebook has
`D = 2` and `K = 3`; here `D` is the size of `ι` and `K` is any positive number, written `K + 1`.
Rows and columns of the matrices are indexed by `ι ⊕ Unit`: the first `D` by `Sum.inl`, the last one
by `Sum.inr ()`.
-/
import Mathlib.Analysis.SpecialFunctions.Log.Basic
import Mathlib.LinearAlgebra.Matrix.NonsingularInverse
import Verif.Geo.Model.NumPy

namespace Verif.Geo.Examples
open Matrix
open scoped BigOperators

variable {ι N : Type*} {K : ℕ}

/-- `np.append(v, 0)` (mixture_of_gaussians.py:135). -/
def mogNu (v : Fin K → ℝ) : Fin (K + 1) → ℝ := Fin.snoc v 0

/-- `y`, the samples with a one appended, as columns (mixture_of_gaussians.py:138). -/
def mogY (samples : N → ι → ℝ) : Matrix (ι ⊕ Unit) N ℝ :=
  of fun i n => Sum.elim (samples n) (fun _ => 1) i

/-- `log_q` (mixture_of_gaussians.py:137-144).  `np.linalg.slogdet(S)[1]` is the logarithm of the
absolute value of the determinant; `np.linalg.solve` multiplies with the inverse.  Its `LinAlgError`
is not modelled: points of the manifold are invertible. -/
noncomputable def mogLogQ [Fintype ι] [DecidableEq ι] (samples : N → ι → ℝ)
    (S : Fin (K + 1) → Matrix (ι ⊕ Unit) (ι ⊕ Unit) ℝ) (k : Fin (K + 1)) (n : N) : ℝ :=
  -(1 / 2) * (∑ i, mogY samples i n * ((S k)⁻¹ * mogY samples) i n + Real.log |(S k).det|)

/-- `alpha` of the cost and `pihat` (mixture_of_gaussians.py:146-148, 171-172). -/
noncomputable def mogAlpha (v : Fin K → ℝ) (k : Fin (K + 1)) : ℝ :=
  Real.exp (mogNu v k) / ∑ l, Real.exp (mogNu v l)

/-- `logsumexp(np.log(alpha) + log_q, axis=0)` (mixture_of_gaussians.py:150); the shift by the
maximum inside `logsumexp` does not change its value in exact arithmetic and is left out. -/
noncomputable def mogLoglik [Fintype ι] [DecidableEq ι] (samples : N → ι → ℝ)
    (S : Fin (K + 1) → Matrix (ι ⊕ Unit) (ι ⊕ Unit) ℝ) (v : Fin K → ℝ) (n : N) : ℝ :=
  Real.log (∑ k, Real.exp (Real.log (mogAlpha v k) + mogLogQ samples S k n))

/-- `cost(S, v)` (mixture_of_gaussians.py:133-151). -/
noncomputable def mogCost [Fintype ι] [DecidableEq ι] [Fintype N] (samples : N → ι → ℝ)
    (S : Fin (K + 1) → Matrix (ι ⊕ Unit) (ι ⊕ Unit) ℝ) (v : Fin K → ℝ) : ℝ :=
  -∑ n, mogLoglik samples S v n

/-- `mu1hat`, `mu2hat`, `mu3hat` (mixture_of_gaussians.py:165, 167, 169). -/
def mogMean (S : Fin (K + 1) → Matrix (ι ⊕ Unit) (ι ⊕ Unit) ℝ) (k : Fin (K + 1)) (i : ι) : ℝ :=
  S k (Sum.inl i) (Sum.inr ())

/-- `Sigma1hat`, `Sigma2hat`, `Sigma3hat` (mixture_of_gaussians.py:166, 168, 170). -/
def mogCov (S : Fin (K + 1) → Matrix (ι ⊕ Unit) (ι ⊕ Unit) ℝ) (k : Fin (K + 1)) : Matrix ι ι ℝ :=
  of fun i j => S k (Sum.inl i) (Sum.inl j) - mogMean S k i * mogMean S k j

end Verif.Geo.Examples
