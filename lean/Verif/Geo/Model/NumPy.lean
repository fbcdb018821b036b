/-
numpy functions used by `/repo/src/pymanopt/manifolds`, over exact reals and complexes.
An array of a given shape is a function from the finite type of its multi-indices; a stack of
matrices is a family of Mathlib matrices.
-/
import Mathlib.Analysis.RCLike.Basic
import Mathlib.Analysis.SpecialFunctions.Trigonometric.Sinc
import Mathlib.Analysis.SpecialFunctions.Trigonometric.Inverse
import Mathlib.Analysis.SpecialFunctions.Sqrt
import Mathlib.Data.Matrix.Mul
import Mathlib.LinearAlgebra.Matrix.ConjTranspose

namespace Verif.Geo
open scoped BigOperators

variable {ι : Type*} [Fintype ι] {𝕜 : Type*} [RCLike 𝕜]

/-- `np.tensordot(a, b, axes=a.ndim)` of two real arrays of the same shape. -/
def tensordot (a b : ι → ℝ) : ℝ := ∑ i, a i * b i

/-- `np.real(np.tensordot(a.conj(), b, axes=a.ndim))` of two arrays of the same shape. -/
def retensordot (a b : ι → 𝕜) : ℝ := RCLike.re (∑ i, star (a i) * b i)

/-- `np.linalg.norm(a)`: root of the sum of squared moduli over all entries. -/
noncomputable def npNorm (a : ι → 𝕜) : ℝ := Real.sqrt (∑ i, ‖a i‖ ^ 2)

/-- `np.sinc(x) = sin(pi x) / (pi x)`, with value 1 at 0. -/
noncomputable def npSinc (x : ℝ) : ℝ := Real.sinc (Real.pi * x)

end Verif.Geo
