/-
Stacks of real matrices in `manifolds/group.py`: what `np.vectorize` stores.
-/
import Verif.Geo.Model.Group

namespace Verif.Geo
open Matrix

variable {n : Type*} {k : ℕ}

open Classical in
/-- `np.vectorize(scipy.linalg.logm, signature="(m,m)->(m,m)")` on a stack of real matrices
(multi.py:65-68), from the logarithms of the matrices.  The array for the results is created with the
type of the first of them, which is real if the first logarithm is; then assigning a complex matrix
to an entry of the array drops its imaginary part (numpy issues a `ComplexWarning`). -/
noncomputable def storeStack (L : Stack (Fin (k + 1)) n n ℂ) : Stack (Fin (k + 1)) n n ℂ :=
  if ∀ i j, (L 0 i j).im = 0 then fun s => (L s).map fun z => (z.re : ℂ) else L

/-- Results of `_UnitaryBase.log` for stacks of real matrices (group.py:81-82), as complex arrays. -/
def IsSOLog [Fintype n] [DecidableEq n] (A B : Stack (Fin (k + 1)) n n ℝ)
    (V : Stack (Fin (k + 1)) n n ℂ) : Prop :=
  ∃ L : Stack (Fin (k + 1)) n n ℂ,
    (∀ s, IsLogm ((multiprod (multihconj A) B s).map Complex.ofReal) (L s)) ∧
      V = multiskewh (storeStack L)

/-- Results of `_UnitaryBase.dist` for stacks of real matrices (group.py:44-45). -/
def IsSODist [Fintype n] [DecidableEq n] (A B : Stack (Fin (k + 1)) n n ℝ) (d : ℝ) : Prop :=
  ∃ V, IsSOLog A B V ∧ d = gNorm (fun s => (A s).map Complex.ofReal) V

end Verif.Geo
