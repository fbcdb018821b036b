/-
`/repo/src/pymanopt/tools/multi.py`.  An array of shape `(k, m, n)` is a family
`κ → Matrix m n 𝕜`; a single matrix is a family over a one-element type, so the `ndim == 2`
branches need no separate definition.
-/
import Verif.Geo.Model.NumPy
import Verif.Geo.Model.Lapack

namespace Verif.Geo
open scoped BigOperators
open Matrix

variable {κ m n p : Type*} {𝕜 : Type*} [RCLike 𝕜]

/-- A stack of matrices (an array of shape `(k, m, n)`). -/
abbrev Stack (κ m n 𝕜 : Type*) := κ → Matrix m n 𝕜

/-- `multitransp` (multi.py:13-24). -/
def multitransp (A : Stack κ m n 𝕜) : Stack κ n m 𝕜 := fun k => of fun i j => A k j i

/-- `multihconj` (multi.py:27-29). -/
def multihconj (A : Stack κ m n 𝕜) : Stack κ n m 𝕜 := fun k => (multitransp A k).map star

/-- `@` of two stacks. -/
def multiprod [Fintype n] (A : Stack κ m n 𝕜) (B : Stack κ n p 𝕜) : Stack κ m p 𝕜 :=
  fun k => A k * B k

/-- `multisym` (multi.py:32-39). -/
noncomputable def multisym (A : Stack κ n n 𝕜) : Stack κ n n 𝕜 := (1 / 2 : ℝ) • (A + multitransp A)

/-- `multiherm` (multi.py:42-43). -/
noncomputable def multiherm (A : Stack κ n n 𝕜) : Stack κ n n 𝕜 := (1 / 2 : ℝ) • (A + multihconj A)

/-- `multiskew` (multi.py:46-53). -/
noncomputable def multiskew (A : Stack κ n n 𝕜) : Stack κ n n 𝕜 := (1 / 2 : ℝ) • (A - multitransp A)

/-- `multiskewh` (multi.py:56-57). -/
noncomputable def multiskewh (A : Stack κ n n 𝕜) : Stack κ n n 𝕜 := (1 / 2 : ℝ) • (A - multihconj A)

/-- `multieye` (multi.py:60-62). -/
def multieye [DecidableEq n] : Stack κ n n 𝕜 := fun _ => 1

/-- `multiexpm(A, symmetric=True)` of one matrix (multi.py:83-88); `w`, `v` are the factors returned
by `np.linalg.eigh`.  Taking the real part of a real matrix changes nothing. -/
noncomputable def expmSym [Fintype n] (w : n → ℝ) (v : Matrix n n 𝕜) : Matrix n n 𝕜 :=
  v * of fun i j => ((Real.exp (w i) : ℝ) : 𝕜) * vᴴ i j

/-- `multilogm(A, positive_definite=True)` of one matrix (multi.py:70-75). -/
noncomputable def logmPos [Fintype n] (w : n → ℝ) (v : Matrix n n 𝕜) : Matrix n n 𝕜 :=
  v * of fun i j => ((Real.log (w i) : ℝ) : 𝕜) * vᴴ i j

/-- Signs or phases of the diagonal of `r` in `multiqr` (multi.py:99-101), `k ≤ n`. -/
noncomputable def qrPhase {k n : ℕ} (hk : k ≤ n) (r : Matrix (Fin k) (Fin n) 𝕜) (i : Fin k) : 𝕜 :=
  let s := r i (Fin.castLE hk i)
  let s := if s = 0 then 1 else s
  s / ((‖s‖ : ℝ) : 𝕜)

/-- `multiqr` of one matrix (multi.py:91-106), from the factors returned by `np.linalg.qr`.
The check of `A.ndim` is not modelled: stacks have the right number of axes by typing. -/
noncomputable def multiqr {k n : ℕ} (hk : k ≤ n) (q : Matrix m (Fin k) 𝕜)
    (r : Matrix (Fin k) (Fin n) 𝕜) : Matrix m (Fin k) 𝕜 × Matrix (Fin k) (Fin n) 𝕜 :=
  (of fun i j => q i j * qrPhase hk r j, of fun i j => r i j * star (qrPhase hk r i))

/-- `np.real(np.tensordot(a.conj(), b, axes=a.ndim))` of two stacks of the same shape. -/
def stackDot [Fintype κ] [Fintype m] [Fintype n] (A B : Stack κ m n 𝕜) : ℝ :=
  retensordot (fun x : κ × m × n => A x.1 x.2.1 x.2.2) fun x : κ × m × n => B x.1 x.2.1 x.2.2

/-- `np.linalg.norm(a)` of a stack. -/
noncomputable def stackNorm [Fintype κ] [Fintype m] [Fintype n] (A : Stack κ m n 𝕜) : ℝ :=
  npNorm fun x : κ × m × n => A x.1 x.2.1 x.2.2

end Verif.Geo
