/-
`/repo/src/pymanopt/manifolds/grassmann.py`.  Stacks of matrices with rows `n` and `p` columns;
`k == 1` is a stack of one matrix.  `Grassmann` is over `ℝ`, `ComplexGrassmann` over any `RCLike`
field (the code is `ℂ`); the models of the second class at `ℝ` are compared with the first in
`Verif/Geo/Props/Grassmann.lean`.
-/
import Verif.Geo.Model.Stiefel

namespace Verif.Geo
open scoped BigOperators
open Matrix

variable {κ n p : Type*} {𝕜 : Type*} [RCLike 𝕜]

/-- `a * np.expand_dims(f(s), -2)`: scale the columns. -/
def scaleCols {m r : Type*} (A : Matrix m r 𝕜) (f : r → ℝ) : Matrix m r 𝕜 :=
  of fun i j => A i j * ((f j : ℝ) : 𝕜)

/-! ### Grassmann -/

section
variable [Fintype n] [Fintype p]

/-- `Grassmann.inner_product` (grassmann.py:79-82). -/
def grInner [Fintype κ] (_X A B : Stack κ n p ℝ) : ℝ := stackTensordot A B

/-- `_GrassmannBase.norm` (grassmann.py:12-13). -/
noncomputable def grNorm [Fintype κ] (_X A : Stack κ n p 𝕜) : ℝ := stackNorm A

/-- `Grassmann.projection` (grassmann.py:84-85), also `to_tangent_space` and
`euclidean_to_riemannian_gradient` (grassmann.py:24-28). -/
noncomputable def grProj (X V : Stack κ n p ℝ) : Stack κ n p ℝ :=
  V - multiprod X (multiprod (multitransp X) V)

/-- `_GrassmannBase.transport` (grassmann.py:15-16) with the real projection. -/
noncomputable def grTransport (_A B V : Stack κ n p ℝ) : Stack κ n p ℝ := grProj B V

/-- `Grassmann.euclidean_to_riemannian_hessian` (grassmann.py:87-93). -/
noncomputable def grE2rh (X G H V : Stack κ n p ℝ) : Stack κ n p ℝ :=
  let XtG := multiprod (multitransp X) G
  grProj X H - multiprod V XtG

/-- Matrix whose singular values `Grassmann.dist` takes (grassmann.py:74). -/
noncomputable def grDistArg (A B : Stack κ n p ℝ) : Stack κ p p ℝ := multiprod (multitransp A) B

/-- `Grassmann.random_tangent_vector` (grassmann.py:110-113). -/
noncomputable def grRandomTangent [Fintype κ] (X draw : Stack κ n p ℝ) : Stack κ n p ℝ :=
  (stackNorm (grProj X draw))⁻¹ • grProj X draw

end

/-- `Grassmann.dist` (grassmann.py:73-77) and `ComplexGrassmann.dist` (grassmann.py:177-181) from
the singular values of the stack; the singular values are real, so `np.real` changes nothing. -/
noncomputable def grDist [Fintype κ] {p : ℕ} (s : κ → Fin p → ℝ) : ℝ :=
  npNorm fun x : κ × Fin p => Real.arccos (if 1 < s x.1 x.2 then 1 else s x.1 x.2)

/-- Matrix handed to `np.linalg.svd` by the retractions (grassmann.py:101, 209). -/
def grRetractArg (X Z : Stack κ n p 𝕜) : Stack κ n p 𝕜 := X + Z

/-- `Grassmann.retraction` (grassmann.py:95-102) and `ComplexGrassmann.retraction`
(grassmann.py:203-210) from the factors of `np.linalg.svd`. -/
def grRetraction {p : ℕ} (u : Stack κ n (Fin p) 𝕜) (vt : Stack κ (Fin p) (Fin p) 𝕜) :
    Stack κ n (Fin p) 𝕜 := multiprod u vt

/-- Matrix handed to `multiqr` by `Grassmann.exp` (grassmann.py:116-120) from the singular value
factors of the tangent vector. -/
noncomputable def grExpArg {p : ℕ} (X u : Stack κ n (Fin p) ℝ) (s : κ → Fin p → ℝ)
    (vt : Stack κ (Fin p) (Fin p) ℝ) : Stack κ n (Fin p) ℝ :=
  multiprod (multiprod X fun k => scaleCols (multitransp vt k) fun j => Real.cos (s k j)) vt +
    multiprod (fun k => scaleCols (u k) fun j => Real.sin (s k j)) vt

/-- Result of `multiqr` in `exp` and `random_point` (grassmann.py:104-108, 124-125, 212-219,
236-237) from the factors of `np.linalg.qr`. -/
noncomputable def grQ {p : ℕ} (q : Stack κ n (Fin p) 𝕜) (r : Stack κ (Fin p) (Fin p) 𝕜) :
    Stack κ n (Fin p) 𝕜 := fun k => (multiqr le_rfl (q k) (r k)).1

section
variable [Fintype n] [Fintype p]

/-- `ytx` of `Grassmann.log` (grassmann.py:128). -/
noncomputable def grYtx (A B : Stack κ n p ℝ) : Stack κ p p ℝ := multiprod (multitransp B) A

/-- `At` of `Grassmann.log` (grassmann.py:129). -/
noncomputable def grAt (A B : Stack κ n p ℝ) : Stack κ p n ℝ :=
  multitransp B - multiprod (grYtx A B) (multitransp A)

end

/-- Matrix handed to `np.linalg.svd` by `Grassmann.log` (grassmann.py:131); `bt` is the result of
`np.linalg.solve`. -/
def grLogArg (bt : Stack κ p n ℝ) : Stack κ n p ℝ := multitransp bt

/-- `Grassmann.log` (grassmann.py:127-133) and `ComplexGrassmann.log` (grassmann.py:239-245) from
the singular value factors. -/
noncomputable def grLog {p : ℕ} (u : Stack κ n (Fin p) 𝕜) (s : κ → Fin p → ℝ)
    (vt : Stack κ (Fin p) (Fin p) 𝕜) : Stack κ n (Fin p) 𝕜 :=
  multiprod (fun k => scaleCols (u k) fun j => Real.arctan (s k j)) vt

/-- Dimension reported by `Grassmann` (grassmann.py:70). -/
def grDim (n p k : ℕ) : ℤ := k * ((n : ℤ) * p - (p : ℤ) ^ 2)

/-! ### ComplexGrassmann -/

section
variable [Fintype n] [Fintype p]

/-- `ComplexGrassmann.inner_product` (grassmann.py:183-190). -/
def cgrInner [Fintype κ] (_X A B : Stack κ n p 𝕜) : ℝ := stackDot A B

/-- `ComplexGrassmann.projection` (grassmann.py:192-193), also `to_tangent_space` and
`euclidean_to_riemannian_gradient` (grassmann.py:24-28). -/
def cgrProj (X V : Stack κ n p 𝕜) : Stack κ n p 𝕜 :=
  V - multiprod (multiprod X (multihconj X)) V

/-- `_GrassmannBase.transport` (grassmann.py:15-16) with the complex projection. -/
def cgrTransport (_A B V : Stack κ n p 𝕜) : Stack κ n p 𝕜 := cgrProj B V

/-- `ComplexGrassmann.euclidean_to_riemannian_hessian` (grassmann.py:195-201). -/
def cgrE2rh (X G H V : Stack κ n p 𝕜) : Stack κ n p 𝕜 :=
  let XHG := multiprod (multihconj X) G
  cgrProj X H - multiprod V XHG

/-- Matrix whose singular values `ComplexGrassmann.dist` takes (grassmann.py:178). -/
def cgrDistArg (A B : Stack κ n p 𝕜) : Stack κ p p 𝕜 := multiprod (multihconj A) B

/-- `ComplexGrassmann.random_tangent_vector` (grassmann.py:221-226). -/
noncomputable def cgrRandomTangent [Fintype κ] (X draw : Stack κ n p 𝕜) : Stack κ n p 𝕜 :=
  (stackNorm (cgrProj X draw))⁻¹ • cgrProj X draw

/-- `YHX` of `ComplexGrassmann.log` (grassmann.py:240). -/
def cgrYhx (A B : Stack κ n p 𝕜) : Stack κ p p 𝕜 := multiprod (multihconj B) A

/-- `AH` of `ComplexGrassmann.log` (grassmann.py:241). -/
def cgrAh (A B : Stack κ n p 𝕜) : Stack κ p n 𝕜 :=
  multihconj B - multiprod (cgrYhx A B) (multihconj A)

end

/-- Matrix handed to `multiqr` by `ComplexGrassmann.exp` (grassmann.py:229-232). -/
noncomputable def cgrExpArg {p : ℕ} (X u : Stack κ n (Fin p) 𝕜) (s : κ → Fin p → ℝ)
    (vt : Stack κ (Fin p) (Fin p) 𝕜) : Stack κ n (Fin p) 𝕜 :=
  multiprod (multiprod X fun k => scaleCols (multihconj vt k) fun j => Real.cos (s k j)) vt +
    multiprod (fun k => scaleCols (u k) fun j => Real.sin (s k j)) vt

/-- Matrix handed to `np.linalg.svd` by `ComplexGrassmann.log` (grassmann.py:243). -/
def cgrLogArg (bh : Stack κ p n 𝕜) : Stack κ n p 𝕜 := multihconj bh

/-- Dimension reported by `ComplexGrassmann` (grassmann.py:174). -/
def cgrDim (n p k : ℕ) : ℤ := 2 * k * ((n : ℤ) * p - (p : ℤ) ^ 2)

/-- `_GrassmannBase.zero_vector` (grassmann.py:18-22). -/
def grZero (_X : Stack κ n p 𝕜) : Stack κ n p 𝕜 := 0

/-! ### Whole methods, for any factors the linear algebra routines may return -/

section
variable {p : ℕ} [Fintype n]

/-- `E` is a result of `ComplexGrassmann.retraction(X, Z)`. -/
def IsGrRetraction (X Z E : Stack κ n (Fin p) 𝕜) : Prop :=
  ∃ (u : Stack κ n (Fin p) 𝕜) (s : κ → Fin p → ℝ) (vt : Stack κ (Fin p) (Fin p) 𝕜),
    (∀ k, IsSVD (grRetractArg X Z k) (u k) (s k) (vt k)) ∧ E = grRetraction u vt

/-- `E` is a result of `ComplexGrassmann.exp(X, Z)`. -/
def IsGrExp (X Z E : Stack κ n (Fin p) 𝕜) : Prop :=
  ∃ (u : Stack κ n (Fin p) 𝕜) (s : κ → Fin p → ℝ) (vt : Stack κ (Fin p) (Fin p) 𝕜)
    (q : Stack κ n (Fin p) 𝕜) (r : Stack κ (Fin p) (Fin p) 𝕜),
    (∀ k, IsSVD (Z k) (u k) (s k) (vt k)) ∧ (∀ k, IsQR (cgrExpArg X u s vt k) (q k) (r k)) ∧
      E = grQ q r

/-- `L` is a result of `ComplexGrassmann.log(X, Y)`. -/
def IsGrLog (X Y L : Stack κ n (Fin p) 𝕜) : Prop :=
  ∃ (bh : Stack κ (Fin p) n 𝕜) (u : Stack κ n (Fin p) 𝕜) (s : κ → Fin p → ℝ)
    (vt : Stack κ (Fin p) (Fin p) 𝕜),
    (∀ k, IsSolve (cgrYhx X Y k) (cgrAh X Y k) (bh k)) ∧
      (∀ k, IsSVD (cgrLogArg bh k) (u k) (s k) (vt k)) ∧ L = grLog u s vt

/-- `d` is a result of `ComplexGrassmann.dist(X, Y)`. -/
def IsGrDist [Fintype κ] (X Y : Stack κ n (Fin p) 𝕜) (d : ℝ) : Prop :=
  ∃ (u : Stack κ (Fin p) (Fin p) 𝕜) (s : κ → Fin p → ℝ) (vt : Stack κ (Fin p) (Fin p) 𝕜),
    (∀ k, IsSVD (cgrDistArg X Y k) (u k) (s k) (vt k)) ∧ d = grDist s

end

end Verif.Geo
