/-
The manifolds as the optimizers see them: the methods of each class put into the interface
`Verif.Opt.Mfd`, and problems built from a cost with its Euclidean derivatives.
-/
import Verif.Opt.Model.Common
import Verif.Base.Num
import Verif.Geo.Model.Euclidean
import Verif.Geo.Model.Sphere
import Verif.Geo.Model.Oblique
import Verif.Geo.Model.ComplexCircle
import Verif.Geo.Model.Stiefel
import Verif.Geo.Model.Grassmann
import Verif.Geo.Model.Positive
import Verif.Geo.Model.PositiveDefinite
import Verif.Geo.Model.Psd
import Verif.Geo.Model.Hyperbolic
import Verif.Geo.Model.Group

namespace Verif.Geo
open Matrix Verif.Opt

variable {κ ι m n p : Type*} {𝕜 : Type*} [RCLike 𝕜]

/-- A manifold whose points and tangent vectors are arrays: sums, differences and scalar multiples
of tangent vectors are those of arrays.  Scalars are real numbers.  `log` and `pairMean` are
arguments of every manifold below: some classes do not implement them, others call LAPACK. -/
def arrayMfd {E : Type*} [AddCommGroup E] [Module ℝ E] (dim : ℤ) (norm : E → E → ℝ)
    (inner : E → E → E → ℝ) (retraction : E → E → E) (transport : E → E → E → E) (zero : E → E)
    (toTangent : E → E → E) (log pairMean : E → E → E) : Mfd ℝ E E where
  dim := dim.toNat
  norm := norm
  inner := inner
  retraction := retraction
  transport := transport
  log := log
  pairMean := pairMean
  zeroVector := zero
  toTangent := toTangent
  add := (· + ·)
  sub := (· - ·)
  neg := (- ·)
  smul := (· • ·)

/-- `Problem` (core/problem.py:19-285) with a cost function and its Euclidean gradient and Hessian
(supplied or from a backend): the Riemannian gradient and Hessian are the converted ones
(problem.py:251-262, 272-285; the Euclidean Hessian is applied to the embedded vector,
problem.py:229-237), the preconditioner is the identity (problem.py:103-108). -/
def arrayProb {E : Type*} (M : Mfd ℝ E E) (e2rg : E → E → E) (e2rh : E → E → E → E → E)
    (embed : E → E → E) (cost : E → ℝ) (egrad : E → E) (ehess : E → E → E) : Prob ℝ E E where
  M := M
  cost := cost
  grad x := e2rg x (egrad x)
  hess x v := e2rh x (egrad x) (ehess x (embed x v)) v
  precon _ v := v

/-- `Euclidean` and `ComplexEuclidean` (euclidean.py:7-135). -/
noncomputable def euclideanMfd [Fintype ι] (dim : ℤ) : Mfd ℝ (ι → 𝕜) (ι → 𝕜) :=
  arrayMfd dim eucNorm eucInner eucExp eucTransport (fun _ => eucZero) eucProj eucLog eucPairMean

/-- `Symmetric` and `SkewSymmetric` (euclidean.py:138-219). -/
noncomputable def symmetricMfd [Fintype κ] [Fintype n] (dim : ℤ) :
    Mfd ℝ (Stack κ n n ℝ) (Stack κ n n ℝ) :=
  arrayMfd dim (fun _ => stackNorm) (fun _ => stackDot) eucExp eucTransport (fun _ => eucZero)
    symToTangent eucLog eucPairMean

/-- `Sphere` (sphere.py:9-112). -/
noncomputable def sphereMfd [Fintype ι] (eps : ℝ) : Mfd ℝ (ι → ℝ) (ι → ℝ) :=
  arrayMfd (sphereDim ι) sphereNorm sphereInner sphereRetraction (sphereTransport sphereProj)
    (fun _ => sphereZero) sphereToTangent (sphereLog sphereProj eps) spherePairMean

/-- `SphereSubspaceIntersection` and `SphereSubspaceComplementIntersection` (sphere.py:115-202);
`to_tangent_space` is bound to the projection of the sphere (sphere.py:35). -/
noncomputable def sphereSubspaceMfd [Fintype ι] (M : Matrix ι ι ℝ) (dim : ℤ) (eps : ℝ) :
    Mfd ℝ (ι → ℝ) (ι → ℝ) :=
  arrayMfd dim sphereNorm sphereInner sphereRetraction (sphereTransport (subspaceProj M))
    (fun _ => sphereZero) sphereToTangent (sphereLog (subspaceProj M) eps) spherePairMean

/-- `Oblique` (oblique.py:6-97). -/
noncomputable def obliqueMfd [Fintype m] [Fintype n] (dim : ℤ) (eps : ℝ) :
    Mfd ℝ (Matrix m n ℝ) (Matrix m n ℝ) :=
  arrayMfd dim oblNorm oblInner oblRetraction oblTransport (fun _ => 0) oblProj (oblLog eps)
    oblPairMean

/-- `ComplexCircle` (complex_circle.py:6-103). -/
noncomputable def complexCircleMfd [Fintype ι] (log : (ι → ℂ) → (ι → ℂ) → ι → ℂ) :
    Mfd ℝ (ι → ℂ) (ι → ℂ) :=
  arrayMfd (Fintype.card ι) ccNorm ccInner ccRetraction ccTransport (fun _ => 0) ccProj log
    ccPairMean

/-- `Positive` (positive.py:6-126). -/
noncomputable def positiveMfd [Fintype ι] (dim : ℤ) (parallel : Bool)
    (pairMean : (ι → ℝ) → (ι → ℝ) → ι → ℝ) : Mfd ℝ (ι → ℝ) (ι → ℝ) :=
  arrayMfd dim posNorm posInner posRetract (posTransport parallel) posZero posProj posLog pairMean

/-- `SymmetricPositiveDefinite` and `HermitianPositiveDefinite` (positive_definite.py:17-185). -/
noncomputable def positiveDefiniteMfd [Fintype κ] [Fintype n] [DecidableEq n] (dim : ℤ)
    (log pairMean : Stack κ n n 𝕜 → Stack κ n n 𝕜 → Stack κ n n 𝕜) :
    Mfd ℝ (Stack κ n n 𝕜) (Stack κ n n 𝕜) :=
  arrayMfd dim pdNorm pdInner pdRetract pdTransport pdZero pdProj log pairMean

/-- `SpecialHermitianPositiveDefinite` (positive_definite.py:188-291). -/
noncomputable def specialHpdMfd [Fintype κ] {n : ℕ} (dim : ℤ)
    (log pairMean : Stack κ (Fin n) (Fin n) ℂ → Stack κ (Fin n) (Fin n) ℂ →
      Stack κ (Fin n) (Fin n) ℂ) :
    Mfd ℝ (Stack κ (Fin n) (Fin n) ℂ) (Stack κ (Fin n) (Fin n) ℂ) :=
  arrayMfd dim pdNorm pdInner shpdRetract shpdTransport pdZero shpdToTangent log pairMean

/-- `Stiefel` (stiefel.py:13-148) with the retraction selected (`_retraction_qr` or
`_retraction_polar`), a function of LAPACK's factorisations. -/
noncomputable def stiefelMfd [Fintype κ] [Fintype n] {p : ℕ} (dim : ℤ)
    (retraction log pairMean : Stack κ n (Fin p) ℝ → Stack κ n (Fin p) ℝ → Stack κ n (Fin p) ℝ) :
    Mfd ℝ (Stack κ n (Fin p) ℝ) (Stack κ n (Fin p) ℝ) :=
  arrayMfd dim stNorm stInner retraction stTransport stZero stProj log pairMean

/-- `Grassmann` and `ComplexGrassmann` (grassmann.py:7-245). -/
noncomputable def grassmannMfd [Fintype κ] [Fintype n] {p : ℕ} (dim : ℤ)
    (retraction log pairMean : Stack κ n (Fin p) 𝕜 → Stack κ n (Fin p) 𝕜 → Stack κ n (Fin p) 𝕜) :
    Mfd ℝ (Stack κ n (Fin p) 𝕜) (Stack κ n (Fin p) 𝕜) :=
  arrayMfd dim grNorm cgrInner retraction cgrTransport grZero cgrProj log pairMean

/-- `Elliptope` (psd.py:164-276); `proj` stands for `projection`, which solves a Lyapunov
equation. -/
noncomputable def elliptopeMfd [Fintype n] {k : ℕ} (dim : ℤ)
    (proj log pairMean : Matrix n (Fin k) ℝ → Matrix n (Fin k) ℝ → Matrix n (Fin k) ℝ) :
    Mfd ℝ (Matrix n (Fin k) ℝ) (Matrix n (Fin k) ℝ) :=
  arrayMfd dim ellNorm ellInner ellRetraction (fun _ B V => proj B V) (fun _ => 0) proj log pairMean

/-- `PSDFixedRank` and `PSDFixedRankComplex` (psd.py:8-162); `proj` stands for `projection`, which
solves a Lyapunov equation. -/
noncomputable def psdMfd [Fintype n] {k : ℕ} (dim : ℤ)
    (proj log pairMean : Matrix n (Fin k) 𝕜 → Matrix n (Fin k) 𝕜 → Matrix n (Fin k) 𝕜) :
    Mfd ℝ (Matrix n (Fin k) 𝕜) (Matrix n (Fin k) 𝕜) :=
  arrayMfd dim psdNorm psdInner psdExp (fun _ B V => proj B V) (fun _ => 0) proj log pairMean

/-- `PoincareBall` (hyperbolic.py:6-188); `transport` is not implemented by this class. -/
noncomputable def poincareMfd [Fintype κ] [Fintype ι] (dim : ℤ)
    (transport : (κ → ι → ℝ) → (κ → ι → ℝ) → (κ → ι → ℝ) → κ → ι → ℝ)
    (log pairMean : (κ → ι → ℝ) → (κ → ι → ℝ) → κ → ι → ℝ) : Mfd ℝ (κ → ι → ℝ) (κ → ι → ℝ) :=
  arrayMfd dim pbNorm pbInner pbExp transport pbZero pbProj log pairMean

/-- `SpecialOrthogonalGroup` (group.py:18-177) with the retraction selected. -/
noncomputable def specialOrthogonalMfd [Fintype κ] {p : ℕ} (dim : ℤ)
    (retraction log pairMean : Stack κ (Fin p) (Fin p) ℝ → Stack κ (Fin p) (Fin p) ℝ →
      Stack κ (Fin p) (Fin p) ℝ) :
    Mfd ℝ (Stack κ (Fin p) (Fin p) ℝ) (Stack κ (Fin p) (Fin p) ℝ) :=
  arrayMfd dim gNorm gInner retraction gTransport gZero gToTangent log pairMean

/-- `Product` (product.py:11-157) of `k` manifolds, points and vectors being families of arrays.
The checks of lengths and the Python types of the lists are modelled in `Verif/Core`. -/
noncomputable def productMfd {k : ℕ} {E : Fin k → Type*} (Ms : ∀ i, Mfd ℝ (E i) (E i)) :
    Mfd ℝ (∀ i, E i) (∀ i, E i) where
  dim := ∑ i, (Ms i).dim
  norm x v := Real.sqrt (∑ i, (Ms i).inner (x i) (v i) (v i))
  inner x v w := ∑ i, (Ms i).inner (x i) (v i) (w i)
  retraction x v := fun i => (Ms i).retraction (x i) (v i)
  transport x y v := fun i => (Ms i).transport (x i) (y i) (v i)
  log x y := fun i => (Ms i).log (x i) (y i)
  pairMean x y := fun i => (Ms i).pairMean (x i) (y i)
  zeroVector x := fun i => (Ms i).zeroVector (x i)
  toTangent x v := fun i => (Ms i).toTangent (x i) (v i)
  add v w := fun i => (Ms i).add (v i) (w i)
  sub v w := fun i => (Ms i).sub (v i) (w i)
  neg v := fun i => (Ms i).neg (v i)
  smul a v := fun i => (Ms i).smul a (v i)

/-- `Problem` on a product: `Product.euclidean_to_riemannian_gradient`,
`Product.euclidean_to_riemannian_hessian` (product.py:86-97) convert factor by factor. -/
noncomputable def productProb {k : ℕ} {E : Fin k → Type*} (Ms : ∀ i, Mfd ℝ (E i) (E i))
    (e2rg : ∀ i, E i → E i → E i) (e2rh : ∀ i, E i → E i → E i → E i → E i)
    (embed : ∀ i, E i → E i → E i) (cost : (∀ i, E i) → ℝ) (egrad : (∀ i, E i) → ∀ i, E i)
    (ehess : (∀ i, E i) → (∀ i, E i) → ∀ i, E i) : Prob ℝ (∀ i, E i) (∀ i, E i) :=
  arrayProb (productMfd Ms) (fun x g i => e2rg i (x i) (g i))
    (fun x g h v i => e2rh i (x i) (g i) (h i) (v i)) (fun x v i => embed i (x i) (v i)) cost egrad
    ehess

end Verif.Geo
