/-
C134: runs do not depend on the representatives of points and on the coordinates of the ambient
space.  The translations of C133 for the manifolds of the library.
-/
import Verif.Opt.Props.Equivariance
import Verif.Opt.Props.EquivarianceFree
import Verif.Geo.Props.OptMfd
import Verif.Geo.Lemmas.Svd

namespace Verif.Geo
open Matrix Verif.Opt
open scoped ComplexOrder Topology

variable {κ ι m n : Type*} {𝕜 : Type*} [RCLike 𝕜]

/-! ## Specification: two costs that agree up to a change of coordinates -/

section spec
variable {E : Type*} [AddCommGroup E] [Module ℝ E]

/-- `egrad` is the gradient of `cost` on the arrays that satisfy `U`, a condition that holds around
each of them. -/
structure GradOn (B : E → E → ℝ) (U : E → Prop) (cost : E → ℝ) (egrad : E → E) : Prop where
  near : ∀ x d, U x → ∀ᶠ t in 𝓝 (0 : ℝ), U (x + t • d)
  grad : ∀ x d, U x → HasDerivAt (fun t : ℝ => cost (x + t • d)) (B (egrad x) d) 0

/-- `ehess` is the derivative of `egrad` on the arrays that satisfy `U`. -/
def HessOn (B : E → E → ℝ) (U : E → Prop) (egrad : E → E) (ehess : E → E → E) : Prop :=
  ∀ x d w, U x → HasDerivAt (fun t : ℝ => B (egrad (x + t • d)) w) (B (ehess x d) w) 0

/-- The change of coordinates `φ` turns the second cost into the first. -/
def SameCost (φ : E → E) (U U' : E → Prop) (cost cost' : E → ℝ) : Prop :=
  ∀ x, U x → U' (φ x) ∧ cost' (φ x) = cost x

/-- `φ` is affine with linear part `L`; `K` is the inverse of the adjoint of `L`. -/
structure AffineMap' (B : E → E → ℝ) (φ L K : E → E) : Prop where
  line : ∀ x d (t : ℝ), φ (x + t • d) = φ x + t • L d
  surj : Function.Surjective L
  adj : ∀ a b, B (K a) (L b) = B a b

variable {B : E → E → ℝ} {φ L K : E → E} {U U' : E → Prop} {cost cost' : E → ℝ} {egrad egrad' : E → E}
  {ehess ehess' : E → E → E}

theorem inner_ext (hB : IsInner B) (hL : Function.Surjective L) {a b : E}
    (h : ∀ d, B a (L d) = B b (L d)) : a = b := by
  obtain ⟨d, hd⟩ := hL (a - b)
  have := h d
  rw [hd, ← sub_eq_zero, ← hB.sub_left] at this
  exact sub_eq_zero.1 (hB.definite _ this)

/-- The gradients correspond. -/
theorem egrad_translate (hB : IsInner B) (hφ : AffineMap' B φ L K) (hg : GradOn B U cost egrad)
    (hg' : GradOn B U' cost' egrad') (hc : SameCost φ U U' cost cost') {x : E} (hx : U x) :
    egrad' (φ x) = K (egrad x) := by
  refine inner_ext hB hφ.surj fun d => ?_
  rw [hφ.adj]
  have h1 := hg.grad x d hx
  have h2 := hg'.grad (φ x) (L d) (hc x hx).1
  refine h2.unique (h1.congr_of_eventuallyEq ?_)
  filter_upwards [hg.near x d hx] with t ht
  rw [← hφ.line, (hc _ ht).2]

/-- The Hessians correspond. -/
theorem ehess_translate (hB : IsInner B) (hφ : AffineMap' B φ L K) (hg : GradOn B U cost egrad)
    (hg' : GradOn B U' cost' egrad') (hc : SameCost φ U U' cost cost') (hh : HessOn B U egrad ehess)
    (hh' : HessOn B U' egrad' ehess') {x : E} (hx : U x) (d : E) :
    ehess' (φ x) (L d) = K (ehess x d) := by
  refine inner_ext hB hφ.surj fun w => ?_
  rw [hφ.adj]
  have h1 := hh x d w hx
  have h2 := hh' (φ x) (L d) (L w) (hc x hx).1
  refine h2.unique (h1.congr_of_eventuallyEq ?_)
  filter_upwards [hg.near x d hx] with t ht
  rw [← hφ.line, egrad_translate hB hφ hg hg' hc ht, hφ.adj]

/-- **Specification**: `φ` maps the manifold `M` to the manifold `M'` and preserves all they do.
`L` is the linear part of `φ`, `T` its effect on tangent vectors as represented by the library
(equal to `L` unless tangent vectors are embedded), `K` its effect on Euclidean gradients. -/
structure Symmetry (B : E → E → ℝ) (On : E → Prop) (Tan : E → E → Prop) (M M' : Mfd ℝ E E)
    (e2rg e2rg' : E → E → E) (e2rh e2rh' : E → E → E → E → E) (embed embed' : E → E → E)
    (φ L T K : E → E) : Prop where
  affine : AffineMap' B φ L K
  embed : ∀ x v, On x → Tan x v → embed' (φ x) (T v) = L (embed x v)
  dim : M'.dim = M.dim
  norm : ∀ x v, On x → Tan x v → M'.norm (φ x) (T v) = M.norm x v
  inner : ∀ x v w, On x → Tan x v → Tan x w → M'.inner (φ x) (T v) (T w) = M.inner x v w
  retraction : ∀ x v, On x → Tan x v → M'.retraction (φ x) (T v) = φ (M.retraction x v)
  transport : ∀ x y v, On x → On y → Tan x v →
    M'.transport (φ x) (φ y) (T v) = T (M.transport x y v)
  zeroVector : ∀ x, On x → M'.zeroVector (φ x) = T (M.zeroVector x)
  toTangent : ∀ x v, On x → Tan x v → M'.toTangent (φ x) (T v) = T (M.toTangent x v)
  add : ∀ v w, M'.add (T v) (T w) = T (M.add v w)
  sub : ∀ v w, M'.sub (T v) (T w) = T (M.sub v w)
  neg : ∀ v, M'.neg (T v) = T (M.neg v)
  smul : ∀ a v, M'.smul a (T v) = T (M.smul a v)
  e2rg : ∀ x g, On x → e2rg' (φ x) (K g) = T (e2rg x g)
  e2rh : ∀ x g h v, On x → Tan x v → e2rh' (φ x) (K g) (K h) (T v) = T (e2rh x g h v)

/-- **C134** (all manifolds): a symmetry of the manifold translates each problem into the problem
whose cost is the same in the new coordinates. -/
theorem C134_problems {On : E → Prop} {Tan : E → E → Prop} {M M' : Mfd ℝ E E}
    {e2rg e2rg' : E → E → E} {e2rh e2rh' : E → E → E → E → E} {embed embed' : E → E → E}
    {T : E → E} (hB : IsInner B)
    (h : Symmetry B On Tan M M' e2rg e2rg' e2rh e2rh' embed embed' φ L T K)
    (hM : ClosedProb (arrayProb M e2rg e2rh embed cost egrad ehess) On Tan)
    (hs : ∀ x v w, On x → Tan x v → Tan x w → Tan x (M.sub v w))
    (hg : GradOn B U cost egrad) (hg' : GradOn B U' cost' egrad') (hc : SameCost φ U U' cost cost')
    (hU : ∀ x, On x → U x) :
    Translates φ (fun _ v => T v) On Tan (arrayProb M e2rg e2rh embed cost egrad ehess)
      (arrayProb M' e2rg' e2rh' embed' cost' egrad' ehess') ∧
    (ClosedHess (arrayProb M e2rg e2rh embed cost egrad ehess) On Tan → HessOn B U egrad ehess →
      HessOn B U' egrad' ehess' →
      TranslatesHess φ (fun _ v => T v) On Tan (arrayProb M e2rg e2rh embed cost egrad ehess)
        (arrayProb M' e2rg' e2rh' embed' cost' egrad' ehess')) := by
  have hG := fun x (hx : On x) => egrad_translate hB h.affine hg hg' hc (hU x hx)
  refine ⟨⟨hM, hs, h.dim, h.norm, h.inner, h.retraction, h.transport, h.zeroVector, h.toTangent,
    fun _ v w _ _ _ => h.add v w, fun _ v w _ _ _ => h.sub v w, fun _ v _ _ => h.neg v,
    fun _ a v _ _ => h.smul a v, fun x hx => (hc x (hU x hx)).2, fun x hx => ?_,
    fun _ _ _ _ => rfl⟩, fun h2 hh hh' => ⟨h2, fun x v hx hv => ?_⟩⟩
  · change e2rg' (φ x) (egrad' (φ x)) = T (e2rg x (egrad x))
    rw [hG x hx, h.e2rg x _ hx]
  · have hH := ehess_translate hB h.affine hg hg' hc hh hh' (hU x hx) (embed x v)
    change e2rh' (φ x) (egrad' (φ x)) (ehess' (φ x) (embed' (φ x) (T v))) (T v) =
      T (e2rh x (egrad x) (ehess x (embed x v)) v)
    rw [h.embed x v hx hv, hG x hx, hH, h.e2rh x _ _ v hx hv]

/-- Manifolds with vectors that are arrays: what remains to be shown of `Symmetry`. -/
theorem symmetry_of {dim : ℤ} {norm : E → E → ℝ} {inner : E → E → E → ℝ}
    {retraction retraction' : E → E → E} {transport transport' : E → E → E → E} {zero : E → E}
    {toTangent toTangent' log log' pairMean pairMean' : E → E → E} {e2rg e2rg' : E → E → E}
    {e2rh e2rh' : E → E → E → E → E} {embed : E → E → E} {On : E → Prop} {Tan : E → E → Prop}
    (T : E →ₗ[ℝ] E) (haff : AffineMap' B φ L K)
    (hemb : ∀ x v, On x → Tan x v → embed (φ x) (T v) = L (embed x v))
    (hnorm : ∀ x v, On x → Tan x v → norm (φ x) (T v) = norm x v)
    (hinner : ∀ x v w, On x → Tan x v → Tan x w → inner (φ x) (T v) (T w) = inner x v w)
    (hretr : ∀ x v, On x → Tan x v → retraction' (φ x) (T v) = φ (retraction x v))
    (htransp : ∀ x y v, On x → On y → Tan x v → transport' (φ x) (φ y) (T v) = T (transport x y v))
    (hzero : ∀ x, On x → zero (φ x) = T (zero x))
    (htan : ∀ x v, On x → Tan x v → toTangent' (φ x) (T v) = T (toTangent x v))
    (hgrad : ∀ x g, On x → e2rg' (φ x) (K g) = T (e2rg x g))
    (hhess : ∀ x g h v, On x → Tan x v → e2rh' (φ x) (K g) (K h) (T v) = T (e2rh x g h v)) :
    Symmetry B On Tan (arrayMfd dim norm inner retraction transport zero toTangent log pairMean)
      (arrayMfd dim norm inner retraction' transport' zero toTangent' log' pairMean') e2rg e2rg' e2rh
      e2rh' embed embed φ L T K where
  affine := haff
  embed := hemb
  dim := rfl
  norm := hnorm
  inner := hinner
  retraction := hretr
  transport := htransp
  zeroVector := hzero
  toTangent := htan
  add v w := (map_add T v w).symm
  sub v w := (map_sub T v w).symm
  neg v := (map_neg T v).symm
  smul a v := (map_smul T a v).symm
  e2rg := hgrad
  e2rh := hhess

/-- Differences of tangent vectors, in the form `C134_problems` asks for. -/
theorem sub_tan_of {On : E → Prop} {Tan : E → E → Prop} (h : ∀ x, IsSubspace (Tan x)) (x v w : E)
    (_ : On x) (hv : Tan x v) (hw : Tan x w) : Tan x (v - w) := by
  have := (h x).add hv ((h x).smul (-1) hw)
  rwa [neg_one_smul, ← sub_eq_add_neg] at this

end spec

/-! ## Multiplying the matrices of a stack from both sides -/

section twoSided
variable {p : Type*} [Fintype n] [Fintype p]

/-- `X ↦ A X C`, matrix by matrix. -/
def twoSided (A : Stack κ n n 𝕜) (C : Stack κ p p 𝕜) : Stack κ n p 𝕜 →ₗ[ℝ] Stack κ n p 𝕜 where
  toFun X := fun k => A k * X k * C k
  map_add' X Y := by
    funext k
    change A k * (X k + Y k) * C k = _
    rw [Matrix.mul_add, Matrix.add_mul]; rfl
  map_smul' t X := by
    funext k
    change A k * (t • X k) * C k = _
    rw [Matrix.mul_smul, Matrix.smul_mul]; rfl

theorem twoSided_apply (A : Stack κ n n 𝕜) (C : Stack κ p p 𝕜) (X : Stack κ n p 𝕜) (k : κ) :
    twoSided A C X k = A k * X k * C k := rfl

/-- Unitary on both sides. -/
structure Unitary2 [DecidableEq n] [DecidableEq p] (A : Stack κ n n 𝕜) (C : Stack κ p p 𝕜) : Prop where
  left : ∀ k, (A k)ᴴ * A k = 1
  right : ∀ k, (C k)ᴴ * C k = 1

variable [DecidableEq n] [DecidableEq p] {A : Stack κ n n 𝕜} {C : Stack κ p p 𝕜}

theorem Unitary2.left' (h : Unitary2 A C) (k : κ) : A k * (A k)ᴴ = 1 := mul_eq_one_comm.mp (h.left k)
theorem Unitary2.right' (h : Unitary2 A C) (k : κ) : C k * (C k)ᴴ = 1 :=
  mul_eq_one_comm.mp (h.right k)

/-- Products of translated matrices. -/
theorem Unitary2.gram (h : Unitary2 A C) (X Y : Stack κ n p 𝕜) (k : κ) :
    (twoSided A C X k)ᴴ * twoSided A C Y k = (C k)ᴴ * ((X k)ᴴ * Y k) * C k := by
  rw [twoSided_apply, twoSided_apply, conjTranspose_mul, conjTranspose_mul]
  calc (C k)ᴴ * ((X k)ᴴ * (A k)ᴴ) * (A k * Y k * C k)
      = (C k)ᴴ * ((X k)ᴴ * ((A k)ᴴ * A k) * Y k) * C k := by simp only [Matrix.mul_assoc]
    _ = _ := by rw [h.left, Matrix.mul_one]

/-- A translated matrix times a translated square matrix. -/
theorem Unitary2.mul (h : Unitary2 A C) (X : Stack κ n p 𝕜) (S : Matrix p p 𝕜) (k : κ) :
    twoSided A C X k * ((C k)ᴴ * S * C k) = A k * (X k * S) * C k := by
  rw [twoSided_apply]
  calc A k * X k * C k * ((C k)ᴴ * S * C k) = A k * X k * (C k * (C k)ᴴ) * S * C k := by
        simp only [Matrix.mul_assoc]
    _ = _ := by rw [h.right']; simp only [Matrix.mul_assoc, Matrix.one_mul]

theorem Unitary2.dot [Fintype κ] (h : Unitary2 A C) (X Y : Stack κ n p 𝕜) :
    stackDot (twoSided A C X) (twoSided A C Y) = stackDot X Y := by
  rw [stackDot_eq, stackDot_eq]
  refine Finset.sum_congr rfl fun k _ => ?_
  rw [trDot, h.gram, Matrix.trace_mul_comm, ← Matrix.mul_assoc, h.right', Matrix.one_mul, trDot]

theorem Unitary2.norm [Fintype κ] (h : Unitary2 A C) (X : Stack κ n p 𝕜) :
    stackNorm (twoSided A C X) = stackNorm X := by
  rw [stackNorm_eq_sqrt, stackNorm_eq_sqrt, h.dot]

theorem Unitary2.surj (h : Unitary2 A C) : Function.Surjective (twoSided A C) := by
  intro Y
  refine ⟨fun k => (A k)ᴴ * Y k * (C k)ᴴ, funext fun k => ?_⟩
  rw [twoSided_apply]
  calc A k * ((A k)ᴴ * Y k * (C k)ᴴ) * C k = A k * (A k)ᴴ * Y k * ((C k)ᴴ * C k) := by
        simp only [Matrix.mul_assoc]
    _ = _ := by rw [h.left', h.right, Matrix.one_mul, Matrix.mul_one]

theorem Unitary2.affine [Fintype κ] (h : Unitary2 A C) :
    AffineMap' (E := Stack κ n p 𝕜) stackDot (twoSided A C) (twoSided A C) (twoSided A C) where
  line x d t := by rw [map_add, map_smul]
  surj := h.surj
  adj := h.dot

end twoSided

/-! ## Factorisations of translated matrices -/

section factors
variable {p : ℕ} [Fintype n] [DecidableEq n]

/-- The polar factor of a translated matrix, whatever singular value decompositions are returned. -/
theorem polar_translate {Y u u' : Matrix n (Fin p) 𝕜} {s s' : Fin p → ℝ}
    {vt vt' : Matrix (Fin p) (Fin p) 𝕜} {A : Matrix n n 𝕜} {C : Matrix (Fin p) (Fin p) 𝕜}
    (hA : Aᴴ * A = 1) (hC : Cᴴ * C = 1) (h : IsSVD Y u s vt) (h' : IsSVD (A * Y * C) u' s' vt')
    (hs : ∀ i, 0 < s i) (hs' : ∀ i, 0 < s' i) : u' * vt' = A * (u * vt) * C := by
  have hC' : C * Cᴴ = 1 := mul_eq_one_comm.mp hC
  have h1 : IsSVDAny (A * Y * C) (A * u) s (vt * C) := by
    refine ⟨?_, ?_, h.nonneg, ?_⟩
    · rw [conjTranspose_mul, Matrix.mul_assoc, ← Matrix.mul_assoc Aᴴ, hA, Matrix.one_mul, h.orthU]
    · rw [conjTranspose_mul, Matrix.mul_assoc, ← Matrix.mul_assoc C, hC', Matrix.one_mul, h.orthV]
    · rw [h.prod]; simp only [Matrix.mul_assoc]
  have h2 := h'.any.map_unique h1 (f := fun x => if x = 0 then 0 else 1) (by simp)
  have e : ∀ {w : Fin p → ℝ}, (∀ i, 0 < w i) →
      (diagonal fun i => (((if w i = 0 then 0 else 1 : ℝ)) : 𝕜)) = 1 := by
    intro w hw
    rw [← diagonal_one]
    congr 1; funext i
    rw [if_neg (hw i).ne']; simp
  rw [e hs, e hs', Matrix.mul_one, Matrix.mul_one] at h2
  rw [h2]; simp only [Matrix.mul_assoc]

omit [DecidableEq n] in
theorem svd_pos {l : Type*} [Fintype l] {Y u : Matrix n (Fin p) 𝕜} {s : Fin p → ℝ}
    {vt : Matrix (Fin p) (Fin p) 𝕜} (h : IsSVD Y u s vt) {W : Matrix l (Fin p) 𝕜}
    (hY : Yᴴ * Y = 1 + Wᴴ * W) (i : Fin p) : 0 < s i := by
  have h1 := svd_sq h hY i
  have h2 : 0 ≤ ∑ j, ‖(W * vtᴴ) j i‖ ^ 2 := Finset.sum_nonneg fun _ _ => sq_nonneg _
  have h3 := h.nonneg i
  rcases h3.eq_or_lt with h4 | h4
  · rw [← h4] at h1; linarith
  · exact h4

end factors

/-! ## Grassmann -/

section grassmann
variable {p : ℕ} [Fintype n] [DecidableEq n]
  {A : Stack κ n n 𝕜} {C : Stack κ (Fin p) (Fin p) 𝕜}

theorem cgrProj_translate (h : Unitary2 A C) (X V : Stack κ n (Fin p) 𝕜) :
    cgrProj (twoSided A C X) (twoSided A C V) = twoSided A C (cgrProj X V) := by
  have e : ∀ X V : Stack κ n (Fin p) 𝕜, cgrProj X V = V - fun k => X k * ((X k)ᴴ * V k) := by
    intro X V; funext k
    change V k - X k * (X k)ᴴ * V k = V k - _
    rw [Matrix.mul_assoc]
  rw [e, e, map_sub]
  congr 1
  funext k
  rw [h.gram, h.mul]; rfl

theorem grOn_translate (h : Unitary2 A C) {X : Stack κ n (Fin p) 𝕜} (hX : Orthonormal' X) :
    Orthonormal' (twoSided A C X) := by
  rw [orthonormal_iff] at hX ⊢
  intro k
  rw [h.gram, hX, Matrix.mul_one, h.right]

theorem grTan_translate (h : Unitary2 A C) {X V : Stack κ n (Fin p) 𝕜} (hV : GrHorizontal X V) :
    GrHorizontal (twoSided A C X) (twoSided A C V) := by
  rw [grHorizontal_iff] at hV ⊢
  intro k
  rw [h.gram, hV, Matrix.mul_zero, Matrix.zero_mul]

theorem grRetraction_translate (h : Unitary2 A C) {X V Y Y' : Stack κ n (Fin p) 𝕜}
    (hX : Orthonormal' X) (hV : GrHorizontal X V) (hY : IsGrRetraction X V Y)
    (hY' : IsGrRetraction (twoSided A C X) (twoSided A C V) Y') : Y' = twoSided A C Y := by
  obtain ⟨u, s, vt, hs, rfl⟩ := hY
  obtain ⟨u', s', vt', hs', rfl⟩ := hY'
  funext k
  have e : grRetractArg (twoSided A C X) (twoSided A C V) k = A k * grRetractArg X V k * C k := by
    have := congrFun (map_add (twoSided A C) X V) k
    exact this.symm
  have h2 := hs' k
  refine polar_translate (h.left k) (h.right k) (hs k) (e ▸ h2)
    (svd_pos (hs k) (grRetractArg_gram hX hV k))
    (svd_pos h2 (grRetractArg_gram (grOn_translate h hX) (grTan_translate h hV) k))

/-- **C134** (Grassmann, real and complex): multiplying the representatives by unitary matrices `C`
(another basis of the same subspace) and the ambient space by unitary matrices `A` is a symmetry,
whatever decompositions LAPACK returns. -/
theorem C134_grassmann [Fintype κ] (h : Unitary2 A C) (dim : ℤ)
    {retraction retraction' log log' pairMean pairMean' :
      Stack κ n (Fin p) 𝕜 → Stack κ n (Fin p) 𝕜 → Stack κ n (Fin p) 𝕜}
    (hr : ∀ X V, IsGrRetraction X V (retraction X V))
    (hr' : ∀ X V, IsGrRetraction X V (retraction' X V)) :
    Symmetry stackDot Orthonormal' GrHorizontal (grassmannMfd dim retraction log pairMean)
      (grassmannMfd dim retraction' log' pairMean') cgrProj cgrProj cgrE2rh cgrE2rh (fun _ v => v)
      (fun _ v => v) (twoSided A C) (twoSided A C) (twoSided A C) (twoSided A C) := by
  refine symmetry_of (twoSided A C) h.affine (fun _ _ _ _ => rfl) (fun X V _ _ => h.norm V)
    (fun X V W _ _ _ => h.dot V W)
    (fun X V hX hV => grRetraction_translate h hX hV (hr _ _) (hr' _ _))
    (fun X Y V _ _ _ => cgrProj_translate h Y V) (fun X _ => (map_zero _).symm)
    (fun X V _ _ => cgrProj_translate h X V) (fun X G _ => cgrProj_translate h X G)
    fun X G H V _ _ => ?_
  have e : ∀ X G H V : Stack κ n (Fin p) 𝕜,
      cgrE2rh X G H V = cgrProj X H - fun k => V k * ((X k)ᴴ * G k) := fun _ _ _ _ => rfl
  rw [e, e, cgrProj_translate h, map_sub]
  congr 1
  funext k
  rw [h.gram, h.mul]; rfl

end grassmann

end Verif.Geo
