/-
C146 on the manifolds: the steps of the trust-region subproblem solver that stay inside the region
solve the Newton equation; and trust regions on the sphere computes eigenvectors quadratically.
-/
import Mathlib.Analysis.InnerProductSpace.PiL2
import Verif.Geo.Lemmas.Rayleigh
import Verif.Geo.Props.Dim
import Verif.Geo.Props.TCGSound
import Verif.Opt.Props.TRNewton

namespace Verif.Geo
open Matrix Verif.Opt
open scoped ComplexOrder InnerProductSpace

variable {κ ι m n p : Type*} {𝕜 : Type*} [RCLike 𝕜]

/-! ## The Newton equation -/

section
variable {E : Type*} [AddCommGroup E] [Module ℝ E]

/-- C146 (Newton equation) on arrays. -/
theorem tcgNewton_of [FiniteDimensional ℝ E] {P : Type*} {pb : Prob ℝ P E} {On : P → Prop}
    {Tan : P → E → Prop} {d : ℕ}
    (hadd : ∀ u v, pb.M.add u v = u + v) (hneg : ∀ u, pb.M.neg u = -u)
    (hsmul : ∀ (a : ℝ) v, pb.M.smul a v = a • v) (hzero : ∀ x, On x → pb.M.zeroVector x = 0)
    (hpre : ∀ x v, pb.precon x v = v) (htan : ∀ x v, On x → Tan x v → pb.M.toTangent x v = v)
    (hT : ∀ x, On x → IsSubspace (Tan x)) (hin : ∀ x, On x → IsInnerOn (Tan x) (pb.M.inner x))
    (hgrad : ∀ x, On x → Tan x (pb.grad x))
    (hH : ∀ x, On x → IsSymmOn (pb.M.inner x) (Tan x) (pb.hess x))
    (hdim : ∀ x, On x → tdim (Tan x) = d) : TCGNewton pb On d := by
  intro c mininner maxinner x Delta o hrand hk hmin hmax hx h hi
  have hTx := hT x hx
  have hB := hin x hx
  have hA := hH x hx
  have hd := hdim x hx
  rw [tdim_eq hTx] at hd
  let core : InnerProductSpace.Core ℝ hTx.sub :=
    { inner := fun u v => pb.M.inner x u v
      conj_inner_symm := fun u v => hB.symm _ _ v.2 u.2
      re_inner_nonneg := fun u => hB.nonneg _ u.2
      add_left := fun u v w => hB.add_left _ _ _ u.2 v.2 w.2
      smul_left := fun u v a => hB.smul_left _ _ _ u.2 v.2
      definite := fun u hu => Subtype.ext (hB.definite _ u.2 hu) }
  have hfin : FiniteDimensional ℝ hTx.sub := inferInstance
  let : NormedAddCommGroup hTx.sub := core.toNormedAddCommGroup
  let : InnerProductSpace ℝ hTx.sub := InnerProductSpace.ofCore core.toCore
  let H : hTx.sub →ₗ[ℝ] hTx.sub :=
    { toFun := fun v => ⟨pb.hess x v, hA.mem v.2⟩
      map_add' := fun u v => Subtype.ext (symmOn_add hTx hB hA u.2 v.2)
      map_smul' := fun a v => Subtype.ext (symmOn_smul hTx hB hA a v.2) }
  have hE : TangentAt pb x (fun v : hTx.sub => (v : E)) H fun v => v :=
    { inner := fun _ _ => rfl
      zero := hzero x hx
      toTangent := fun v => htan x _ hx v.2
      add := fun _ _ => hadd _ _
      neg := fun _ => hneg _
      smul := fun _ _ => hsmul _ _
      hess := fun _ => rfl
      precon := fun _ => hpre _ _ }
  exact tcg_newton_at hE (fun u v => (hA.symm u.2 v.2).symm) hrand hk
    (g := ⟨pb.grad x, hgrad x hx⟩) (by rw [hd]; exact hmin) (by rw [hd]; exact hmax) h hi

/-- C146 (Newton equation) for problems on arrays. -/
theorem arrayNewton_of [FiniteDimensional ℝ E] {dim : ℤ} {norm : E → E → ℝ}
    {inner : E → E → E → ℝ} {retraction : E → E → E} {transport : E → E → E → E} {zero : E → E}
    {toTangent : E → E → E} {log pairMean : E → E → E} {e2rg : E → E → E}
    {e2rh : E → E → E → E → E} {embed : E → E → E} {cost : E → ℝ} {egrad : E → E}
    {ehess : E → E → E} {On : E → Prop} {Tan : E → E → Prop} {d : ℕ} (hz : ∀ x, On x → zero x = 0)
    (htan : ∀ x v, On x → Tan x v → toTangent x v = v) (hT : ∀ x, IsSubspace (Tan x))
    (hin : ∀ x, On x → IsInnerOn (Tan x) (inner x)) (hg : ∀ x g, On x → Tan x (e2rg x g))
    (hH : ∀ x, On x → IsSymmOn (inner x) (Tan x) fun v => e2rh x (egrad x) (ehess x (embed x v)) v)
    (hdim : ∀ x, On x → tdim (Tan x) = d) :
    TCGNewton (arrayProb (arrayMfd dim norm inner retraction transport zero toTangent log pairMean)
      e2rg e2rh embed cost egrad ehess) On d :=
  tcgNewton_of (fun _ _ => rfl) (fun _ => rfl) (fun _ _ => rfl) hz (fun _ _ => rfl) htan
    (fun x _ => hT x) hin (fun x hx => hg x _ hx) hH hdim

end

theorem tcgSound_mono {P E : Type*} {pb : Prob ℝ P E} {On On' : P → Prop} {Tan : P → E → Prop}
    (h : TCGSound pb On Tan) (hO : ∀ x, On' x → On x) : TCGSound pb On' Tan :=
  fun c mi ma x D o hr hx => h c mi ma x D o hr (hO x hx)

theorem tcgNewton_mono {P E : Type*} {pb : Prob ℝ P E} {On On' : P → Prop} {d : ℕ}
    (h : TCGNewton pb On d) (hO : ∀ x, On' x → On x) : TCGNewton pb On' d :=
  fun c mi ma x D o hr hk hmi hma hx => h c mi ma x D o hr hk hmi hma (hO x hx)

/-- **C146** (Newton equation, Euclidean). -/
theorem C146_euclidean [Fintype ι] (dim : ℤ) (cost : (ι → ℝ) → ℝ) (egrad : (ι → ℝ) → ι → ℝ)
    {ehess : (ι → ℝ) → (ι → ℝ) → ι → ℝ}
    (hH : ∀ x u v, eucInner x u (ehess x v) = eucInner x (ehess x u) v) :
    TCGNewton (arrayProb (euclideanMfd dim) (subE2rg eucProj) eucE2rh (fun _ v => v) cost egrad
      ehess) (fun _ => True) (eucDim ι) :=
  arrayNewton_of (Tan := fun _ _ => True) (fun _ _ => rfl) (fun _ _ _ _ => rfl)
    (fun _ => isSubspace_true) (fun x _ => (C53_inner x x).1.on _) (fun _ _ _ => trivial)
    (fun x _ => ⟨fun _ => trivial, fun {u v} _ _ => hH x u v⟩) fun _ _ => C100_euclidean ι

/-- **C146** (Newton equation, sphere). -/
theorem C146_sphere [Fintype ι] (eps : ℝ) (cost : (ι → ℝ) → ℝ) (egrad : (ι → ℝ) → ι → ℝ)
    {ehess : (ι → ℝ) → (ι → ℝ) → ι → ℝ}
    (hH : ∀ x u v, ∑ i, u i * ehess x v i = ∑ i, ehess x u i * v i) :
    TCGNewton (arrayProb (sphereMfd eps) sphereE2rg sphereE2rh (fun _ v => v) cost egrad ehess)
      OnSphere (sphereDim ι).toNat :=
  arrayNewton_of (fun _ _ => rfl) (fun x _ hx hv => (C56_projection x hx).fixes hv)
    sphereTangent_subspace (fun x _ => (C56_metric x x).1.on _)
    (fun x g hx => (C56_tangent x hx x g g).2.1) (fun x hx => C60_symmetric x _ hx _ (hH x))
    fun x hx => by rw [← C100_sphere x hx]; simp

/-- **C146** (Newton equation, oblique). -/
theorem C146_oblique {m n : ℕ} (dim : ℤ) (eps : ℝ) (cost : Matrix (Fin m) (Fin n) ℝ → ℝ)
    (egrad : Matrix (Fin m) (Fin n) ℝ → Matrix (Fin m) (Fin n) ℝ)
    {ehess : Matrix (Fin m) (Fin n) ℝ → Matrix (Fin m) (Fin n) ℝ → Matrix (Fin m) (Fin n) ℝ}
    (hH : ∀ X U V, oblInner X U (ehess X V) = oblInner X (ehess X U) V) :
    TCGNewton (arrayProb (obliqueMfd dim eps) (subE2rg oblProj) oblE2rh (fun _ v => v) cost egrad
      ehess) OnOblique (oblDim m n).toNat :=
  arrayNewton_of (fun _ _ => rfl) (fun X _ hX hV => (C63_projection X hX).fixes hV)
    obliqueTangent_subspace (fun X _ => (oblInner_inner X).on _)
    (fun X G hX => (C63_projection X hX).mem G) (fun X hX => C63_hessian X _ hX _ (hH X))
    fun X hX => by rw [← C100_oblique X hX]; simp

/-- **C146** (Newton equation, complex circle). -/
theorem C146_complex_circle {n : ℕ} (log : (Fin n → ℂ) → (Fin n → ℂ) → Fin n → ℂ)
    (cost : (Fin n → ℂ) → ℝ) (egrad : (Fin n → ℂ) → Fin n → ℂ)
    {ehess : (Fin n → ℂ) → (Fin n → ℂ) → Fin n → ℂ}
    (hH : ∀ z u v, ccInner z u (ehess z v) = ccInner z (ehess z u) v) :
    TCGNewton (arrayProb (complexCircleMfd log) (subE2rg ccProj) ccE2rh (fun _ v => v) cost egrad
      ehess) OnCircles (ccDim n) :=
  arrayNewton_of (fun _ _ => rfl) (fun z _ hz hv => (C64_projection z hz).fixes hv)
    circlesTangent_subspace (fun z _ => (ccInner_inner z).on _)
    (fun z g hz => (C64_projection z hz).mem g) (fun z hz => C64_hessian z _ hz _ (hH z))
    fun z hz => C100_complex_circle z hz

/-- **C146** (Newton equation, Stiefel): for every retraction. -/
theorem C146_stiefel {n p k : ℕ} (dim : ℤ)
    (retraction log pairMean : Stack (Fin k) (Fin n) (Fin p) ℝ → Stack (Fin k) (Fin n) (Fin p) ℝ →
      Stack (Fin k) (Fin n) (Fin p) ℝ) (cost : Stack (Fin k) (Fin n) (Fin p) ℝ → ℝ)
    (egrad : Stack (Fin k) (Fin n) (Fin p) ℝ → Stack (Fin k) (Fin n) (Fin p) ℝ)
    {ehess : Stack (Fin k) (Fin n) (Fin p) ℝ → Stack (Fin k) (Fin n) (Fin p) ℝ →
      Stack (Fin k) (Fin n) (Fin p) ℝ}
    (hH : ∀ X U V, ∑ k, ∑ i, ∑ j, U k i j * ehess X V k i j =
      ∑ k, ∑ i, ∑ j, ehess X U k i j * V k i j) :
    TCGNewton (arrayProb (stiefelMfd dim retraction log pairMean) stE2rg stE2rh (fun _ v => v) cost
      egrad ehess) OnStiefel (stDim n p k).toNat :=
  arrayNewton_of (fun _ _ => rfl) (fun X _ hX hV => (C66_projection X hX).fixes hV)
    stiefelTangent_subspace (fun X _ => (C66_metric X X).1.on _)
    (fun X G hX => (C66_transport_gradient X X G hX).2.2.1)
    (fun X hX => C69_symmetric X _ hX _ (hH X))
    fun X hX => by rw [← C100_stiefel X hX]; simp

/-- **C146** (Newton equation, Grassmann): for costs that do not change along the column space. -/
theorem C146_grassmann {n p k : ℕ} (dim : ℤ)
    (retraction log pairMean : Stack (Fin k) (Fin n) (Fin p) ℝ → Stack (Fin k) (Fin n) (Fin p) ℝ →
      Stack (Fin k) (Fin n) (Fin p) ℝ) (cost : Stack (Fin k) (Fin n) (Fin p) ℝ → ℝ)
    {egrad : Stack (Fin k) (Fin n) (Fin p) ℝ → Stack (Fin k) (Fin n) (Fin p) ℝ}
    {ehess : Stack (Fin k) (Fin n) (Fin p) ℝ → Stack (Fin k) (Fin n) (Fin p) ℝ →
      Stack (Fin k) (Fin n) (Fin p) ℝ}
    (hG : ∀ X, Orthonormal' X → ∀ W : Stack (Fin k) (Fin p) (Fin p) ℝ, SkewHermStack W →
      stackDot (egrad X) (multiprod X W) = 0)
    (hH : ∀ X U V, stackDot U (ehess X V) = stackDot (ehess X U) V) :
    TCGNewton (arrayProb (grassmannMfd dim retraction log pairMean) cgrProj cgrE2rh (fun _ v => v)
      cost egrad ehess) Orthonormal' (grDim n p k).toNat :=
  arrayNewton_of (fun _ _ => rfl) (fun X _ hX hV => (C70_projection X hX).fixes hV)
    grHorizontal_subspace (fun X _ => (C70_metric X X).1.on _)
    (fun X G hX => (C70_transport_gradient X X G hX).2.1)
    (fun X hX => C70_symmetric X _ hX (hG X hX) _ (hH X))
    fun X hX => by rw [← C100_grassmann X hX]; simp

/-- **C146** (Newton equation, symmetric positive definite). -/
theorem C146_spd {n k : ℕ} (dim : ℤ)
    (log pairMean : Stack (Fin k) (Fin n) (Fin n) ℝ → Stack (Fin k) (Fin n) (Fin n) ℝ →
      Stack (Fin k) (Fin n) (Fin n) ℝ) (cost : Stack (Fin k) (Fin n) (Fin n) ℝ → ℝ)
    (egrad : Stack (Fin k) (Fin n) (Fin n) ℝ → Stack (Fin k) (Fin n) (Fin n) ℝ)
    {ehess : Stack (Fin k) (Fin n) (Fin n) ℝ → Stack (Fin k) (Fin n) (Fin n) ℝ →
      Stack (Fin k) (Fin n) (Fin n) ℝ}
    (hH : ∀ P U V, HermStack U → HermStack V → stackDot U (ehess P V) = stackDot (ehess P U) V) :
    TCGNewton (arrayProb (positiveDefiniteMfd dim log pairMean) pdE2rg pdE2rh (fun _ v => v) cost
      egrad ehess) PDPoint (spdDim n k) :=
  arrayNewton_of (Tan := fun _ => HermStack) (fun _ _ => rfl) (fun _ _ _ hV => multiherm_of_herm hV)
    (fun _ => hermStack_subspace) (fun P hP => (C81_metric P hP).1)
    (fun P G hP => (C84_gradient P G hP).1) (fun P hP => C84_symmetric P _ hP _ (hH P))
    fun _ _ => C100_spd n k

/-- **C146** (Newton equation, special orthogonal group): for every retraction. -/
theorem C146_special_orthogonal {p k : ℕ} (dim : ℤ)
    (retraction log pairMean : Stack (Fin k) (Fin p) (Fin p) ℝ → Stack (Fin k) (Fin p) (Fin p) ℝ →
      Stack (Fin k) (Fin p) (Fin p) ℝ)
    (cost : Stack (Fin k) (Fin p) (Fin p) ℝ → ℝ)
    (egrad : Stack (Fin k) (Fin p) (Fin p) ℝ → Stack (Fin k) (Fin p) (Fin p) ℝ)
    {ehess : Stack (Fin k) (Fin p) (Fin p) ℝ → Stack (Fin k) (Fin p) (Fin p) ℝ →
      Stack (Fin k) (Fin p) (Fin p) ℝ}
    (hH : ∀ X U W, stackDot (ehess X U) W = stackDot U (ehess X W)) :
    TCGNewton (arrayProb (specialOrthogonalMfd dim retraction log pairMean) gE2rg gE2rh gEmbed cost
      egrad ehess) OnSO (soDim p k).toNat :=
  arrayNewton_of (Tan := fun _ => InLie) (fun _ _ => rfl)
    (fun _ _ _ hV => funext fun k => skewPart_of_skew (hV k)) (fun _ => inLie_subspace)
    (fun X _ => (C95_metric X).2.1) (fun X G _ => (C95_so_gradient X G).1)
    (fun X _ => C98_symmetric X _ _ (hH X))
    fun _ _ => by rw [← C100_special_orthogonal p k]; simp

/-! ## Eigenvectors -/

section
variable [Fintype ι]

/-- The problem of `examples/dominant_eigenvector.py` (lines 14-55) on the sphere, up to the sign and
the factor of the matrix: the cost is `x.T @ A @ x / 2`. -/
noncomputable def rayProb (eps : ℝ) (A : Matrix ι ι ℝ) : Prob ℝ (ι → ℝ) (ι → ℝ) :=
  arrayProb (sphereMfd eps) sphereE2rg sphereE2rh (fun _ v => v)
    (fun x => 1 / 2 * tensordot x (A *ᵥ x)) (fun x => A *ᵥ x) fun _ v => A *ᵥ v

/-- `u` is a unit eigenvector of `A` for the eigenvalue `lam`, all other eigenvalues are at least
`lam + gap`, and none is larger than `K` in absolute value. -/
structure SimpleLowest (A : Matrix ι ι ℝ) (u : ι → ℝ) (lam gap K : ℝ) : Prop where
  symm : A.IsSymm
  unit : OnSphere u
  eigen : A *ᵥ u = lam • u
  gap_pos : 0 < gap
  gap : ∀ w, ∑ i, u i * w i = 0 → (lam + gap) * ∑ i, w i ^ 2 ≤ ∑ i, w i * (A *ᵥ w) i
  bound_nonneg : 0 ≤ K
  bound : ∀ w, ∑ i, (A *ᵥ w) i ^ 2 ≤ K ^ 2 * ∑ i, w i ^ 2

theorem toLp_inner (x y : ι → ℝ) :
    ⟪WithLp.toLp 2 x, WithLp.toLp 2 y⟫_ℝ = tensordot x y := by
  rw [EuclideanSpace.inner_toLp_toLp]
  simp [tensordot, dotProduct, mul_comm]

theorem toLp_norm (x : ι → ℝ) : ‖WithLp.toLp 2 x‖ = npNorm x := by
  rw [npNorm_eq_sqrt, ← toLp_inner, real_inner_self_eq_norm_sq, Real.sqrt_sq (norm_nonneg _)]

theorem toLp_perp (x w : ι → ℝ) :
    rayPerp (WithLp.toLp 2 x) (WithLp.toLp 2 w) = WithLp.toLp 2 (sphereProj x w) := by
  rw [rayPerp, toLp_inner]
  rfl

theorem tensordot_mulVec {A : Matrix ι ι ℝ} (hA : A.IsSymm) (u v : ι → ℝ) :
    tensordot u (A *ᵥ v) = tensordot (A *ᵥ u) v := by
  change u ⬝ᵥ (A *ᵥ v) = (A *ᵥ u) ⬝ᵥ v
  rw [dotProduct_mulVec, ← mulVec_transpose, hA.eq]

theorem sum_sq_eq (w : ι → ℝ) : ∑ i, w i ^ 2 = ‖WithLp.toLp 2 w‖ ^ 2 := by
  rw [toLp_norm, npNorm_sq_real]
  simp [tensordot, sq]

private theorem ray_tlen {A : Matrix ι ι ℝ} (eps : ℝ) (x v : ι → ℝ) :
    tlen (rayProb eps A) x v = ‖WithLp.toLp 2 v‖ := by
  rw [toLp_norm, npNorm_eq_sqrt]
  rfl

variable [DecidableEq ι] {A : Matrix ι ι ℝ} {u : ι → ℝ} {lam gap K : ℝ}

/-- The matrix on the inner product space of arrays. -/
noncomputable abbrev rayLin (A : Matrix ι ι ℝ) :
    EuclideanSpace ℝ ι →ₗ[ℝ] EuclideanSpace ℝ ι := Matrix.toLpLin 2 2 A

theorem rayLin_apply (A : Matrix ι ι ℝ) (x : ι → ℝ) :
    rayLin A (WithLp.toLp 2 x) = WithLp.toLp 2 (A *ᵥ x) := rfl

theorem rayLin_symm (hA : A.IsSymm) (u w : EuclideanSpace ℝ ι) :
    ⟪rayLin A u, w⟫_ℝ = ⟪u, rayLin A w⟫_ℝ := by
  obtain ⟨u, rfl⟩ := WithLp.toLp_surjective 2 u
  obtain ⟨w, rfl⟩ := WithLp.toLp_surjective 2 w
  rw [rayLin_apply, rayLin_apply, toLp_inner, toLp_inner, tensordot_mulVec hA]

namespace SimpleLowest
variable (h : SimpleLowest A u lam gap K)
include h

omit [DecidableEq ι] in
theorem unit' : ⟪WithLp.toLp 2 u, WithLp.toLp 2 u⟫_ℝ = 1 := by
  rw [toLp_inner, h.unit.dot]

theorem eigen' : rayLin A (WithLp.toLp 2 u) = lam • WithLp.toLp 2 u := by
  rw [rayLin_apply, h.eigen]
  rfl

theorem gap' (w : EuclideanSpace ℝ ι) (hw : ⟪WithLp.toLp 2 u, w⟫_ℝ = 0) :
    (lam + gap) * ‖w‖ ^ 2 ≤ ⟪w, rayLin A w⟫_ℝ := by
  obtain ⟨w, rfl⟩ := WithLp.toLp_surjective 2 w
  rw [toLp_inner] at hw
  rw [← sum_sq_eq, rayLin_apply, toLp_inner]
  exact h.gap w hw

theorem bound' (w : EuclideanSpace ℝ ι) : ‖rayLin A w‖ ≤ K * ‖w‖ := by
  obtain ⟨w, rfl⟩ := WithLp.toLp_surjective 2 w
  refine abs_le_of_sq_le_sq' ?_ (mul_nonneg h.bound_nonneg (norm_nonneg _)) |>.2
  rw [mul_pow, ← sum_sq_eq, rayLin_apply, ← sum_sq_eq]
  exact h.bound w

end SimpleLowest

/-- The points of the sphere where the cost is close to the smallest. -/
def NearLowest (A : Matrix ι ι ℝ) (lam e : ℝ) (x : ι → ℝ) : Prop :=
  OnSphere x ∧ ∑ i, x i * (A *ᵥ x) i ≤ lam + e

theorem ray_gradient (eps : ℝ) (x : ι → ℝ) :
    WithLp.toLp 2 ((rayProb eps A).grad x) =
      rayPerp (WithLp.toLp 2 x) (rayLin A (WithLp.toLp 2 x)) := by
  rw [rayLin_apply, toLp_perp]
  rfl

private theorem ray_hessian (eps : ℝ) {x : ι → ℝ} (hx : OnSphere x) (v : ι → ℝ) :
    WithLp.toLp 2 ((rayProb eps A).hess x v) =
      rayPerp (WithLp.toLp 2 x) (rayLin A (WithLp.toLp 2 v)) -
        ⟪WithLp.toLp 2 x, rayLin A (WithLp.toLp 2 x)⟫_ℝ • WithLp.toLp 2 v := by
  rw [rayLin_apply, rayLin_apply, toLp_perp, toLp_inner]
  change WithLp.toLp 2 (sphereE2rh x (A *ᵥ x) (A *ᵥ v) v) = _
  rw [sphereE2rh_eq hx]
  rfl

/-- **C146** (model) The quotient on the sphere near a simple lowest eigenvalue. -/
theorem C146_eigenvector_model (h : SimpleLowest A u lam gap K) (eps : ℝ) {e : ℝ}
    (he : e ≤ gap / 4) :
    NewtonModel (rayProb eps A) (NearLowest A lam e) SphereTangent (gap / 2) (2 * K) (2 * K)
      (2 * K * Real.sqrt (e / gap)) := by
  have hcost : ∀ x, (rayProb eps A).cost x =
      1 / 2 * ⟪WithLp.toLp 2 x, rayLin A (WithLp.toLp 2 x)⟫_ℝ := fun x => by
    rw [rayLin_apply, toLp_inner]
    rfl
  have hinner : ∀ x a b, (rayProb eps A).M.inner x a b = ⟪WithLp.toLp 2 a, WithLp.toLp 2 b⟫_ℝ :=
    fun x a b => by rw [toLp_inner]; rfl
  have hone : ∀ x : ι → ℝ, OnSphere x → ⟪WithLp.toLp 2 x, WithLp.toLp 2 x⟫_ℝ = 1 := fun x hx => by
    rw [toLp_inner, hx.dot]
  have htan : ∀ x v : ι → ℝ, SphereTangent x v → ⟪WithLp.toLp 2 x, WithLp.toLp 2 v⟫_ℝ = 0 :=
    fun x v hv => by rw [toLp_inner]; exact hv
  have hhess : ∀ x v : ι → ℝ, OnSphere x → SphereTangent x v →
      (rayProb eps A).M.inner x v ((rayProb eps A).hess x v) =
        ⟪WithLp.toLp 2 v, rayLin A (WithLp.toLp 2 v)⟫_ℝ -
          ⟪WithLp.toLp 2 x, rayLin A (WithLp.toLp 2 x)⟫_ℝ * ‖WithLp.toLp 2 v‖ ^ 2 := by
    intro x v hx hv
    have h0 := htan x v hv
    rw [real_inner_comm] at h0
    rw [hinner, ray_hessian eps hx, inner_sub_right, rayPerp, inner_sub_right,
      real_inner_smul_right, real_inner_smul_right, h0, real_inner_self_eq_norm_sq]
    ring
  have hnear : ∀ x : ι → ℝ, NearLowest A lam e x →
      ⟪WithLp.toLp 2 x, rayLin A (WithLp.toLp 2 x)⟫_ℝ ≤ lam + e := fun x hx => by
    rw [rayLin_apply, toLp_inner]
    exact hx.2
  have hret : ∀ x v : ι → ℝ, OnSphere x → SphereTangent x v →
      0 < npNorm (x + v) ∧ npNorm (x + v) ^ 2 = 1 + ‖WithLp.toLp 2 v‖ ^ 2 ∧
        WithLp.toLp 2 ((rayProb eps A).M.retraction x v) =
          (npNorm (x + v))⁻¹ • (WithLp.toLp 2 x + WithLp.toLp 2 v) := by
    intro x v hx hv
    refine ⟨one_pos.trans_le (C57_stays x v hx hv).1, ?_, rfl⟩
    rw [npNorm_sq_real, ← toLp_inner, WithLp.toLp_add, inner_add_left, inner_add_right,
      inner_add_right, hone x hx, htan x v hv, real_inner_comm, htan x v hv,
      real_inner_self_eq_norm_sq]
    ring
  exact
    { closed := fun x v hx hv _ hle => by
        refine ⟨(C57_stays x v hx.1 hv).2.1, le_trans ?_ hx.2⟩
        change 1 / 2 * tensordot _ _ ≤ 1 / 2 * tensordot _ _ at hle
        have := le_of_mul_le_mul_left hle (by norm_num)
        exact this
      tan := fun x hx => (C56_tangent x hx.1 x _ (A *ᵥ x)).2.1
      nonneg := fun x v _ _ => by rw [hinner]; exact real_inner_self_nonneg
      cauchy := fun x v _ _ => by
        rw [hinner, ray_tlen, ray_tlen]
        exact abs_real_inner_le_norm _ _
      small := fun x hx => by
        rw [ray_tlen, ray_gradient]
        exact ray_small h.bound' (rayLin_symm h.symm) h.unit' h.eigen' h.gap' h.gap_pos
          (hone x hx.1) (hnear x hx)
      lower := fun x v hx hv => by
        rw [hhess x v hx.1 hv, hinner, real_inner_self_eq_norm_sq]
        refine le_trans ?_ (ray_curv (rayLin_symm h.symm) h.unit' h.eigen' h.gap' h.gap_pos
          (hone x hx.1) (htan x v hv) (hnear x hx))
        exact mul_le_mul_of_nonneg_right (by linarith) (sq_nonneg _)
      upper := fun x v hx hv => by
        rw [hhess x v hx.1 hv, hinner, real_inner_self_eq_norm_sq]
        exact ray_curv_le h.bound' (hone x hx.1)
      cost := fun x v hx hv _ => by
        obtain ⟨r0, r1, r2⟩ := hret x v hx.1 hv
        rw [hcost, hcost, hhess x v hx.1 hv, hinner, ray_tlen, ray_gradient]
        have := ray_cost h.bound' (rayLin_symm h.symm) h.bound_nonneg (hone x hx.1) r1 r2
        rw [rayPerp, inner_sub_left, real_inner_smul_left, htan x v hv, mul_zero, sub_zero,
          rayLin_symm h.symm]
        exact this
      grad := fun x v hx hv _ => by
        obtain ⟨r0, r1, r2⟩ := hret x v hx.1 hv
        rw [ray_tlen, ray_tlen, ray_tlen, ray_gradient]
        change _ ≤ ‖WithLp.toLp 2 ((rayProb eps A).grad x + (rayProb eps A).hess x v)‖ + _
        rw [WithLp.toLp_add, ray_gradient, ray_hessian eps hx.1]
        refine (ray_grad h.bound' (hone x hx.1) (htan x v hv) r0 r1 r2).trans ?_
        have := mul_nonneg h.bound_nonneg (sq_nonneg ‖WithLp.toLp 2 v‖)
        linarith }

omit [DecidableEq ι] in
/-- The cost function of `examples/dominant_eigenvector.py:31-37`, with its Euclidean gradient and
Hessian: `rayProb` for the matrix `-2 M`. -/
theorem dominant_eq (eps : ℝ) (M : Matrix ι ι ℝ) :
    arrayProb (sphereMfd eps) sphereE2rg sphereE2rh (fun _ v => v) (fun x => -(x ⬝ᵥ M *ᵥ x))
      (fun x => -(2 • M *ᵥ x)) (fun _ v => -(2 • M *ᵥ v)) = rayProb eps (-(2 • M)) := by
  have e : ∀ x, -(2 • M) *ᵥ x = -(2 • M *ᵥ x) := fun x => by rw [neg_mulVec, smul_mulVec]
  unfold rayProb
  simp only [e]
  congr 1
  funext x
  change _ = 1 / 2 * (x ⬝ᵥ -(2 • M *ᵥ x))
  rw [dotProduct_neg, dotProduct_smul, nsmul_eq_mul]
  push_cast
  ring

theorem ray_lowest (h : SimpleLowest A u lam gap K) (eps : ℝ) {x : ι → ℝ}
    (hx : OnSphere x) : 1 / 2 * lam ≤ (rayProb eps A).cost x := by
  have h1 := ray_near (rayLin_symm h.symm) h.unit' h.eigen' h.gap'
    (x := WithLp.toLp 2 x) (by rw [toLp_inner, hx.dot])
    (e := ⟪WithLp.toLp 2 x, rayLin A (WithLp.toLp 2 x)⟫_ℝ - lam) (by linarith)
  have h2 := real_inner_mul_inner_self_le (WithLp.toLp 2 u) (WithLp.toLp 2 x)
  rw [h.unit', toLp_inner x x, hx.dot, toLp_inner] at h2
  rw [rayLin_apply, toLp_inner, toLp_inner] at h1
  have h3 := mul_nonneg h.gap_pos.le (by nlinarith : 0 ≤ 1 - tensordot u x ^ 2)
  change _ ≤ 1 / 2 * tensordot x (A *ᵥ x)
  linarith

/-- **C146** (eigenvectors) Trust regions for `x.T @ A @ x / 2` on the sphere, started where the cost
is close to the smallest one.  The iterations, until the gradient norm is below the minimal gradient
norm `ε`, are at most `4 e / (nₛ min(Delta0, nₛ / 2K))` and a doubly logarithmic number in `ε`; the
sine of the angle between the result and the eigenvector is then at most `4 ε / (3 gap)`. -/
theorem C146_eigenvector (h : SimpleLowest A u lam gap K) (eps : ℝ) {e : ℝ} (he : e ≤ gap / 4)
    (hsmall : 4096 * K ^ 3 * Real.sqrt (e / gap) < gap ^ 3)
    {cfg : Cfg ℝ} {c : TRCfg ℝ} {clk : Clock ℝ} {eta0 : ℤ → ι → ℝ} {mininner maxinner : ℤ}
    {DeltaBar : ℝ} (hrand : c.useRand = false) (hk : 0 ≤ c.kappa)
    (hmin : mininner < sphereDim ι) (hmax : sphereDim ι ≤ maxinner) (hrho : c.rhoPrime < 1 / 4)
    (hreg : 0 ≤ c.rhoRegularization) {ε : ℝ} (hε : 0 < ε) (hcfg : cfg.minGradientNorm = ε)
    {tau a : ℝ} (ha : a = 1 + 8 * K / gap ^ 2) (ht0 : 0 < tau) (ht1 : tau ≤ 1)
    (htt : tau ≤ c.theta) {x : ι → ℝ} {Delta0 ns : ℝ} (hx : NearLowest A lam e x)
    (hD0 : 0 < Delta0) (hDB : Delta0 ≤ DeltaBar)
    (hx0 : ε ≤ npNorm (sphereProj x (A *ᵥ x))) (hns : ε ≤ ns) (hnsD : 4 / gap * ns ≤ Delta0)
    (hnsA : a * ns ^ tau < 1) {res : Result ℝ (ι → ℝ) × List ((ι → ℝ) × ℝ × ℝ)}
    (hres : Runs (trStep cfg c (rayProb eps A) clk eta0 mininner maxinner DeltaBar)
      (trInit (rayProb eps A) x Delta0) (.ok res)) :
    (res.1.iterations : ℝ) ≤ 4 * e / (ns * min Delta0 (ns / (2 * K))) +
      Real.logb (1 + tau) (Real.log (a * ε ^ tau) / Real.log (a * ns ^ tau)) + 1 ∧
    (4 * e / (ns * min Delta0 (ns / (2 * K))) +
        Real.logb (1 + tau) (Real.log (a * ε ^ tau) / Real.log (a * ns ^ tau)) + 1 <
          cfg.maxIterations →
      (∀ i, clk.check2 i 0 < clk.start + cfg.maxTime) → 0 ≤ cfg.maxCostEvaluations →
      NearLowest A lam e res.1.point ∧
      Real.sqrt (1 - (∑ i, u i * res.1.point i) ^ 2) ≤ 4 * ε / (3 * gap)) := by
  have hsym : ∀ x u v : ι → ℝ, ∑ i, u i * (A *ᵥ v) i = ∑ i, (A *ᵥ u) i * v i := fun _ u v =>
    tensordot_mulVec h.symm u v
  have hS : TCGSound (rayProb eps A) (NearLowest A lam e) SphereTangent :=
    tcgSound_mono (C115_sphere eps _ _ hsym) fun _ h => h.1
  have hN : TCGNewton (rayProb eps A) (NearLowest A lam e) (sphereDim ι).toNat :=
    tcgNewton_mono (C146_sphere eps _ _ hsym) fun _ h => h.1
  have hM := C146_eigenvector_model h eps he
  have hg := h.gap_pos
  have hne : Nonempty ι := by
    by_contra hc
    rw [not_nonempty_iff] at hc
    have := hx.1
    simp [OnSphere] at this
  have hdim : ((sphereDim ι).toNat : ℤ) = sphereDim ι := by
    refine Int.toNat_of_nonneg ?_
    have := Fintype.card_pos (α := ι)
    unfold sphereDim
    omega
  have hlen : ∀ y v, tlen (rayProb eps A) y v = npNorm v := fun y v => by
    rw [ray_tlen, toLp_norm]
  have hgradx : tlen (rayProb eps A) x ((rayProb eps A).grad x) = npNorm (sphereProj x (A *ᵥ x)) :=
    hlen _ _
  have hmuB : gap / 2 ≤ 2 * K := by
    have h1 := hM.lower x _ hx (hM.tan x hx)
    have h2 := hM.upper x _ hx (hM.tan x hx)
    have h3 : 0 < tlen (rayProb eps A) x ((rayProb eps A).grad x) := by
      rw [hgradx]; exact hε.trans_le hx0
    exact le_of_mul_le_mul_right (h1.trans h2) (Real.sqrt_pos.1 h3)
  have hd : 64 * (2 * K) * (2 * K) * (2 * K * Real.sqrt (e / gap)) < (gap / 2) ^ 3 := by
    nlinarith
  have hA : a = 1 + 2 * K / (gap / 2) ^ 2 := by
    rw [ha]
    field_simp
    ring
  have hfmin : ∀ y, NearLowest A lam e y → 1 / 2 * lam ≤ (rayProb eps A).cost y := fun y hy =>
    ray_lowest h eps hy.1
  have hmain := (C146_iterations (clk := clk) (eta0 := eta0) (DeltaBar := DeltaBar) hS hN hM
    (half_pos hg) hmuB (mul_nonneg zero_le_two h.bound_nonneg) hd hrand hk
    (by rw [hdim]; exact hmin) (by rw [hdim]; exact hmax) hrho hreg hε hcfg
    (fun y _ => by rw [hlen]; rfl) hA ht0 ht1 htt hx hD0 hDB hfmin (by rw [hgradx]; exact hx0) hns
    (by have : 2 / (gap / 2) = 4 / gap := by field_simp; norm_num
        rw [this]; exact hnsD) hnsA).2 res hres
  have hcx : 8 * ((rayProb eps A).cost x - 1 / 2 * lam) ≤ 4 * e := by
    have h1 : (rayProb eps A).cost x = 1 / 2 * ∑ i, x i * (A *ᵥ x) i := rfl
    have := hx.2
    rw [h1]
    linarith
  have hns0 := hε.trans_le hns
  have hpos : 0 < ns * min Delta0 (ns / (2 * K)) :=
    mul_pos hns0 (lt_min hD0 (div_pos hns0 (by linarith)))
  have hb := div_le_div_of_nonneg_right hcx hpos.le
  refine ⟨by linarith [hmain.1], fun h1 h2 h3 => ?_⟩
  have hlt := hmain.2 (by linarith) h2 h3
  have hmem := C146_mem hS hN hM (half_pos hg) (mul_nonneg zero_le_two h.bound_nonneg) hd hrand hk
    (by rw [hdim]; exact hmin) (by rw [hdim]; exact hmax) hrho hreg (hcfg ▸ hε)
    (fun y _ => by rw [hlen]; rfl) hx hD0 hDB (by rw [hgradx]; exact hε.trans_le hx0) hres
  refine ⟨hmem, ?_⟩
  have hn : ‖WithLp.toLp 2 ((rayProb eps A).grad res.1.point)‖ < ε := by
    rw [toLp_norm]; exact hlt
  rw [ray_gradient] at hn
  have hone : ⟪WithLp.toLp 2 res.1.point, WithLp.toLp 2 res.1.point⟫_ℝ = 1 := by
    rw [toLp_inner, hmem.1.dot]
  have ha1 := ray_angle (rayLin_symm h.symm) h.unit' h.eigen' h.gap' hone
  have ha2 := ray_near (rayLin_symm h.symm) h.unit' h.eigen' h.gap' hone (e := e)
    (by rw [rayLin_apply, toLp_inner]; exact hmem.2)
  rw [toLp_inner] at ha1 ha2
  have ha3 : 3 / 4 ≤ tensordot u res.1.point ^ 2 := by
    have : gap * (3 / 4) ≤ gap * tensordot u res.1.point ^ 2 := by linarith
    exact le_of_mul_le_mul_left this hg
  change Real.sqrt (1 - tensordot u res.1.point ^ 2) ≤ _
  rw [le_div_iff₀ (by positivity)]
  have hs := Real.sqrt_nonneg (1 - tensordot u res.1.point ^ 2)
  have : gap * (3 / 4) * Real.sqrt (1 - tensordot u res.1.point ^ 2) ≤
      gap * tensordot u res.1.point ^ 2 * Real.sqrt (1 - tensordot u res.1.point ^ 2) :=
    mul_le_mul_of_nonneg_right (mul_le_mul_of_nonneg_left ha3 hg.le) hs
  linarith

end

/-- Non-vacuity: the diagonal matrix with entries 1, 2 and 3, with `gap = 1` and `K = 3`. -/
theorem diag123 : SimpleLowest (diagonal ![1, 2, 3] : Matrix (Fin 3) (Fin 3) ℝ) ![1, 0, 0] 1 1 3 where
  symm := isSymm_diagonal _
  unit := by simp [OnSphere, Fin.sum_univ_three]
  eigen := by
    funext i
    fin_cases i <;> simp [mulVec_diagonal]
  gap_pos := one_pos
  gap w hw := by
    simp [Fin.sum_univ_three] at hw
    simp [Fin.sum_univ_three, mulVec_diagonal, hw]
    nlinarith [sq_nonneg (w 2)]
  bound_nonneg := by norm_num
  bound w := by
    simp only [Fin.sum_univ_three, mulVec_diagonal]
    simp
    nlinarith [sq_nonneg (w 0), sq_nonneg (w 1), sq_nonneg (w 2)]

/-- Non-vacuity: a start at an angle of about `2e-7`, with the default `theta` and a minimal gradient
norm `1e-9`: at most `2` iterations are needed, plus doubly logarithmically many. -/
example {cfg : Cfg ℝ} {c : TRCfg ℝ} {clk : Clock ℝ} {eta0 : ℤ → Fin 3 → ℝ} {mininner maxinner : ℤ}
    {DeltaBar : ℝ} (hrand : c.useRand = false) (hk : c.kappa = 1 / 10) (ht : c.theta = 1)
    (hmin : mininner = 1) (hmax : maxinner = 2) (hrho : c.rhoPrime = 1 / 10)
    (hreg : c.rhoRegularization = 1000) (hcfg : cfg.minGradientNorm = 1 / 10 ^ 9)
    (hDB : 1 ≤ DeltaBar) {res : Result ℝ (Fin 3 → ℝ) × List ((Fin 3 → ℝ) × ℝ × ℝ)}
    (hres : Runs (trStep cfg c (rayProb 0 (diagonal ![1, 2, 3])) clk eta0 mininner maxinner DeltaBar)
      (trInit (rayProb 0 (diagonal ![1, 2, 3]))
        ![(10 ^ 14 - 1) / (10 ^ 14 + 1), 2 * 10 ^ 7 / (10 ^ 14 + 1), 0] 1) (.ok res)) :
    (res.1.iterations : ℝ) ≤ 4 * (1 / 10 ^ 12) / (1 / 100 * min 1 (1 / 100 / (2 * 3))) +
      Real.logb (1 + 1) (Real.log (25 * (1 / 10 ^ 9) ^ (1 : ℝ)) /
        Real.log (25 * (1 / 100) ^ (1 : ℝ))) + 1 := by
  refine (C146_eigenvector diag123 0 (e := 1 / 10 ^ 12) (by norm_num) ?_ hrand (by rw [hk]; norm_num)
    (by rw [hmin]; decide) (by rw [hmax]; decide) (by rw [hrho]; norm_num) (by rw [hreg]; norm_num)
    (by norm_num) hcfg (by norm_num) one_pos le_rfl ht.ge ⟨?_, ?_⟩ one_pos hDB ?_ (by norm_num)
    (by norm_num) (by norm_num) hres).1
  · have : Real.sqrt (1 / 10 ^ 12 / 1) = 1 / 10 ^ 6 := by
      rw [Real.sqrt_eq_iff_mul_self_eq (by norm_num) (by norm_num)]
      norm_num
    rw [this]
    norm_num
  · simp [OnSphere, Fin.sum_univ_three]
    norm_num
  · simp [Fin.sum_univ_three, mulVec_diagonal]
    norm_num
  · rw [npNorm_eq_sqrt]
    refine Real.le_sqrt_of_sq_le ?_
    simp [tensordot, sphereProj, sphereInner, Fin.sum_univ_three, mulVec_diagonal]
    norm_num

end Verif.Geo
