/-
C115 on the manifolds: the step of the trust-region subproblem solver is a tangent vector in the
region, at which the quadratic model is at most its value at the Cauchy point.
-/
import Mathlib.Analysis.InnerProductSpace.Defs
import Verif.Opt.Props.TCGTangent
import Verif.Geo.Props.OptMfd

namespace Verif.Geo
open Matrix Verif.Opt
open scoped ComplexOrder InnerProductSpace

variable {κ ι m n p : Type*} {𝕜 : Type*} [RCLike 𝕜]

section
variable {E : Type*} [AddCommGroup E] [Module ℝ E]

/-- A symmetric operator is additive. -/
theorem symmOn_add {T : E → Prop} {B : E → E → ℝ} {A : E → E} (hT : IsSubspace T)
    (hB : IsInnerOn T B) (hA : IsSymmOn B T A) {u v : E} (hu : T u) (hv : T v) :
    A (u + v) = A u + A v := by
  have huv := hT.add hu hv
  have h1 := hA.mem huv
  have h2 := hT.add (hA.mem hu) (hA.mem hv)
  have h3 := hT.add h1 (hT.smul (-1) h2)
  have key : ∀ w, T w → B (A (u + v) + (-1 : ℝ) • (A u + A v)) w = 0 := by
    intro w hw
    have hAw := hA.mem hw
    rw [hB.add_left _ _ _ h1 (hT.smul _ h2) hw, hB.smul_left _ _ _ h2 hw,
      hB.add_left _ _ _ (hA.mem hu) (hA.mem hv) hw, ← hA.symm huv hw, ← hA.symm hu hw,
      ← hA.symm hv hw, hB.add_left _ _ _ hu hv hAw]
    ring
  have := hB.definite _ h3 (key _ h3)
  rw [neg_one_smul, ← sub_eq_add_neg] at this
  exact sub_eq_zero.1 this

/-- A symmetric operator is homogeneous. -/
theorem symmOn_smul {T : E → Prop} {B : E → E → ℝ} {A : E → E} (hT : IsSubspace T)
    (hB : IsInnerOn T B) (hA : IsSymmOn B T A) (a : ℝ) {u : E} (hu : T u) :
    A (a • u) = a • A u := by
  have hau := hT.smul a hu
  have h1 := hA.mem hau
  have h2 := hT.smul a (hA.mem hu)
  have h3 := hT.add h1 (hT.smul (-1) h2)
  have key : ∀ w, T w → B (A (a • u) + (-1 : ℝ) • (a • A u)) w = 0 := by
    intro w hw
    have hAw := hA.mem hw
    rw [hB.add_left _ _ _ h1 (hT.smul _ h2) hw, hB.smul_left _ _ _ h2 hw,
      hB.smul_left _ _ _ (hA.mem hu) hw, ← hA.symm hau hw, ← hA.symm hu hw,
      hB.smul_left _ _ _ hu hAw]
    ring
  have := hB.definite _ h3 (key _ h3)
  rw [neg_one_smul, ← sub_eq_add_neg] at this
  exact sub_eq_zero.1 this

/-- C115 on arrays. -/
theorem tcgSound_of {P : Type*} {pb : Prob ℝ P E} {On : P → Prop} {Tan : P → E → Prop}
    (hadd : ∀ u v, pb.M.add u v = u + v) (hneg : ∀ u, pb.M.neg u = -u)
    (hsmul : ∀ (a : ℝ) v, pb.M.smul a v = a • v) (hzero : ∀ x, On x → pb.M.zeroVector x = 0)
    (hpre : ∀ x v, pb.precon x v = v) (htan : ∀ x v, On x → Tan x v → pb.M.toTangent x v = v)
    (hT : ∀ x, On x → IsSubspace (Tan x)) (hin : ∀ x, On x → IsInnerOn (Tan x) (pb.M.inner x))
    (hgrad : ∀ x, On x → Tan x (pb.grad x))
    (hH : ∀ x, On x → IsSymmOn (pb.M.inner x) (Tan x) (pb.hess x)) : TCGSound pb On Tan := by
  intro c mininner maxinner x Delta o hrand hx h
  have hTx := hT x hx
  have hB := hin x hx
  have hA := hH x hx
  let S : Submodule ℝ E :=
    { carrier := {v | Tan x v}
      add_mem' := fun hu hv => hTx.add hu hv
      zero_mem' := hTx.zero
      smul_mem' := fun a _ hu => hTx.smul a hu }
  let core : InnerProductSpace.Core ℝ S :=
    { inner := fun u v => pb.M.inner x u v
      conj_inner_symm := fun u v => hB.symm _ _ v.2 u.2
      re_inner_nonneg := fun u => hB.nonneg _ u.2
      add_left := fun u v w => hB.add_left _ _ _ u.2 v.2 w.2
      smul_left := fun u v a => hB.smul_left _ _ _ u.2 v.2
      definite := fun u hu => Subtype.ext (hB.definite _ u.2 hu) }
  let : NormedAddCommGroup S := core.toNormedAddCommGroup
  let : InnerProductSpace ℝ S := InnerProductSpace.ofCore core.toCore
  let H : S →ₗ[ℝ] S :=
    { toFun := fun v => ⟨pb.hess x v, hA.mem v.2⟩
      map_add' := fun u v => Subtype.ext (symmOn_add hTx hB hA u.2 v.2)
      map_smul' := fun a v => Subtype.ext (symmOn_smul hTx hB hA a v.2) }
  have hE : TangentAt pb x (fun v : S => (v : E)) H fun v => v :=
    { inner := fun _ _ => rfl
      zero := hzero x hx
      toTangent := fun v => htan x _ hx v.2
      add := fun _ _ => hadd _ _
      neg := fun _ => hneg _
      smul := fun _ _ => hsmul _ _
      hess := fun _ => rfl
      precon := fun _ => hpre _ _ }
  obtain ⟨eta, h1, h2, h3, h4, h5⟩ := tcg_sound_at hE
    (fun u v => (hA.symm u.2 v.2).symm) hrand (g := ⟨pb.grad x, hgrad x hx⟩) h
  rw [h2, h1]
  exact ⟨eta.2, rfl, h3, h4, h5⟩

end

/-- C115 for problems on arrays. -/
theorem arraySound_of {E : Type*} [AddCommGroup E] [Module ℝ E] {dim : ℤ} {norm : E → E → ℝ}
    {inner : E → E → E → ℝ} {retraction : E → E → E} {transport : E → E → E → E} {zero : E → E}
    {toTangent : E → E → E} {log pairMean : E → E → E} {e2rg : E → E → E}
    {e2rh : E → E → E → E → E} {embed : E → E → E} {cost : E → ℝ} {egrad : E → E}
    {ehess : E → E → E} {On : E → Prop} {Tan : E → E → Prop} (hz : ∀ x, On x → zero x = 0)
    (htan : ∀ x v, On x → Tan x v → toTangent x v = v) (hT : ∀ x, IsSubspace (Tan x))
    (hin : ∀ x, On x → IsInnerOn (Tan x) (inner x)) (hg : ∀ x g, On x → Tan x (e2rg x g))
    (hH : ∀ x, On x → IsSymmOn (inner x) (Tan x) fun v => e2rh x (egrad x) (ehess x (embed x v)) v) :
    TCGSound (arrayProb (arrayMfd dim norm inner retraction transport zero toTangent log pairMean)
      e2rg e2rh embed cost egrad ehess) On Tan :=
  tcgSound_of (fun _ _ => rfl) (fun _ => rfl) (fun _ _ => rfl) hz (fun _ _ => rfl) htan
    (fun x _ => hT x) hin (fun x hx => hg x _ hx) hH

/-- **C115** (Euclidean, complex Euclidean). -/
theorem C115_euclidean [Fintype ι] (dim : ℤ) (cost : (ι → 𝕜) → ℝ) (egrad : (ι → 𝕜) → ι → 𝕜)
    {ehess : (ι → 𝕜) → (ι → 𝕜) → ι → 𝕜}
    (hH : ∀ x u v, eucInner x u (ehess x v) = eucInner x (ehess x u) v) :
    TCGSound (arrayProb (euclideanMfd dim) (subE2rg eucProj) eucE2rh (fun _ v => v) cost egrad
      ehess) (fun _ => True) fun _ _ => True :=
  arraySound_of (fun _ _ => rfl) (fun _ _ _ _ => rfl) (fun _ => isSubspace_true)
    (fun x _ => (C53_inner x x).1.on _) (fun _ _ _ => trivial)
    fun x _ => ⟨fun _ => trivial, fun {u v} _ _ => hH x u v⟩

/-- **C115** (symmetric and skew-symmetric matrices). -/
theorem C115_symmetric [Fintype κ] [Fintype n] (dim : ℤ) (cost : Stack κ n n ℝ → ℝ)
    (egrad : Stack κ n n ℝ → Stack κ n n ℝ) {ehess : Stack κ n n ℝ → Stack κ n n ℝ → Stack κ n n ℝ}
    (hH : ∀ X U V, stackDot U (ehess X V) = stackDot (ehess X U) V) :
    TCGSound (arrayProb (symmetricMfd dim) (subE2rg symProj) symE2rh (fun _ v => v) cost egrad
      ehess) SymStack (fun _ => SymStack) ∧
    TCGSound (arrayProb (symmetricMfd dim) (subE2rg skewProj) skewE2rh (fun _ v => v) cost egrad
      ehess) SkewStack (fun _ => SkewStack) :=
  ⟨arraySound_of (fun _ _ => rfl) (fun _ _ _ _ => rfl) (fun _ => symStack_subspace)
    (fun _ _ => stackDot_inner.on _) (fun _ _ _ => multisym_mem _)
    fun X _ => (C54_hessian X (egrad X) (ehess X) (hH X)).1,
  arraySound_of (fun _ _ => rfl) (fun _ _ _ _ => rfl) (fun _ => skewStack_subspace)
    (fun _ _ => stackDot_inner.on _) (fun _ _ _ => multiskew_mem _)
    fun X _ => (C54_hessian X (egrad X) (ehess X) (hH X)).2⟩

/-- **C115** (sphere). -/
theorem C115_sphere [Fintype ι] (eps : ℝ) (cost : (ι → ℝ) → ℝ) (egrad : (ι → ℝ) → ι → ℝ)
    {ehess : (ι → ℝ) → (ι → ℝ) → ι → ℝ}
    (hH : ∀ x u v, ∑ i, u i * ehess x v i = ∑ i, ehess x u i * v i) :
    TCGSound (arrayProb (sphereMfd eps) sphereE2rg sphereE2rh (fun _ v => v) cost egrad ehess)
      OnSphere SphereTangent :=
  arraySound_of (fun _ _ => rfl) (fun x _ hx hv => (C56_projection x hx).fixes hv)
    sphereTangent_subspace (fun x _ => (C56_metric x x).1.on _)
    (fun x g hx => (C56_tangent x hx x g g).2.1) fun x hx => C60_symmetric x _ hx _ (hH x)

/-- **C115** (sphere intersected with a subspace). -/
theorem C115_sphere_subspace [Fintype ι] [DecidableEq ι] {S : (ι → ℝ) → Prop} {M : Matrix ι ι ℝ}
    (hS : IsSubspace S) (hM : IsOrthProj tensordot S M.mulVec) (dim : ℤ) (eps : ℝ)
    (cost : (ι → ℝ) → ℝ) (egrad : (ι → ℝ) → ι → ℝ) {ehess : (ι → ℝ) → (ι → ℝ) → ι → ℝ}
    (hH : ∀ x u v, ∑ i, u i * ehess x v i = ∑ i, ehess x u i * v i) :
    TCGSound (arrayProb (sphereSubspaceMfd M dim eps) (subE2rg (subspaceProj M))
      (subE2rh (subspaceProj M) sphereWeingarten) (fun _ v => v) cost egrad ehess)
      (OnSubspaceSphere S) (SubspaceTangent S) :=
  arraySound_of (fun _ _ => rfl) (fun x _ hx hv => (C56_projection x hx.2).fixes hv.2)
    (subspaceTangent_subspace hS) (fun x _ => (C56_metric x x).1.on _)
    (fun x g hx => (C62_projection_partial hS hM x hx).mem g)
    fun x hx => C62_hessian_partial hS hM x _ hx _ (hH x)

/-- **C115** (oblique). -/
theorem C115_oblique [Fintype m] [Fintype n] (dim : ℤ) (eps : ℝ) (cost : Matrix m n ℝ → ℝ)
    (egrad : Matrix m n ℝ → Matrix m n ℝ) {ehess : Matrix m n ℝ → Matrix m n ℝ → Matrix m n ℝ}
    (hH : ∀ X U V, oblInner X U (ehess X V) = oblInner X (ehess X U) V) :
    TCGSound (arrayProb (obliqueMfd dim eps) (subE2rg oblProj) oblE2rh (fun _ v => v) cost egrad
      ehess) OnOblique ObliqueTangent :=
  arraySound_of (fun _ _ => rfl) (fun X _ hX hV => (C63_projection X hX).fixes hV)
    obliqueTangent_subspace (fun X _ => (oblInner_inner X).on _)
    (fun X G hX => (C63_projection X hX).mem G) fun X hX => C63_hessian X _ hX _ (hH X)

/-- **C115** (complex circle). -/
theorem C115_complex_circle [Fintype ι] (log : (ι → ℂ) → (ι → ℂ) → ι → ℂ) (cost : (ι → ℂ) → ℝ)
    (egrad : (ι → ℂ) → ι → ℂ) {ehess : (ι → ℂ) → (ι → ℂ) → ι → ℂ}
    (hH : ∀ z u v, ccInner z u (ehess z v) = ccInner z (ehess z u) v) :
    TCGSound (arrayProb (complexCircleMfd log) (subE2rg ccProj) ccE2rh (fun _ v => v) cost egrad
      ehess) OnCircles CirclesTangent :=
  arraySound_of (fun _ _ => rfl) (fun z _ hz hv => (C64_projection z hz).fixes hv)
    circlesTangent_subspace (fun z _ => (ccInner_inner z).on _)
    (fun z g hz => (C64_projection z hz).mem g) fun z hz => C64_hessian z _ hz _ (hH z)

/-- **C115** (positive arrays). -/
theorem C115_positive [Fintype ι] (dim : ℤ) (parallel : Bool)
    (pairMean : (ι → ℝ) → (ι → ℝ) → ι → ℝ) (cost : (ι → ℝ) → ℝ) (egrad : (ι → ℝ) → ι → ℝ)
    {ehess : (ι → ℝ) → (ι → ℝ) → ι → ℝ}
    (hH : ∀ x u v, tensordot u (ehess x v) = tensordot (ehess x u) v) :
    TCGSound (arrayProb (positiveMfd dim parallel pairMean) posE2rg posE2rh (fun _ v => v) cost
      egrad ehess) PosPoint fun _ _ => True :=
  arraySound_of (fun _ _ => rfl) (fun _ _ _ _ => rfl) (fun _ => isSubspace_true)
    (fun x hx => (C78_metric x hx).1.on _) (fun _ _ _ => trivial)
    fun x hx => C80_symmetric x _ hx _ (hH x)

/-- **C115** (Poincaré ball). -/
theorem C115_poincare [Fintype κ] [Fintype ι] (dim : ℤ)
    (transport : (κ → ι → ℝ) → (κ → ι → ℝ) → (κ → ι → ℝ) → κ → ι → ℝ)
    (log pairMean : (κ → ι → ℝ) → (κ → ι → ℝ) → κ → ι → ℝ) (cost : (κ → ι → ℝ) → ℝ)
    (egrad : (κ → ι → ℝ) → κ → ι → ℝ) {ehess : (κ → ι → ℝ) → (κ → ι → ℝ) → κ → ι → ℝ}
    (hH : ∀ X U V, ∑ k, ∑ i, U k i * ehess X V k i = ∑ k, ∑ i, ehess X U k i * V k i) :
    TCGSound (arrayProb (poincareMfd dim transport log pairMean) pbE2rg pbE2rh (fun _ v => v) cost
      egrad ehess) InBalls fun _ _ => True :=
  arraySound_of (fun _ _ => rfl) (fun _ _ _ _ => rfl) (fun _ => isSubspace_true)
    (fun X hX => (pbInner_inner X hX).on _) (fun _ _ _ => trivial)
    fun X hX => C90_symmetric X _ hX _ (hH X)

/-- **C115** (symmetric and Hermitian positive definite). -/
theorem C115_positive_definite [Fintype κ] [Fintype n] [DecidableEq n] (dim : ℤ)
    (log pairMean : Stack κ n n 𝕜 → Stack κ n n 𝕜 → Stack κ n n 𝕜) (cost : Stack κ n n 𝕜 → ℝ)
    (egrad : Stack κ n n 𝕜 → Stack κ n n 𝕜) {ehess : Stack κ n n 𝕜 → Stack κ n n 𝕜 → Stack κ n n 𝕜}
    (hH : ∀ P U V, HermStack U → HermStack V → stackDot U (ehess P V) = stackDot (ehess P U) V) :
    TCGSound (arrayProb (positiveDefiniteMfd dim log pairMean) pdE2rg pdE2rh (fun _ v => v) cost
      egrad ehess) PDPoint (fun _ => HermStack) :=
  arraySound_of (fun _ _ => rfl) (fun _ _ _ hV => multiherm_of_herm hV) (fun _ => hermStack_subspace)
    (fun P hP => (C81_metric P hP).1) (fun P G hP => (C84_gradient P G hP).1)
    fun P hP => C84_symmetric P _ hP _ (hH P)

/-- **C115** (Stiefel): for every retraction. -/
theorem C115_stiefel [Fintype κ] [Fintype n] [DecidableEq n] {p : ℕ} (dim : ℤ)
    (retraction log pairMean : Stack κ n (Fin p) ℝ → Stack κ n (Fin p) ℝ → Stack κ n (Fin p) ℝ)
    (cost : Stack κ n (Fin p) ℝ → ℝ) (egrad : Stack κ n (Fin p) ℝ → Stack κ n (Fin p) ℝ)
    {ehess : Stack κ n (Fin p) ℝ → Stack κ n (Fin p) ℝ → Stack κ n (Fin p) ℝ}
    (hH : ∀ X U V, ∑ k, ∑ i, ∑ j, U k i j * ehess X V k i j =
      ∑ k, ∑ i, ∑ j, ehess X U k i j * V k i j) :
    TCGSound (arrayProb (stiefelMfd dim retraction log pairMean) stE2rg stE2rh (fun _ v => v) cost
      egrad ehess) OnStiefel StiefelTangent :=
  arraySound_of (fun _ _ => rfl) (fun X _ hX hV => (C66_projection X hX).fixes hV)
    stiefelTangent_subspace (fun X _ => (C66_metric X X).1.on _)
    (fun X G hX => (C66_transport_gradient X X G hX).2.2.1)
    fun X hX => C69_symmetric X _ hX _ (hH X)

/-- **C115** (Grassmann, real and complex): for costs that do not change along the column space. -/
theorem C115_grassmann [Fintype κ] [Fintype n] [DecidableEq n] {p : ℕ} (dim : ℤ)
    (retraction log pairMean : Stack κ n (Fin p) 𝕜 → Stack κ n (Fin p) 𝕜 → Stack κ n (Fin p) 𝕜)
    (cost : Stack κ n (Fin p) 𝕜 → ℝ) {egrad : Stack κ n (Fin p) 𝕜 → Stack κ n (Fin p) 𝕜}
    {ehess : Stack κ n (Fin p) 𝕜 → Stack κ n (Fin p) 𝕜 → Stack κ n (Fin p) 𝕜}
    (hG : ∀ X, Orthonormal' X → ∀ W : Stack κ (Fin p) (Fin p) 𝕜, SkewHermStack W →
      stackDot (egrad X) (multiprod X W) = 0)
    (hH : ∀ X U V, stackDot U (ehess X V) = stackDot (ehess X U) V) :
    TCGSound (arrayProb (grassmannMfd dim retraction log pairMean) cgrProj cgrE2rh (fun _ v => v)
      cost egrad ehess) Orthonormal' GrHorizontal :=
  arraySound_of (fun _ _ => rfl) (fun X _ hX hV => (C70_projection X hX).fixes hV)
    grHorizontal_subspace (fun X _ => (C70_metric X X).1.on _)
    (fun X G hX => (C70_transport_gradient X X G hX).2.1)
    fun X hX => C70_symmetric X _ hX (hG X hX) _ (hH X)

/-- **C115** (special orthogonal group): for every retraction. -/
theorem C115_special_orthogonal [Fintype κ] {p : ℕ} (dim : ℤ)
    (retraction log pairMean : Stack κ (Fin p) (Fin p) ℝ → Stack κ (Fin p) (Fin p) ℝ →
      Stack κ (Fin p) (Fin p) ℝ)
    (cost : Stack κ (Fin p) (Fin p) ℝ → ℝ)
    (egrad : Stack κ (Fin p) (Fin p) ℝ → Stack κ (Fin p) (Fin p) ℝ)
    {ehess : Stack κ (Fin p) (Fin p) ℝ → Stack κ (Fin p) (Fin p) ℝ → Stack κ (Fin p) (Fin p) ℝ}
    (hH : ∀ X U W, stackDot (ehess X U) W = stackDot U (ehess X W)) :
    TCGSound (arrayProb (specialOrthogonalMfd dim retraction log pairMean) gE2rg gE2rh gEmbed cost
      egrad ehess) OnSO (fun _ => InLie) :=
  arraySound_of (fun _ _ => rfl) (fun _ _ _ hV => funext fun k => skewPart_of_skew (hV k))
    (fun _ => inLie_subspace) (fun X _ => (C95_metric X).2.1) (fun X G _ => (C95_so_gradient X G).1)
    fun X _ => C98_symmetric X _ _ (hH X)

/-! ## The hypotheses are met -/

/-- Minimising `y₀ y₁` on the circle from `(1, 0)` within radius `1 / 2`: the step is `(0, -1/2)`, on
the boundary. -/
example : (∀ _x u v : Fin 2 → ℝ, ∑ i, u i * (![v 1, v 0] : Fin 2 → ℝ) i =
      ∑ i, (![u 1, u 0] : Fin 2 → ℝ) i * v i) ∧
    OnSphere ![(1 : ℝ), 0] ∧
    ∃ o, tcg ⟨1 / 10, 1, 1 / 10, false, 0⟩ (arrayProb (sphereMfd 0) sphereE2rg sphereE2rh
        (fun _ v => v) (fun y : Fin 2 → ℝ => y 0 * y 1) (fun y => ![y 1, y 0])
        fun _ v => ![v 1, v 0]) ![1, 0] (sphereE2rg ![1, 0] ![0, 1]) 0 (1 / 2) 1 1 = .ok o ∧
      o.eta = ![0, -(1 / 2)] ∧ o.stop = .negativeCurvature := by
  refine ⟨fun _ u v => ?_, by norm_num [OnSphere, Fin.sum_univ_two], ?_⟩
  · simp only [Fin.sum_univ_two, Matrix.cons_val_zero, Matrix.cons_val_one]
    ring
  · have hg : sphereE2rg ![(1 : ℝ), 0] ![0, 1] = ![0, 1] := by
      ext i
      fin_cases i <;>
        norm_num [sphereE2rg, subE2rg, sphereProj, sphereInner, tensordot, Fin.sum_univ_two]
    have hn : -(![0, 1] : Fin 2 → ℝ) = ![0, -1] := by
      ext i
      fin_cases i <;> norm_num
    have hh : sphereE2rh ![(1 : ℝ), 0] ![0, 1] ![-1, 0] ![0, -1] = 0 := by
      ext i
      fin_cases i <;>
        norm_num [sphereE2rh, sphereProj, sphereInner, subE2rh, sphereWeingarten, tensordot,
          Fin.sum_univ_two]
    rw [hg]
    have h1 : sphereInner ![(1 : ℝ), 0] ![0, 1] ![0, 1] = 1 := by
      norm_num [sphereInner, tensordot, Fin.sum_univ_two]
    have h2 : sphereInner ![(1 : ℝ), 0] ![0, -1] 0 = 0 := by
      norm_num [sphereInner, tensordot, Fin.sum_univ_two]
    norm_num [tcg, tcgLoop, tcgBody, tcgInit, arrayProb, sphereMfd, arrayMfd, hn, hh, h1, h2,
      PyNum.div, PyNum.lit, PyNum.le, PyNum.add, PyNum.mul, PyNum.pow, PyNum.neg, PyNum.sub,
      PyNum.sqrt, ne0]
    rw [show (4 : ℝ) = 2 ^ 2 by norm_num, Real.sqrt_sq (by norm_num)]
    norm_num

end Verif.Geo
