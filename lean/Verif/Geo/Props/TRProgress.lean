/-
C113 on the manifolds: from a point where the gradient does not vanish, trust regions lowers the
cost, for every differentiable cost and whatever the Hessian.
-/
import Verif.Opt.Props.TRProgress
import Verif.Geo.Props.Progress

namespace Verif.Geo
open Matrix Verif.Opt
open scoped ComplexOrder

variable {κ ι m n p : Type*} {𝕜 : Type*} [RCLike 𝕜]

/-- The operations used by the subproblem solver in a small region, on arrays. -/
theorem localOps_of {P E : Type*} [AddCommGroup E] [Module ℝ E] {pb : Prob ℝ P E} {On : P → Prop}
    {Tan : P → E → Prop} (hadd : ∀ u v, pb.M.add u v = u + v)
    (hsmul : ∀ a v, pb.M.smul a v = a • v) (hzero : ∀ x, On x → pb.M.zeroVector x = 0)
    (hpre : ∀ x v, pb.precon x v = v) (hC : ClosedProb pb On Tan) (hH : ClosedHess pb On Tan)
    (hin : ∀ x, On x → IsInnerOn (Tan x) (pb.M.inner x)) (hpb : FirstOrder pb On Tan) {x : P}
    (hx : On x) (hn : pb.M.norm x (pb.grad x) ≠ 0) : LocalOps pb x := by
  have hg := hC.grad x hx
  have hg' := hC.mfd.neg x _ hx hg
  have hh := hH x _ hx hg'
  have hB := hin x hx
  have hsm : ∀ (a : ℝ) v, Tan x v → Tan x (a • v) := by
    intro a v hv
    have := hC.mfd.smul x a v hx hv
    rwa [hsmul] at this
  have hr : ∀ (a : ℝ) u v, Tan x u → Tan x v → pb.M.inner x u (a • v) = a * pb.M.inner x u v := by
    intro a u v hu hv
    rw [hB.symm u _ hu (hsm a v hv), hB.smul_left a v u hv hu, hB.symm v u hv hu]
  constructor
  · intro a
    rw [hadd, hzero x hx, zero_add]
  · intro a
    rw [hadd, hzero x hx, zero_add]
  · intro a
    rw [hsmul, hpre, hr a _ _ hg hg', hpb.innerNeg x _ hx hg, mul_neg]
  · intro a b
    rw [hsmul, hsmul, hpre, hB.smul_left a _ _ hg' (hsm b _ hh), hr b _ _ hg' hh, mul_assoc]
  · rw [hpre, ← hpb.normSq x _ hx hg]
    positivity

/-- C113 on arrays. -/
theorem descends_of {E : Type*} [AddCommGroup E] [Module ℝ E] {dim : ℤ} {norm : E → E → ℝ}
    {inner : E → E → E → ℝ} {retraction : E → E → E} {transport : E → E → E → E} {zero : E → E}
    {toTangent : E → E → E} {log pairMean : E → E → E} {e2rg : E → E → E}
    {e2rh : E → E → E → E → E} {embed : E → E → E} {cost : E → ℝ} {egrad : E → E}
    {ehess : E → E → E} {On : E → Prop} {Tan : E → E → Prop}
    (hC : ClosedProb (arrayProb (arrayMfd dim norm inner retraction transport zero toTangent log
      pairMean) e2rg e2rh embed cost egrad ehess) On Tan)
    (hH : ClosedHess (arrayProb (arrayMfd dim norm inner retraction transport zero toTangent log
      pairMean) e2rg e2rh embed cost egrad ehess) On Tan)
    (hin : ∀ x, On x → IsInnerOn (Tan x) (inner x)) (hz : ∀ x, On x → zero x = 0)
    (hpb : FirstOrder (arrayProb (arrayMfd dim norm inner retraction transport zero toTangent log
      pairMean) e2rg e2rh embed cost egrad ehess) On Tan) :
    TRDescends (arrayProb (arrayMfd dim norm inner retraction transport zero toTangent log
      pairMean) e2rg e2rh embed cost egrad ehess) On :=
  C113_descends hpb (fun _ _ => rfl) fun _ hx hn => localOps_of (fun _ _ => rfl)
    (fun _ _ => rfl) hz (fun _ _ => rfl) hC hH hin hpb hx hn

/-- **C113** (Euclidean, complex Euclidean). -/
theorem C113_euclidean [Fintype ι] (dim : ℤ) {cost : (ι → 𝕜) → ℝ} {egrad : (ι → 𝕜) → ι → 𝕜}
    (ehess : (ι → 𝕜) → (ι → 𝕜) → ι → 𝕜) (hf : ∀ x, EGrad cost x (egrad x)) :
    TRDescends (arrayProb (euclideanMfd dim) (subE2rg eucProj) eucE2rh (fun _ v => v) cost egrad
      ehess) fun _ => True :=
  descends_of (closedProb_of (C109_euclidean dim) fun _ _ _ => trivial) (fun _ _ _ _ => trivial)
    (fun x _ => (C53_inner x x).1.on _) (fun _ _ => rfl) (C111_euclidean dim ehess hf)

/-- **C113** (sphere). -/
theorem C113_sphere [Fintype ι] (eps : ℝ) {cost : (ι → ℝ) → ℝ} {egrad : (ι → ℝ) → ι → ℝ}
    (ehess : (ι → ℝ) → (ι → ℝ) → ι → ℝ) (hf : ∀ x, OnSphere x → EGrad cost x (egrad x)) :
    TRDescends (arrayProb (sphereMfd eps) sphereE2rg sphereE2rh (fun _ v => v) cost egrad ehess)
      OnSphere :=
  descends_of (C109_sphere eps cost egrad ehess).1 (C109_sphere eps cost egrad ehess).2.1
    (fun x _ => (C56_metric x x).1.on _) (fun _ _ => rfl) (C111_sphere eps ehess hf)

/-- **C113** (sphere intersected with a subspace). -/
theorem C113_sphere_subspace [Fintype ι] [DecidableEq ι] {S : (ι → ℝ) → Prop} {M : Matrix ι ι ℝ}
    (hS : IsSubspace S) (hM : IsOrthProj tensordot S M.mulVec) (dim : ℤ) (eps : ℝ)
    {cost : (ι → ℝ) → ℝ} {egrad : (ι → ℝ) → ι → ℝ} (ehess : (ι → ℝ) → (ι → ℝ) → ι → ℝ)
    (hf : ∀ x, OnSubspaceSphere S x → EGrad cost x (egrad x)) :
    TRDescends (arrayProb (sphereSubspaceMfd M dim eps) (subE2rg (subspaceProj M))
      (subE2rh (subspaceProj M) sphereWeingarten) (fun _ v => v) cost egrad ehess)
      (OnSubspaceSphere S) :=
  descends_of (C109_sphere_subspace hS hM dim eps cost egrad ehess).1
    (C109_sphere_subspace hS hM dim eps cost egrad ehess).2.1
    (fun x _ => (C56_metric x x).1.on _) (fun _ _ => rfl)
    (C111_sphere_subspace hS hM dim eps ehess hf)

/-- **C113** (oblique). -/
theorem C113_oblique [Fintype m] [Fintype n] (dim : ℤ) (eps : ℝ) {cost : Matrix m n ℝ → ℝ}
    {egrad : Matrix m n ℝ → Matrix m n ℝ} (ehess : Matrix m n ℝ → Matrix m n ℝ → Matrix m n ℝ)
    (hf : ∀ X, OnOblique X → EGradMat cost X (egrad X)) :
    TRDescends (arrayProb (obliqueMfd dim eps) (subE2rg oblProj) oblE2rh (fun _ v => v) cost egrad
      ehess) OnOblique :=
  descends_of (C109_oblique dim eps cost egrad ehess).1 (C109_oblique dim eps cost egrad ehess).2.1
    (fun X _ => (oblInner_inner X).on _) (fun _ _ => rfl) (C111_oblique dim eps ehess hf)

/-- **C113** (complex circle). -/
theorem C113_complex_circle [Fintype ι] (log : (ι → ℂ) → (ι → ℂ) → ι → ℂ) {cost : (ι → ℂ) → ℝ}
    {egrad : (ι → ℂ) → ι → ℂ} (ehess : (ι → ℂ) → (ι → ℂ) → ι → ℂ)
    (hf : ∀ z, OnCircles z → EGrad cost z (egrad z)) :
    TRDescends (arrayProb (complexCircleMfd log) (subE2rg ccProj) ccE2rh (fun _ v => v) cost egrad
      ehess) OnCircles :=
  descends_of (C109_complex_circle log cost egrad ehess).1
    (C109_complex_circle log cost egrad ehess).2 (fun z _ => (ccInner_inner z).on _)
    (fun _ _ => rfl) (C111_complex_circle log ehess hf)

/-- **C113** (positive arrays). -/
theorem C113_positive [Fintype ι] (dim : ℤ) (parallel : Bool)
    (pairMean : (ι → ℝ) → (ι → ℝ) → ι → ℝ) {cost : (ι → ℝ) → ℝ} {egrad : (ι → ℝ) → ι → ℝ}
    (ehess : (ι → ℝ) → (ι → ℝ) → ι → ℝ) (hf : ∀ x, PosPoint x → EGrad cost x (egrad x)) :
    TRDescends (arrayProb (positiveMfd dim parallel pairMean) posE2rg posE2rh (fun _ v => v) cost
      egrad ehess) PosPoint :=
  descends_of (closedProb_of (C109_positive dim parallel pairMean) fun _ _ _ => trivial)
    (fun _ _ _ _ => trivial) (fun x hx => (C78_metric x hx).1.on _) (fun _ _ => rfl)
    (C111_positive dim parallel pairMean ehess hf)

/-- **C113** (Poincaré ball). -/
theorem C113_poincare [Fintype κ] [Fintype ι] (dim : ℤ)
    (transport : (κ → ι → ℝ) → (κ → ι → ℝ) → (κ → ι → ℝ) → κ → ι → ℝ)
    (log pairMean : (κ → ι → ℝ) → (κ → ι → ℝ) → κ → ι → ℝ) {f : (κ × ι → ℝ) → ℝ}
    {egrad : (κ → ι → ℝ) → κ → ι → ℝ} (ehess : (κ → ι → ℝ) → (κ → ι → ℝ) → κ → ι → ℝ)
    (hf : ∀ X, InBalls X → EGrad f (fun x => X x.1 x.2) fun x => egrad X x.1 x.2) :
    TRDescends (arrayProb (poincareMfd dim transport log pairMean) pbE2rg pbE2rh (fun _ v => v)
      (fun X => f fun x => X x.1 x.2) egrad ehess) InBalls :=
  descends_of (closedProb_of (C109_poincare dim transport log pairMean) fun _ _ _ => trivial)
    (fun _ _ _ _ => trivial) (fun X hX => (pbInner_inner X hX).on _) (fun _ _ => rfl)
    (C111_poincare dim transport log pairMean ehess hf)

/-- **C113** (symmetric and Hermitian positive definite). -/
theorem C113_positive_definite [Fintype κ] [Fintype n] [DecidableEq n] (dim : ℤ)
    (log pairMean : Stack κ n n 𝕜 → Stack κ n n 𝕜 → Stack κ n n 𝕜) {cost : Stack κ n n 𝕜 → ℝ}
    {egrad : Stack κ n n 𝕜 → Stack κ n n 𝕜} (ehess : Stack κ n n 𝕜 → Stack κ n n 𝕜 → Stack κ n n 𝕜)
    (hf : ∀ P, PDPoint P → EGradStack cost P (egrad P)) :
    TRDescends (arrayProb (positiveDefiniteMfd dim log pairMean) pdE2rg pdE2rh (fun _ v => v) cost
      egrad ehess) PDPoint :=
  descends_of (C109_positive_definite dim log pairMean cost egrad ehess).1
    (C109_positive_definite dim log pairMean cost egrad ehess).2 (fun P hP => (C81_metric P hP).1)
    (fun _ _ => rfl) (C111_positive_definite dim log pairMean ehess hf)

/-- **C113** (Stiefel): with either retraction, whatever factorisations LAPACK returns. -/
theorem C113_stiefel [Fintype κ] [Fintype n] [DecidableEq n] {p : ℕ} (dim : ℤ)
    (retraction log pairMean : Stack κ n (Fin p) ℝ → Stack κ n (Fin p) ℝ → Stack κ n (Fin p) ℝ)
    (hr : (∀ X V, ∃ q r, (∀ k, IsQR (stRetractArg X V k) (q k) (r k)) ∧
        retraction X V = stRetractQR q r) ∨
      ∀ X V, ∃ u, ∃ s : κ → Fin p → ℝ, ∃ vt, (∀ k, IsSVD (stRetractArg X V k) (u k) (s k) (vt k)) ∧
        retraction X V = stRetractPolar u vt)
    {cost : Stack κ n (Fin p) ℝ → ℝ} {egrad : Stack κ n (Fin p) ℝ → Stack κ n (Fin p) ℝ}
    (ehess : Stack κ n (Fin p) ℝ → Stack κ n (Fin p) ℝ → Stack κ n (Fin p) ℝ)
    (hf : ∀ X, OnStiefel X → EGradStack cost X (egrad X)) :
    TRDescends (arrayProb (stiefelMfd dim retraction log pairMean) stE2rg stE2rh (fun _ v => v) cost
      egrad ehess) OnStiefel :=
  descends_of (C109_stiefel dim retraction log pairMean hr cost egrad ehess).1
    (C109_stiefel dim retraction log pairMean hr cost egrad ehess).2
    (fun X _ => (C66_metric X X).1.on _) (fun _ _ => rfl)
    (C111_stiefel dim retraction log pairMean hr ehess hf)

/-- **C113** (Grassmann, real and complex). -/
theorem C113_grassmann [Fintype κ] [Fintype n] [DecidableEq n] {p : ℕ} (dim : ℤ)
    (retraction log pairMean : Stack κ n (Fin p) 𝕜 → Stack κ n (Fin p) 𝕜 → Stack κ n (Fin p) 𝕜)
    (hr : ∀ X V, IsGrRetraction X V (retraction X V)) {cost : Stack κ n (Fin p) 𝕜 → ℝ}
    {egrad : Stack κ n (Fin p) 𝕜 → Stack κ n (Fin p) 𝕜}
    (ehess : Stack κ n (Fin p) 𝕜 → Stack κ n (Fin p) 𝕜 → Stack κ n (Fin p) 𝕜)
    (hf : ∀ X, Orthonormal' X → EGradStack cost X (egrad X)) :
    TRDescends (arrayProb (grassmannMfd dim retraction log pairMean) cgrProj cgrE2rh (fun _ v => v)
      cost egrad ehess) Orthonormal' :=
  descends_of (C109_grassmann dim retraction log pairMean hr cost egrad ehess).1
    (C109_grassmann dim retraction log pairMean hr cost egrad ehess).2.1
    (fun X _ => (C70_metric X X).1.on _) (fun _ _ => rfl)
    (C111_grassmann dim retraction log pairMean hr ehess hf)

/-- **C113** (elliptope). -/
theorem C113_elliptope [Fintype n] {k : ℕ} (dim : ℤ)
    (proj log pairMean : Matrix n (Fin k) ℝ → Matrix n (Fin k) ℝ → Matrix n (Fin k) ℝ)
    (hp : ∀ Y V, UnitRows Y → IsEllProj Y V (proj Y V)) {cost : Matrix n (Fin k) ℝ → ℝ}
    {egrad : Matrix n (Fin k) ℝ → Matrix n (Fin k) ℝ}
    (ehess : Matrix n (Fin k) ℝ → Matrix n (Fin k) ℝ → Matrix n (Fin k) ℝ)
    (hf : ∀ Y, UnitRows Y → EGradMat cost Y (egrad Y)) :
    TRDescends (arrayProb (elliptopeMfd dim proj log pairMean) ellE2rg
      (fun Y G H V => proj Y (ellRowHess Y G H V)) (fun _ v => v) cost egrad ehess) UnitRows :=
  descends_of (C109_elliptope dim proj log pairMean hp cost egrad ehess).1
    (C109_elliptope dim proj log pairMean hp cost egrad ehess).2 (fun Y _ => (ellInner_inner Y).on _)
    (fun _ _ => rfl) (C111_elliptope dim proj log pairMean hp ehess hf)

/-- **C113** (special orthogonal group): with either retraction. -/
theorem C113_special_orthogonal [Fintype κ] {p : ℕ} (dim : ℤ)
    (retraction log pairMean : Stack κ (Fin p) (Fin p) ℝ → Stack κ (Fin p) (Fin p) ℝ →
      Stack κ (Fin p) (Fin p) ℝ)
    (hr : (∀ X V, ∃ q r, (∀ k, IsQR (gRetractArg X V k) (q k) (r k)) ∧
        retraction X V = gRetractQR q r) ∨
      ∀ X V, ∃ u, ∃ s : κ → Fin p → ℝ, ∃ vt, (∀ k, IsSVD (gRetractArg X V k) (u k) (s k) (vt k)) ∧
        retraction X V = gRetractPolar u vt)
    {cost : Stack κ (Fin p) (Fin p) ℝ → ℝ}
    {egrad : Stack κ (Fin p) (Fin p) ℝ → Stack κ (Fin p) (Fin p) ℝ}
    (ehess : Stack κ (Fin p) (Fin p) ℝ → Stack κ (Fin p) (Fin p) ℝ → Stack κ (Fin p) (Fin p) ℝ)
    (hf : ∀ X, OnSO X → EGradStack cost X (egrad X)) :
    TRDescends (arrayProb (specialOrthogonalMfd dim retraction log pairMean) gE2rg gE2rh gEmbed cost
      egrad ehess) OnSO :=
  descends_of (C109_special_orthogonal dim retraction log pairMean hr cost egrad ehess).1
    (C109_special_orthogonal dim retraction log pairMean hr cost egrad ehess).2
    (fun X _ => (C95_metric X).2.1) (fun _ _ => rfl)
    (C111_special_orthogonal dim retraction log pairMean hr ehess hf)

/-! ## The hypotheses are met -/

/-- Minimising `y₀ y₁` on the circle from `(1, 0)`, where the gradient is `(0, 1)`: without
regularisation, every long enough run of trust regions returns a negative cost. -/
example (cfg : Cfg ℝ) (clk : Clock ℝ) (eta0 : ℤ → Fin 2 → ℝ) : ∃ N : ℕ, ∀ res,
    Runs (trStep cfg ⟨1 / 10, 1, 1 / 10, false, 0⟩ (arrayProb (sphereMfd 0) sphereE2rg sphereE2rh
        (fun _ v => v) (fun y => y 0 * y 1) (fun y => ![y 1, y 0]) fun _ v => ![v 1, v 0]) clk eta0
        1 1 3)
      (trInit (arrayProb (sphereMfd 0) sphereE2rg sphereE2rh (fun _ v => v) (fun y => y 0 * y 1)
        (fun y => ![y 1, y 0]) fun _ v => ![v 1, v 0]) ![1, 0] (3 / 8)) (.ok res) →
      (N : ℤ) ≤ res.1.iterations → res.1.cost < 0 := by
  have hx : OnSphere ![(1 : ℝ), 0] := by norm_num [OnSphere, Fin.sum_univ_two]
  have hF := C113_sphere (cost := fun y : Fin 2 → ℝ => y 0 * y 1)
    (egrad := fun y => ![y 1, y 0]) 0 (fun _ v => ![v 1, v 0]) fun x _ => egrad_product x
  have hn : sphereNorm ![(1 : ℝ), 0] (sphereE2rg ![1, 0] ![0, 1]) ≠ 0 := by
    rw [(C56_metric _ _).2]
    norm_num [sphereInner, sphereE2rg, subE2rg, sphereProj, tensordot, Fin.sum_univ_two]
  obtain ⟨N, h⟩ := hF.progress _ hx hn cfg ⟨1 / 10, 1, 1 / 10, false, 0⟩ clk eta0 1 1 3 (3 / 8) rfl
    le_rfl (by norm_num) (by norm_num) rfl (by norm_num) (by norm_num)
  refine ⟨N, fun res hr hN => ?_⟩
  have := h res hr hN
  simpa [arrayProb] using this

end Verif.Geo
