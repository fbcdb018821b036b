/-
C109 on the manifolds: the methods of every manifold keep points on the manifold and vectors
tangent, so the optimizers do.
-/
import Verif.Opt.Props.OnManifold
import Verif.Opt.Props.Stop
import Verif.Geo.Model.OptMfd
import Verif.Geo.Props.Gradient

namespace Verif.Geo
open Matrix Verif.Opt
open scoped ComplexOrder

variable {κ ι m n p : Type*} {𝕜 : Type*} [RCLike 𝕜]

/-- Tangent spaces that are subspaces: what remains to be shown of `ClosedMfd`. -/
theorem closed_of_subspace {E : Type*} [AddCommGroup E] [Module ℝ E] {dim : ℤ} {norm : E → E → ℝ}
    {inner : E → E → E → ℝ} {retraction : E → E → E} {transport : E → E → E → E} {zero : E → E}
    {toTangent : E → E → E} {log pairMean : E → E → E} {On : E → Prop} {Tan : E → E → Prop}
    (hT : ∀ x, IsSubspace (Tan x)) (hr : ∀ x v, On x → Tan x v → On (retraction x v))
    (ht : ∀ x y v, On x → On y → Tan x v → Tan y (transport x y v))
    (hz : ∀ x, On x → Tan x (zero x)) (hp : ∀ x v, On x → Tan x v → Tan x (toTangent x v)) :
    ClosedMfd (arrayMfd dim norm inner retraction transport zero toTangent log pairMean) On Tan where
  retraction := hr
  transport := ht
  zeroVector := hz
  toTangent := hp
  add x _ _ _ hv hw := (hT x).add hv hw
  neg x v _ hv := by
    have := (hT x).smul (-1) hv
    rwa [neg_one_smul] at this
  smul x a _ _ hv := (hT x).smul a hv

/-- The subspace of all vectors. -/
theorem isSubspace_true {E : Type*} [AddCommGroup E] [Module ℝ E] :
    IsSubspace fun _ : E => True := by
  constructor <;> intros <;> trivial

/-- Problems whose gradient conversion returns tangent vectors. -/
theorem closedProb_of {E : Type*} {M : Mfd ℝ E E} {e2rg : E → E → E} {e2rh : E → E → E → E → E}
    {embed : E → E → E} {cost : E → ℝ} {egrad : E → E} {ehess : E → E → E} {On : E → Prop}
    {Tan : E → E → Prop} (hM : ClosedMfd M On Tan) (hg : ∀ x g, On x → Tan x (e2rg x g)) :
    ClosedProb (arrayProb M e2rg e2rh embed cost egrad ehess) On Tan where
  mfd := hM
  grad x hx := hg x _ hx
  precon _ _ _ hv := hv

/-- **C109** (Euclidean, complex Euclidean): there is nothing to leave. -/
theorem C109_euclidean [Fintype ι] (dim : ℤ) :
    ClosedMfd (euclideanMfd (ι := ι) (𝕜 := 𝕜) dim) (fun _ => True) fun _ _ => True :=
  closed_of_subspace (fun _ => isSubspace_true) (fun _ _ _ _ => trivial)
    (fun _ _ _ _ _ _ => trivial) (fun _ _ => trivial) fun _ _ _ _ => trivial

/-- **C109** (symmetric and skew-symmetric matrices). -/
theorem C109_symmetric [Fintype κ] [Fintype n] (dim : ℤ) (cost : Stack κ n n ℝ → ℝ)
    (egrad : Stack κ n n ℝ → Stack κ n n ℝ) (ehess : Stack κ n n ℝ → Stack κ n n ℝ → Stack κ n n ℝ) :
    (ClosedProb (arrayProb (symmetricMfd dim) (subE2rg symProj) symE2rh (fun _ v => v) cost egrad
      ehess) SymStack (fun _ => SymStack) ∧
    ClosedHess (arrayProb (symmetricMfd dim) (subE2rg symProj) symE2rh (fun _ v => v) cost egrad
      ehess) SymStack (fun _ => SymStack) ∧
    ClosedLog (symmetricMfd (κ := κ) (n := n) dim) SymStack (fun _ => SymStack)) ∧
    ClosedProb (arrayProb (symmetricMfd dim) (subE2rg skewProj) skewE2rh (fun _ v => v) cost egrad
      ehess) SkewStack (fun _ => SkewStack) ∧
    ClosedHess (arrayProb (symmetricMfd dim) (subE2rg skewProj) skewE2rh (fun _ v => v) cost egrad
      ehess) SkewStack (fun _ => SkewStack) ∧
    ClosedLog (symmetricMfd (κ := κ) (n := n) dim) SkewStack (fun _ => SkewStack) := by
  refine ⟨⟨closedProb_of (closed_of_subspace (fun _ => symStack_subspace)
      (fun _ _ => symStack_subspace.add) (fun _ _ _ _ _ h => h)
      (fun _ _ => symStack_subspace.zero) fun _ _ _ h => h) fun _ _ _ => multisym_mem _,
      fun _ _ _ _ => multisym_mem _, fun x y hx hy => ((C54_stays x y 0 0).1 hx hy
        symStack_subspace.zero).2.1⟩,
    closedProb_of (closed_of_subspace (fun _ => skewStack_subspace)
      (fun _ _ => skewStack_subspace.add) (fun _ _ _ _ _ h => h)
      (fun _ _ => skewStack_subspace.zero) fun _ _ _ h => h) fun _ _ _ => multiskew_mem _,
      fun _ _ _ _ => multiskew_mem _, fun x y hx hy => ((C54_stays x y 0 0).2.1 hx hy
        skewStack_subspace.zero).2.1⟩

/-- **C109** (sphere). -/
theorem C109_sphere [Fintype ι] (eps : ℝ) (cost : (ι → ℝ) → ℝ) (egrad : (ι → ℝ) → ι → ℝ)
    (ehess : (ι → ℝ) → (ι → ℝ) → ι → ℝ) :
    ClosedProb (arrayProb (sphereMfd eps) sphereE2rg sphereE2rh (fun _ v => v) cost egrad ehess)
      OnSphere SphereTangent ∧
    ClosedHess (arrayProb (sphereMfd eps) sphereE2rg sphereE2rh (fun _ v => v) cost egrad ehess)
      OnSphere SphereTangent ∧
    ClosedLog (sphereMfd (ι := ι) eps) OnSphere SphereTangent := by
  refine ⟨closedProb_of (closed_of_subspace sphereTangent_subspace
    (fun x v hx hv => (C57_stays x v hx hv).2.1) (fun x y v _ hy _ => (C56_tangent y hy x v v).1)
    (fun x _ => (sphereTangent_subspace x).zero) fun x v hx _ => (C56_tangent x hx x v v).2.2.1)
    fun x g hx => (C56_tangent x hx x g g).2.1, fun x v hx hv => ?_, fun x y hx _ =>
      log_tangent hx eps⟩
  exact (sphereTangent_subspace x).add ((C56_projection x hx).mem _)
    ((sphereTangent_subspace x).smul _ hv)

/-- **C109** (sphere intersected with a subspace). -/
theorem C109_sphere_subspace [Fintype ι] [DecidableEq ι] {S : (ι → ℝ) → Prop} {M : Matrix ι ι ℝ}
    (hS : IsSubspace S) (hM : IsOrthProj tensordot S M.mulVec) (dim : ℤ) (eps : ℝ)
    (cost : (ι → ℝ) → ℝ) (egrad : (ι → ℝ) → ι → ℝ) (ehess : (ι → ℝ) → (ι → ℝ) → ι → ℝ) :
    ClosedProb (arrayProb (sphereSubspaceMfd M dim eps) (subE2rg (subspaceProj M))
      (subE2rh (subspaceProj M) sphereWeingarten) (fun _ v => v) cost egrad ehess)
      (OnSubspaceSphere S) (SubspaceTangent S) ∧
    ClosedHess (arrayProb (sphereSubspaceMfd M dim eps) (subE2rg (subspaceProj M))
      (subE2rh (subspaceProj M) sphereWeingarten) (fun _ v => v) cost egrad ehess)
      (OnSubspaceSphere S) (SubspaceTangent S) ∧
    ClosedLog (sphereSubspaceMfd M dim eps) (OnSubspaceSphere S) (SubspaceTangent S) := by
  have hp := C62_projection_partial hS hM
  have h0 : ∀ x, SubspaceTangent S x 0 := fun x => (subspaceTangent_subspace hS x).zero
  refine ⟨closedProb_of (closed_of_subspace (subspaceTangent_subspace hS)
    (fun x v hx hv => (C62_stays_partial hS hM x x v v hx hx hv eps).2.1)
    (fun x y v _ hy _ => (hp y hy).mem v) (fun x _ => h0 x) fun x v hx hv => ?_)
    fun x g hx => (hp x hx).mem g, fun x v hx hv => ?_, fun x y hx hy =>
      (C62_stays_partial hS hM x y 0 0 hx hy (h0 x) eps).2.2.2.1⟩
  · have : sphereToTangent x v = v := (C56_projection x hx.2).fixes hv.2
    rwa [this]
  · exact (subspaceTangent_subspace hS x).add ((hp x hx).mem _)
      ((subspaceTangent_subspace hS x).smul _ hv)

/-- **C109** (oblique). -/
theorem C109_oblique [Fintype m] [Fintype n] (dim : ℤ) (eps : ℝ) (cost : Matrix m n ℝ → ℝ)
    (egrad : Matrix m n ℝ → Matrix m n ℝ) (ehess : Matrix m n ℝ → Matrix m n ℝ → Matrix m n ℝ) :
    ClosedProb (arrayProb (obliqueMfd dim eps) (subE2rg oblProj) oblE2rh (fun _ v => v) cost egrad
      ehess) OnOblique ObliqueTangent ∧
    ClosedHess (arrayProb (obliqueMfd dim eps) (subE2rg oblProj) oblE2rh (fun _ v => v) cost egrad
      ehess) OnOblique ObliqueTangent ∧
    ClosedLog (obliqueMfd (m := m) (n := n) dim eps) OnOblique ObliqueTangent := by
  have h0 : ∀ X : Matrix m n ℝ, ObliqueTangent X 0 := fun X => (obliqueTangent_subspace X).zero
  refine ⟨closedProb_of (closed_of_subspace obliqueTangent_subspace
    (fun X V hX hV => (C63_stays X X V hX hX hV eps).2.1)
    (fun X Y V hX hY hV => (C63_stays X Y V hX hY hV eps).2.2.2.2.1) (fun X _ => h0 X)
    fun X V hX _ => (C63_projection X hX).mem V) fun X G hX => (C63_projection X hX).mem G,
    fun X V hX hV j => ?_, fun X Y hX hY => (C63_stays X Y 0 hX hY (h0 X) eps).2.2.2.1⟩
  change SphereTangent (colOf X j) (colOf (oblE2rh X _ _ V) j)
  rw [C63_hessian_columns X _ _ V hX j]
  exact (sphereTangent_subspace _).add ((C56_projection _ (hX j)).mem _)
    ((sphereTangent_subspace _).smul _ (hV j))

/-- **C109** (complex circle). -/
theorem C109_complex_circle [Fintype ι] (log : (ι → ℂ) → (ι → ℂ) → ι → ℂ) (cost : (ι → ℂ) → ℝ)
    (egrad : (ι → ℂ) → ι → ℂ) (ehess : (ι → ℂ) → (ι → ℂ) → ι → ℂ) :
    ClosedProb (arrayProb (complexCircleMfd log) (subE2rg ccProj) ccE2rh (fun _ v => v) cost egrad
      ehess) OnCircles CirclesTangent ∧
    ClosedHess (arrayProb (complexCircleMfd log) (subE2rg ccProj) ccE2rh (fun _ v => v) cost egrad
      ehess) OnCircles CirclesTangent :=
  ⟨closedProb_of (closed_of_subspace circlesTangent_subspace
    (fun z v hz hv => (C64_retraction z v hz hv).2.1) (fun _ y v _ hy _ => (C64_projection y hy).mem v)
    (fun z _ => (circlesTangent_subspace z).zero) fun z v hz _ => (C64_projection z hz).mem v)
    fun z g hz => (C64_projection z hz).mem g, fun z _ hz _ => (C64_projection z hz).mem _⟩

/-- **C109** (positive arrays): the iterates stay positive; every array is a tangent vector. -/
theorem C109_positive [Fintype ι] (dim : ℤ) (parallel : Bool)
    (pairMean : (ι → ℝ) → (ι → ℝ) → ι → ℝ) :
    ClosedMfd (positiveMfd dim parallel pairMean) PosPoint fun _ _ => True :=
  closed_of_subspace (fun _ => isSubspace_true) (fun x v hx _ => (C79_positive x v hx).1)
    (fun _ _ _ _ _ _ => trivial) (fun _ _ => trivial) fun _ _ _ _ => trivial

/-- **C109** (Poincaré ball): the iterates stay inside the ball; every array is a tangent vector.
(The class does not implement `transport`, so the conjugate gradient method raises.) -/
theorem C109_poincare [Fintype κ] [Fintype ι] (dim : ℤ)
    (transport : (κ → ι → ℝ) → (κ → ι → ℝ) → (κ → ι → ℝ) → κ → ι → ℝ)
    (log pairMean : (κ → ι → ℝ) → (κ → ι → ℝ) → κ → ι → ℝ) :
    ClosedMfd (poincareMfd dim transport log pairMean) InBalls fun _ _ => True :=
  closed_of_subspace (fun _ => isSubspace_true) (fun x v hx _ => (C87_stays x v hx).1)
    (fun _ _ _ _ _ _ => trivial) (fun _ _ => trivial) fun _ _ _ _ => trivial

/-- **C109** (symmetric and Hermitian positive definite). -/
theorem C109_positive_definite [Fintype κ] [Fintype n] [DecidableEq n] (dim : ℤ)
    (log pairMean : Stack κ n n 𝕜 → Stack κ n n 𝕜 → Stack κ n n 𝕜) (cost : Stack κ n n 𝕜 → ℝ)
    (egrad : Stack κ n n 𝕜 → Stack κ n n 𝕜) (ehess : Stack κ n n 𝕜 → Stack κ n n 𝕜 → Stack κ n n 𝕜) :
    ClosedProb (arrayProb (positiveDefiniteMfd dim log pairMean) pdE2rg pdE2rh (fun _ v => v) cost
      egrad ehess) PDPoint (fun _ => HermStack) ∧
    ClosedHess (arrayProb (positiveDefiniteMfd dim log pairMean) pdE2rg pdE2rh (fun _ v => v) cost
      egrad ehess) PDPoint (fun _ => HermStack) := by
  refine ⟨closedProb_of (closed_of_subspace (fun _ => hermStack_subspace)
    (fun P V hP hV => (C83_retraction P V hP hV).1) (fun _ _ _ _ _ hV => hV)
    (fun _ _ => hermStack_subspace.zero) fun _ V _ _ => multiherm_mem V)
    fun P G hP => (C84_gradient P G hP).1, fun P V hP hV => ?_⟩
  refine hermStack_subspace.add ?_ (multiherm_mem _)
  rw [hermStack_iff]
  intro k
  have h1 : (multiherm (ehess P V) k)ᴴ = multiherm (ehess P V) k :=
    ((hermStack_iff _).1 (multiherm_mem (ehess P V))) k
  have h2 : (P k)ᴴ = P k := (hP k).isHermitian
  change (P k * multiherm (ehess P V) k * P k)ᴴ = P k * multiherm (ehess P V) k * P k
  rw [conjTranspose_mul, conjTranspose_mul, h1, h2, Matrix.mul_assoc]

/-- **C109** (special Hermitian positive definite; the class implements no Hessian conversion). -/
theorem C109_special_hpd [Fintype κ] {n : ℕ} (hn : 0 < n) (dim : ℤ)
    (log pairMean : Stack κ (Fin n) (Fin n) ℂ → Stack κ (Fin n) (Fin n) ℂ →
      Stack κ (Fin n) (Fin n) ℂ)
    (e2rh : Stack κ (Fin n) (Fin n) ℂ → Stack κ (Fin n) (Fin n) ℂ → Stack κ (Fin n) (Fin n) ℂ →
      Stack κ (Fin n) (Fin n) ℂ → Stack κ (Fin n) (Fin n) ℂ) (cost : Stack κ (Fin n) (Fin n) ℂ → ℝ)
    (egrad : Stack κ (Fin n) (Fin n) ℂ → Stack κ (Fin n) (Fin n) ℂ)
    (ehess : Stack κ (Fin n) (Fin n) ℂ → Stack κ (Fin n) (Fin n) ℂ → Stack κ (Fin n) (Fin n) ℂ) :
    ClosedProb (arrayProb (specialHpdMfd dim log pairMean) shpdE2rg e2rh (fun _ v => v) cost egrad
      ehess) SHPDPoint SHPDTangent := by
  refine closedProb_of (closed_of_subspace shpdTangent_subspace
    (fun P V hP hV => (C86_points P V hP hV.1).2.1)
    (fun A B V _ hB _ => (C86_transport hn A B V hB.1).1)
    (fun P _ => (shpdTangent_subspace P).zero) fun P V _ hV => ?_)
    fun P G hP => (C86_gradient hn P G hP.1).1
  rw [shpdToTangent, pdProj, multiherm_of_herm hV.1]
  exact hV

/-- **C109** (Stiefel): with either retraction, whatever factorisations LAPACK returns. -/
theorem C109_stiefel [Fintype κ] [Fintype n] [DecidableEq n] {p : ℕ} (dim : ℤ)
    (retraction log pairMean : Stack κ n (Fin p) ℝ → Stack κ n (Fin p) ℝ → Stack κ n (Fin p) ℝ)
    (hr : (∀ X V, ∃ q r, (∀ k, IsQR (stRetractArg X V k) (q k) (r k)) ∧
        retraction X V = stRetractQR q r) ∨
      ∀ X V, ∃ u, ∃ s : κ → Fin p → ℝ, ∃ vt, (∀ k, IsSVD (stRetractArg X V k) (u k) (s k) (vt k)) ∧
        retraction X V = stRetractPolar u vt)
    (cost : Stack κ n (Fin p) ℝ → ℝ) (egrad : Stack κ n (Fin p) ℝ → Stack κ n (Fin p) ℝ)
    (ehess : Stack κ n (Fin p) ℝ → Stack κ n (Fin p) ℝ → Stack κ n (Fin p) ℝ) :
    ClosedProb (arrayProb (stiefelMfd dim retraction log pairMean) stE2rg stE2rh (fun _ v => v) cost
      egrad ehess) OnStiefel StiefelTangent ∧
    ClosedHess (arrayProb (stiefelMfd dim retraction log pairMean) stE2rg stE2rh (fun _ v => v) cost
      egrad ehess) OnStiefel StiefelTangent := by
  refine ⟨closedProb_of (closed_of_subspace stiefelTangent_subspace (fun X V _ _ => ?_)
    (fun X Y V _ hY _ => (C66_transport_gradient X Y V hY).1 V)
    (fun X _ => (stiefelTangent_subspace X).zero) fun X V hX _ => (C66_projection X hX).mem V)
    fun X G hX => (C66_transport_gradient X X G hX).2.2.1, fun X V hX hV => ?_⟩
  · rcases hr with hr | hr
    · obtain ⟨q, r, h, he⟩ := hr X V
      rw [he]
      exact (C67_qr_orthonormal h).1
    · obtain ⟨u, s, vt, h, he⟩ := hr X V
      rw [he]
      exact C67_polar_orthonormal h
  · have : stE2rh X (egrad X) (ehess X V) V = stProj X (ehess X V) +
        stProj X (fun k => -(V k * symPart ((X k)ᵀ * egrad X k))) :=
      funext fun k => stE2rh_eq hX hV _ _ k
    change StiefelTangent X (stE2rh X (egrad X) (ehess X V) V)
    rw [this]
    exact (stiefelTangent_subspace X).add ((C66_projection X hX).mem _) ((C66_projection X hX).mem _)

/-- **C109** (Grassmann, real and complex). -/
theorem C109_grassmann [Fintype κ] [Fintype n] [DecidableEq n] {p : ℕ} (dim : ℤ)
    (retraction log pairMean : Stack κ n (Fin p) 𝕜 → Stack κ n (Fin p) 𝕜 → Stack κ n (Fin p) 𝕜)
    (hr : ∀ X V, IsGrRetraction X V (retraction X V)) (cost : Stack κ n (Fin p) 𝕜 → ℝ)
    (egrad : Stack κ n (Fin p) 𝕜 → Stack κ n (Fin p) 𝕜)
    (ehess : Stack κ n (Fin p) 𝕜 → Stack κ n (Fin p) 𝕜 → Stack κ n (Fin p) 𝕜) :
    ClosedProb (arrayProb (grassmannMfd dim retraction log pairMean) cgrProj cgrE2rh (fun _ v => v)
      cost egrad ehess) Orthonormal' GrHorizontal ∧
    ClosedHess (arrayProb (grassmannMfd dim retraction log pairMean) cgrProj cgrE2rh (fun _ v => v)
      cost egrad ehess) Orthonormal' GrHorizontal ∧
    ((∀ X Y, Orthonormal' X → Orthonormal' Y → IsGrLog X Y (log X Y)) →
      ClosedLog (grassmannMfd dim retraction log pairMean) Orthonormal' GrHorizontal) := by
  refine ⟨closedProb_of (closed_of_subspace grHorizontal_subspace
    (fun X V hX hV => (C71_retraction hX hV (hr X V)).1)
    (fun X Y V _ hY _ => (C70_transport_gradient X Y V hY).1 V)
    (fun X _ => (grHorizontal_subspace X).zero) fun X V hX _ => (C70_transport_gradient X X V hX).2.1)
    fun X G hX => (C70_transport_gradient X X G hX).2.1, fun X V hX hV => ?_,
    fun hl X Y hX hY => C73_horizontal hX (hl X Y hX hY)⟩
  change GrHorizontal X (cgrProj X (ehess X V) - multiprod V (multiprod (multihconj X) (egrad X)))
  rw [sub_eq_add_neg, ← neg_one_smul ℝ (multiprod V _)]
  refine (grHorizontal_subspace X).add (C70_transport_gradient X X _ hX).2.1
    ((grHorizontal_subspace X).smul _ ?_)
  rw [grHorizontal_iff] at hV ⊢
  intro k
  change (X k)ᴴ * (V k * _) = 0
  rw [← Matrix.mul_assoc, hV k, Matrix.zero_mul]

/-- **C109** (elliptope): rows keep unit length, vectors stay orthogonal to the rows. -/
theorem C109_elliptope [Fintype n] {k : ℕ} (dim : ℤ)
    (proj log pairMean : Matrix n (Fin k) ℝ → Matrix n (Fin k) ℝ → Matrix n (Fin k) ℝ)
    (hp : ∀ Y V, UnitRows Y → IsEllProj Y V (proj Y V)) (cost : Matrix n (Fin k) ℝ → ℝ)
    (egrad : Matrix n (Fin k) ℝ → Matrix n (Fin k) ℝ)
    (ehess : Matrix n (Fin k) ℝ → Matrix n (Fin k) ℝ → Matrix n (Fin k) ℝ) :
    ClosedProb (arrayProb (elliptopeMfd dim proj log pairMean) ellE2rg
      (fun Y G H V => proj Y (ellRowHess Y G H V)) (fun _ v => v) cost egrad ehess) UnitRows
      RowTangent ∧
    ClosedHess (arrayProb (elliptopeMfd dim proj log pairMean) ellE2rg
      (fun Y G H V => proj Y (ellRowHess Y G H V)) (fun _ v => v) cost egrad ehess) UnitRows
      RowTangent := by
  have key : ∀ Y V : Matrix n (Fin k) ℝ, UnitRows Y → RowTangent Y (proj Y V) := by
    intro Y V hY
    obtain ⟨K, hK, -, h⟩ := ellProj_form (hp Y V hY)
    rw [h]
    exact (rowTangent_subspace Y).add (ellProjRows_tangent hY _)
      (rowTangent_mul_skew Y (by rwa [conjTranspose_eq_transpose_of_trivial] at hK))
  have hret : ∀ Y V : Matrix n (Fin k) ℝ, UnitRows Y → RowTangent Y V → UnitRows (ellRetraction Y V) := by
    intro Y V hY hV i
    rw [ellRetraction, ellNormalize_row]
    exact (C57_stays (Y i) (V i) (hY i) (hV i)).2.1
  exact ⟨closedProb_of (closed_of_subspace rowTangent_subspace hret
    (fun _ B V _ hB _ => key B V hB) (fun Y _ => (rowTangent_subspace Y).zero)
    fun Y V hY _ => key Y V hY) fun Y G hY => ellProjRows_tangent hY G,
    fun Y V hY _ => key Y _ hY⟩

/-- **C109** (special orthogonal group): with either retraction. -/
theorem C109_special_orthogonal [Fintype κ] {p : ℕ} (dim : ℤ)
    (retraction log pairMean : Stack κ (Fin p) (Fin p) ℝ → Stack κ (Fin p) (Fin p) ℝ →
      Stack κ (Fin p) (Fin p) ℝ)
    (hr : (∀ X V, ∃ q r, (∀ k, IsQR (gRetractArg X V k) (q k) (r k)) ∧
        retraction X V = gRetractQR q r) ∨
      ∀ X V, ∃ u, ∃ s : κ → Fin p → ℝ, ∃ vt, (∀ k, IsSVD (gRetractArg X V k) (u k) (s k) (vt k)) ∧
        retraction X V = gRetractPolar u vt)
    (cost : Stack κ (Fin p) (Fin p) ℝ → ℝ)
    (egrad : Stack κ (Fin p) (Fin p) ℝ → Stack κ (Fin p) (Fin p) ℝ)
    (ehess : Stack κ (Fin p) (Fin p) ℝ → Stack κ (Fin p) (Fin p) ℝ → Stack κ (Fin p) (Fin p) ℝ) :
    ClosedProb (arrayProb (specialOrthogonalMfd dim retraction log pairMean) gE2rg gE2rh gEmbed cost
      egrad ehess) OnSO (fun _ => InLie) ∧
    ClosedHess (arrayProb (specialOrthogonalMfd dim retraction log pairMean) gE2rg gE2rh gEmbed cost
      egrad ehess) OnSO (fun _ => InLie) := by
  refine ⟨closedProb_of (closed_of_subspace (fun _ => inLie_subspace) (fun X V hX hV => ?_)
    (fun _ _ _ _ _ hV => hV) (fun _ _ => inLie_subspace.zero)
    fun _ V _ _ k => skewPart_conjTranspose (V k))
    fun X G _ => (C95_so_gradient X G).1, fun X V _ _ k => skewPart_conjTranspose _⟩
  rcases hr with hr | hr
  · obtain ⟨q, r, h, he⟩ := hr X V
    rw [he]
    exact (C96_retraction_so hX hV).1 q r h
  · obtain ⟨u, s, vt, h, he⟩ := hr X V
    rw [he]
    exact (C96_retraction_so hX hV).2 u s vt h

/-- **C109** (products): a product of closed manifolds is closed. -/
theorem C109_product {k : ℕ} {E : Fin k → Type*} {Ms : ∀ i, Mfd ℝ (E i) (E i)}
    {On : ∀ i, E i → Prop} {Tan : ∀ i, E i → E i → Prop} (h : ∀ i, ClosedMfd (Ms i) (On i) (Tan i))
    (e2rg : ∀ i, E i → E i → E i) (hg : ∀ i x g, On i x → Tan i x (e2rg i x g))
    (e2rh : ∀ i, E i → E i → E i → E i → E i) (embed : ∀ i, E i → E i → E i)
    (cost : (∀ i, E i) → ℝ) (egrad : (∀ i, E i) → ∀ i, E i)
    (ehess : (∀ i, E i) → (∀ i, E i) → ∀ i, E i) :
    ClosedProb (productProb Ms e2rg e2rh embed cost egrad ehess) (fun x => ∀ i, On i (x i))
      (fun x v => ∀ i, Tan i (x i) (v i)) ∧
    ((∀ i x g h v, On i x → Tan i x v → Tan i x (e2rh i x g h v)) →
      ClosedHess (productProb Ms e2rg e2rh embed cost egrad ehess) (fun x => ∀ i, On i (x i))
        (fun x v => ∀ i, Tan i (x i) (v i))) ∧
    ((∀ i, ClosedLog (Ms i) (On i) (Tan i)) →
      ClosedLog (productMfd Ms) (fun x => ∀ i, On i (x i)) (fun x v => ∀ i, Tan i (x i) (v i))) := by
  refine ⟨⟨⟨fun x v hx hv i => ?_, fun x y v hx hy hv i => ?_, fun x hx i => ?_,
    fun x v hx hv i => ?_, fun x v w hx hv hw i => ?_, fun x v hx hv i => ?_,
    fun x a v hx hv i => ?_⟩, fun x hx i => hg i _ _ (hx i), fun x v _ hv => hv⟩,
    fun hh x v hx hv i => hh i _ _ _ _ (hx i) (hv i), fun hl x y hx hy i => hl i _ _ (hx i) (hy i)⟩
  · exact (h i).retraction _ _ (hx i) (hv i)
  · exact (h i).transport _ _ _ (hx i) (hy i) (hv i)
  · exact (h i).zeroVector _ (hx i)
  · exact (h i).toTangent _ _ (hx i) (hv i)
  · exact (h i).add _ _ _ (hx i) (hv i) (hw i)
  · exact (h i).neg _ _ (hx i) (hv i)
  · exact (h i).smul _ _ _ (hx i) (hv i)

/-- **C110** (products): if on every factor the converted gradient represents the Euclidean one on
the direction `v i` and the retraction curve has velocity `v i`, then the converted gradient of a
jointly differentiable cost represents its derivative along the retraction of the product. -/
theorem C110_product {k : ℕ} {E : Fin k → Type*} [∀ i, NormedAddCommGroup (E i)]
    [∀ i, NormedSpace ℝ (E i)] {Ms : ∀ i, Mfd ℝ (E i) (E i)} (hs : ∀ i a v, (Ms i).smul a v = a • v)
    {e2rg : ∀ i, E i → E i → E i} {e2rh : ∀ i, E i → E i → E i → E i → E i}
    {embed : ∀ i, E i → E i → E i} {cost : (∀ i, E i) → ℝ} {egrad : (∀ i, E i) → ∀ i, E i}
    {ehess : (∀ i, E i) → (∀ i, E i) → ∀ i, E i} {B : ∀ i, E i → E i → ℝ} {x v : ∀ i, E i}
    {f' : (∀ i, E i) →L[ℝ] ℝ} (hf : HasFDerivAt cost f' x)
    (hB : ∀ i, f' (Pi.single i (v i)) = B i (egrad x i) (v i))
    (hg : ∀ i, (Ms i).inner (x i) (e2rg i (x i) (egrad x i)) (v i) = B i (egrad x i) (v i))
    (hr : ∀ i, HasDerivAt (fun t : ℝ => (Ms i).retraction (x i) (t • v i)) (v i) 0)
    (hr0 : ∀ i, (Ms i).retraction (x i) ((0 : ℝ) • v i) = x i) :
    let pb := productProb Ms e2rg e2rh embed cost egrad ehess
    HasDerivAt (fun t : ℝ => pb.cost (pb.M.retraction x (pb.M.smul t v)))
      (pb.M.inner x (pb.grad x) v) 0 := by
  intro pb
  have hc : HasDerivAt (fun t : ℝ => fun i => (Ms i).retraction (x i) (t • v i)) v 0 :=
    hasDerivAt_pi.2 hr
  have hx : (fun i => (Ms i).retraction (x i) ((0 : ℝ) • v i)) = x := funext hr0
  have h1 := (hx.symm ▸ hf : HasFDerivAt cost f' _).comp_hasDerivAt (0 : ℝ) hc
  have h2 : f' v = ∑ i, B i (egrad x i) (v i) := by
    conv_lhs => rw [← Finset.univ_sum_single v]
    rw [map_sum]
    exact Finset.sum_congr rfl fun i _ => hB i
  have h3 : pb.M.inner x (pb.grad x) v = f' v := by
    rw [h2]
    change ∑ i, (Ms i).inner (x i) (e2rg i (x i) (egrad x i)) (v i) = _
    exact Finset.sum_congr rfl fun i _ => hg i
  have h4 : (fun t : ℝ => pb.cost (pb.M.retraction x (pb.M.smul t v))) =
      cost ∘ fun t : ℝ => fun i => (Ms i).retraction (x i) (t • v i) := by
    funext t
    change cost (fun i => (Ms i).retraction (x i) ((Ms i).smul t (v i))) = _
    simp only [hs, Function.comp]
  rw [h3, h4]
  exact h1

/-- The hypotheses of `C110_product` on the product of two circles. -/
example (f : (Fin 2 → Fin 2 → ℝ) → ℝ) (x v : Fin 2 → Fin 2 → ℝ) (hx : ∀ i, OnSphere (x i))
    (hv : ∀ i, SphereTangent (x i) (v i)) (hf : DifferentiableAt ℝ f x) (eps : ℝ) :
    let G : Fin 2 → Fin 2 → ℝ := fun i j => fderiv ℝ f x (Pi.single i (Pi.single j 1))
    let pb := productProb (fun _ => sphereMfd eps) (fun _ => sphereE2rg) (fun _ => sphereE2rh)
      (fun _ _ v => v) f (fun _ => G) fun _ _ => 0
    HasDerivAt (fun t : ℝ => pb.cost (pb.M.retraction x (pb.M.smul t v)))
      (pb.M.inner x (pb.grad x) v) 0 := by
  intro G pb
  refine C110_product (B := fun _ => tensordot) (fun _ _ _ => rfl) hf.hasFDerivAt (fun i => ?_)
    (fun i => (C56_tangent (x i) (hx i) (x i) (G i) (v i)).2.2.2 (hv i))
    (fun i => C57_retraction_velocity (x i) (v i) (hx i) (hv i)) fun i => ?_
  · rw [tensordot]
    conv_lhs => rw [← Finset.univ_sum_single (v i)]
    have e : Pi.single (M := fun _ : Fin 2 => Fin 2 → ℝ) i (∑ j, Pi.single j (v i j)) =
        ∑ j, v i j • Pi.single i (Pi.single j (1 : ℝ)) := by
      funext a b
      by_cases h : a = i
      · subst h
        fin_cases b <;> simp
      · simp [h]
    rw [e, map_sum]
    refine Finset.sum_congr rfl fun j _ => ?_
    rw [map_smul, smul_eq_mul, mul_comm]
  · rw [zero_smul]
    exact (C57_stays (x i) 0 (hx i) (sphereTangent_subspace _).zero).2.2.2.1

/-! ## The hypotheses are met -/

/-- A run of steepest descent with the adaptive line searcher raises nothing when it does not start
at a critical point. -/
theorem sd_adaptive_ok {P E : Type*} {cfg : Cfg ℝ} {pb : Prob ℝ P E} {clk : Clock ℝ}
    {c : AdaptiveCfg ℝ} {x : P} (hc : printerSetup cfg = .ok ())
    (hx : pb.M.norm x (pb.M.neg (pb.grad x)) ≠ 0) :
    ∃ r m, SDRuns cfg (adaptive P E c) pb clk x none (.ok (r, m)) := by
  obtain ⟨r, hr⟩ := (C02_steepestDescent cfg (adaptive P E c) pb clk x none).1
  rcases r with e | ⟨r, m⟩
  · exfalso
    rw [SDRuns, hc] at hr
    obtain ⟨n, hn⟩ := hr
    have key : ∀ (s : SDState ℝ P (Option ℝ)) n (q : Except PyErr (Result ℝ P × Option ℝ)),
        RunsIn (sdStep cfg (adaptive P E c) pb clk) s n q →
        (s.mem ≠ none ∨ pb.M.norm s.x (pb.M.neg (pb.grad s.x)) ≠ 0) → q ≠ .error e := by
      intro s n q h
      have hs : ∀ s : SDState ℝ P (Option ℝ),
          (s.mem ≠ none ∨ pb.M.norm s.x (pb.M.neg (pb.grad s.x)) ≠ 0) →
          ∃ o, adaptiveSearch c s.mem pb.cost pb.M s.x (pb.M.neg (pb.grad s.x)) (pb.cost s.x)
            (PyNum.neg (PyNum.pow (pb.M.norm s.x (pb.grad s.x)) (PyNum.lit 2))) = .ok o ∧
              o.mem ≠ none := by
        rintro ⟨_, y, mem, _, _⟩ h
        dsimp only at h ⊢
        cases mem with
        | some a => exact ⟨_, rfl, by simp⟩
        | none =>
          have h0 := h.resolve_left (by simp)
          have hi : adaptiveInit c none (pb.M.norm y (pb.M.neg (pb.grad y))) =
              .ok (c.initialStepSize / pb.M.norm y (pb.M.neg (pb.grad y))) := by
            simp only [adaptiveInit, PyNum.div, if_neg h0]
            rfl
          simp only [adaptiveSearch, hi]
          exact ⟨_, rfl, by simp⟩
      induction h with
      | brk _ => intro _ h; cases h
      | err h =>
        intro h1 _
        obtain ⟨o, ho, -⟩ := hs _ h1
        simp only [sdStep, adaptive, ho] at h
        split at h <;> cases h
      | next h _ ih =>
        intro h1
        obtain ⟨o, ho, hm⟩ := hs _ h1
        simp only [sdStep, adaptive, ho] at h
        split at h <;> cases h
        exact ih (Or.inl hm)
    exact key _ n _ hn (Or.inr hx) rfl
  · exact ⟨r, m, hr⟩

/-- Minimising the first coordinate over the unit circle from `(0, 1)` by steepest descent: a run
exists, and all it evaluates and returns are unit vectors. -/
example (maxIter : ℤ) (clk : Clock ℝ) (cfg : Cfg ℝ) (c : AdaptiveCfg ℝ) (eps : ℝ) :
    let pb := arrayProb (sphereMfd (ι := Fin 2) eps) sphereE2rg sphereE2rh (fun _ v => v)
      (fun x => x 0) (fun _ => ![1, 0]) fun _ _ => 0
    let cfg := { cfg with maxIterations := maxIter, verbosity := 1 }
    ∃ r m, SDRuns cfg (adaptive _ _ c) pb clk ![0, 1] none (.ok (r, m)) ∧ OnSphere r.point ∧
      ∀ q ∈ r.evals, OnSphere q := by
  intro pb cfg
  have hcl := (C109_sphere (ι := Fin 2) eps (fun x => x 0) (fun _ => ![1, 0]) fun _ _ => 0).1
  obtain ⟨r, m, h⟩ := sd_adaptive_ok (cfg := cfg) (pb := pb) (clk := clk) (c := c) (x := ![0, 1])
    (by simp [printerSetup, cfg]) (by
      have : pb.grad ![0, 1] = ![1, 0] := by
        funext i
        fin_cases i <;> simp [pb, arrayProb, sphereE2rg, subE2rg, sphereProj, sphereInner, tensordot]
      rw [this]
      simp [pb, arrayProb, sphereMfd, arrayMfd, sphereNorm, npNorm])
  have ho := C109_steepestDescent hcl.mfd hcl.grad (C109_adaptive hcl.mfd c)
    (by simp [OnSphere]) h
  exact ⟨r, m, h, ho.1, ho.2.1⟩

/-- The factorisations the Stiefel, Grassmann and special orthogonal manifolds ask for exist. -/
example [Fintype n] [DecidableEq n] {p : ℕ} (hp : p ≤ Fintype.card n) :
    (∃ r : Stack κ n (Fin p) ℝ → Stack κ n (Fin p) ℝ → Stack κ n (Fin p) ℝ, ∀ X V, ∃ q r',
      (∀ k, IsQR (stRetractArg X V k) (q k) (r' k)) ∧ r X V = stRetractQR q r') ∧
    (∃ r : Stack κ n (Fin p) 𝕜 → Stack κ n (Fin p) 𝕜 → Stack κ n (Fin p) 𝕜,
      ∀ X V, IsGrRetraction X V (r X V)) ∧
    ∃ r : Stack κ (Fin p) (Fin p) ℝ → Stack κ (Fin p) (Fin p) ℝ → Stack κ (Fin p) (Fin p) ℝ,
      ∀ X V, ∃ q r', (∀ k, IsQR (gRetractArg X V k) (q k) (r' k)) ∧ r X V = gRetractQR q r' := by
  refine ⟨?_, ?_, ?_⟩
  · choose q r h using fun X V (k : κ) => exists_isQR (𝕜 := ℝ) hp (stRetractArg X V k)
    exact ⟨fun X V => stRetractQR (q X V) (r X V), fun X V => ⟨_, _, h X V, rfl⟩⟩
  · choose u s vt h using fun X V (k : κ) => exists_isSVD (𝕜 := 𝕜) hp (grRetractArg X V k)
    exact ⟨fun X V => grRetraction (u X V) (vt X V), fun X V => ⟨_, _, _, h X V, rfl⟩⟩
  · choose q r h using fun X V (k : κ) => exists_isQR (𝕜 := ℝ) (m := Fin p) (by simp)
      (gRetractArg X V k)
    exact ⟨fun X V => gRetractQR (q X V) (r X V), fun X V => ⟨_, _, h X V, rfl⟩⟩

/-- The Lyapunov equation of the elliptope's projection has a solution at every point of the
manifold, of full rank or not. -/
example [Fintype n] {k : ℕ} :
    ∃ proj : Matrix n (Fin k) ℝ → Matrix n (Fin k) ℝ → Matrix n (Fin k) ℝ,
      ∀ Y V, UnitRows Y → IsEllProj Y V (proj Y V) := by
  have key : ∀ Y V : Matrix n (Fin k) ℝ, ∃ Z, IsEllProj Y V Z := by
    intro Y V
    obtain ⟨ω, hω⟩ := exists_lyapunov_gram Y (-ellProjRows Y V) V
    refine ⟨_, ω, ?_, rfl⟩
    rw [← conjTranspose_eq_transpose_of_trivial, ← conjTranspose_eq_transpose_of_trivial, neg_sub,
      sub_eq_neg_add, ← Matrix.mul_neg]
    exact hω
  choose proj h using key
  exact ⟨proj, fun Y V _ => h Y V⟩

end Verif.Geo
