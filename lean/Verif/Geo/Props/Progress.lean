/-
C111 on the manifolds: on every manifold whose gradient conversion is right, steepest descent from a
point where the gradient does not vanish strictly lowers the cost, for every differentiable cost.
-/
import Verif.Opt.Props.Progress
import Verif.Geo.Props.OptMfd

namespace Verif.Geo
open Matrix Verif.Opt
open scoped ComplexOrder

variable {κ ι m n p : Type*} {𝕜 : Type*} [RCLike 𝕜]

/-- What remains to be shown of `FirstOrder`. -/
theorem firstOrder_of {E : Type*} [AddCommGroup E] [Module ℝ E] {dim : ℤ} {norm : E → E → ℝ}
    {inner : E → E → E → ℝ} {retraction : E → E → E} {transport : E → E → E → E} {zero : E → E}
    {toTangent : E → E → E} {log pairMean : E → E → E} {e2rg : E → E → E}
    {e2rh : E → E → E → E → E} {embed : E → E → E} {cost : E → ℝ} {egrad : E → E}
    {ehess : E → E → E} {On : E → Prop} {Tan : E → E → Prop}
    (hC : ClosedProb (arrayProb (arrayMfd dim norm inner retraction transport zero toTangent log
      pairMean) e2rg e2rh embed cost egrad ehess) On Tan)
    (hin : ∀ x, On x → IsInnerOn (Tan x) (inner x))
    (hnorm : ∀ x v, On x → Tan x v → norm x v = Real.sqrt (inner x v v))
    (h0 : ∀ x, On x → retraction x 0 = x)
    (hs : ∀ x v, On x → Tan x v →
      HasDerivAt (fun t : ℝ => cost (retraction x (t • v))) (inner x (e2rg x (egrad x)) v) 0) :
    FirstOrder (arrayProb (arrayMfd dim norm inner retraction transport zero toTangent log
      pairMean) e2rg e2rh embed cost egrad ehess) On Tan := by
  have hneg : ∀ x v, On x → Tan x v → Tan x (-v) := hC.mfd.neg
  have hl : ∀ x v w, On x → Tan x v → Tan x w → inner x (-v) w = -inner x v w := by
    intro x v w hx hv hw
    have := (hin x hx).smul_left (-1) v w hv hw
    rwa [neg_one_smul, neg_one_mul] at this
  have hr : ∀ x v w, On x → Tan x v → Tan x w → inner x v (-w) = -inner x v w := by
    intro x v w hx hv hw
    rw [(hin x hx).symm v _ hv (hneg x w hx hw), hl x w v hx hw hv, (hin x hx).symm w v hw hv]
  refine ⟨hs, fun x v hx hv => ?_, hC.grad, hneg, fun x v hx hv => hr x v v hx hv hv,
    fun x v hx hv => ?_, fun x v hx hv => ?_, fun x v hx hv => ?_⟩
  · change cost (retraction x ((0 : ℝ) • v)) = cost x
    rw [zero_smul, h0 x hx]
  · change norm x v ^ 2 = inner x v v
    rw [hnorm x v hx hv, Real.sq_sqrt ((hin x hx).nonneg v hv)]
  · change norm x (-v) = norm x v
    have hn := hneg x v hx hv
    rw [hnorm x v hx hv, hnorm x _ hx hn, hl x v _ hx hv hn, hr x v v hx hv hv, neg_neg]
  · change 0 ≤ norm x v
    rw [hnorm x v hx hv]
    exact Real.sqrt_nonneg _

/-- **C111** (Euclidean, complex Euclidean). -/
theorem C111_euclidean [Fintype ι] (dim : ℤ) {cost : (ι → 𝕜) → ℝ} {egrad : (ι → 𝕜) → ι → 𝕜}
    (ehess : (ι → 𝕜) → (ι → 𝕜) → ι → 𝕜) (hf : ∀ x, EGrad cost x (egrad x)) :
    FirstOrder (arrayProb (euclideanMfd dim) (subE2rg eucProj) eucE2rh (fun _ v => v) cost egrad
      ehess) (fun _ => True) fun _ _ => True := by
  refine firstOrder_of (closedProb_of (C109_euclidean dim) fun _ _ _ => trivial)
    (fun x _ => (C53_inner x x).1.on _) (fun x v _ _ => ?_) (fun x _ => add_zero x)
    fun x v _ _ => C110_euclidean (hf x) v
  obtain ⟨-, h, h'⟩ := C53_inner x v
  rw [← h, Real.sqrt_sq h']

/-- **C111** (sphere). -/
theorem C111_sphere [Fintype ι] (eps : ℝ) {cost : (ι → ℝ) → ℝ} {egrad : (ι → ℝ) → ι → ℝ}
    (ehess : (ι → ℝ) → (ι → ℝ) → ι → ℝ) (hf : ∀ x, OnSphere x → EGrad cost x (egrad x)) :
    FirstOrder (arrayProb (sphereMfd eps) sphereE2rg sphereE2rh (fun _ v => v) cost egrad ehess)
      OnSphere SphereTangent :=
  firstOrder_of (C109_sphere eps cost egrad ehess).1 (fun x _ => (C56_metric x x).1.on _)
    (fun x v _ _ => (C56_metric x v).2)
    (fun x hx => (C57_stays x 0 hx (sphereTangent_subspace x).zero).2.2.2.1)
    fun x _ hx hv => (C110_sphere hx (hf x hx) hv).1

/-- **C111** (sphere intersected with a subspace). -/
theorem C111_sphere_subspace [Fintype ι] [DecidableEq ι] {S : (ι → ℝ) → Prop} {M : Matrix ι ι ℝ}
    (hS : IsSubspace S) (hM : IsOrthProj tensordot S M.mulVec) (dim : ℤ) (eps : ℝ)
    {cost : (ι → ℝ) → ℝ} {egrad : (ι → ℝ) → ι → ℝ} (ehess : (ι → ℝ) → (ι → ℝ) → ι → ℝ)
    (hf : ∀ x, OnSubspaceSphere S x → EGrad cost x (egrad x)) :
    FirstOrder (arrayProb (sphereSubspaceMfd M dim eps) (subE2rg (subspaceProj M))
      (subE2rh (subspaceProj M) sphereWeingarten) (fun _ v => v) cost egrad ehess)
      (OnSubspaceSphere S) (SubspaceTangent S) :=
  firstOrder_of (C109_sphere_subspace hS hM dim eps cost egrad ehess).1
    (fun x _ => (C56_metric x x).1.on _) (fun x v _ _ => (C56_metric x v).2)
    (fun x hx => (C57_stays x 0 hx.2 (sphereTangent_subspace x).zero).2.2.2.1)
    fun x _ hx hv => C110_sphere_subspace hS hM hx (hf x hx) hv

/-- **C111** (oblique). -/
theorem C111_oblique [Fintype m] [Fintype n] (dim : ℤ) (eps : ℝ) {cost : Matrix m n ℝ → ℝ}
    {egrad : Matrix m n ℝ → Matrix m n ℝ} (ehess : Matrix m n ℝ → Matrix m n ℝ → Matrix m n ℝ)
    (hf : ∀ X, OnOblique X → EGradMat cost X (egrad X)) :
    FirstOrder (arrayProb (obliqueMfd dim eps) (subE2rg oblProj) oblE2rh (fun _ v => v) cost egrad
      ehess) OnOblique ObliqueTangent :=
  firstOrder_of (C109_oblique dim eps cost egrad ehess).1 (fun X _ => (oblInner_inner X).on _)
    (fun _ _ _ _ => npNorm_eq_sqrt _)
    (fun X hX => (C63_stays X X 0 hX hX (obliqueTangent_subspace X).zero eps).2.2.2.2.2.2)
    fun X _ hX hV => C110_oblique hX (hf X hX) hV

/-- **C111** (complex circle). -/
theorem C111_complex_circle [Fintype ι] (log : (ι → ℂ) → (ι → ℂ) → ι → ℂ) {cost : (ι → ℂ) → ℝ}
    {egrad : (ι → ℂ) → ι → ℂ} (ehess : (ι → ℂ) → (ι → ℂ) → ι → ℂ)
    (hf : ∀ z, OnCircles z → EGrad cost z (egrad z)) :
    FirstOrder (arrayProb (complexCircleMfd log) (subE2rg ccProj) ccE2rh (fun _ v => v) cost egrad
      ehess) OnCircles CirclesTangent := by
  refine firstOrder_of (C109_complex_circle log cost egrad ehess).1
    (fun z _ => (ccInner_inner z).on _) (fun z v _ _ => ?_)
    (fun z hz => (C64_retraction z 0 hz (circlesTangent_subspace z).zero).2.2)
    fun z _ hz hv => C110_complex_circle hz (hf z hz) hv
  have h : npNorm v ^ 2 = ccInner z v v := npNorm_sq v
  rw [← h, Real.sqrt_sq (npNorm_nonneg v)]
  rfl

/-- **C111** (positive arrays). -/
theorem C111_positive [Fintype ι] (dim : ℤ) (parallel : Bool)
    (pairMean : (ι → ℝ) → (ι → ℝ) → ι → ℝ) {cost : (ι → ℝ) → ℝ} {egrad : (ι → ℝ) → ι → ℝ}
    (ehess : (ι → ℝ) → (ι → ℝ) → ι → ℝ) (hf : ∀ x, PosPoint x → EGrad cost x (egrad x)) :
    FirstOrder (arrayProb (positiveMfd dim parallel pairMean) posE2rg posE2rh (fun _ v => v) cost
      egrad ehess) PosPoint fun _ _ => True :=
  firstOrder_of (closedProb_of (C109_positive dim parallel pairMean) fun _ _ _ => trivial)
    (fun x hx => (C78_metric x hx).1.on _) (fun _ _ _ _ => rfl)
    (fun x _ => by funext i; simp [posRetract]) fun x v hx _ => (C110_positive hx (hf x hx) v).1

/-- **C111** (Poincaré ball); the cost as a function of the array of coordinates. -/
theorem C111_poincare [Fintype κ] [Fintype ι] (dim : ℤ)
    (transport : (κ → ι → ℝ) → (κ → ι → ℝ) → (κ → ι → ℝ) → κ → ι → ℝ)
    (log pairMean : (κ → ι → ℝ) → (κ → ι → ℝ) → κ → ι → ℝ) {f : (κ × ι → ℝ) → ℝ}
    {egrad : (κ → ι → ℝ) → κ → ι → ℝ} (ehess : (κ → ι → ℝ) → (κ → ι → ℝ) → κ → ι → ℝ)
    (hf : ∀ X, InBalls X → EGrad f (fun x => X x.1 x.2) fun x => egrad X x.1 x.2) :
    FirstOrder (arrayProb (poincareMfd dim transport log pairMean) pbE2rg pbE2rh (fun _ v => v)
      (fun X => f fun x => X x.1 x.2) egrad ehess) InBalls fun _ _ => True :=
  firstOrder_of (closedProb_of (C109_poincare dim transport log pairMean) fun _ _ _ => trivial)
    (fun X hX => (pbInner_inner X hX).on _) (fun _ _ _ _ => rfl)
    (fun X hX => (C87_stays X 0 hX).2.1) fun X V hX _ => C110_poincare hX (hf X hX) V

/-- **C111** (symmetric and Hermitian positive definite). -/
theorem C111_positive_definite [Fintype κ] [Fintype n] [DecidableEq n] (dim : ℤ)
    (log pairMean : Stack κ n n 𝕜 → Stack κ n n 𝕜 → Stack κ n n 𝕜) {cost : Stack κ n n 𝕜 → ℝ}
    {egrad : Stack κ n n 𝕜 → Stack κ n n 𝕜} (ehess : Stack κ n n 𝕜 → Stack κ n n 𝕜 → Stack κ n n 𝕜)
    (hf : ∀ P, PDPoint P → EGradStack cost P (egrad P)) :
    FirstOrder (arrayProb (positiveDefiniteMfd dim log pairMean) pdE2rg pdE2rh (fun _ v => v) cost
      egrad ehess) PDPoint fun _ => HermStack := by
  refine firstOrder_of (C109_positive_definite dim log pairMean cost egrad ehess).1
    (fun P hP => (C81_metric P hP).1) (fun P V hP hV => ?_)
    (fun P hP => (C83_retraction P 0 hP hermStack_subspace.zero).2)
    fun P _ hP hV => (C110_positive_definite hP (hf P hP) hV).1
  obtain ⟨h, h'⟩ := (C81_metric P hP).2.2 V hV
  rw [← h, Real.sqrt_sq h']

/-- **C111** (special Hermitian positive definite). -/
theorem C111_special_hpd [Fintype κ] {n : ℕ} (hn : 0 < n) (dim : ℤ)
    (log pairMean : Stack κ (Fin n) (Fin n) ℂ → Stack κ (Fin n) (Fin n) ℂ →
      Stack κ (Fin n) (Fin n) ℂ)
    (e2rh : Stack κ (Fin n) (Fin n) ℂ → Stack κ (Fin n) (Fin n) ℂ → Stack κ (Fin n) (Fin n) ℂ →
      Stack κ (Fin n) (Fin n) ℂ → Stack κ (Fin n) (Fin n) ℂ) {cost : Stack κ (Fin n) (Fin n) ℂ → ℝ}
    {egrad : Stack κ (Fin n) (Fin n) ℂ → Stack κ (Fin n) (Fin n) ℂ}
    (ehess : Stack κ (Fin n) (Fin n) ℂ → Stack κ (Fin n) (Fin n) ℂ → Stack κ (Fin n) (Fin n) ℂ)
    (hf : ∀ P, SHPDPoint P → EGradStack cost P (egrad P)) :
    FirstOrder (arrayProb (specialHpdMfd dim log pairMean) shpdE2rg e2rh (fun _ v => v) cost egrad
      ehess) SHPDPoint SHPDTangent := by
  refine firstOrder_of (C109_special_hpd hn dim log pairMean e2rh cost egrad ehess)
    (fun P hP => ?_) (fun P V hP hV => ?_)
    (fun P hP => (C86_points P 0 hP hermStack_subspace.zero).2.2)
    fun P _ hP hV => (C110_special_hpd hn hP (hf P hP) hV).1
  · have h := (C81_metric P hP.1).1
    exact ⟨fun u v w hu hv hw => h.add_left u v w hu.1 hv.1 hw.1,
      fun c u v hu hv => h.smul_left c u v hu.1 hv.1, fun u v hu hv => h.symm u v hu.1 hv.1,
      fun u hu => h.nonneg u hu.1, fun u hu => h.definite u hu.1⟩
  · obtain ⟨h, h'⟩ := (C81_metric P hP.1).2.2 V hV.1
    rw [← h, Real.sqrt_sq h']

/-- **C111** (Stiefel): with either retraction, whatever factorisations LAPACK returns. -/
theorem C111_stiefel [Fintype κ] [Fintype n] [DecidableEq n] {p : ℕ} (dim : ℤ)
    (retraction log pairMean : Stack κ n (Fin p) ℝ → Stack κ n (Fin p) ℝ → Stack κ n (Fin p) ℝ)
    (hr : (∀ X V, ∃ q r, (∀ k, IsQR (stRetractArg X V k) (q k) (r k)) ∧
        retraction X V = stRetractQR q r) ∨
      ∀ X V, ∃ u, ∃ s : κ → Fin p → ℝ, ∃ vt, (∀ k, IsSVD (stRetractArg X V k) (u k) (s k) (vt k)) ∧
        retraction X V = stRetractPolar u vt)
    {cost : Stack κ n (Fin p) ℝ → ℝ} {egrad : Stack κ n (Fin p) ℝ → Stack κ n (Fin p) ℝ}
    (ehess : Stack κ n (Fin p) ℝ → Stack κ n (Fin p) ℝ → Stack κ n (Fin p) ℝ)
    (hf : ∀ X, OnStiefel X → EGradStack cost X (egrad X)) :
    FirstOrder (arrayProb (stiefelMfd dim retraction log pairMean) stE2rg stE2rh (fun _ v => v) cost
      egrad ehess) OnStiefel StiefelTangent := by
  refine firstOrder_of (C109_stiefel dim retraction log pairMean hr cost egrad ehess).1
    (fun X _ => (C66_metric X X).1.on _) (fun X V _ _ => (C66_metric X V).2) (fun X hX => ?_)
    fun X V hX hV => ?_
  · rcases hr with hr | hr
    · obtain ⟨q, r, h, he⟩ := hr X 0
      rw [he]
      exact (C67_zero hX).1 q r h
    · obtain ⟨u, s, vt, h, he⟩ := hr X 0
      rw [he]
      exact (C67_zero hX).2 u s vt h
  · have hd := C110_stiefel hX (hf X hX) hV
    rcases hr with hr | hr
    · choose q r h he using fun t : ℝ => hr X (t • V)
      simp only [he]
      exact hd.1 q r h
    · choose u s vt h he using fun t : ℝ => hr X (t • V)
      simp only [he]
      exact hd.2.1 u s vt h

/-- **C111** (Grassmann, real and complex). -/
theorem C111_grassmann [Fintype κ] [Fintype n] [DecidableEq n] {p : ℕ} (dim : ℤ)
    (retraction log pairMean : Stack κ n (Fin p) 𝕜 → Stack κ n (Fin p) 𝕜 → Stack κ n (Fin p) 𝕜)
    (hr : ∀ X V, IsGrRetraction X V (retraction X V)) {cost : Stack κ n (Fin p) 𝕜 → ℝ}
    {egrad : Stack κ n (Fin p) 𝕜 → Stack κ n (Fin p) 𝕜}
    (ehess : Stack κ n (Fin p) 𝕜 → Stack κ n (Fin p) 𝕜 → Stack κ n (Fin p) 𝕜)
    (hf : ∀ X, Orthonormal' X → EGradStack cost X (egrad X)) :
    FirstOrder (arrayProb (grassmannMfd dim retraction log pairMean) cgrProj cgrE2rh (fun _ v => v)
      cost egrad ehess) Orthonormal' GrHorizontal :=
  firstOrder_of (C109_grassmann dim retraction log pairMean hr cost egrad ehess).1
    (fun X _ => (C70_metric X X).1.on _) (fun X V _ _ => (C70_metric X V).2)
    (fun X hX => (C71_retraction_initial hX (grHorizontal_subspace X).zero).1 _ (hr X 0))
    fun X V hX hV => (C110_grassmann hX (hf X hX) hV).1 _ fun t => hr X (t • V)

/-- **C111** (positive semidefinite of fixed rank). -/
theorem C111_psd [Fintype n] {k : ℕ} (dim : ℤ)
    (proj log pairMean : Matrix n (Fin k) 𝕜 → Matrix n (Fin k) 𝕜 → Matrix n (Fin k) 𝕜)
    (e2rh : Matrix n (Fin k) 𝕜 → Matrix n (Fin k) 𝕜 → Matrix n (Fin k) 𝕜 → Matrix n (Fin k) 𝕜 →
      Matrix n (Fin k) 𝕜) {cost : Matrix n (Fin k) 𝕜 → ℝ}
    {egrad : Matrix n (Fin k) 𝕜 → Matrix n (Fin k) 𝕜}
    (ehess : Matrix n (Fin k) 𝕜 → Matrix n (Fin k) 𝕜 → Matrix n (Fin k) 𝕜)
    (hf : ∀ Y, EGradMat cost Y (egrad Y)) :
    FirstOrder (arrayProb (psdMfd dim proj log pairMean) psdE2rg e2rh (fun _ v => v) cost egrad
      ehess) (fun _ => True) fun _ _ => True := by
  refine firstOrder_of (closedProb_of (closed_of_subspace (fun _ => isSubspace_true)
    (fun _ _ _ _ => trivial) (fun _ _ _ _ _ _ => trivial) (fun _ _ => trivial)
    fun _ _ _ _ => trivial) fun _ _ _ => trivial) (fun Y _ => ?_) (fun Y V _ _ => ?_)
    (fun Y _ => add_zero Y) fun Y V _ _ => C110_psd (hf Y) V
  · rw [show psdInner Y = trDot from funext fun A => funext fun B => psdInner_eq Y A B]
    exact trDot_inner.on _
  · rw [psdInner_eq, ← psdNorm_sq (Y := Y)]
    exact (Real.sqrt_sq (npNorm_nonneg _)).symm

/-- **C111** (elliptope). -/
theorem C111_elliptope [Fintype n] {k : ℕ} (dim : ℤ)
    (proj log pairMean : Matrix n (Fin k) ℝ → Matrix n (Fin k) ℝ → Matrix n (Fin k) ℝ)
    (hp : ∀ Y V, UnitRows Y → IsEllProj Y V (proj Y V)) {cost : Matrix n (Fin k) ℝ → ℝ}
    {egrad : Matrix n (Fin k) ℝ → Matrix n (Fin k) ℝ}
    (ehess : Matrix n (Fin k) ℝ → Matrix n (Fin k) ℝ → Matrix n (Fin k) ℝ)
    (hf : ∀ Y, UnitRows Y → EGradMat cost Y (egrad Y)) :
    FirstOrder (arrayProb (elliptopeMfd dim proj log pairMean) ellE2rg
      (fun Y G H V => proj Y (ellRowHess Y G H V)) (fun _ v => v) cost egrad ehess) UnitRows
      RowTangent := by
  refine firstOrder_of (C109_elliptope dim proj log pairMean hp cost egrad ehess).1
    (fun Y _ => (ellInner_inner Y).on _) (fun Y V _ _ => ?_) (fun Y hY => ?_)
    fun Y _ hY hV => C110_elliptope hY (hf Y hY) hV
  · rw [ellNorm_eq, ellInner_eq]
  · funext i
    have h := (C57_stays (Y i) 0 (hY i) (sphereTangent_subspace (Y i)).zero).2.2.2.1
    rw [ellRetraction, ellNormalize_row]
    exact h

/-- **C111** (special orthogonal group): with either retraction. -/
theorem C111_special_orthogonal [Fintype κ] {p : ℕ} (dim : ℤ)
    (retraction log pairMean : Stack κ (Fin p) (Fin p) ℝ → Stack κ (Fin p) (Fin p) ℝ →
      Stack κ (Fin p) (Fin p) ℝ)
    (hr : (∀ X V, ∃ q r, (∀ k, IsQR (gRetractArg X V k) (q k) (r k)) ∧
        retraction X V = gRetractQR q r) ∨
      ∀ X V, ∃ u, ∃ s : κ → Fin p → ℝ, ∃ vt, (∀ k, IsSVD (gRetractArg X V k) (u k) (s k) (vt k)) ∧
        retraction X V = gRetractPolar u vt)
    {cost : Stack κ (Fin p) (Fin p) ℝ → ℝ}
    {egrad : Stack κ (Fin p) (Fin p) ℝ → Stack κ (Fin p) (Fin p) ℝ}
    (ehess : Stack κ (Fin p) (Fin p) ℝ → Stack κ (Fin p) (Fin p) ℝ → Stack κ (Fin p) (Fin p) ℝ)
    (hf : ∀ X, OnSO X → EGradStack cost X (egrad X)) :
    FirstOrder (arrayProb (specialOrthogonalMfd dim retraction log pairMean) gE2rg gE2rh gEmbed cost
      egrad ehess) OnSO fun _ => InLie := by
  refine firstOrder_of (C109_special_orthogonal dim retraction log pairMean hr cost egrad ehess).1
    (fun X _ => (C95_metric X).2.1) (fun X V _ _ => (C95_metric X).2.2 V) (fun X hX => ?_)
    fun X V hX hV => ?_
  · rcases hr with hr | hr
    · obtain ⟨q, r, h, he⟩ := hr X 0
      rw [he]
      exact (C96_zero hX.1).1 q r h
    · obtain ⟨u, s, vt, h, he⟩ := hr X 0
      rw [he]
      exact (C96_zero hX.1).2 u s vt h
  · have hd := C110_special_orthogonal hX.1 (hf X hX) hV
    rcases hr with hr | hr
    · choose q r h he using fun t : ℝ => hr X (t • V)
      simp only [he]
      exact hd.1 q r h
    · choose u s vt h he using fun t : ℝ => hr X (t • V)
      simp only [he]
      exact hd.2.1 u s vt h

/-- **C111** (products): the hypotheses of `C110_product` on every factor. -/
theorem C111_product {k : ℕ} {E : Fin k → Type*} [∀ i, NormedAddCommGroup (E i)]
    [∀ i, NormedSpace ℝ (E i)] {Ms : ∀ i, Mfd ℝ (E i) (E i)} {On : ∀ i, E i → Prop}
    {Tan : ∀ i, E i → E i → Prop} (hs : ∀ i a v, (Ms i).smul a v = a • v)
    (hn : ∀ i v, (Ms i).neg v = -v) (hC : ∀ i, ClosedMfd (Ms i) (On i) (Tan i))
    (hin : ∀ i x, On i x → IsInnerOn (Tan i x) ((Ms i).inner x))
    {e2rg : ∀ i, E i → E i → E i} (e2rh : ∀ i, E i → E i → E i → E i → E i)
    (embed : ∀ i, E i → E i → E i) {cost : (∀ i, E i) → ℝ} {egrad : (∀ i, E i) → ∀ i, E i}
    (ehess : (∀ i, E i) → (∀ i, E i) → ∀ i, E i) {B : ∀ i, E i → E i → ℝ}
    {f' : (∀ i, E i) → (∀ i, E i) →L[ℝ] ℝ}
    (hf : ∀ x, (∀ i, On i (x i)) → HasFDerivAt cost (f' x) x)
    (hB : ∀ x, (∀ i, On i (x i)) → ∀ i v, f' x (Pi.single i v) = B i (egrad x i) v)
    (hg : ∀ i x G, On i x → Tan i x (e2rg i x G))
    (hG : ∀ i x v G, On i x → Tan i x v → (Ms i).inner x (e2rg i x G) v = B i G v)
    (hr : ∀ i x v, On i x → Tan i x v →
      HasDerivAt (fun t : ℝ => (Ms i).retraction x (t • v)) v 0)
    (hr0 : ∀ i x, On i x → (Ms i).retraction x 0 = x) :
    FirstOrder (productProb Ms e2rg e2rh embed cost egrad ehess) (fun x => ∀ i, On i (x i))
      fun x v => ∀ i, Tan i (x i) (v i) := by
  have hneg : ∀ i x v, On i x → Tan i x v → Tan i x (-v) := by
    intro i x v hx hv
    rw [← hn]
    exact (hC i).neg x v hx hv
  have hl : ∀ i x v w, On i x → Tan i x v → Tan i x w →
      (Ms i).inner x (-v) w = -(Ms i).inner x v w := by
    intro i x v w hx hv hw
    have := (hin i x hx).smul_left (-1) v w hv hw
    rwa [neg_one_smul, neg_one_mul] at this
  have hrt : ∀ i x v w, On i x → Tan i x v → Tan i x w →
      (Ms i).inner x v (-w) = -(Ms i).inner x v w := by
    intro i x v w hx hv hw
    rw [(hin i x hx).symm v _ hv (hneg i x w hx hw), hl i x w v hx hw hv,
      (hin i x hx).symm w v hw hv]
  have hnn : ∀ x v : ∀ i, E i, (∀ i, On i (x i)) → (∀ i, Tan i (x i) (v i)) →
      0 ≤ ∑ i, (Ms i).inner (x i) (v i) (v i) := fun x v hx hv =>
    Finset.sum_nonneg fun i _ => (hin i _ (hx i)).nonneg _ (hv i)
  refine ⟨fun x v hx hv => ?_, fun x v hx hv => ?_, fun x hx i => hg i _ _ (hx i),
    fun x v hx hv i => (hC i).neg _ _ (hx i) (hv i), fun x v hx hv => ?_, fun x v hx hv => ?_,
    fun x v hx hv => ?_, fun x v _ _ => Real.sqrt_nonneg _⟩
  · exact C110_product hs (hf x hx) (fun i => hB x hx i _)
      (fun i => hG i _ _ _ (hx i) (hv i)) (fun i => hr i _ _ (hx i) (hv i))
      fun i => by rw [zero_smul, hr0 i _ (hx i)]
  · change cost (fun i => (Ms i).retraction (x i) ((Ms i).smul 0 (v i))) = cost x
    congr 1
    funext i
    rw [hs, zero_smul, hr0 i _ (hx i)]
  · change ∑ i, (Ms i).inner (x i) (v i) ((Ms i).neg (v i)) = -∑ i, (Ms i).inner (x i) (v i) (v i)
    rw [← Finset.sum_neg_distrib]
    exact Finset.sum_congr rfl fun i _ => by rw [hn, hrt i _ _ _ (hx i) (hv i) (hv i)]
  · exact Real.sq_sqrt (hnn x v hx hv)
  · change Real.sqrt (∑ i, (Ms i).inner (x i) ((Ms i).neg (v i)) ((Ms i).neg (v i))) =
      Real.sqrt (∑ i, (Ms i).inner (x i) (v i) (v i))
    congr 1
    refine Finset.sum_congr rfl fun i _ => ?_
    rw [hn, hl i _ _ _ (hx i) (hv i) (hneg i _ _ (hx i) (hv i)), hrt i _ _ _ (hx i) (hv i) (hv i),
      neg_neg]

/-! ## The hypotheses are met -/

/-- Minimising `y₀ y₁` on the circle from `(1, 0)`, where the gradient is `(0, 1)`: with enough
evaluations in the line search, whatever the stopping parameters, steepest descent returns a
negative cost. -/
example : ∃ N : ℕ, ∀ max : ℤ, (N : ℤ) ≤ max → ∀ (cfg : Cfg ℝ) (clk : Clock ℝ)
    (res : Result ℝ (Fin 2 → ℝ)) (m : Option ℝ),
    SDRuns cfg (adaptive (Fin 2 → ℝ) (Fin 2 → ℝ) ⟨1 / 2, 1 / 2, max, 1⟩)
      (arrayProb (sphereMfd 0) sphereE2rg sphereE2rh (fun _ v => v) (fun y => y 0 * y 1)
        (fun y => ![y 1, y 0]) fun _ v => v) clk ![1, 0] none (.ok (res, m)) → res.cost < 0 := by
  have hx : OnSphere ![(1 : ℝ), 0] := by norm_num [OnSphere, Fin.sum_univ_two]
  have hF := C111_sphere (cost := fun y : Fin 2 → ℝ => y 0 * y 1)
    (egrad := fun y => ![y 1, y 0]) 0 (fun _ v => v) fun x _ => egrad_product x
  have hn : sphereNorm ![(1 : ℝ), 0] (sphereE2rg ![1, 0] ![0, 1]) ≠ 0 := by
    rw [(C56_metric _ _).2]
    norm_num [sphereInner, sphereE2rg, subE2rg, sphereProj, tensordot, Fin.sum_univ_two]
  obtain ⟨N, h⟩ := C111_descent hF hx hn (c := 1 / 2) (r := 1 / 2) (init := 1) (by norm_num)
    (by norm_num) (by norm_num) (by norm_num) (by norm_num)
  refine ⟨N, fun max hm cfg clk res m hr => ?_⟩
  have := (h max hm cfg clk res m).2 hr
  simpa [arrayProb] using this

end Verif.Geo
