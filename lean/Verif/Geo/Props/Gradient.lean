/-
C110: along the retraction, the cost changes at the rate the metric assigns to the converted
gradient.  For every manifold: if `G` is the Euclidean gradient of the cost `f` at `x` then
`d/dt f(retraction(x, t v)) = inner_product(x, euclidean_to_riemannian_gradient(x, G), v)` at
`t = 0` for every tangent vector `v`.
-/
import Verif.Geo.Props.Euclidean
import Verif.Geo.Props.SphereSubspace
import Verif.Geo.Props.Oblique
import Verif.Geo.Props.ComplexCircle
import Verif.Geo.Props.Stiefel
import Verif.Geo.Props.Grassmann
import Verif.Geo.Props.Positive
import Verif.Geo.Props.SpecialPD
import Verif.Geo.Props.Elliptope
import Verif.Geo.Props.Hyperbolic
import Verif.Geo.Props.FixedRank
import Verif.Geo.Props.Group

namespace Verif.Geo
open Matrix

variable {κ ι m n p : Type*} {𝕜 : Type*} [RCLike 𝕜]

/-! ### Specification

Euclidean gradients, with the convention for complex arrays of the backends: the derivative of `f`
in direction `d` is the sum of `re (conj G_i d_i)`.  Stated by curves: along every differentiable
curve through `x` the derivative of `f` is the inner product of `G` with the velocity. -/

/-- `G` is the Euclidean gradient of `f` at the array `x`. -/
def EGrad [Fintype ι] (f : (ι → 𝕜) → ℝ) (x G : ι → 𝕜) : Prop :=
  ∀ (c : ℝ → ι → 𝕜) (d : ι → 𝕜), (∀ i, HasDerivAt (fun t => c t i) (d i) 0) → c 0 = x →
    HasDerivAt (fun t => f (c t)) (∑ i, RCLike.re (star (G i) * d i)) 0

/-- `G` is the Euclidean gradient of `f` at the matrix `X`. -/
def EGradMat [Fintype m] [Fintype n] (f : Matrix m n 𝕜 → ℝ) (X G : Matrix m n 𝕜) : Prop :=
  ∀ (c : ℝ → Matrix m n 𝕜) (d : Matrix m n 𝕜), (∀ i j, HasDerivAt (fun t => c t i j) (d i j) 0) →
    c 0 = X → HasDerivAt (fun t => f (c t)) (∑ i, ∑ j, RCLike.re (star (G i j) * d i j)) 0

/-- `G` is the Euclidean gradient of `f` at the stack of matrices `X`. -/
def EGradStack [Fintype κ] [Fintype m] [Fintype n] (f : Stack κ m n 𝕜 → ℝ) (X G : Stack κ m n 𝕜) :
    Prop :=
  ∀ (c : ℝ → Stack κ m n 𝕜) (d : Stack κ m n 𝕜),
    (∀ k i j, HasDerivAt (fun t => c t k i j) (d k i j) 0) → c 0 = X →
    HasDerivAt (fun t => f (c t)) (∑ k, ∑ i, ∑ j, RCLike.re (star (G k i j) * d k i j)) 0

/-! The predicate is met by the gradient of every differentiable function, and the gradient is
unique. -/

section
variable [Fintype ι]

theorem EGrad.unique {f : (ι → 𝕜) → ℝ} {x G G' : ι → 𝕜} (h : EGrad f x G) (h' : EGrad f x G') :
    G = G' := by
  classical
  have key : ∀ d : ι → 𝕜, ∑ i, RCLike.re (star (G i) * d i) = ∑ i, RCLike.re (star (G' i) * d i) := by
    intro d
    have hc : ∀ i, HasDerivAt (fun t : ℝ => (x + t • d) i) (d i) 0 := by
      intro i
      have := ((hasDerivAt_id (0 : ℝ)).smul_const (d i)).const_add (x i)
      simpa using this
    exact (h _ d hc (by simp)).unique (h' _ d hc (by simp))
  have h0 := key (G - G')
  rw [← sub_eq_zero, ← Finset.sum_sub_distrib] at h0
  have h1 : ∀ i, RCLike.re (star (G i) * (G - G') i) - RCLike.re (star (G' i) * (G - G') i)
      = ‖G i - G' i‖ ^ 2 := by
    intro i
    rw [← map_sub, ← sub_mul, ← star_sub, Pi.sub_apply, RCLike.star_def, RCLike.conj_mul]
    norm_cast
  simp only [h1] at h0
  funext i
  have := (Finset.sum_eq_zero_iff_of_nonneg (fun i _ => sq_nonneg _)).1 h0 i (Finset.mem_univ i)
  exact sub_eq_zero.1 (norm_eq_zero.1 (pow_eq_zero_iff (two_ne_zero) |>.1 this))

/-- A function that is differentiable (in the sense of Fréchet) has a Euclidean gradient, the array
of its partial derivatives. -/
theorem EGrad.of_hasFDerivAt [DecidableEq ι] {f : (ι → ℝ) → ℝ} {x : ι → ℝ} {f' : (ι → ℝ) →L[ℝ] ℝ}
    (h : HasFDerivAt f f' x) : EGrad f x fun i => f' (Pi.single i 1) := by
  intro c d hc h0
  subst h0
  have hc' : HasDerivAt c d 0 := hasDerivAt_pi.2 hc
  have h1 := h.comp_hasDerivAt (0 : ℝ) hc'
  have h2 : f' d = ∑ i, RCLike.re (star (f' (Pi.single i 1)) * d i) := by
    conv_lhs => rw [← Finset.univ_sum_single d]
    rw [map_sum]
    refine Finset.sum_congr rfl fun i _ => ?_
    have : Pi.single (M := fun _ => ℝ) i (d i) = d i • Pi.single i (1 : ℝ) := by
      ext j
      by_cases hj : j = i
      · subst hj; simp
      · simp [hj]
    rw [this, map_smul]
    simp [mul_comm]
  rw [← h2]
  exact h1

theorem egrad_tensordot {f : (ι → ℝ) → ℝ} {x G d : ι → ℝ} {c : ℝ → ι → ℝ} (h : EGrad f x G)
    (hc : HasDerivAt c d 0) (h0 : c 0 = x) :
    HasDerivAt (fun t => f (c t)) (tensordot G d) 0 := by
  simpa [tensordot] using h c d (hasDerivAt_pi.1 hc) h0

theorem egrad_retensordot {f : (ι → 𝕜) → ℝ} {x G d : ι → 𝕜} {c : ℝ → ι → 𝕜} (h : EGrad f x G)
    (hc : HasDerivAt c d 0) (h0 : c 0 = x) :
    HasDerivAt (fun t => f (c t)) (retensordot G d) 0 := by
  simpa [retensordot] using h c d (hasDerivAt_pi.1 hc) h0

end

theorem egradMat_trDot [Fintype m] [Fintype n] {f : Matrix m n 𝕜 → ℝ} {X G d : Matrix m n 𝕜}
    {c : ℝ → Matrix m n 𝕜} (h : EGradMat f X G) (hc : MatDeriv c d 0) (h0 : c 0 = X) :
    HasDerivAt (fun t => f (c t)) (trDot G d) 0 := by
  rw [trDot_eq_sum]
  exact h c d hc h0

theorem egradStack_stackDot [Fintype κ] [Fintype m] [Fintype n] {f : Stack κ m n 𝕜 → ℝ}
    {X G d : Stack κ m n 𝕜} {c : ℝ → Stack κ m n 𝕜} (h : EGradStack f X G) (hc : StackDeriv c d 0)
    (h0 : c 0 = X) : HasDerivAt (fun t => f (c t)) (stackDot G d) 0 := by
  have := h c d hc h0
  simpa [stackDot, retensordot, Fintype.sum_prod_type] using this

/-! ### C110 -/

/-- **C110** (Euclidean and complex Euclidean). -/
theorem C110_euclidean [Fintype ι] {f : (ι → 𝕜) → ℝ} {x G : ι → 𝕜} (hf : EGrad f x G)
    (v : ι → 𝕜) :
    HasDerivAt (fun t : ℝ => f (eucExp x (t • v))) (eucInner x (subE2rg eucProj x G) v) 0 := by
  rw [(C53_transport_conversion x x v v G).2.1]
  exact egrad_retensordot hf (C53_exp_log x x v).2.2.2 (by simp [eucExp])

/-- **C110** (sphere): for retraction and exponential. -/
theorem C110_sphere [Fintype ι] {f : (ι → ℝ) → ℝ} {x G v : ι → ℝ} (hx : OnSphere x)
    (hf : EGrad f x G) (hv : SphereTangent x v) :
    HasDerivAt (fun t : ℝ => f (sphereRetraction x (t • v))) (sphereInner x (sphereE2rg x G) v) 0 ∧
      HasDerivAt (fun t : ℝ => f (sphereExp x (t • v))) (sphereInner x (sphereE2rg x G) v) 0 := by
  have h0 : sphereInner x (sphereE2rg x G) v = tensordot G v := (C56_tangent x hx x G v).2.2.2 hv
  have hs := (C57_stays x v hx hv).2.2.2
  rw [h0]
  refine ⟨egrad_tensordot hf (C57_retraction_velocity x v hx hv) ?_,
    egrad_tensordot hf (C57_exp_velocity x v) ?_⟩
  · rw [zero_smul]; exact hs.1
  · rw [zero_smul]; exact hs.2

/-- **C110** (sphere intersected with a subspace). -/
theorem C110_sphere_subspace [Fintype ι] [DecidableEq ι] {S : (ι → ℝ) → Prop} {M : Matrix ι ι ℝ}
    (hS : IsSubspace S) (hM : IsOrthProj tensordot S M.mulVec) {f : (ι → ℝ) → ℝ} {x G v : ι → ℝ}
    (hx : OnSubspaceSphere S x) (hf : EGrad f x G) (hv : SubspaceTangent S x v) :
    HasDerivAt (fun t : ℝ => f (sphereRetraction x (t • v)))
      (sphereInner x (subE2rg (subspaceProj M) x G) v) 0 := by
  have h0 : sphereInner x (subE2rg (subspaceProj M) x G) v = tensordot G v :=
    (C62_projection_partial hS hM x hx).represents G hv
  rw [h0]
  refine egrad_tensordot hf (C57_retraction_velocity x v hx.2 hv.2) ?_
  rw [zero_smul]
  exact (C57_stays x v hx.2 hv.2).2.2.2.1

/-- **C110** (oblique). -/
theorem C110_oblique [Fintype m] [Fintype n] {f : Matrix m n ℝ → ℝ} {X G V : Matrix m n ℝ}
    (hX : OnOblique X) (hf : EGradMat f X G) (hV : ObliqueTangent X V) :
    HasDerivAt (fun t : ℝ => f (oblRetraction X (t • V)))
      (oblInner X (subE2rg oblProj X G) V) 0 := by
  have h0 : oblInner X (subE2rg oblProj X G) V = ∑ i, ∑ j, RCLike.re (star (G i j) * V i j) := by
    rw [show oblInner X (subE2rg oblProj X G) V = oblInner X G V from
      (C63_projection X hX).represents G hV]
    simp [oblInner, tensordot, Fintype.sum_prod_type]
  rw [h0]
  refine hf _ V ?_ ?_
  · intro i j
    have h := hasDerivAt_pi.1 (C57_retraction_velocity (colOf X j) (colOf V j) (hX j) (hV j)) i
    refine h.congr_of_eventuallyEq (Filter.Eventually.of_forall fun t => ?_)
    exact congrFun (C63_columns X X X (t • V) 0 j).2.2.1 i
  · rw [zero_smul]
    exact (C63_stays X X V hX hX hV 0).2.2.2.2.2.2

/-- **C110** (complex circle). -/
theorem C110_complex_circle [Fintype ι] {f : (ι → ℂ) → ℝ} {z G v : ι → ℂ} (hz : OnCircles z)
    (hf : EGrad f z G) (hv : CirclesTangent z v) :
    HasDerivAt (fun t : ℝ => f (ccRetraction z (t • v))) (ccInner z (subE2rg ccProj z G) v) 0 := by
  have h0 : ccInner z (subE2rg ccProj z G) v = retensordot G v :=
    (C64_projection z hz).represents G hv
  rw [h0]
  refine egrad_retensordot hf (C64_velocity z v hz hv) ?_
  rw [zero_smul]
  exact (C64_retraction z v hz hv).2.2

/-- **C110** (positive arrays). -/
theorem C110_positive [Fintype ι] {f : (ι → ℝ) → ℝ} {x G : ι → ℝ} (hx : PosPoint x)
    (hf : EGrad f x G) (v : ι → ℝ) :
    HasDerivAt (fun t : ℝ => f (posRetract x (t • v))) (posInner x (posE2rg x G) v) 0 ∧
      HasDerivAt (fun t : ℝ => f (posExp x (t • v))) (posInner x (posE2rg x G) v) 0 := by
  rw [C80_gradient x G v hx]
  have h := (C79_second_order x v hx).2
  exact ⟨egrad_tensordot hf h.1 (by funext i; simp [posRetract]),
    egrad_tensordot hf h.2 (by funext i; simp [posExp])⟩

/-- **C110** (Poincaré ball; the retraction is the exponential). -/
theorem C110_poincare [Fintype κ] [Fintype ι] {f : (κ × ι → ℝ) → ℝ} {X G : κ → ι → ℝ}
    (hX : InBalls X) (hf : EGrad f (fun x => X x.1 x.2) (fun x => G x.1 x.2)) (V : κ → ι → ℝ) :
    HasDerivAt (fun t : ℝ => f fun x => pbExp X (t • V) x.1 x.2) (pbInner X (pbE2rg X G) V) 0 := by
  rw [C90_gradient X G V hX]
  have h0 : ∑ k, ∑ i, G k i * V k i
      = ∑ x : κ × ι, RCLike.re (star (G x.1 x.2) * V x.1 x.2) := by
    simp [Fintype.sum_prod_type]
  rw [h0]
  refine hf (fun (t : ℝ) (x : κ × ι) => pbExp X (t • V) x.1 x.2) (fun x => V x.1 x.2) ?_ ?_
  · rintro ⟨k, i⟩
    obtain ⟨w, hw, hw0, -⟩ := C90_geodesic (V k) (hX k)
    have := hasDerivAt_pi.1 (hw 0) i
    rw [hw0] at this
    exact this
  · funext x
    have := (C87_stays X V hX).2.1
    have h2 : (0 : ℝ) • V = pbZero X := by rw [zero_smul]; rfl
    rw [h2, this]

/-- **C110** (Stiefel): for both retractions, whatever factorisations LAPACK returns, and for the
exponential. -/
theorem C110_stiefel [Fintype κ] [Fintype n] [DecidableEq n] {p : ℕ}
    {f : Stack κ n (Fin p) ℝ → ℝ} {X G V : Stack κ n (Fin p) ℝ} (hX : OnStiefel X)
    (hf : EGradStack f X G) (hV : StiefelTangent X V) :
    (∀ (q : ℝ → Stack κ n (Fin p) ℝ) (r : ℝ → Stack κ (Fin p) (Fin p) ℝ),
      (∀ t k, IsQR (stRetractArg X (t • V) k) (q t k) (r t k)) →
        HasDerivAt (fun t => f (stRetractQR (q t) (r t))) (stInner X (stE2rg X G) V) 0) ∧
    (∀ (u : ℝ → Stack κ n (Fin p) ℝ) (s : ℝ → κ → Fin p → ℝ) (vt : ℝ → Stack κ (Fin p) (Fin p) ℝ),
      (∀ t k, IsSVD (stRetractArg X (t • V) k) (u t k) (s t k) (vt t k)) →
        HasDerivAt (fun t => f (stRetractPolar (u t) (vt t))) (stInner X (stE2rg X G) V) 0) ∧
    HasDerivAt (fun t : ℝ => f (stExp X (t • V))) (stInner X (stE2rg X G) V) 0 := by
  have h0 : stInner X (stE2rg X G) V = ∑ k, ∑ i, ∑ j, RCLike.re (star (G k i j) * V k i j) := by
    rw [(C66_transport_gradient X X G hX).2.2.2 V hV]
    simp
  rw [h0]
  refine ⟨fun q r h => hf _ V ((C67_velocity hX hV).1 q r h) ?_,
    fun u s vt h => hf _ V ((C67_velocity hX hV).2 u s vt h) ?_,
    hf _ V (C68_initial X V).2 ?_⟩
  · refine (C67_zero hX).1 _ _ fun k => ?_
    have := h 0 k
    rwa [zero_smul] at this
  · refine (C67_zero hX).2 _ (s 0) _ fun k => ?_
    have := h 0 k
    rwa [zero_smul] at this
  · rw [zero_smul]
    exact (C68_initial X V).1

/-- **C110** (Grassmann, real and complex): for retraction and exponential, whatever
factorisations LAPACK returns. -/
theorem C110_grassmann [Fintype κ] [Fintype n] [DecidableEq n] {p : ℕ}
    {f : Stack κ n (Fin p) 𝕜 → ℝ} {X G V : Stack κ n (Fin p) 𝕜} (hX : Orthonormal' X)
    (hf : EGradStack f X G) (hV : GrHorizontal X V) :
    (∀ E : ℝ → Stack κ n (Fin p) 𝕜, (∀ t, IsGrRetraction X (t • V) (E t)) →
      HasDerivAt (fun t => f (E t)) (cgrInner X (cgrProj X G) V) 0) ∧
    ∀ E : ℝ → Stack κ n (Fin p) 𝕜, (∀ t, IsGrExp X (t • V) (E t)) →
      HasDerivAt (fun t => f (E t)) (cgrInner X (cgrProj X G) V) 0 := by
  rw [(C70_transport_gradient X X G hX).2.2 V hV]
  refine ⟨fun E h => hf _ V ((C71_retraction_initial hX hV).2 E h) ?_,
    fun E h => hf _ V ((C71_exp_initial hX hV).2 E h) ?_⟩
  · refine (C71_retraction_initial hX hV).1 _ ?_
    have := h 0
    rwa [zero_smul] at this
  · refine (C71_exp_initial hX hV).1 _ ?_
    have := h 0
    rwa [zero_smul] at this

/-- **C110** (symmetric and Hermitian positive definite). -/
theorem C110_positive_definite [Fintype κ] [Fintype n] [DecidableEq n] {f : Stack κ n n 𝕜 → ℝ}
    {P G V : Stack κ n n 𝕜} (hP : PDPoint P) (hf : EGradStack f P G) (hV : HermStack V) :
    HasDerivAt (fun t : ℝ => f (pdRetract P (t • V))) (pdInner P (pdE2rg P G) V) 0 ∧
      HasDerivAt (fun t : ℝ => f (pdExp P (t • V))) (pdInner P (pdE2rg P G) V) 0 := by
  rw [(C84_gradient P G hP).2 V hV]
  have hv := C83_velocity P V hP hV
  refine ⟨egradStack_stackDot hf hv.1 ?_, egradStack_stackDot hf hv.2 ?_⟩
  · rw [zero_smul]; exact (C83_retraction P V hP hV).2
  · rw [zero_smul]; exact (C82_exp P V hP hV).2

/-- **C110** (special Hermitian positive definite). -/
theorem C110_special_hpd [Fintype κ] {n : ℕ} (hn : 0 < n) {f : Stack κ (Fin n) (Fin n) ℂ → ℝ}
    {P G V : Stack κ (Fin n) (Fin n) ℂ} (hP : SHPDPoint P) (hf : EGradStack f P G)
    (hV : SHPDTangent P V) :
    HasDerivAt (fun t : ℝ => f (shpdRetract P (t • V))) (pdInner P (shpdE2rg P G) V) 0 ∧
      HasDerivAt (fun t : ℝ => f (shpdExp P (t • V))) (pdInner P (shpdE2rg P G) V) 0 := by
  rw [(C86_gradient hn P G hP.1).2 V hV]
  constructor
  · refine egradStack_stackDot hf (C86_velocity P V hP hV) ?_
    rw [zero_smul]
    exact (C86_points P V hP hV.1).2.2
  · have h : (fun t : ℝ => f (shpdExp P (t • V))) = fun t : ℝ => f (pdExp P (t • V)) := by
      funext t
      rw [(C86_exp P (t • V) hP ((shpdTangent_subspace P).smul t hV)).2.1]
    rw [h]
    refine egradStack_stackDot hf (C83_velocity P V hP.1 hV.1).2 ?_
    rw [zero_smul]
    exact (C82_exp P V hP.1 hV.1).2

/-- **C110** (symmetric and skew-symmetric matrices). -/
theorem C110_symmetric [Fintype κ] [Fintype n] {f : Stack κ n n ℝ → ℝ} {X G V : Stack κ n n ℝ}
    (hf : EGradStack f X G) :
    (SymStack V → HasDerivAt (fun t : ℝ => f (eucExp X (t • V)))
      (stackDot (subE2rg symProj X G) V) 0) ∧
    (SkewStack V → HasDerivAt (fun t : ℝ => f (eucExp X (t • V)))
      (stackDot (subE2rg skewProj X G) V) 0) := by
  have hc : StackDeriv (fun t : ℝ => eucExp X (t • V)) V 0 := by
    intro k i j
    have := ((hasDerivAt_id (0 : ℝ)).smul_const (V k i j)).const_add (X k i j)
    simpa [eucExp] using this
  have h0 : eucExp X ((0 : ℝ) • V) = X := by simp [eucExp]
  have hp := C54_projection X
  refine ⟨fun hV => ?_, fun hV => ?_⟩
  · rw [hp.2.1.represents G hV]
    exact egradStack_stackDot hf hc h0
  · rw [hp.2.2.2.2.1.represents G hV]
    exact egradStack_stackDot hf hc h0

/-- **C110** (fixed-rank positive semidefinite, real and complex; `retraction` is `exp`). -/
theorem C110_psd [Fintype n] {k : ℕ} {f : Matrix n (Fin k) 𝕜 → ℝ} {Y G : Matrix n (Fin k) 𝕜}
    (hf : EGradMat f Y G) (V : Matrix n (Fin k) 𝕜) :
    HasDerivAt (fun t : ℝ => f (psdExp Y (t • V))) (psdInner Y (psdE2rg Y G) V) 0 := by
  rw [psdInner_eq]
  refine egradMat_trDot hf (fun i j => ?_) (by simp [psdExp])
  have := ((hasDerivAt_id (0 : ℝ)).smul_const (V i j)).const_add (Y i j)
  simpa [psdExp] using this

/-- **C110** (elliptope). -/
theorem C110_elliptope [Fintype n] {k : ℕ} {f : Matrix n (Fin k) ℝ → ℝ}
    {Y G V : Matrix n (Fin k) ℝ} (hY : UnitRows Y) (hf : EGradMat f Y G) (hV : RowTangent Y V) :
    HasDerivAt (fun t : ℝ => f (ellRetraction Y (t • V))) (ellInner Y (ellE2rg Y G) V) 0 := by
  have h0 : ellInner Y (ellE2rg Y G) V = trDot G V := by
    have hs : ∀ A W : Matrix n (Fin k) ℝ, trDot A W = ∑ i, tensordot (A i) (W i) := by
      intro A W
      rw [← ellInner_eq Y, ellInner, tensordot, Fintype.sum_prod_type]
      rfl
    rw [ellInner_eq, hs, hs]
    refine Finset.sum_congr rfl fun i _ => ?_
    have := (C56_projection _ (hY i)).represents (G i) (hV i)
    rw [ellE2rg, ellProjRows_row]
    exact this
  rw [h0]
  refine egradMat_trDot hf (C76_velocity Y V hY hV) ?_
  rw [zero_smul, ellRetraction, add_zero]
  funext i
  have h := (C57_stays (Y i) (V i) (hY i) (hV i)).2.2.2.1
  rw [ellNormalize_row]
  rwa [sphereRetraction, show (sphereZero : Fin k → ℝ) = 0 from rfl, add_zero] at h

/-- **C110** (fixed rank; partial).  The cost is a function `F` of the represented matrix, with
gradient `Z`; `G` is its gradient with respect to the three factors.  Missing: `retraction` adds the
machine precision to the singular values, so it does not start at the point; the statement is about
the matrix with this shift taken back.  The singular values are assumed distinct. -/
theorem C110_fixed_rank_partial [Fintype m] [Fintype n] {k : ℕ} {X : FRPoint m n k}
    (hX : FRValid X) (hd : ∀ i j, i ≠ j → X.2.1 i ^ 2 ≠ X.2.1 j ^ 2) {F : Matrix m n ℝ → ℝ}
    {Z : Matrix m n ℝ} (hF : EGradMat F (frMat X) Z) {G : FRPoint m n k}
    (hG : ∀ D : FRPoint m n k, HasDerivAt (fun t : ℝ => F (frMat (X + t • D))) (factorDot G D) 0)
    {V : FRTan m n k} (hV : IsFrTangent X V) {eps : ℝ} (he : 0 < eps) {R : ℝ → FRPoint m n k}
    (hR : ∀ t, IsFrRetract eps X (t • V) (R t)) :
    ∃ g, frE2rg X G = some g ∧
      HasDerivAt (fun t => F (frMat (unshift eps (R t)))) (frInner X g V) 0 := by
  have hg := C92_gradient hX hd F Z G (fun γ W h0 hγ => by simpa using hF γ W hγ h0) hG
  refine ⟨_, hg, ?_⟩
  have hp := C91_projection hX
  rw [(C91_isometry hX (hp.1 Z) hV).1]
  have h1 := hp.2.represents Z (w := frAmb X V) ⟨V, hV, rfl⟩
  rw [h1]
  have hfo := C93_first_order hX hV he hR
  have h2 := egradMat_trDot hF hfo.2 hfo.1
  rwa [trDot_real] at h2

/-- **C110** (special orthogonal group): for both retractions and the exponential. -/
theorem C110_special_orthogonal [Fintype κ] {p : ℕ} {f : Stack κ (Fin p) (Fin p) ℝ → ℝ}
    {X G V : Stack κ (Fin p) (Fin p) ℝ} (hX : OnUnitary X) (hf : EGradStack f X G)
    (hV : InLie V) :
    (∀ q r : ℝ → Stack κ (Fin p) (Fin p) ℝ,
      (∀ t k, IsQR (gRetractArg X (t • V) k) (q t k) (r t k)) →
        HasDerivAt (fun t => f (gRetractQR (q t) (r t))) (gInner X (gE2rg X G) V) 0) ∧
    (∀ (u : ℝ → Stack κ (Fin p) (Fin p) ℝ) (s : ℝ → κ → Fin p → ℝ)
      (vt : ℝ → Stack κ (Fin p) (Fin p) ℝ),
      (∀ t k, IsSVD (gRetractArg X (t • V) k) (u t k) (s t k) (vt t k)) →
        HasDerivAt (fun t => f (gRetractPolar (u t) (vt t))) (gInner X (gE2rg X G) V) 0) ∧
    HasDerivAt (fun t : ℝ => f (gExp X (t • V))) (gInner X (gE2rg X G) V) 0 := by
  have h0 : gInner X (gE2rg X G) V
      = ∑ k, ∑ i, ∑ j, RCLike.re (star (G k i j) * gEmbed X V k i j) := by
    rw [(C95_so_gradient X G).2 V hV]
    simp
  rw [h0]
  have hg := C96_exp_geodesic X V hX hV
  refine ⟨fun q r h => hf _ _ ((C96_velocity hX hV).1 q r h) ?_,
    fun u s vt h => hf _ _ ((C96_velocity hX hV).2 u s vt h) ?_, hf _ _ ?_ ?_⟩
  · refine (C96_zero hX).1 _ _ fun k => ?_
    have := h 0 k
    rwa [zero_smul] at this
  · refine (C96_zero hX).2 _ (s 0) _ fun k => ?_
    have := h 0 k
    rwa [zero_smul] at this
  · have h1 := hg.2.1 0
    have h2 : gExp X ((0 : ℝ) • V) = X := by rw [zero_smul]; exact hg.1
    rw [h2] at h1
    exact h1
  · rw [zero_smul]
    exact hg.1

/-- **C110** fails on the unitary group: at every point there are a cost function and a tangent
vector along which the cost changes to first order although the converted gradient is zero. -/
theorem C110_unitary_negation [Fintype κ] [Nonempty κ] {p : ℕ} [NeZero p]
    (X : Stack κ (Fin p) (Fin p) ℂ) (hX : OnUnitary X) :
    ∃ (f : Stack κ (Fin p) (Fin p) ℂ → ℝ) (G V : Stack κ (Fin p) (Fin p) ℂ) (d : ℝ),
      EGradStack f X G ∧ InLie V ∧ gE2rg X G = 0 ∧
      HasDerivAt (fun t : ℝ => f (gExp X (t • V))) d 0 ∧ d ≠ 0 ∧ gInner X (gE2rg X G) V = 0 := by
  obtain ⟨V, hV, hne, -, hz⟩ := C95_unitary_negation X hX
  have hE : EGradStack (fun Y => stackDot (gEmbed X V) Y) X (gEmbed X V) := by
    intro c d hc _
    have : ∀ A B : Stack κ (Fin p) (Fin p) ℂ,
        stackDot A B = ∑ k, ∑ i, ∑ j, RCLike.re (star (A k i j) * B k i j) := by
      intro A B
      simp [stackDot, retensordot, Fintype.sum_prod_type]
    simp only [this]
    refine HasDerivAt.fun_sum fun k _ => HasDerivAt.fun_sum fun i _ => HasDerivAt.fun_sum fun j _ => ?_
    exact (RCLike.reCLM (K := ℂ)).hasFDerivAt.comp_hasDerivAt (0 : ℝ)
      ((hc k i j).const_mul (star (gEmbed X V k i j)))
  have hg := C96_exp_geodesic X V hX hV
  have h1 := hg.2.1 0
  have h2 : gExp X ((0 : ℝ) • V) = X := by rw [zero_smul]; exact hg.1
  rw [h2] at h1
  refine ⟨_, gEmbed X V, V, stackDot (gEmbed X V) (gEmbed X V), hE, hV, hz,
    egradStack_stackDot hE h1 h2, fun h => hne ?_, ?_⟩
  · have h3 : gEmbed X V = 0 := stackDot_inner.definite _ h
    funext k
    have h4 : X k * V k = 0 := congrFun h3 k
    have h5 := congrArg ((X k)ᴴ * ·) h4
    simpa [← Matrix.mul_assoc, hX k] using h5
  · rw [hz]
    simp [gInner]

/-! ### Non-vacuity

Points and tangent vectors meeting the hypotheses are shown beside the theorems of each manifold;
here are cost functions with Euclidean gradients, and complete instances. -/

/-- Linear costs have a Euclidean gradient everywhere. -/
theorem egradStack_linear [Fintype κ] [Fintype m] [Fintype n] (A X : Stack κ m n 𝕜) :
    EGradStack (fun Y => ∑ k, ∑ i, ∑ j, RCLike.re (star (A k i j) * Y k i j)) X A := by
  intro c d hc _
  refine HasDerivAt.fun_sum fun k _ => HasDerivAt.fun_sum fun i _ => HasDerivAt.fun_sum fun j _ => ?_
  exact (RCLike.reCLM (K := 𝕜)).hasFDerivAt.comp_hasDerivAt (0 : ℝ) ((hc k i j).const_mul _)

/-- So do linear costs of matrices. -/
theorem egradMat_linear [Fintype m] [Fintype n] (A X : Matrix m n 𝕜) :
    EGradMat (fun Y => ∑ i, ∑ j, RCLike.re (star (A i j) * Y i j)) X A := by
  intro c d hc _
  refine HasDerivAt.fun_sum fun i _ => HasDerivAt.fun_sum fun j _ => ?_
  exact (RCLike.reCLM (K := 𝕜)).hasFDerivAt.comp_hasDerivAt (0 : ℝ) ((hc i j).const_mul _)

/-- The cost `y₀ y₁`, with gradient `(y₁, y₀)`. -/
theorem egrad_product (x : Fin 2 → ℝ) : EGrad (fun y : Fin 2 → ℝ => y 0 * y 1) x ![x 1, x 0] := by
  intro c d hc h0
  subst h0
  refine ((hc 0).mul (hc 1)).congr_deriv ?_
  simp [Fin.sum_univ_two]
  ring

/-- Sphere: at `(1, 0)` in direction `(0, 1)` the cost `y₀ y₁` changes at rate one. -/
example : HasDerivAt (fun t : ℝ => sphereRetraction ![1, 0] (t • ![0, 1]) 0 *
    sphereRetraction ![1, 0] (t • ![(0 : ℝ), 1]) 1) 1 0 := by
  have hx : OnSphere ![(1 : ℝ), 0] := by norm_num [OnSphere, Fin.sum_univ_two]
  have hv : SphereTangent ![(1 : ℝ), 0] ![0, 1] := by norm_num [SphereTangent, Fin.sum_univ_two]
  refine ((C110_sphere hx (egrad_product _) hv).1).congr_deriv ?_
  simp [sphereInner, sphereE2rg, subE2rg, sphereProj, tensordot, Fin.sum_univ_two]

/-- Stiefel: factorisations exist along the whole curve. -/
example [Fintype κ] [Fintype n] [DecidableEq n] {p : ℕ} (hp : p ≤ Fintype.card n)
    (X V : Stack κ n (Fin p) ℝ) :
    (∃ (q : ℝ → Stack κ n (Fin p) ℝ) (r : ℝ → Stack κ (Fin p) (Fin p) ℝ),
      ∀ t k, IsQR (stRetractArg X (t • V) k) (q t k) (r t k)) ∧
    ∃ (u : ℝ → Stack κ n (Fin p) ℝ) (s : ℝ → κ → Fin p → ℝ) (vt : ℝ → Stack κ (Fin p) (Fin p) ℝ),
      ∀ t k, IsSVD (stRetractArg X (t • V) k) (u t k) (s t k) (vt t k) := by
  constructor
  · choose q r h using fun t k => exists_isQR hp (stRetractArg X ((t : ℝ) • V) k)
    exact ⟨q, r, h⟩
  · choose u s vt h using fun t k => exists_isSVD hp (stRetractArg X ((t : ℝ) • V) k)
    exact ⟨u, s, vt, h⟩

/-- Grassmann: so do results of `retraction` and `exp`. -/
example [Fintype κ] [Fintype n] [DecidableEq n] {p : ℕ} (hp : p ≤ Fintype.card n)
    (X V : Stack κ n (Fin p) 𝕜) :
    (∃ E : ℝ → Stack κ n (Fin p) 𝕜, ∀ t, IsGrRetraction X (t • V) (E t)) ∧
    ∃ E : ℝ → Stack κ n (Fin p) 𝕜, ∀ t, IsGrExp X (t • V) (E t) :=
  ⟨Classical.axiomOfChoice fun t => (C71_total hp X (t • V)).1,
    Classical.axiomOfChoice fun t => (C71_total hp X (t • V)).2.1⟩

/-- Fixed rank: a cost, its gradient with respect to matrix and factors, a tangent vector and
results of the retraction. -/
example : ∃ (X : FRPoint (Fin 1) (Fin 1) 1) (F : Matrix (Fin 1) (Fin 1) ℝ → ℝ)
    (Z : Matrix (Fin 1) (Fin 1) ℝ) (G : FRPoint (Fin 1) (Fin 1) 1) (V : FRTan (Fin 1) (Fin 1) 1)
    (R : ℝ → FRPoint (Fin 1) (Fin 1) 1),
    FRValid X ∧ (∀ i j, i ≠ j → X.2.1 i ^ 2 ≠ X.2.1 j ^ 2) ∧ EGradMat F (frMat X) Z ∧
    (∀ D : FRPoint (Fin 1) (Fin 1) 1, HasDerivAt (fun t : ℝ => F (frMat (X + t • D)))
      (factorDot G D) 0) ∧ IsFrTangent X V ∧ V.2.1 ≠ 0 ∧ ∀ t, IsFrRetract (1 / 2) X (t • V) (R t) := by
  have hX : FRValid ((1, fun _ => 1, 1) : FRPoint (Fin 1) (Fin 1) 1) :=
    ⟨by simp, fun _ => one_pos, by simp⟩
  obtain ⟨R, hR⟩ := Classical.axiomOfChoice fun t : ℝ =>
    C93_total hX (t • ((0, 1, 0) : FRTan (Fin 1) (Fin 1) 1)) (1 / 2)
  refine ⟨(1, fun _ => 1, 1), _, 1, (1, fun _ => 1, 1), (0, 1, 0), R, hX,
    fun i j h => absurd (Subsingleton.elim i j) h, egradMat_linear 1 _, fun D => ?_,
    ⟨by simp, by simp⟩, fun h => ?_, hR⟩
  · have := egradMat_linear 1 _ _ _
      (matDeriv_factors ((1, fun _ => 1, 1) : FRPoint (Fin 1) (Fin 1) 1) D) rfl
    refine this.congr_deriv ?_
    simp [factorDot]
  · simpa using congrFun (congrFun h 0) 0

end Verif.Geo
