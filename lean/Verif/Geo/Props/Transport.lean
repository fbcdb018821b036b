/-
C148: `transport` is a vector transport — linear, the identity when the point does not change — and
what it does to lengths and angles on each manifold.
-/
import Verif.Geo.Props.OptMfd
import Verif.Geo.Props.FixedRank
import Verif.Geo.Model.FixedRankMfd

namespace Verif.Geo
open Matrix Verif.Opt
open scoped ComplexOrder

variable {κ ι m n p : Type*} {𝕜 : Type*} [RCLike 𝕜]

/-- `transport` maps tangent vectors to tangent vectors, is linear on every tangent space, and
leaves vectors alone when the two points are the same. -/
structure VectorTransport {P E : Type*} (M : Mfd ℝ P E) (On : P → Prop) (Tan : P → E → Prop) :
    Prop where
  tan (x y : P) (v : E) : On x → On y → Tan x v → Tan y (M.transport x y v)
  add (x y : P) (v w : E) : On x → On y → Tan x v → Tan x w →
    M.transport x y (M.add v w) = M.add (M.transport x y v) (M.transport x y w)
  smul (x y : P) (c : ℝ) (v : E) : On x → On y → Tan x v →
    M.transport x y (M.smul c v) = M.smul c (M.transport x y v)
  self (x : P) (v : E) : On x → Tan x v → M.transport x x v = v

/-- No tangent vector becomes longer. -/
def Shortens {P E : Type*} (M : Mfd ℝ P E) (On : P → Prop) (Tan : P → E → Prop) : Prop :=
  ∀ x y v, On x → On y → Tan x v →
    M.inner y (M.transport x y v) (M.transport x y v) ≤ M.inner x v v

/-- Transporting to `y` and transporting back to `x` are adjoint to each other. -/
def Adjoint {P E : Type*} (M : Mfd ℝ P E) (On : P → Prop) (Tan : P → E → Prop) : Prop :=
  ∀ x y v w, On x → On y → Tan x v → Tan y w →
    M.inner y (M.transport x y v) w = M.inner x v (M.transport y x w)

/-- Lengths and angles are preserved. -/
def Isometric {P E : Type*} (M : Mfd ℝ P E) (On : P → Prop) (Tan : P → E → Prop) : Prop :=
  ∀ x y v w, On x → On y → Tan x v → Tan x w →
    M.inner y (M.transport x y v) (M.transport x y w) = M.inner x v w

/-- Transporting from `x` to `y` and on to `z` is transporting from `x` to `z`: what a transport
does is independent of the way. -/
def Composes {P E : Type*} (M : Mfd ℝ P E) (On : P → Prop) (Tan : P → E → Prop) : Prop :=
  ∀ x y z v, On x → On y → On z → Tan x v →
    M.transport y z (M.transport x y v) = M.transport x z v

section
variable {P E : Type*} {M : Mfd ℝ P E} {On : P → Prop} {Tan : P → E → Prop}

/-- A transport that preserves lengths does not increase them. -/
theorem Isometric.shortens (h : Isometric M On Tan) : Shortens M On Tan :=
  fun x y v hx hy hv => (h x y v v hx hy hv hv).le

/-- An isometric transport that is independent of the way has its inverse as its adjoint. -/
theorem Isometric.adjoint (h : Isometric M On Tan) (ht : VectorTransport M On Tan)
    (hc : Composes M On Tan) : Adjoint M On Tan := fun x y v w hx hy hv hw => by
  have e : w = M.transport x y (M.transport y x w) := by
    rw [hc y x y w hy hx hy hw, ht.self y w hy hw]
  conv_lhs => rw [e]
  exact h x y v _ hx hy hv (ht.tan y x w hy hx hw)

end

/-- Orthogonal projections do not make vectors longer. -/
theorem IsOrthProj.shortens {E : Type*} [AddCommGroup E] [Module ℝ E] {B : E → E → ℝ}
    (hB : IsInner B) {T : E → Prop} {P : E → E} (hP : IsOrthProj B T P) (v : E) :
    B (P v) (P v) ≤ B v v := by
  have h1 : B (v - P v) (v - P v) = B v v - B (P v) (P v) := by
    have e := hP.represents v (hP.mem v)
    have e' := hB.symm v (P v)
    rw [sub_eq_add_neg, hB.add_left, hB.add_right, hB.add_right, hB.neg_left, hB.neg_left,
      hB.neg_right, hB.neg_right]
    linarith
  have := hB.nonneg (v - P v)
  linarith

/-- Transport by orthogonal projection for an inner product that is the same at all points. -/
theorem transport_of_proj {E : Type*} [AddCommGroup E] [Module ℝ E] {dim : ℤ} {norm : E → E → ℝ}
    {inner : E → E → E → ℝ} {retraction : E → E → E} {transport : E → E → E → E} {zero : E → E}
    {toTangent : E → E → E} {log pairMean : E → E → E} {On : E → Prop} {Tan : E → E → Prop}
    {B : E → E → ℝ} (hB : IsInner B) {proj : E → E → E} (hi : ∀ x, inner x = B)
    (hP : ∀ x, On x → IsOrthProj (inner x) (Tan x) (proj x))
    (ht : ∀ x y v, On x → On y → Tan x v → transport x y v = proj y v)
    (hT : ∀ x, IsSubspace (Tan x)) :
    VectorTransport (arrayMfd dim norm inner retraction transport zero toTangent log pairMean) On
      Tan ∧
    Shortens (arrayMfd dim norm inner retraction transport zero toTangent log pairMean) On Tan ∧
    Adjoint (arrayMfd dim norm inner retraction transport zero toTangent log pairMean) On Tan := by
  refine ⟨⟨fun x y v hx hy hv => ?_, fun x y v w hx hy hv hw => ?_, fun x y c v hx hy hv => ?_,
    fun x v hx hv => ?_⟩, fun x y v hx hy hv => ?_, fun x y v w hx hy hv hw => ?_⟩
  · change Tan y (transport x y v)
    rw [ht x y v hx hy hv]
    exact (hP y hy).mem v
  · change transport x y (v + w) = transport x y v + transport x y w
    rw [ht x y _ hx hy ((hT x).add hv hw), ht x y v hx hy hv, ht x y w hx hy hw, (hP y hy).add]
  · change transport x y (c • v) = c • transport x y v
    rw [ht x y _ hx hy ((hT x).smul c hv), ht x y v hx hy hv, (hP y hy).smul]
  · exact (ht x x v hx hx hv).trans ((hP x hx).fixes hv)
  · change inner y (transport x y v) (transport x y v) ≤ inner x v v
    have := hP y hy
    rw [ht x y v hx hy hv]
    rw [hi] at this ⊢
    rw [hi]
    exact this.shortens hB v
  · change inner y (transport x y v) w = inner x v (transport y x w)
    have h1 := (hP y hy).represents v hw
    have h2 := (hP x hx).represents w hv
    rw [ht x y v hx hy hv, ht y x w hy hx hw]
    rw [hi] at h1 h2 ⊢
    rw [hi, h1, hB.symm v, ← h2, hB.symm v]

/-- Transport that returns the array it is given, for an inner product that is the same at all
points and tangent spaces that are the same at all points. -/
theorem transport_of_id {E : Type*} [AddCommGroup E] [Module ℝ E] {dim : ℤ} {norm : E → E → ℝ}
    {inner : E → E → E → ℝ} {retraction : E → E → E} {transport : E → E → E → E} {zero : E → E}
    {toTangent : E → E → E} {log pairMean : E → E → E} {On : E → Prop} {T : E → Prop}
    (hi : ∀ x y, inner x = inner y) (ht : ∀ x y v, transport x y v = v) :
    VectorTransport (arrayMfd dim norm inner retraction transport zero toTangent log pairMean) On
      (fun _ => T) ∧
    Isometric (arrayMfd dim norm inner retraction transport zero toTangent log pairMean) On
      (fun _ => T) ∧
    Composes (arrayMfd dim norm inner retraction transport zero toTangent log pairMean) On
      (fun _ => T) := by
  refine ⟨⟨fun x y v _ _ hv => ?_, fun x y v w _ _ _ _ => ?_, fun x y c v _ _ _ => ?_,
    fun x v _ _ => ht x x v⟩, fun x y v w _ _ _ _ => ?_, fun x y z v _ _ _ _ => ?_⟩
  · change T (transport x y v)
    rwa [ht]
  · change transport x y (v + w) = transport x y v + transport x y w
    rw [ht, ht, ht]
  · change transport x y (c • v) = c • transport x y v
    rw [ht, ht]
  · change inner y (transport x y v) (transport x y w) = inner x v w
    rw [ht, ht, hi y x]
  · change transport y z (transport x y v) = transport x z v
    rw [ht, ht, ht]

/-- **C148** (Euclidean, complex Euclidean). -/
theorem C148_euclidean [Fintype ι] (dim : ℤ) :
    VectorTransport (euclideanMfd (ι := ι) (𝕜 := 𝕜) dim) (fun _ => True) (fun _ _ => True) ∧
    Isometric (euclideanMfd (ι := ι) (𝕜 := 𝕜) dim) (fun _ => True) (fun _ _ => True) ∧
    Composes (euclideanMfd (ι := ι) (𝕜 := 𝕜) dim) (fun _ => True) (fun _ _ => True) :=
  transport_of_id (T := fun _ => True) (fun _ _ => rfl) fun _ _ _ => rfl

/-- **C148** (symmetric and skew-symmetric matrices). -/
theorem C148_symmetric [Fintype κ] [Fintype n] (dim : ℤ) :
    (VectorTransport (symmetricMfd (κ := κ) (n := n) dim) SymStack (fun _ => SymStack) ∧
    Isometric (symmetricMfd (κ := κ) (n := n) dim) SymStack (fun _ => SymStack) ∧
    Composes (symmetricMfd (κ := κ) (n := n) dim) SymStack (fun _ => SymStack)) ∧
    (VectorTransport (symmetricMfd (κ := κ) (n := n) dim) SkewStack (fun _ => SkewStack) ∧
    Isometric (symmetricMfd (κ := κ) (n := n) dim) SkewStack (fun _ => SkewStack) ∧
    Composes (symmetricMfd (κ := κ) (n := n) dim) SkewStack (fun _ => SkewStack)) :=
  ⟨transport_of_id (fun _ _ => rfl) fun _ _ _ => rfl,
    transport_of_id (fun _ _ => rfl) fun _ _ _ => rfl⟩

/-- **C148** (sphere). -/
theorem C148_sphere [Fintype ι] (eps : ℝ) :
    VectorTransport (sphereMfd (ι := ι) eps) OnSphere SphereTangent ∧
    Shortens (sphereMfd (ι := ι) eps) OnSphere SphereTangent ∧
    Adjoint (sphereMfd (ι := ι) eps) OnSphere SphereTangent :=
  transport_of_proj tensordot_inner (fun _ => rfl) C56_projection (fun _ _ _ _ _ _ => rfl)
    sphereTangent_subspace

/-- **C148** (intersections of the sphere with a subspace). -/
theorem C148_sphere_subspace [Fintype ι] [DecidableEq ι] {S : (ι → ℝ) → Prop} {M : Matrix ι ι ℝ}
    (hS : IsSubspace S) (hM : IsOrthProj tensordot S M.mulVec) (dim : ℤ) (eps : ℝ) :
    VectorTransport (sphereSubspaceMfd M dim eps) (OnSubspaceSphere S) (SubspaceTangent S) ∧
    Shortens (sphereSubspaceMfd M dim eps) (OnSubspaceSphere S) (SubspaceTangent S) ∧
    Adjoint (sphereSubspaceMfd M dim eps) (OnSubspaceSphere S) (SubspaceTangent S) :=
  transport_of_proj tensordot_inner (fun _ => rfl) (C62_projection_partial hS hM)
    (fun _ _ _ _ _ _ => rfl) (subspaceTangent_subspace hS)

/-- **C148** (oblique manifold). -/
theorem C148_oblique [Fintype m] [Fintype n] (dim : ℤ) (eps : ℝ) :
    VectorTransport (obliqueMfd (m := m) (n := n) dim eps) OnOblique ObliqueTangent ∧
    Shortens (obliqueMfd (m := m) (n := n) dim eps) OnOblique ObliqueTangent ∧
    Adjoint (obliqueMfd (m := m) (n := n) dim eps) OnOblique ObliqueTangent :=
  transport_of_proj (oblInner_inner 0) (fun _ => rfl) C63_projection (fun _ _ _ _ _ _ => rfl)
    obliqueTangent_subspace

/-- **C148** (complex circles). -/
theorem C148_complex_circle [Fintype ι] (log : (ι → ℂ) → (ι → ℂ) → ι → ℂ) :
    VectorTransport (complexCircleMfd log) OnCircles CirclesTangent ∧
    Shortens (complexCircleMfd log) OnCircles CirclesTangent ∧
    Adjoint (complexCircleMfd log) OnCircles CirclesTangent :=
  transport_of_proj (ccInner_inner 0) (fun _ => rfl) C64_projection (fun _ _ _ _ _ _ => rfl)
    circlesTangent_subspace

/-- **C148** (Stiefel). -/
theorem C148_stiefel [Fintype κ] [Fintype n] [DecidableEq n] {p : ℕ} (dim : ℤ)
    (retraction log pairMean : Stack κ n (Fin p) ℝ → Stack κ n (Fin p) ℝ → Stack κ n (Fin p) ℝ) :
    VectorTransport (stiefelMfd dim retraction log pairMean) OnStiefel StiefelTangent ∧
    Shortens (stiefelMfd dim retraction log pairMean) OnStiefel StiefelTangent ∧
    Adjoint (stiefelMfd dim retraction log pairMean) OnStiefel StiefelTangent :=
  transport_of_proj (stackDot_inner (κ := κ) (m := n) (n := Fin p) (𝕜 := ℝ))
    (fun X => stInner_fun X) C66_projection (fun _ _ _ _ _ _ => rfl) stiefelTangent_subspace

/-- **C148** (real and complex Grassmann). -/
theorem C148_grassmann [Fintype κ] [Fintype n] [DecidableEq n] {p : ℕ} (dim : ℤ)
    (retraction log pairMean : Stack κ n (Fin p) 𝕜 → Stack κ n (Fin p) 𝕜 → Stack κ n (Fin p) 𝕜) :
    VectorTransport (grassmannMfd dim retraction log pairMean) Orthonormal' GrHorizontal ∧
    Shortens (grassmannMfd dim retraction log pairMean) Orthonormal' GrHorizontal ∧
    Adjoint (grassmannMfd dim retraction log pairMean) Orthonormal' GrHorizontal :=
  transport_of_proj (stackDot_inner (κ := κ) (m := n) (n := Fin p) (𝕜 := 𝕜)) (fun _ => rfl)
    C70_projection (fun _ _ _ _ _ _ => rfl) grHorizontal_subspace

/-- **C148** (positive semidefinite matrices of fixed rank, real and complex). -/
theorem C148_psd [Fintype n] {k : ℕ} (dim : ℤ)
    (proj log pairMean : Matrix n (Fin k) 𝕜 → Matrix n (Fin k) 𝕜 → Matrix n (Fin k) 𝕜)
    (hp : ∀ Y V, FullRank Y → IsPsdProj Y V (proj Y V)) :
    VectorTransport (psdMfd dim proj log pairMean) FullRank Horizontal ∧
    Shortens (psdMfd dim proj log pairMean) FullRank Horizontal ∧
    Adjoint (psdMfd dim proj log pairMean) FullRank Horizontal := by
  have hi : ∀ Y : Matrix n (Fin k) 𝕜, psdInner Y = trDot := fun Y =>
    funext fun A => funext fun B => psdInner_eq Y A B
  refine transport_of_proj (E := Matrix n (Fin k) 𝕜) (B := trDot) trDot_inner (proj := proj) hi
    (fun Y hY => ?_) (fun _ _ _ _ _ _ => rfl) horizontal_subspace
  obtain ⟨P, hP, he⟩ := C74_projection Y hY
  have : proj Y = P := funext fun V => (he V _).mp (hp Y V hY)
  rwa [this]

/-- **C148** (special orthogonal group): tangent vectors are kept in the Lie algebra, where
transport does nothing. -/
theorem C148_special_orthogonal [Fintype κ] {p : ℕ} (dim : ℤ)
    (retraction log pairMean : Stack κ (Fin p) (Fin p) ℝ → Stack κ (Fin p) (Fin p) ℝ →
      Stack κ (Fin p) (Fin p) ℝ) :
    VectorTransport (specialOrthogonalMfd dim retraction log pairMean) OnSO (fun _ => InLie) ∧
    Isometric (specialOrthogonalMfd dim retraction log pairMean) OnSO (fun _ => InLie) ∧
    Composes (specialOrthogonalMfd dim retraction log pairMean) OnSO (fun _ => InLie) :=
  transport_of_id (fun _ _ => rfl) fun _ _ _ => rfl

/-- **C148** (unitary group): as on the special orthogonal group; the inner product, a complex number
in the code, is real on tangent vectors. -/
theorem C148_unitary [Fintype κ] [Fintype n] (X Y Z : Stack κ n n ℂ) (c : ℝ)
    {V W : Stack κ n n ℂ} (hV : InLie V) (hW : InLie W) :
    InLie (gTransport X Y V) ∧
    gTransport X Y (V + W) = gTransport X Y V + gTransport X Y W ∧
    gTransport X Y (c • V) = c • gTransport X Y V ∧ gTransport X X V = V ∧
    gInner Y (gTransport X Y V) (gTransport X Y W) = gInner X V W ∧
    (gInner X V W).im = 0 ∧ gTransport Y Z (gTransport X Y V) = gTransport X Z V := by
  refine ⟨hV, rfl, rfl, rfl, rfl, ?_, rfl⟩
  rw [← Complex.conj_eq_iff_im]
  have hv : ∀ k i j, star (V k i j) = -V k j i := fun k i j => congrFun (congrFun (hV k) j) i
  have hw : ∀ k i j, star (W k i j) = -W k j i := fun k i j => congrFun (congrFun (hW k) j) i
  unfold gInner
  rw [map_sum]
  refine Fintype.sum_equiv ((Equiv.refl κ).prodCongr (Equiv.prodComm n n)) _ _ fun x => ?_
  change star (star (V x.1 x.2.1 x.2.2) * W x.1 x.2.1 x.2.2) =
    star (V x.1 x.2.2 x.2.1) * W x.1 x.2.2 x.2.1
  rw [star_mul', star_star, hw, hv]
  ring

/-- A skew-Hermitian matrix that is not real, with a non-zero inner product. -/
example : InLie (fun _ => !![Complex.I] : Stack (Fin 1) (Fin 1) (Fin 1) ℂ) ∧
    gInner 0 (fun _ => !![Complex.I] : Stack (Fin 1) (Fin 1) (Fin 1) ℂ) (fun _ => !![Complex.I])
      = 1 := by
  constructor
  · intro k
    ext i j
    fin_cases i
    fin_cases j
    simp [Matrix.conjTranspose_apply]
  · simp [gInner]

/-- **C148** (positive vectors with parallel transport). -/
theorem C148_positive_parallel [Fintype ι] (dim : ℤ) (pairMean : (ι → ℝ) → (ι → ℝ) → ι → ℝ) :
    VectorTransport (positiveMfd dim true pairMean) PosPoint (fun _ _ => True) ∧
    Isometric (positiveMfd dim true pairMean) PosPoint (fun _ _ => True) ∧
    Composes (positiveMfd dim true pairMean) PosPoint (fun _ _ => True) := by
  refine ⟨⟨fun _ _ _ _ _ _ => trivial, fun x y v w hx hy _ _ => ?_, fun x y c v hx hy _ => ?_,
    fun x v hx _ => (C80_transport x x x v v hx hx).2.2.1⟩,
    fun x y v w hx hy _ _ => (C80_transport x y y v w hx hy).1,
    fun x y z v hx hy _ _ => (C80_transport x y z v v hx hy).2.1⟩
  · change posTransport true x y (v + w) = posTransport true x y v + posTransport true x y w
    funext i
    simp only [posTransport, posParallel, if_true, Pi.mul_apply, Pi.div_apply, Pi.add_apply]
    ring
  · change posTransport true x y (c • v) = c • posTransport true x y v
    funext i
    simp only [posTransport, posParallel, if_true, Pi.mul_apply, Pi.div_apply, Pi.smul_apply,
      smul_eq_mul]
    ring

/-- **C148** (positive vectors, the default): linear, but vectors become longer by any factor. -/
theorem C148_positive [Fintype ι] (dim : ℤ) (pairMean : (ι → ℝ) → (ι → ℝ) → ι → ℝ) :
    VectorTransport (positiveMfd dim false pairMean) PosPoint (fun _ _ => True) ∧
    Composes (positiveMfd dim false pairMean) PosPoint (fun _ _ => True) ∧
    (Nonempty ι → ∀ C : ℝ, ∃ x y v : ι → ℝ, PosPoint x ∧ PosPoint y ∧ 0 < posInner x v v ∧
      C * posInner x v v <
        posInner y (posTransport false x y v) (posTransport false x y v)) := by
  refine ⟨⟨fun _ _ _ _ _ _ => trivial, fun _ _ _ _ _ _ _ _ => rfl, fun _ _ _ _ _ _ _ => rfl,
    fun _ _ _ _ => rfl⟩, fun _ _ _ _ _ _ _ _ => rfl, fun hι C => ?_⟩
  have hc : (0 : ℝ) < Fintype.card ι := by exact_mod_cast Fintype.card_pos
  obtain ⟨t, ht⟩ : ∃ t, t = |C| + 1 := ⟨_, rfl⟩
  have ht0 : 0 < t := by rw [ht]; positivity
  have h1 : C < t * t := by rw [ht]; nlinarith [le_abs_self C, abs_nonneg C]
  have e : posInner (fun _ : ι => t) (fun _ => t) (fun _ => t) = Fintype.card ι := by
    rw [posInner_eq]
    simp [← sq, ht0.ne']
  refine ⟨fun _ => t, fun _ => 1, fun _ => t, fun _ => ht0, fun _ => one_pos, e ▸ hc, ?_⟩
  rw [e]
  change _ < posInner _ (fun _ => t) (fun _ => t)
  rw [posInner_eq]
  simp only [one_pow, div_one, Finset.sum_const, Finset.card_univ, nsmul_eq_mul]
  nlinarith

/-- **C148** (symmetric and Hermitian positive definite matrices): linear, but vectors become longer
by any factor. -/
theorem C148_positive_definite [Fintype κ] [Fintype n] [DecidableEq n] (dim : ℤ)
    (log pairMean : Stack κ n n 𝕜 → Stack κ n n 𝕜 → Stack κ n n 𝕜) :
    VectorTransport (positiveDefiniteMfd dim log pairMean) PDPoint (fun _ => HermStack) ∧
    Composes (positiveDefiniteMfd dim log pairMean) PDPoint (fun _ => HermStack) ∧
    (Nonempty κ → Nonempty n → ∀ C : ℝ, ∃ x y v : Stack κ n n 𝕜, PDPoint x ∧ PDPoint y ∧
      HermStack v ∧ 0 < pdInner x v v ∧
      C * pdInner x v v < pdInner y (pdTransport x y v) (pdTransport x y v)) := by
  refine ⟨⟨fun _ _ _ _ _ h => h, fun _ _ _ _ _ _ _ _ => rfl, fun _ _ _ _ _ _ _ => rfl,
    fun _ _ _ _ => rfl⟩, fun _ _ _ _ _ _ _ _ => rfl, fun hκ hn C => ?_⟩
  have hc : (0 : ℝ) < Fintype.card κ * Fintype.card n :=
    mul_pos (by exact_mod_cast Fintype.card_pos) (by exact_mod_cast Fintype.card_pos)
  obtain ⟨t, ht⟩ : ∃ t, t = |C| + 1 := ⟨_, rfl⟩
  have ht0 : 0 < t := by rw [ht]; positivity
  have h1 : C < t * t := by rw [ht]; nlinarith [le_abs_self C, abs_nonneg C]
  have hinv : ((t : 𝕜) • (1 : Matrix n n 𝕜))⁻¹ = (t : 𝕜)⁻¹ • 1 := by
    refine inv_eq_right_inv ?_
    rw [smul_mul_smul_comm, Matrix.one_mul, mul_inv_cancel₀ (by exact_mod_cast ht0.ne'), one_smul]
  have e : pdInner (fun _ : κ => (t : 𝕜) • (1 : Matrix n n 𝕜)) (fun _ => (t : 𝕜) • 1)
      (fun _ => (t : 𝕜) • 1) = Fintype.card κ * Fintype.card n := by
    rw [pdInner_eq]
    simp only [hinv, smul_mul_smul_comm,
      inv_mul_cancel₀ (show (t : 𝕜) ≠ 0 by exact_mod_cast ht0.ne'), mul_one, one_smul, trace_one,
      RCLike.natCast_re, Finset.sum_const, Finset.card_univ, nsmul_eq_mul]
  have hpd : PDPoint (fun _ : κ => (t : 𝕜) • (1 : Matrix n n 𝕜)) := fun _ =>
    PosDef.one.smul (by exact_mod_cast ht0)
  refine ⟨fun _ => (t : 𝕜) • 1, fun _ => 1, fun _ => (t : 𝕜) • 1, hpd, fun _ => PosDef.one,
    (hermStack_iff _).mpr fun k => (hpd k).isHermitian, e ▸ hc, ?_⟩
  rw [e]
  change _ < pdInner _ (fun _ => (t : 𝕜) • 1) (fun _ => (t : 𝕜) • 1)
  rw [pdInner_eq]
  simp only [inv_one, Matrix.one_mul, smul_mul_smul_comm, trace_smul, trace_one, smul_eq_mul,
    Finset.sum_const, Finset.card_univ, nsmul_eq_mul]
  rw [← RCLike.ofReal_mul, RCLike.re_ofReal_mul, RCLike.natCast_re]
  nlinarith

/-- **C148** (Hermitian positive definite matrices of determinant one). -/
theorem C148_special_hpd [Fintype κ] {n : ℕ} (hn : 0 < n) (dim : ℤ)
    (log pairMean : Stack κ (Fin n) (Fin n) ℂ → Stack κ (Fin n) (Fin n) ℂ →
      Stack κ (Fin n) (Fin n) ℂ) :
    VectorTransport (specialHpdMfd dim log pairMean) SHPDPoint SHPDTangent := by
  have hT : ∀ x y v : Stack κ (Fin n) (Fin n) ℂ, SHPDTangent x v →
      shpdTransport x y v = shpdProj y v := fun x y v h => by
    rw [shpdTransport, pdProj, multiherm_of_herm h.1]
  refine ⟨fun x y v hx hy _ => (C86_transport hn x y v hy.1).1, fun x y v w hx hy hv hw => ?_,
    fun x y c v hx hy hv => ?_, fun x v hx hv => (C86_transport hn x x v hx.1).2 hv⟩
  · change shpdTransport x y (v + w) = shpdTransport x y v + shpdTransport x y w
    rw [hT x y _ ((shpdTangent_subspace x).add hv hw), hT x y v hv, hT x y w hw,
      (C86_projection hn y hy.1).add]
  · change shpdTransport x y (c • v) = c • shpdTransport x y v
    rw [hT x y _ ((shpdTangent_subspace x).smul c hv), hT x y v hv, (C86_projection hn y hy.1).smul]

/-- **C148** (matrices of fixed rank). -/
theorem C148_fixed_rank [Fintype m] [Fintype n] {k : ℕ}
    (retraction : FRPoint m n k → FRTan m n k → FRPoint m n k)
    (log : FRPoint m n k → FRPoint m n k → FRTan m n k)
    (pairMean : FRPoint m n k → FRPoint m n k → FRPoint m n k) :
    VectorTransport (fixedRankMfd retraction log pairMean) FRValid IsFrTangent ∧
    Shortens (fixedRankMfd retraction log pairMean) FRValid IsFrTangent ∧
    Adjoint (fixedRankMfd retraction log pairMean) FRValid IsFrTangent := by
  have hB : IsInner (fun A B : Matrix m n ℝ => (Aᵀ * B).trace) := by
    have : (fun A B : Matrix m n ℝ => (Aᵀ * B).trace) = trDot := by
      funext A B; exact (trDot_real A B).symm
    rw [this]; exact trDot_inner
  have hamb : ∀ {x y : FRPoint m n k} (v), FRValid y →
      frAmb y (frTransport x y v) = frAmb y (frProj y (.dense (frAmb x v))) := fun v hy => by
    rw [(C91_transport hy _ v).2]
  have htan : ∀ (x y : FRPoint m n k) (v), FRValid y → IsFrTangent y (frTransport x y v) :=
    fun x y v hy => (C91_transport hy x v).1
  refine ⟨⟨fun x y v _ hy _ => htan x y v hy, fun x y v w hx hy hv hw => ?_,
    fun x y c v hx hy hv => ?_, fun x v hx hv => ?_⟩, fun x y v hx hy hv => ?_,
    fun x y v w hx hy hv hw => ?_⟩
  · change frTransport x y (v + w) = frTransport x y v + frTransport x y w
    refine (C91_isometry hy (htan x y _ hy) ((tangent_subspace y).add (htan x y v hy)
      (htan x y w hy))).2 ?_
    rw [frAmb_add, hamb _ hy, hamb _ hy, hamb _ hy, frAmb_add]
    exact (C91_projection hy).2.add _ _
  · change frTransport x y (c • v) = c • frTransport x y v
    refine (C91_isometry hy (htan x y _ hy) ((tangent_subspace y).smul c (htan x y v hy))).2 ?_
    rw [frAmb_smul, hamb _ hy, hamb _ hy, frAmb_smul]
    exact (C91_projection hy).2.smul _ _
  · refine (C91_isometry hx (htan x x v hx) hv).2 ?_
    rw [hamb _ hx]
    exact (C91_projection hx).2.fixes ⟨v, hv, rfl⟩
  · change frInner y (frTransport x y v) (frTransport x y v) ≤ frInner x v v
    rw [(C91_isometry hy (htan x y v hy) (htan x y v hy)).1, (C91_isometry hx hv hv).1, hamb _ hy]
    exact (C91_projection hy).2.shortens hB _
  · change frInner y (frTransport x y v) w = frInner x v (frTransport y x w)
    rw [(C91_isometry hy (htan x y v hy) hw).1, (C91_isometry hx hv (htan y x w hx)).1, hamb _ hy,
      hamb _ hx]
    have h1 := (C91_projection hy).2.represents (frAmb x v) ⟨w, hw, rfl⟩
    have h2 := (C91_projection hx).2.represents (frAmb y w) ⟨v, hv, rfl⟩
    rw [h1]
    exact (hB.symm (frAmb x v) (frAmb y w)).trans (h2.symm.trans (hB.symm _ _))

/-- **C148** (products): each of the properties holds for a product when it holds for the factors. -/
theorem C148_product {k : ℕ} {E : Fin k → Type*} {Ms : ∀ i, Mfd ℝ (E i) (E i)}
    {On : ∀ i, E i → Prop} {Tan : ∀ i, E i → E i → Prop} :
    ((∀ i, VectorTransport (Ms i) (On i) (Tan i)) →
      VectorTransport (productMfd Ms) (fun x => ∀ i, On i (x i)) fun x v => ∀ i, Tan i (x i) (v i)) ∧
    ((∀ i, Shortens (Ms i) (On i) (Tan i)) →
      Shortens (productMfd Ms) (fun x => ∀ i, On i (x i)) fun x v => ∀ i, Tan i (x i) (v i)) ∧
    ((∀ i, Adjoint (Ms i) (On i) (Tan i)) →
      Adjoint (productMfd Ms) (fun x => ∀ i, On i (x i)) fun x v => ∀ i, Tan i (x i) (v i)) ∧
    ((∀ i, Isometric (Ms i) (On i) (Tan i)) →
      Isometric (productMfd Ms) (fun x => ∀ i, On i (x i)) fun x v => ∀ i, Tan i (x i) (v i)) ∧
    ((∀ i, Composes (Ms i) (On i) (Tan i)) →
      Composes (productMfd Ms) (fun x => ∀ i, On i (x i)) fun x v => ∀ i, Tan i (x i) (v i)) :=
  ⟨fun h => ⟨fun _ _ _ hx hy hv i => (h i).tan _ _ _ (hx i) (hy i) (hv i),
    fun _ _ _ _ hx hy hv hw => funext fun i => (h i).add _ _ _ _ (hx i) (hy i) (hv i) (hw i),
    fun _ _ _ _ hx hy hv => funext fun i => (h i).smul _ _ _ _ (hx i) (hy i) (hv i),
    fun _ _ hx hv => funext fun i => (h i).self _ _ (hx i) (hv i)⟩,
  fun h _ _ _ hx hy hv =>
    Finset.sum_le_sum (s := Finset.univ) fun i _ => h i _ _ _ (hx i) (hy i) (hv i),
  fun h _ _ _ _ hx hy hv hw =>
    Finset.sum_congr (s₁ := Finset.univ) rfl fun i _ => h i _ _ _ _ (hx i) (hy i) (hv i) (hw i),
  fun h _ _ _ _ hx hy hv hw =>
    Finset.sum_congr (s₁ := Finset.univ) rfl fun i _ => h i _ _ _ _ (hx i) (hy i) (hv i) (hw i),
  fun h _ _ _ _ hx hy hz hv => funext fun i => h i _ _ _ _ (hx i) (hy i) (hz i) (hv i)⟩

/-- A case that meets the hypotheses of the statements about the sphere in which vectors become
strictly shorter and transport depends on the way. -/
example : ∃ x y z v : Fin 2 → ℝ, OnSphere x ∧ OnSphere y ∧ OnSphere z ∧ SphereTangent x v ∧
    (sphereMfd (ι := Fin 2) 1).inner y ((sphereMfd (ι := Fin 2) 1).transport x y v)
      ((sphereMfd (ι := Fin 2) 1).transport x y v) <
      (sphereMfd (ι := Fin 2) 1).inner x v v ∧
    (sphereMfd (ι := Fin 2) 1).transport y z ((sphereMfd (ι := Fin 2) 1).transport x y v) ≠
      (sphereMfd (ι := Fin 2) 1).transport x z v := by
  refine ⟨![1, 0], ![0, 1], ![-1, 0], ![0, 1], ?_, ?_, ?_, ?_, ?_, ?_⟩
  · simp [OnSphere, Fin.sum_univ_two]
  · simp [OnSphere, Fin.sum_univ_two]
  · simp [OnSphere, Fin.sum_univ_two]
  · simp [SphereTangent, Fin.sum_univ_two]
  · simp [sphereMfd, arrayMfd, sphereInner, sphereTransport, sphereProj, tensordot,
      Fin.sum_univ_two]
  · intro h
    have := congrFun h 1
    simp [sphereMfd, arrayMfd, sphereTransport, sphereProj, sphereInner, tensordot] at this

end Verif.Geo
