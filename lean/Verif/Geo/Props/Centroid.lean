/-
C122: the gradient used by `compute_centroid` is the gradient of its cost, half the sum of the
squared distances to the points, so its steepest descent makes progress towards the Karcher mean.
-/
import Verif.Geo.Props.Progress
import Verif.Geo.Props.DistGrad
import Verif.Geo.Props.DistGradGroup
import Verif.Geo.Props.DistGradGrassmann
import Verif.Geo.Props.DistGradPsd
import Verif.Opt.Model.Centroid

namespace Verif.Geo
open Matrix Verif.Opt
open scoped ComplexOrder

variable {κ ι m n p : Type*} {𝕜 : Type*} [RCLike 𝕜]

/-! ## Specification -/

/-- Half the sum of the squared distances to the points. -/
noncomputable def karcher {E : Type*} (dist : E → E → ℝ) (points : List E) (y : E) : ℝ :=
  (points.map fun p => dist y p ^ 2 / 2).sum

/-! ## The cost and the gradient -/

theorem centroidCost_eq {E : Type*} (dist : E → E → ℝ) (points : List E) :
    centroidCost dist points = karcher dist points := by
  funext y
  have h : ∀ (l : List E) (a : ℝ),
      (l.map fun p => PyNum.pow (dist y p) (PyNum.lit 2)).foldl PyNum.add a =
        a + 2 * (l.map fun p => dist y p ^ 2 / 2).sum := by
    intro l
    induction l with
    | nil => intro a; simp
    | cons q l ih =>
      intro a
      rw [List.map_cons, List.foldl_cons, ih, List.map_cons, List.sum_cons]
      have : PyNum.pow (dist y q) (PyNum.lit 2) = dist y q ^ 2 := by
        change dist y q ^ (((2 : ℚ) : ℝ)) = _
        rw [Rat.cast_ofNat, Real.rpow_two]
      rw [this]
      change a + dist y q ^ 2 + _ = _
      ring
  rw [centroidCost, h]
  change (((0 : ℚ) : ℝ) + 2 * _) * (((1 / 2 : ℚ)) : ℝ) = _
  rw [karcher]; push_cast; ring

theorem foldl_add {E : Type*} [AddCommGroup E] (l : List E) (a : E) :
    l.foldl (· + ·) a = a + l.sum := by
  induction l generalizing a with
  | nil => simp
  | cons v l ih => rw [List.foldl_cons, ih, List.sum_cons, add_assoc]

section
variable {E : Type*} [AddCommGroup E] [Module ℝ E] {dim : ℤ} {norm : E → E → ℝ}
  {inner : E → E → E → ℝ} {retraction : E → E → E} {transport : E → E → E → E} {zero : E → E}
  {toTangent : E → E → E} {log pairMean : E → E → E}

theorem centroidGrad_eq (points : List E) (y : E) (h0 : zero y = 0) :
    centroidGrad (arrayMfd dim norm inner retraction transport zero toTangent log pairMean) points y
      = -(points.map (log y)).sum := by
  change -((points.map (log y)).foldl (· + ·) (zero y)) = _
  rw [foldl_add, h0, zero_add]

theorem list_tangent {T : E → Prop} (hT : IsSubspace T) (l : List E) (h : ∀ v ∈ l, T v) :
    T l.sum := by
  induction l with
  | nil => exact hT.zero
  | cons v l ih =>
    rw [List.sum_cons]
    exact hT.add (h v (by simp)) (ih fun w hw => h w (by simp [hw]))

theorem inner_list_sum {T : E → Prop} (hT : IsSubspace T) {B : E → E → ℝ} (hB : IsInnerOn T B)
    (l : List E) (h : ∀ v ∈ l, T v) {w : E} (hw : T w) :
    B l.sum w = (l.map fun v => B v w).sum := by
  induction l with
  | nil =>
    have := hB.smul_left 0 0 w hT.zero hw
    rw [zero_smul, zero_mul] at this
    simpa using this
  | cons v l ih =>
    have h' : ∀ u ∈ l, T u := fun u hu => h u (by simp [hu])
    rw [List.sum_cons, hB.add_left _ _ _ (h v (by simp)) (list_tangent hT l h') hw, ih h',
      List.map_cons, List.sum_cons]

theorem hasDerivAt_list_sum {α : Type*} (l : List α) (f : α → ℝ → ℝ) (f' : α → ℝ)
    (h : ∀ a ∈ l, HasDerivAt (f a) (f' a) 0) :
    HasDerivAt (fun t => (l.map fun a => f a t).sum) (l.map f').sum 0 := by
  induction l with
  | nil => exact hasDerivAt_const _ _
  | cons a l ih =>
    have := (h a (by simp)).add (ih fun b hb => h b (by simp [hb]))
    exact this

/-- **C122** (every manifold): where the logarithms are tangent and the half squared distance to
each point has, along a curve with velocity `v`, the derivative `-⟨log, v⟩`, the cost minimised by
`compute_centroid` has the derivative `⟨g, v⟩` along that curve, `g` being the gradient it
supplies. -/
theorem C122_gradient {T : E → Prop} (hT : IsSubspace T) {x : E} (hB : IsInnerOn T (inner x))
    (hz : zero x = 0) {dist : E → E → ℝ} {points : List E} (hlog : ∀ p ∈ points, T (log x p))
    {c : ℝ → E} {v : E} (hv : T v)
    (hd : ∀ p ∈ points, HasDerivAt (fun t => dist (c t) p ^ 2 / 2) (-inner x (log x p) v) 0) :
    HasDerivAt (fun t => centroidCost dist points (c t))
      (inner x (centroidGrad (arrayMfd dim norm inner retraction transport zero toTangent log
        pairMean) points x) v) 0 := by
  have hl : ∀ u ∈ points.map (log x), T u := by
    intro u hu
    obtain ⟨q, hq, rfl⟩ := List.mem_map.1 hu
    exact hlog q hq
  have h1 := hasDerivAt_list_sum points (fun p t => dist (c t) p ^ 2 / 2)
    (fun p => -inner x (log x p) v) hd
  rw [centroidCost_eq, centroidGrad_eq points x hz]
  refine h1.congr_deriv ?_
  have h2 := hB.smul_left (-1) _ v (list_tangent hT _ hl) hv
  rw [neg_one_smul, neg_one_mul] at h2
  rw [h2, inner_list_sum hT hB _ hl hv, List.map_map]
  clear hd hlog hl h1 h2
  induction points with
  | nil => simp
  | cons q l ih =>
    rw [List.map_cons, List.sum_cons, ih, List.map_cons, List.sum_cons, neg_add]
    rfl

/-- What the manifold and the points must satisfy for the problem of `compute_centroid` to be
`FirstOrder`: then steepest descent makes progress on it (`C111_descent`). -/
theorem C122_firstOrder {On : E → Prop} {Tan : E → E → Prop} {dist : E → E → ℝ} {points : List E}
    (hT : ∀ x, On x → IsSubspace (Tan x)) (hB : ∀ x, On x → IsInnerOn (Tan x) (inner x))
    (hnorm : ∀ x v, On x → Tan x v → norm x v = Real.sqrt (inner x v v))
    (h0 : ∀ x, On x → retraction x 0 = x) (hz : ∀ x, zero x = 0)
    (hlog : ∀ x, On x → ∀ p ∈ points, Tan x (log x p))
    (hd : ∀ x v, On x → Tan x v → ∀ p ∈ points,
      HasDerivAt (fun t : ℝ => dist (retraction x (t • v)) p ^ 2 / 2) (-inner x (log x p) v) 0) :
    FirstOrder (centroidProb (arrayMfd dim norm inner retraction transport zero toTangent log
      pairMean) dist points) On Tan := by
  have hneg : ∀ x v, On x → Tan x v → Tan x (-v) := fun x v hx hv => by
    rw [← neg_one_smul ℝ v]; exact (hT x hx).smul _ hv
  have hl : ∀ x v w, On x → Tan x v → Tan x w → inner x (-v) w = -inner x v w := by
    intro x v w hx hv hw
    have := (hB x hx).smul_left (-1) v w hv hw
    rwa [neg_one_smul, neg_one_mul] at this
  have hr : ∀ x v w, On x → Tan x v → Tan x w → inner x v (-w) = -inner x v w := by
    intro x v w hx hv hw
    rw [(hB x hx).symm v _ hv (hneg x w hx hw), hl x w v hx hw hv, (hB x hx).symm w v hw hv]
  refine ⟨fun x v hx hv => ?_, fun x v hx hv => ?_, fun x hx => ?_, hneg,
    fun x v hx hv => hr x v v hx hv hv,
    fun x v hx hv => ?_, fun x v hx hv => ?_, fun x v hx hv => ?_⟩
  · exact C122_gradient (hT x hx) (hB x hx) (hz x) (hlog x hx) hv (hd x v hx hv)
  · change centroidCost dist points (retraction x ((0 : ℝ) • v)) = centroidCost dist points x
    rw [zero_smul, h0 x hx]
  · change Tan x (centroidGrad (arrayMfd dim norm inner retraction transport zero toTangent log
      pairMean) points x)
    rw [centroidGrad_eq points x (hz x)]
    refine hneg x _ hx (list_tangent (hT x hx) _ ?_)
    intro u hu
    obtain ⟨q, hq, rfl⟩ := List.mem_map.1 hu
    exact hlog x hx q hq
  · change norm x v ^ 2 = inner x v v
    rw [hnorm x v hx hv, Real.sq_sqrt ((hB x hx).nonneg v hv)]
  · change norm x (-v) = norm x v
    have hn := hneg x v hx hv
    rw [hnorm x v hx hv, hnorm x _ hx hn, hl x v _ hx hv hn, hr x v v hx hv hv, neg_neg]
  · change 0 ≤ norm x v
    rw [hnorm x v hx hv]
    exact Real.sqrt_nonneg _

end

/-- **C122** (outcome): whatever points, distance and logarithms, the centroid returned costs no
more than the random point the search starts from. -/
theorem C122_improves {E : Type*} {M : Mfd ℝ E E} {dist : E → E → ℝ} {clk : Clock ℝ} {draw y : E}
    {points : List E} (h : CentroidRuns M dist clk draw points (.ok y)) :
    karcher dist points y ≤ karcher dist points draw := by
  obtain ⟨r', hr, he⟩ := h
  cases r' with
  | error e => cases he
  | ok q =>
    obtain ⟨r, mem⟩ := q
    have hy : y = r.point := by cases he; rfl
    have h1 := (C07_builtin (pb := centroidProb M dist points) (fun _ => rfl)
      (Or.inl ⟨centroidSearch, hr⟩)).2
    rw [C09_steepestDescent_partial hr] at h1
    have h2 : centroidCost dist points r.point ≤ centroidCost dist points draw :=
      of_decide_eq_true h1
    rwa [centroidCost_eq, ← hy] at h2

/-! ## The manifolds -/

/-- **C122** (Euclidean, complex Euclidean). -/
theorem C122_euclidean [Fintype ι] (dim : ℤ) (points : List (ι → 𝕜)) :
    FirstOrder (centroidProb (euclideanMfd dim) eucDist points) (fun _ => True) fun _ _ => True := by
  refine C122_firstOrder (fun _ _ => isSubspace_true) (fun x _ => (C53_inner x x).1.on _)
    (fun x v _ _ => ?_) (fun x _ => add_zero x) (fun _ => rfl) (fun _ _ _ _ => trivial)
    fun x v _ _ p _ => C121_euclidean (fun i => hasDerivAt_pi.1 (C53_exp_log x x v).2.2.2 i)
      (by rw [zero_smul]; exact add_zero x)
  obtain ⟨-, h, h'⟩ := C53_inner x v
  rw [← h, Real.sqrt_sq h']

/-- **C122** (positive arrays). -/
theorem C122_positive [Fintype ι] (dim : ℤ) (parallel : Bool)
    (pairMean : (ι → ℝ) → (ι → ℝ) → ι → ℝ) (points : List (ι → ℝ)) :
    FirstOrder (centroidProb (positiveMfd dim parallel pairMean) posDist points) PosPoint
      fun _ _ => True := by
  have h0 : ∀ x : ι → ℝ, posRetract x 0 = x := fun x => by funext i; simp [posRetract]
  exact C122_firstOrder (fun _ _ => isSubspace_true) (fun x hx => (C78_metric x hx).1.on _)
    (fun _ _ _ _ => rfl) (fun x _ => h0 x) (fun _ => rfl) (fun _ _ _ _ => trivial)
    fun x v hx _ p _ => C121_positive hx
      (fun i => hasDerivAt_pi.1 (C79_second_order x v hx).2.1 i) (by rw [zero_smul, h0])

/-- **C122** (Poincaré ball): away from the points themselves, where `log` divides zero by zero. -/
theorem C122_poincare [Fintype κ] [Fintype ι] (dim : ℤ)
    (transport : (κ → ι → ℝ) → (κ → ι → ℝ) → (κ → ι → ℝ) → κ → ι → ℝ)
    (log pairMean : (κ → ι → ℝ) → (κ → ι → ℝ) → κ → ι → ℝ) {points : List (κ → ι → ℝ)}
    (hp : ∀ p ∈ points, InBalls p)
    (hlog : ∀ x p k, InBalls x → p ∈ points → x k ≠ p k → pbLog x p k = some (log x p k)) :
    FirstOrder (centroidProb (poincareMfd dim transport log pairMean) pbDist points)
      (fun x => InBalls x ∧ ∀ p ∈ points, ∀ k, x k ≠ p k) fun _ _ => True := by
  have h0 : ∀ x : κ → ι → ℝ, InBalls x → pbExp x 0 = x := fun x hx => (C87_stays x 0 hx).2.1
  refine C122_firstOrder (fun _ _ => isSubspace_true) (fun x hx => (pbInner_inner x hx.1).on _)
    (fun _ _ _ _ => rfl) (fun x hx => h0 x hx.1) (fun _ => rfl) (fun _ _ _ _ => trivial)
    fun x v hx _ p hq => C121_poincare hx.1 (hp p hq) (fun k => ?_) (by rw [zero_smul, h0 x hx.1])
      fun k => hlog x p k hx.1 hq (hx.2 p hq k)
  obtain ⟨w, hw, hw0, -⟩ := C90_geodesic (v k) (hx.1 k)
  have := hw 0
  rw [hw0] at this
  exact this

/-- **C122** (symmetric and Hermitian positive definite). -/
theorem C122_positive_definite [Fintype κ] {n : ℕ} (dim : ℤ)
    {log : Stack κ (Fin n) (Fin n) 𝕜 → Stack κ (Fin n) (Fin n) 𝕜 → Stack κ (Fin n) (Fin n) 𝕜}
    (pairMean : Stack κ (Fin n) (Fin n) 𝕜 → Stack κ (Fin n) (Fin n) 𝕜 → Stack κ (Fin n) (Fin n) 𝕜)
    {dist : Stack κ (Fin n) (Fin n) 𝕜 → Stack κ (Fin n) (Fin n) 𝕜 → ℝ}
    {points : List (Stack κ (Fin n) (Fin n) 𝕜)} (hp : ∀ p ∈ points, PDPoint p)
    (hlog : ∀ x p, PDPoint x → PDPoint p → IsPdLog x p (log x p))
    (hdist : ∀ x p, PDPoint x → PDPoint p → IsPdDist x p (dist x p)) :
    FirstOrder (centroidProb (positiveDefiniteMfd dim log pairMean) dist points) PDPoint
      fun _ => HermStack := by
  refine C122_firstOrder (fun _ _ => hermStack_subspace) (fun P hP => (C81_metric P hP).1)
    (fun P V hP hV => ?_) (fun P hP => (C83_retraction P 0 hP hermStack_subspace.zero).2)
    (fun _ => rfl) (fun x hx p hq => (C82_exp_log (hp p hq) (hlog x p hx (hp p hq))).1)
    fun x v hx hv p hq => C121_positive_definite
      (fun t => (C83_retraction x _ hx (hermStack_subspace.smul t hv)).1) (hp p hq)
      (C83_velocity x v hx hv).1 (by rw [zero_smul]; exact (C83_retraction x v hx hv).2)
      (hlog x p hx (hp p hq))
      fun t => hdist _ p (C83_retraction x _ hx (hermStack_subspace.smul t hv)).1 (hp p hq)
  obtain ⟨h, h'⟩ := (C81_metric P hP).2.2 V hV
  rw [← h, Real.sqrt_sq h']

/-- **C122** (special Hermitian positive definite). -/
theorem C122_special_hpd [Fintype κ] {n : ℕ} (dim : ℤ)
    {log : Stack κ (Fin n) (Fin n) ℂ → Stack κ (Fin n) (Fin n) ℂ → Stack κ (Fin n) (Fin n) ℂ}
    (pairMean : Stack κ (Fin n) (Fin n) ℂ → Stack κ (Fin n) (Fin n) ℂ → Stack κ (Fin n) (Fin n) ℂ)
    {dist : Stack κ (Fin n) (Fin n) ℂ → Stack κ (Fin n) (Fin n) ℂ → ℝ}
    {points : List (Stack κ (Fin n) (Fin n) ℂ)} (hp : ∀ p ∈ points, SHPDPoint p)
    (hlog : ∀ x p, SHPDPoint x → SHPDPoint p → IsPdLog x p (log x p))
    (hdist : ∀ x p, SHPDPoint x → SHPDPoint p → IsPdDist x p (dist x p)) :
    FirstOrder (centroidProb (specialHpdMfd dim log pairMean) dist points) SHPDPoint SHPDTangent := by
  refine C122_firstOrder (fun P _ => shpdTangent_subspace P) (fun P hP => ?_)
    (fun P V hP hV => ?_) (fun P hP => (C86_points P 0 hP hermStack_subspace.zero).2.2)
    (fun _ => rfl) (fun x hx p hq => (C86_log hx (hp p hq) (hlog x p hx (hp p hq))).1)
    fun x v hx hv p hq => C121_special_hpd
      (fun t => (C86_points x _ hx (hermStack_subspace.smul t hv.1)).2.1) (hp p hq)
      (C86_velocity x v hx hv) (by rw [zero_smul]; exact (C86_points x v hx hv.1).2.2)
      (hlog x p hx (hp p hq))
      fun t => hdist _ p (C86_points x _ hx (hermStack_subspace.smul t hv.1)).2.1 (hp p hq)
  · have h := (C81_metric P hP.1).1
    exact ⟨fun u v w hu hv hw => h.add_left u v w hu.1 hv.1 hw.1,
      fun c u v hu hv => h.smul_left c u v hu.1 hv.1, fun u v hu hv => h.symm u v hu.1 hv.1,
      fun u hu => h.nonneg u hu.1, fun u hu => h.definite u hu.1⟩
  · obtain ⟨h, h'⟩ := (C81_metric P hP.1).2.2 V hV.1
    rw [← h, Real.sqrt_sq h']

/-- **C122** (Grassmann, complex Grassmann): where all logarithms are defined, that is where the
subspace is orthogonal to no direction of any of the points (`C73_total`). -/
theorem C122_grassmann [Fintype κ] [Fintype n] [DecidableEq n] {p : ℕ} (dim : ℤ)
    {retraction log : Stack κ n (Fin p) 𝕜 → Stack κ n (Fin p) 𝕜 → Stack κ n (Fin p) 𝕜}
    (pairMean : Stack κ n (Fin p) 𝕜 → Stack κ n (Fin p) 𝕜 → Stack κ n (Fin p) 𝕜)
    (hr : ∀ X V, IsGrRetraction X V (retraction X V))
    {dist : Stack κ n (Fin p) 𝕜 → Stack κ n (Fin p) 𝕜 → ℝ} {points : List (Stack κ n (Fin p) 𝕜)}
    (hp : ∀ Y ∈ points, Orthonormal' Y)
    (hlog : ∀ X Y, Orthonormal' X → Orthonormal' Y → (∀ k, IsUnit ((Y k)ᴴ * X k)) →
      IsGrLog X Y (log X Y))
    (hdist : ∀ X Y, Orthonormal' X → Orthonormal' Y → IsGrDist X Y (dist X Y)) :
    FirstOrder (centroidProb (grassmannMfd dim retraction log pairMean) dist points)
      (fun X => Orthonormal' X ∧ ∀ Y ∈ points, ∀ k, IsUnit ((Y k)ᴴ * X k)) GrHorizontal := by
  have hon : ∀ X V, Orthonormal' X → GrHorizontal X V → Orthonormal' (retraction X V) :=
    fun X V hX hV => (C71_retraction hX hV (hr X V)).1
  have h0 : ∀ X, Orthonormal' X → retraction X 0 = X := fun X hX =>
    (C71_retraction_initial hX (grHorizontal_subspace X).zero).1 _ (hr X 0)
  exact C122_firstOrder (fun X _ => grHorizontal_subspace X) (fun X _ => (C70_metric X X).1.on _)
    (fun X V _ _ => (C70_metric X V).2) (fun X hX => h0 X hX.1) (fun _ => rfl)
    (fun X hX Y hY => C73_horizontal hX.1 (hlog X Y hX.1 (hp Y hY) (hX.2 Y hY)))
    fun X V hX hV Y hY => C121_grassmann
      (fun t => hon X _ hX.1 ((grHorizontal_subspace X).smul t hV)) (hp Y hY)
      ((C71_retraction_initial hX.1 hV).2 _ fun t => hr X (t • V))
      (by rw [zero_smul, h0 X hX.1]) (hlog X Y hX.1 (hp Y hY) (hX.2 Y hY))
      fun t => hdist _ Y (hon X _ hX.1 ((grHorizontal_subspace X).smul t hV)) (hp Y hY)

/-- **C122** (special orthogonal group): where no point is opposite in some plane, so that all
logarithms are real. -/
theorem C122_special_orthogonal [Fintype κ] {p : ℕ} (dim : ℤ)
    {retraction log : Stack κ (Fin p) (Fin p) ℝ → Stack κ (Fin p) (Fin p) ℝ →
      Stack κ (Fin p) (Fin p) ℝ}
    (pairMean : Stack κ (Fin p) (Fin p) ℝ → Stack κ (Fin p) (Fin p) ℝ → Stack κ (Fin p) (Fin p) ℝ)
    (hr : (∀ X V, ∃ q r, (∀ k, IsQR (gRetractArg X V k) (q k) (r k)) ∧
        retraction X V = gRetractQR q r) ∨
      ∀ X V, ∃ u, ∃ s : κ → Fin p → ℝ, ∃ vt, (∀ k, IsSVD (gRetractArg X V k) (u k) (s k) (vt k)) ∧
        retraction X V = gRetractPolar u vt)
    {dist : Stack κ (Fin p) (Fin p) ℝ → Stack κ (Fin p) (Fin p) ℝ → ℝ}
    {points : List (Stack κ (Fin p) (Fin p) ℝ)} (hp : ∀ Y ∈ points, OnSO Y)
    (hlog : ∀ X Y, OnSO X → OnSO Y → (∀ k x, ((X k)ᴴ * Y k) *ᵥ x = -x → x = 0) →
      IsGLog (cplx X) (cplx Y) (cplx (log X Y)))
    (hdist : ∀ X Y, OnSO X → OnSO Y → IsGDist (cplx X) (cplx Y) (dist X Y)) :
    FirstOrder (centroidProb (specialOrthogonalMfd dim retraction log pairMean) dist points)
      (fun X => OnSO X ∧ ∀ Y ∈ points, ∀ k x, ((X k)ᴴ * Y k) *ᵥ x = -x → x = 0)
      fun _ => InLie := by
  have hon : ∀ X V, OnSO X → InLie V → OnSO (retraction X V) := by
    intro X V hX hV
    rcases hr with hr | hr
    · obtain ⟨q, r, h, he⟩ := hr X V
      rw [he]
      exact (C96_retraction_so hX hV).1 q r h
    · obtain ⟨u, s, vt, h, he⟩ := hr X V
      rw [he]
      exact (C96_retraction_so hX hV).2 u s vt h
  have h0 : ∀ X, OnSO X → retraction X 0 = X := by
    intro X hX
    rcases hr with hr | hr
    · obtain ⟨q, r, h, he⟩ := hr X 0
      rw [he]
      exact (C96_zero hX.1).1 q r h
    · obtain ⟨u, s, vt, h, he⟩ := hr X 0
      rw [he]
      exact (C96_zero hX.1).2 u s vt h
  have hvel : ∀ X V, OnSO X → InLie V →
      StackDeriv (fun t : ℝ => retraction X (t • V)) (gEmbed X V) 0 := by
    intro X V hX hV
    rcases hr with hr | hr
    · choose q r h he using fun t : ℝ => hr X (t • V)
      simp only [he]
      exact (C96_velocity hX.1 hV).1 q r h
    · choose u s vt h he using fun t : ℝ => hr X (t • V)
      simp only [he]
      exact (C96_velocity hX.1 hV).2 u s vt h
  refine C122_firstOrder (fun _ _ => inLie_subspace) (fun X _ => (C95_metric X).2.1)
    (fun X V _ _ => (C95_metric X).2.2 V) (fun X hX => h0 X hX.1) (fun _ => rfl)
    (fun X hX Y hY => ?_)
    fun X V hX hV Y hY => C121_special_orthogonal
      (fun t => hon X _ hX.1 (inLie_subspace.smul t hV)) (hp Y hY) hV (hvel X V hX.1 hV)
      (by rw [zero_smul, h0 X hX.1]) (hlog X Y hX.1 (hp Y hY) (hX.2 Y hY))
      fun t => hdist _ Y (hon X _ hX.1 (inLie_subspace.smul t hV)) (hp Y hY)
  exact ((C97_so_partial hX.1.1 (hp Y hY).1 (hlog X Y hX.1 (hp Y hY) (hX.2 Y hY))).2 _ rfl).1

/-- **C122** (positive semidefinite of fixed rank): where no point is orthogonal to the factor in
some direction. -/
theorem C122_psd [Fintype n] {k : ℕ} (dim : ℤ)
    (proj : Matrix n (Fin k) 𝕜 → Matrix n (Fin k) 𝕜 → Matrix n (Fin k) 𝕜)
    {log : Matrix n (Fin k) 𝕜 → Matrix n (Fin k) 𝕜 → Matrix n (Fin k) 𝕜}
    (pairMean : Matrix n (Fin k) 𝕜 → Matrix n (Fin k) 𝕜 → Matrix n (Fin k) 𝕜)
    {dist : Matrix n (Fin k) 𝕜 → Matrix n (Fin k) 𝕜 → ℝ} {points : List (Matrix n (Fin k) 𝕜)}
    (hlog : ∀ Y B, IsPsdLog Y B (log Y B)) (hdist : ∀ Y B, IsPsdDist Y B (dist Y B)) :
    FirstOrder (centroidProb (psdMfd dim proj log pairMean) dist points)
      (fun Y => ∀ B ∈ points, IsUnit (Bᴴ * Y)) fun _ _ => True := by
  refine C122_firstOrder (fun _ _ => isSubspace_true) (fun Y _ => ?_) (fun Y V _ _ => ?_)
    (fun Y _ => add_zero Y) (fun _ => rfl) (fun _ _ _ _ => trivial)
    fun Y V hY _ B hB => C121_psd (fun i j => ?_) (by rw [zero_smul]; exact add_zero Y) (hY B hB)
      (hlog Y B) fun t => hdist _ B
  · rw [show psdInner Y = trDot from funext fun A => funext fun B => psdInner_eq Y A B]
    exact trDot_inner.on _
  · rw [psdInner_eq, ← psdNorm_sq (Y := Y)]
    exact (Real.sqrt_sq (npNorm_nonneg _)).symm
  · have := ((hasDerivAt_id (0 : ℝ)).smul_const (V i j)).const_add (Y i j)
    simpa [psdExp] using this

/-! ## Guarded logarithms -/

section
variable {E : Type*} [AddCommGroup E] [Module ℝ E] {dim : ℤ} {norm : E → E → ℝ}
  {inner : E → E → E → ℝ} {retraction : E → E → E} {transport : E → E → E → E} {zero : E → E}
  {toTangent : E → E → E} {log pairMean : E → E → E}

/-- Where the derivatives are `-⟨log, v⟩` up to errors, the gradient is right up to their sum. -/
theorem centroid_gradient_error {T : E → Prop} (hT : IsSubspace T) {x : E}
    (hB : IsInnerOn T (inner x)) (hz : zero x = 0) {dist : E → E → ℝ} {points : List E}
    (hlog : ∀ p ∈ points, T (log x p)) {c : ℝ → E} {v : E} (hv : T v) {err : E → ℝ}
    (hd : ∀ p ∈ points, ∃ D, HasDerivAt (fun t => dist (c t) p ^ 2 / 2) D 0 ∧
      |D + inner x (log x p) v| ≤ err p) :
    ∃ D, HasDerivAt (fun t => centroidCost dist points (c t)) D 0 ∧
      |D - inner x (centroidGrad (arrayMfd dim norm inner retraction transport zero toTangent log
        pairMean) points x) v| ≤ (points.map err).sum := by
  have hl : ∀ u ∈ points.map (log x), T u := by
    intro u hu
    obtain ⟨q, hq, rfl⟩ := List.mem_map.1 hu
    exact hlog q hq
  have h2 := hB.smul_left (-1) _ v (list_tangent hT _ hl) hv
  rw [neg_one_smul, neg_one_mul] at h2
  rw [centroidCost_eq, centroidGrad_eq points x hz, h2, inner_list_sum hT hB _ hl hv, List.map_map]
  clear h2 hl hlog
  induction points with
  | nil => exact ⟨0, hasDerivAt_const _ _, by simp⟩
  | cons q l ih =>
    obtain ⟨D, hD, he⟩ := hd q (by simp)
    obtain ⟨D', hD', he'⟩ := ih fun r hr => hd r (by simp [hr])
    refine ⟨D + D', hD.add hD', ?_⟩
    rw [List.map_cons, List.sum_cons, List.map_cons, List.sum_cons]
    refine le_trans (le_of_eq ?_) ((abs_add_le _ _).trans (add_le_add he he'))
    rw [Function.comp_apply]
    congr 1
    ring

end

/-- **C122** (sphere): `eps` in `log` keeps the gradient from being exact; it is off by `eps` times
a factor that depends on the distances.  Missing: exactness, which `C121_sphere_negation` refutes. -/
theorem C122_sphere_partial [Fintype ι] {eps : ℝ} (he : 0 ≤ eps) {x v : ι → ℝ}
    {points : List (ι → ℝ)} (hp : ∀ p ∈ points, OnSphere p ∧ p ≠ -x) {c : ℝ → ι → ℝ}
    (hon : ∀ t, OnSphere (c t)) (hc : HasDerivAt c v 0) (h0 : c 0 = x) :
    ∃ D, HasDerivAt (fun t => centroidCost sphereDist points (c t)) D 0 ∧
      |D - sphereInner x (centroidGrad (sphereMfd eps) points x) v| ≤
        (points.map fun p => eps * ((sphereDist x p - Real.sin (sphereDist x p)) /
          (Real.sin (sphereDist x p) + eps)) * sphereNorm x v).sum :=
  centroid_gradient_error (T := fun _ => True) isSubspace_true ((C56_metric x x).1.on _) rfl
    (fun _ _ => trivial) trivial fun p hq =>
      C121_sphere_partial hon (hp p hq).1 hc h0 (hp p hq).2 he

/-- **C122** (oblique): likewise, with the errors of all columns. -/
theorem C122_oblique_partial [Fintype m] [Fintype n] (dim : ℤ) {eps : ℝ} (he : 0 ≤ eps)
    {X V : Matrix m n ℝ} {points : List (Matrix m n ℝ)}
    (hp : ∀ P ∈ points, OnOblique P ∧ ∀ j, colOf P j ≠ -colOf X j) {c : ℝ → Matrix m n ℝ}
    (hon : ∀ t, OnOblique (c t)) (hc : MatDeriv c V 0) (h0 : c 0 = X) :
    ∃ D, HasDerivAt (fun t => centroidCost oblDist points (c t)) D 0 ∧
      |D - oblInner X (centroidGrad (obliqueMfd dim eps) points X) V| ≤
        (points.map fun P => ∑ j, eps * ((sphereDist (colOf X j) (colOf P j) -
          Real.sin (sphereDist (colOf X j) (colOf P j))) /
            (Real.sin (sphereDist (colOf X j) (colOf P j)) + eps)) *
              sphereNorm (colOf X j) (colOf V j)).sum :=
  centroid_gradient_error (T := fun _ => True) isSubspace_true ((oblInner_inner X).on _) rfl
    (fun _ _ => trivial) trivial fun P hq =>
      C121_oblique_partial hon (hp P hq).1 hc h0 (hp P hq).2 he

/-- **C122** (complex circle): off by at most `1e-18 * |v|` for each entry within `1e-6` of the
point. -/
theorem C122_complex_circle_partial [Fintype ι] {log : (ι → ℂ) → (ι → ℂ) → ι → ℂ} {x v : ι → ℂ}
    {points : List (ι → ℂ)} (hp : ∀ p ∈ points, OnCircles p)
    (hlog : ∀ p ∈ points, ∀ i, ccLog x p i = some (log x p i)) {c : ℝ → ι → ℂ}
    (hon : ∀ t, OnCircles (c t)) (hc : ∀ i, HasDerivAt (fun t => c t i) (v i) 0) (h0 : c 0 = x) :
    ∃ D, HasDerivAt (fun t => centroidCost ccDist points (c t)) D 0 ∧
      |D - ccInner x (centroidGrad (complexCircleMfd log) points x) v| ≤
        (points.map fun p => ∑ i,
          (if Real.arccos (star (x i) * p i).re ≤ 1e-6 then 1e-18 * ‖v i‖ else 0)).sum :=
  centroid_gradient_error (T := fun _ => True) isSubspace_true ((ccInner_inner x).on _) rfl
    (fun _ _ => trivial) trivial fun p hq =>
      C121_complex_circle_partial hon (hp p hq) hc h0 (hlog p hq)

/-! ## Stationary points -/

/-- **C122** (Euclidean, complex Euclidean): the gradient vanishes exactly at the arithmetic mean. -/
theorem C122_euclidean_mean [Fintype ι] (dim : ℤ) {points : List (ι → 𝕜)} (hne : points ≠ [])
    (y : ι → 𝕜) :
    centroidGrad (euclideanMfd dim) points y = 0 ↔
      y = ((points.length : ℝ)⁻¹) • points.sum := by
  have hl : (points.length : ℝ) ≠ 0 := by
    simpa using List.length_pos_iff.2 hne |>.ne'
  have hs : ∀ l : List (ι → 𝕜), (l.map (eucLog y)).sum = l.sum - (l.length : ℝ) • y := by
    intro l
    induction l with
    | nil => simp
    | cons q l ih =>
      rw [List.map_cons, List.sum_cons, ih, List.sum_cons, List.length_cons]
      push_cast
      rw [add_smul, one_smul, eucLog]
      abel
  rw [euclideanMfd, centroidGrad_eq points y rfl, neg_eq_zero, hs, sub_eq_zero, eq_comm,
    eq_inv_smul_iff₀ hl]

/-- **C122** (Euclidean, complex Euclidean): from every point but the mean, steepest descent on the
problem of `compute_centroid` comes strictly closer, if the line search may contract often enough. -/
theorem C122_euclidean_progress [Fintype ι] (dim : ℤ) {points : List (ι → 𝕜)} (hne : points ≠ [])
    {y : ι → 𝕜} (hy : y ≠ ((points.length : ℝ)⁻¹) • points.sum) {c r init : ℝ} (hc0 : 0 < c)
    (hc : c < 1) (hr : 0 < r) (hr1 : r < 1) (hi : 0 < init) :
    ∃ N : ℕ, ∀ max : ℤ, (N : ℤ) ≤ max → ∀ (cfg : Cfg ℝ) (clk : Clock ℝ) (res : Result ℝ (ι → 𝕜))
      (m : Option ℝ) (opt : ℝ),
      SDRuns cfg (backTracking _ _ ⟨r, opt, c, max, init⟩)
        (centroidProb (euclideanMfd dim) eucDist points) clk y none (.ok (res, m)) →
        res.cost < karcher eucDist points y := by
  have hF := C122_euclidean dim points
  have hn : (centroidProb (euclideanMfd dim) eucDist points).M.norm y
      ((centroidProb (euclideanMfd dim) eucDist points).grad y) ≠ 0 := by
    intro h
    refine hy ((C122_euclidean_mean dim hne y).1 ((C53_inner y y).1.definite _ ?_))
    rw [← (C53_inner y _).2.1]
    exact (pow_eq_zero_iff two_ne_zero).2 h
  obtain ⟨N, hN⟩ := C111_descent hF (x := y) trivial hn hc0 hc hr hr1 hi
  refine ⟨N, fun max hm cfg clk res m opt h => ?_⟩
  have := (hN max hm cfg clk res m).1 opt h
  rwa [show (centroidProb (euclideanMfd dim) eucDist points).cost = karcher eucDist points from
    centroidCost_eq _ _] at this

/-- **C122** (positive arrays): the gradient vanishes exactly at the geometric mean. -/
theorem C122_positive_mean [Fintype ι] (dim : ℤ) (parallel : Bool)
    (pairMean : (ι → ℝ) → (ι → ℝ) → ι → ℝ) {points : List (ι → ℝ)} (hne : points ≠ [])
    (hp : ∀ p ∈ points, PosPoint p) {y : ι → ℝ} (hy : PosPoint y) :
    centroidGrad (positiveMfd dim parallel pairMean) points y = 0 ↔
      ∀ i, y i ^ points.length = (points.map fun p => p i).prod := by
  have hs : ∀ l : List (ι → ℝ), (∀ p ∈ l, PosPoint p) → ∀ i, 0 < (l.map fun p => p i).prod ∧
      (l.map (posLog y)).sum i
        = y i * (Real.log ((l.map fun p => p i).prod) - l.length * Real.log (y i)) := by
    intro l
    induction l with
    | nil => intro _ i; simp
    | cons q l ih =>
      intro hl i
      obtain ⟨h1, h2⟩ := ih (fun p hp => hl p (by simp [hp])) i
      have h3 : 0 < q i := hl q (by simp) i
      refine ⟨by simpa using mul_pos h3 h1, ?_⟩
      rw [List.map_cons, List.sum_cons, Pi.add_apply, h2, List.map_cons, List.prod_cons,
        Real.log_mul h3.ne' h1.ne', List.length_cons, posLog]
      push_cast
      ring
  have hl : points.length ≠ 0 := fun h => hne (List.length_eq_zero_iff.1 h)
  rw [positiveMfd, centroidGrad_eq points y rfl, neg_eq_zero, funext_iff]
  refine forall_congr' fun i => ?_
  obtain ⟨h1, h2⟩ := hs points hp i
  have hyi := hy i
  rw [h2, Pi.zero_apply, mul_eq_zero, or_iff_right hyi.ne', sub_eq_zero, ← Real.log_pow,
    eq_comm]
  constructor
  · exact fun h => Real.log_injOn_pos (Set.mem_Ioi.2 (pow_pos hyi _)) (Set.mem_Ioi.2 h1) h
  · exact fun h => by rw [h]

/-! ## The hypotheses can be met -/

/-- One is the mean of zero and two; four is not. -/
example : (![1] : Fin 1 → ℝ) = ((([![0], ![2]] : List (Fin 1 → ℝ)).length : ℝ)⁻¹) •
      ([![0], ![2]] : List (Fin 1 → ℝ)).sum ∧
    (![4] : Fin 1 → ℝ) ≠ ((([![0], ![2]] : List (Fin 1 → ℝ)).length : ℝ)⁻¹) •
      ([![0], ![2]] : List (Fin 1 → ℝ)).sum := by
  constructor
  · funext i; fin_cases i; norm_num
  · intro h
    have := congrFun h 0
    norm_num at this

/-- The geometric mean of one and four is two. -/
example : centroidGrad (positiveMfd (ι := Fin 1) 1 true fun a _ => a) [![1], ![4]] ![2] = 0 := by
  rw [C122_positive_mean 1 true _ (by simp) (by simp [PosPoint]) (by simp [PosPoint])]
  intro i; fin_cases i; norm_num

/-- Logarithms and distances as required of positive definite matrices and of subspaces. -/
example [Fintype κ] {n : ℕ} : ∃ (log : Stack κ (Fin n) (Fin n) 𝕜 → Stack κ (Fin n) (Fin n) 𝕜 →
      Stack κ (Fin n) (Fin n) 𝕜) (dist : Stack κ (Fin n) (Fin n) 𝕜 → Stack κ (Fin n) (Fin n) 𝕜 → ℝ),
    (∀ x p, PDPoint x → PDPoint p → IsPdLog x p (log x p)) ∧
      ∀ x p, PDPoint x → PDPoint p → IsPdDist x p (dist x p) := by
  classical
  have h1 : ∀ x p : Stack κ (Fin n) (Fin n) 𝕜, ∃ L, PDPoint x → PDPoint p → IsPdLog x p L := by
    intro x p
    by_cases hx : PDPoint x ∧ PDPoint p
    · exact (C82_total hx.1 hx.2).1.imp fun _ h _ _ => h
    · exact ⟨0, fun h h' => absurd ⟨h, h'⟩ hx⟩
  have h2 : ∀ x p : Stack κ (Fin n) (Fin n) 𝕜, ∃ d, PDPoint x → PDPoint p → IsPdDist x p d := by
    intro x p
    by_cases hx : PDPoint x ∧ PDPoint p
    · exact (C82_total hx.1 hx.2).2.imp fun _ h _ _ => h
    · exact ⟨0, fun h h' => absurd ⟨h, h'⟩ hx⟩
  choose log hlog using h1
  choose dist hdist using h2
  exact ⟨log, dist, hlog, hdist⟩

example [Fintype κ] [Fintype n] [DecidableEq n] {p : ℕ} (hp : p ≤ Fintype.card n) :
    ∃ (retraction log : Stack κ n (Fin p) 𝕜 → Stack κ n (Fin p) 𝕜 → Stack κ n (Fin p) 𝕜)
      (dist : Stack κ n (Fin p) 𝕜 → Stack κ n (Fin p) 𝕜 → ℝ),
    (∀ X V, IsGrRetraction X V (retraction X V)) ∧
    (∀ X Y, (∀ k, IsUnit ((Y k)ᴴ * X k)) → IsGrLog X Y (log X Y)) ∧
      ∀ X Y, IsGrDist X Y (dist X Y) := by
  classical
  choose r hr using fun X V : Stack κ n (Fin p) 𝕜 => (C71_total hp X V).1
  choose d hd using fun X V : Stack κ n (Fin p) 𝕜 => (C71_total hp X V).2.2
  have h1 : ∀ X Y : Stack κ n (Fin p) 𝕜, ∃ L, (∀ k, IsUnit ((Y k)ᴴ * X k)) → IsGrLog X Y L := by
    intro X Y
    by_cases h : ∀ k, IsUnit ((Y k)ᴴ * X k)
    · exact ((C73_total hp X Y).2 h).imp fun _ h' _ => h'
    · exact ⟨0, fun h' => absurd h' h⟩
  choose l hl using h1
  exact ⟨r, l, d, hr, hl, hd⟩

example [Fintype κ] {p : ℕ} : ∃ (log : Stack κ (Fin p) (Fin p) ℝ → Stack κ (Fin p) (Fin p) ℝ →
      Stack κ (Fin p) (Fin p) ℝ) (dist : Stack κ (Fin p) (Fin p) ℝ → Stack κ (Fin p) (Fin p) ℝ → ℝ),
    (∀ X Y, OnSO X → OnSO Y → (∀ k x, ((X k)ᴴ * Y k) *ᵥ x = -x → x = 0) →
      IsGLog (cplx X) (cplx Y) (cplx (log X Y))) ∧
      ∀ X Y, OnSO X → OnSO Y → IsGDist (cplx X) (cplx Y) (dist X Y) := by
  classical
  have h1 : ∀ X Y : Stack κ (Fin p) (Fin p) ℝ, ∃ L, OnSO X → OnSO Y →
      (∀ k x, ((X k)ᴴ * Y k) *ᵥ x = -x → x = 0) → IsGLog (cplx X) (cplx Y) (cplx L) := by
    intro X Y
    by_cases h : OnSO X ∧ OnSO Y ∧ ∀ k x, ((X k)ᴴ * Y k) *ᵥ x = -x → x = 0
    · obtain ⟨hX, hY, hk⟩ := h
      obtain ⟨V, hV, -⟩ := C97_total (onUnitary_cplx hX.1) (onUnitary_cplx hY.1)
      obtain ⟨W, rfl⟩ := (C97_so_partial hX.1 hY.1 hV).1.2 hk
      exact ⟨W, fun _ _ _ => hV⟩
    · exact ⟨0, fun h1 h2 h3 => absurd ⟨h1, h2, h3⟩ h⟩
  have h2 : ∀ X Y : Stack κ (Fin p) (Fin p) ℝ, ∃ d, OnSO X → OnSO Y →
      IsGDist (cplx X) (cplx Y) d := by
    intro X Y
    by_cases h : OnSO X ∧ OnSO Y
    · obtain ⟨d, hd, -⟩ := (C97_dist (onUnitary_cplx h.1.1) (onUnitary_cplx h.2.1)).1
      exact ⟨d, fun _ _ => hd⟩
    · exact ⟨0, fun h1 h2 => absurd ⟨h1, h2⟩ h⟩
  choose l hl using h1
  choose d hd using h2
  exact ⟨l, d, hl, hd⟩

/-- Logarithms and distances of factors of positive semidefinite matrices, and two factors that are
orthogonal in no direction. -/
example [Fintype n] {k : ℕ} : ∃ (log : Matrix n (Fin k) 𝕜 → Matrix n (Fin k) 𝕜 → Matrix n (Fin k) 𝕜)
      (dist : Matrix n (Fin k) 𝕜 → Matrix n (Fin k) 𝕜 → ℝ),
    (∀ Y B, IsPsdLog Y B (log Y B)) ∧ ∀ Y B, IsPsdDist Y B (dist Y B) := by
  choose l hl using fun Y B : Matrix n (Fin k) 𝕜 => (C75_total Y B).1
  choose d hd using fun Y B : Matrix n (Fin k) 𝕜 => (C75_total Y B).2
  exact ⟨l, d, hl, hd⟩

example : IsUnit ((!![(1 : ℝ); 0])ᴴ * !![(1 : ℝ); 1]) := by
  have : (!![(1 : ℝ); 0])ᴴ * !![(1 : ℝ); 1] = 1 := by
    ext i j
    fin_cases i; fin_cases j
    simp [Matrix.mul_apply, Fin.sum_univ_two]
  rw [this]
  exact isUnit_one

/-- The curve `(cos t, sin t)` meets the hypotheses of `C121_sphere_partial` and of
`C121_sphere_negation` for the point `(0, 1)`. -/
example : (∀ t, OnSphere ![Real.cos t, Real.sin t]) ∧ OnSphere ![(0 : ℝ), 1] ∧
    HasDerivAt (fun t => ![Real.cos t, Real.sin t]) ![0, 1] 0 ∧
    (![(0 : ℝ), 1] ≠ -![1, 0]) ∧ (![(0 : ℝ), 1] ≠ ![1, 0]) ∧
      tensordot ![(0 : ℝ), 1] ![0, 1] ≠ 0 := by
  refine ⟨fun t => ?_, by simp [OnSphere, Fin.sum_univ_two], ?_, ?_, ?_, ?_⟩
  · simp [OnSphere, Fin.sum_univ_two, Real.cos_sq_add_sin_sq]
  · rw [hasDerivAt_pi]
    intro i
    fin_cases i
    · simpa using Real.hasDerivAt_cos 0
    · simpa using Real.hasDerivAt_sin 0
  · intro h; have := congrFun h 1; simp at this
  · intro h; have := congrFun h 1; simp at this
  · simp [tensordot, Fin.sum_univ_two]

end Verif.Geo
