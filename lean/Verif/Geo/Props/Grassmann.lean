/-
C70, C71, C72, C73: the real and complex Grassmann manifolds.
-/
import Verif.Geo.Model.Grassmann
import Verif.Geo.Lemmas.Exists
import Verif.Geo.Props.Stiefel
import Mathlib.Analysis.SpecialFunctions.Trigonometric.Arctan
import Mathlib.Analysis.SpecialFunctions.Trigonometric.Bounds

namespace Verif.Geo
open scoped BigOperators
open Matrix

variable {κ n p : Type*} {𝕜 : Type*} [RCLike 𝕜]

/-- Stacks of matrices with orthonormal columns. -/
def Orthonormal' [Fintype n] [DecidableEq p] (X : Stack κ n p 𝕜) : Prop :=
  ∀ k i j, ∑ l, star (X k l i) * X k l j = if i = j then 1 else 0

/-- Horizontal vectors at `X`: columns orthogonal to the columns of `X`. -/
def GrHorizontal [Fintype n] (X Z : Stack κ n p 𝕜) : Prop :=
  ∀ k i j, ∑ l, star (X k l i) * Z k l j = 0

/-- Each matrix has the same column space as its counterpart. -/
def SameSpan [Fintype p] (X Y : Stack κ n p 𝕜) : Prop :=
  ∀ k, (∃ Q, Y k = X k * Q) ∧ ∃ Q, X k = Y k * Q

theorem orthonormal_iff [Fintype n] [DecidableEq p] {X : Stack κ n p 𝕜} :
    Orthonormal' X ↔ ∀ k, (X k)ᴴ * X k = 1 := by
  constructor
  · intro h k
    ext i j
    rw [mul_apply, one_apply]
    exact h k i j
  · intro h k i j
    have := congrFun (congrFun (h k) i) j
    rwa [mul_apply, one_apply] at this

theorem grHorizontal_iff [Fintype n] {X Z : Stack κ n p 𝕜} :
    GrHorizontal X Z ↔ ∀ k, (X k)ᴴ * Z k = 0 := by
  constructor
  · intro h k
    ext i j
    rw [mul_apply, Matrix.zero_apply]
    exact h k i j
  · intro h k i j
    have := congrFun (congrFun (h k) i) j
    rwa [mul_apply, Matrix.zero_apply] at this

theorem grHorizontal_subspace [Fintype n] (X : Stack κ n p 𝕜) :
    IsSubspace (E := Stack κ n p 𝕜) (GrHorizontal X) := by
  refine ⟨?_, ?_, ?_⟩
  · rw [grHorizontal_iff]; intro k; exact Matrix.mul_zero _
  · intro u v hu hv
    rw [grHorizontal_iff] at *
    intro k
    rw [Pi.add_apply, Matrix.mul_add, hu, hv, add_zero]
  · intro c u hu
    rw [grHorizontal_iff] at *
    intro k
    rw [Pi.smul_apply, Matrix.mul_smul, hu, smul_zero]

/-! ### The real class is the complex one over the reals -/

theorem multihconj_real {m : Type*} (A : Stack κ m n ℝ) : multihconj A = multitransp A := by
  funext k
  rw [multihconj_apply, multitransp_apply, conjTranspose_eq_transpose_of_trivial]

/-- C70–C73: every method of `Grassmann` equals the one of `ComplexGrassmann` taken over the reals,
so that what is proved for the latter over any `RCLike` field holds for both classes. -/
theorem C70_real [Fintype κ] [Fintype n] [Fintype p] (X Y G H V : Stack κ n p ℝ) :
    grInner X G V = cgrInner X G V ∧ grProj X V = cgrProj X V ∧
      grTransport X Y V = cgrTransport X Y V ∧ grE2rh X G H V = cgrE2rh X G H V ∧
      grDistArg X Y = cgrDistArg X Y ∧ grRandomTangent X V = cgrRandomTangent X V ∧
      grYtx X Y = cgrYhx X Y ∧ grAt X Y = cgrAh X Y := by
  have hproj : ∀ X V : Stack κ n p ℝ, grProj X V = cgrProj X V := by
    intro X V
    rw [grProj, cgrProj, multihconj_real]
    congr 1
    funext k
    exact (Matrix.mul_assoc _ _ _).symm
  refine ⟨(retensordot_real _ _).symm, hproj X V, hproj Y V, ?_, ?_, ?_, ?_, ?_⟩
  · simp only [grE2rh, cgrE2rh, hproj, multihconj_real]
  · simp only [grDistArg, cgrDistArg, multihconj_real]
  · simp only [grRandomTangent, cgrRandomTangent, hproj]
  · simp only [grYtx, cgrYhx, multihconj_real]
  · simp only [grAt, grYtx, cgrAh, cgrYhx, multihconj_real]

/-- C71, C73: also the arguments of the factorisations agree. -/
theorem C71_real [Fintype n] {p : ℕ} (X u : Stack κ n (Fin p) ℝ) (s : κ → Fin p → ℝ)
    (vt : Stack κ (Fin p) (Fin p) ℝ) (bt : Stack κ (Fin p) n ℝ) :
    grExpArg X u s vt = cgrExpArg X u s vt ∧ grLogArg bt = cgrLogArg bt := by
  constructor
  · simp only [grExpArg, cgrExpArg, multihconj_real]
  · simp only [grLogArg, cgrLogArg, multihconj_real]

/-! ### C70 -/

section
variable [Fintype n] [Fintype p]

theorem cgrProj_apply (X V : Stack κ n p 𝕜) (k : κ) :
    cgrProj X V k = V k - X k * ((X k)ᴴ * V k) := by
  rw [← Matrix.mul_assoc]; rfl

theorem cgrE2rh_apply (X G H V : Stack κ n p 𝕜) (k : κ) :
    cgrE2rh X G H V k = cgrProj X H k - V k * ((X k)ᴴ * G k) := rfl

variable [DecidableEq p]

theorem cgrProj_mem {X : Stack κ n p 𝕜} (hX : Orthonormal' X) (V : Stack κ n p 𝕜) :
    GrHorizontal X (cgrProj X V) := by
  rw [grHorizontal_iff]
  intro k
  rw [cgrProj_apply, Matrix.mul_sub, ← Matrix.mul_assoc, orthonormal_iff.mp hX k, Matrix.one_mul,
    sub_self]

variable [Fintype κ]

/-- C70: projection is the orthogonal projection onto the horizontal space. -/
theorem C70_projection (X : Stack κ n p 𝕜) (hX : Orthonormal' X) :
    IsOrthProj (E := Stack κ n p 𝕜) (cgrInner X) (GrHorizontal X) (cgrProj X) := by
  refine (stackDot_inner (κ := κ) (m := n) (n := p) (𝕜 := 𝕜)).orthProj (grHorizontal_subspace X)
    (cgrProj_mem hX) ?_
  intro V W hW
  rw [stackDot_eq]
  refine Finset.sum_eq_zero fun k _ => ?_
  rw [Pi.sub_apply, cgrProj_apply, sub_sub_cancel, trDot_mul_left, grHorizontal_iff.mp hW k,
    trDot_inner.zero_right]

omit [DecidableEq p] in
/-- C70: the inner product is one, and `norm` is its square root. -/
theorem C70_metric (X V : Stack κ n p 𝕜) :
    IsInner (E := Stack κ n p 𝕜) (cgrInner X) ∧ grNorm X V = Real.sqrt (cgrInner X V V) :=
  ⟨stackDot_inner, stackNorm_eq_sqrt V⟩

/-- C70: transported vectors and the converted gradient are horizontal; the gradient represents
the directional derivative on horizontal vectors. -/
theorem C70_transport_gradient (A B G : Stack κ n p 𝕜) (hB : Orthonormal' B) :
    (∀ V, GrHorizontal B (cgrTransport A B V)) ∧ GrHorizontal B (cgrProj B G) ∧
      ∀ V, GrHorizontal B V →
        cgrInner B (cgrProj B G) V = ∑ k, ∑ i, ∑ j, RCLike.re (star (G k i j) * V k i j) := by
  have hP := C70_projection B hB
  refine ⟨fun V => hP.mem V, hP.mem G, fun V hV => ?_⟩
  refine (hP.represents G hV).trans ?_
  rw [cgrInner, stackDot_eq]
  exact Finset.sum_congr rfl fun k _ => trDot_eq_sum _ _

omit [Fintype κ] in
/-- C55 for the Grassmann manifolds. -/
theorem C55_grassmann (X V : Stack κ n p 𝕜) (hX : Orthonormal' X) :
    GrHorizontal X (cgrProj X V) := cgrProj_mem hX V

/-- C101 for the Grassmann manifolds. -/
theorem C101_grassmann (X draw : Stack κ n p 𝕜) (hX : Orthonormal' X) (h : cgrProj X draw ≠ 0) :
    GrHorizontal X (cgrRandomTangent X draw) ∧ grNorm X (cgrRandomTangent X draw) = 1 :=
  ⟨(grHorizontal_subspace X).smul _ (cgrProj_mem hX draw), stackNorm_inv_smul h⟩

omit [DecidableEq p] in
/-- A gradient orthogonal to all directions that leave the column space unchanged has Hermitian
`Xᴴ G`. -/
theorem vertical_hermitian {X G : Stack κ n p 𝕜}
    (hG : ∀ W : Stack κ p p 𝕜, SkewHermStack W → stackDot G (multiprod X W) = 0) (k : κ) :
    ((X k)ᴴ * G k)ᴴ = (X k)ᴴ * G k := by
  classical
  set S : Stack κ p p 𝕜 := fun k => (X k)ᴴ * G k with hS
  have h1 := hG (multiskewh S) (multiskewh_mem S)
  have h2 : stackDot S (multiskewh S) = 0 := by
    rw [← h1, stackDot_eq, stackDot_eq]
    refine Finset.sum_congr rfl fun k _ => ?_
    rw [hS, multiprod, trDot_inner.symm, trDot_inner.symm (G k), trDot_mul_left]
  have h3 : stackDot (multiskewh S) (multiskewh S) = 0 := by
    have hP := (C50_projections (κ := κ) (n := p) (𝕜 := 𝕜)).2.2.2
    rw [hP.represents S (multiskewh_mem S)]
    exact h2
  have h4 := (stackDot_inner (κ := κ) (m := p) (n := p) (𝕜 := 𝕜)).definite _ h3
  have h5 := congrFun h4 k
  have h6 : (1 / 2 : ℝ) • (S k - (S k)ᴴ) = 0 := h5
  rw [smul_eq_zero] at h6
  exact (sub_eq_zero.mp (h6.resolve_left (by norm_num))).symm

/-- C70: the converted Hessian maps horizontal vectors to horizontal vectors, and is symmetric when
the Euclidean Hessian is and the cost does not change along the column space (its gradient is
orthogonal to `X W` for skew-Hermitian `W`). -/
theorem C70_symmetric (X G : Stack κ n p 𝕜) (hX : Orthonormal' X)
    (hG : ∀ W : Stack κ p p 𝕜, SkewHermStack W → stackDot G (multiprod X W) = 0)
    (H : Stack κ n p 𝕜 → Stack κ n p 𝕜)
    (hH : ∀ U V, stackDot U (H V) = stackDot (H U) V) :
    IsSymmOn (E := Stack κ n p 𝕜) (cgrInner X) (GrHorizontal X)
      fun V => cgrE2rh X G (H V) V := by
  have hP := C70_projection X hX
  have heq : ∀ V, cgrE2rh X G (H V) V = cgrProj X (H V) - multiprod V (multiprod (multihconj X) G) :=
    fun V => rfl
  refine ⟨?_, ?_⟩
  · intro V hV
    rw [grHorizontal_iff] at *
    intro k
    rw [cgrE2rh_apply, Matrix.mul_sub, grHorizontal_iff.mp (hP.mem (H V)) k, ← Matrix.mul_assoc,
      hV, Matrix.zero_mul, sub_zero]
  · intro U V hU hV
    change stackDot U (cgrE2rh X G (H V) V) = stackDot (cgrE2rh X G (H U) U) V
    rw [heq, heq, stackDot_sub_left, stackDot_sub_right]
    have h1 : stackDot U (cgrProj X (H V)) = stackDot (cgrProj X (H U)) V := by
      rw [stackDot_comm U]
      refine (hP.represents (H V) hU).trans ?_
      refine (stackDot_comm _ _).trans ((hH U V).trans ?_)
      exact (hP.represents (H U) hV).symm
    rw [h1]
    congr 1
    rw [stackDot_eq, stackDot_eq]
    refine Finset.sum_congr rfl fun k _ => ?_
    change trDot (U k) (V k * ((X k)ᴴ * G k)) = trDot (U k * ((X k)ᴴ * G k)) (V k)
    rw [trDot_mul_right, vertical_hermitian hG k]

omit [Fintype κ] in
/-- C70: along every curve of orthonormal matrices with horizontal velocity the derivative of the
gradient field, projected to the horizontal space, is the converted Hessian. -/
theorem C70_derivative (c : ℝ → Stack κ n p 𝕜) (V : Stack κ n p 𝕜) (hon : ∀ t, Orthonormal' (c t))
    (hc : StackDeriv c V 0) (hV : GrHorizontal (c 0) V) (g : Stack κ n p 𝕜 → Stack κ n p 𝕜)
    (H : Stack κ n p 𝕜) (hg : StackDeriv (fun t => g (c t)) H 0) :
    ∃ d, StackDeriv (fun t => cgrProj (c t) (g (c t))) d 0 ∧
      cgrProj (c 0) d = cgrE2rh (c 0) (g (c 0)) H V := by
  refine ⟨fun k => H k - (V k * ((c 0 k)ᴴ * g (c 0) k) +
    c 0 k * ((V k)ᴴ * g (c 0) k + (c 0 k)ᴴ * H k)), ?_, ?_⟩
  · rw [stackDeriv_iff]
    intro k
    have h1 := MatDeriv.mul (MatDeriv.conjTranspose (hc k)) (hg k)
    refine (MatDeriv.sub (hg k) (MatDeriv.mul (hc k) h1)).congr_fun fun s => ?_
    rw [cgrProj_apply]
  · funext k
    have hX := orthonormal_iff.mp (hon 0) k
    have hVk := grHorizontal_iff.mp hV k
    rw [cgrE2rh_apply, cgrProj_apply, cgrProj_apply]
    generalize (V k)ᴴ * g (c 0) k + (c 0 k)ᴴ * H k = M
    rw [Matrix.mul_sub, Matrix.mul_add, ← Matrix.mul_assoc _ (V k), hVk, Matrix.zero_mul, zero_add,
      ← Matrix.mul_assoc _ (c 0 k) M, hX, Matrix.one_mul, Matrix.mul_sub]
    abel

end

/-! ### C71 -/

section
variable {p : ℕ} [Fintype n]

theorem grRetractArg_gram {X Z : Stack κ n (Fin p) 𝕜} (hX : Orthonormal' X) (hZ : GrHorizontal X Z)
    (k : κ) : (grRetractArg X Z k)ᴴ * grRetractArg X Z k = 1 + (Z k)ᴴ * Z k := by
  have hZ1 := grHorizontal_iff.mp hZ k
  have hZ2 : (Z k)ᴴ * X k = 0 := by
    have := congrArg conjTranspose hZ1
    rwa [conjTranspose_mul, conjTranspose_conjTranspose, conjTranspose_zero] at this
  simp only [grRetractArg, Pi.add_apply, conjTranspose_add]
  rw [Matrix.add_mul, Matrix.mul_add, Matrix.mul_add, orthonormal_iff.mp hX k, hZ1, hZ2]
  abel

/-- C71: the retraction is orthonormal and spans the column space of `X + Z`. -/
theorem C71_retraction {X Z E : Stack κ n (Fin p) 𝕜} (hX : Orthonormal' X)
    (hZ : GrHorizontal X Z) (h : IsGrRetraction X Z E) :
    Orthonormal' E ∧ SameSpan E (X + Z) := by
  obtain ⟨u, s, vt, hsvd, rfl⟩ := h
  constructor
  · rw [orthonormal_iff]
    intro k
    exact (hsvd k).polar_orth
  · intro k
    have hk := hsvd k
    have hV' := hk.orthV'
    have hpos : ∀ i, (s k i : 𝕜) ≠ 0 := by
      intro i hi
      have hcol : ∀ y, (X k + Z k) *ᵥ y = 0 → y = 0 := fun y => gram_injective (grRetractArg_gram hX hZ k)
      have h0 : (X k + Z k) *ᵥ ((vt k)ᴴ *ᵥ Pi.single i 1) = 0 := by
        have hp : X k + Z k = u k * diagonal (fun i => (s k i : 𝕜)) * vt k := hk.prod
        rw [hp, mulVec_mulVec, Matrix.mul_assoc, hk.orthV, Matrix.mul_one, ← mulVec_mulVec]
        have : (diagonal fun i => (s k i : 𝕜)) *ᵥ (Pi.single i 1 : Fin p → 𝕜) = 0 := by
          funext j
          rw [mulVec_diagonal]
          by_cases hj : j = i
          · subst hj; simp [hi]
          · simp [hj]
        rw [this, mulVec_zero]
      have h1 := hcol _ h0
      have h2 := congrArg (vt k *ᵥ ·) h1
      simp only [mulVec_mulVec, hk.orthV, one_mulVec, mulVec_zero] at h2
      have := congrFun h2 i
      simp at this
    have hd : diagonal (fun i => (s k i : 𝕜)) * diagonal (fun i => (s k i : 𝕜)⁻¹) = 1 := by
      rw [diagonal_mul_diagonal, ← diagonal_one]
      congr 1; funext i
      exact mul_inv_cancel₀ (hpos i)
    refine ⟨⟨(vt k)ᴴ * diagonal (fun i => (s k i : 𝕜)) * vt k, ?_⟩,
      ⟨(vt k)ᴴ * diagonal (fun i => (s k i : 𝕜)⁻¹) * vt k, ?_⟩⟩
    · have hp : X k + Z k = u k * diagonal (fun i => (s k i : 𝕜)) * vt k := hk.prod
      change X k + Z k = u k * vt k * ((vt k)ᴴ * diagonal (fun i => (s k i : 𝕜)) * vt k)
      rw [hp]
      calc u k * diagonal (fun i => (s k i : 𝕜)) * vt k
          = u k * (vt k * (vt k)ᴴ) * diagonal (fun i => (s k i : 𝕜)) * vt k := by
            rw [hk.orthV, Matrix.mul_one]
        _ = _ := by simp only [Matrix.mul_assoc]
    · have hp : X k + Z k = u k * diagonal (fun i => (s k i : 𝕜)) * vt k := hk.prod
      change u k * vt k = (X k + Z k) * ((vt k)ᴴ * diagonal (fun i => (s k i : 𝕜)⁻¹) * vt k)
      rw [hp]
      calc u k * vt k = u k * (diagonal (fun i => (s k i : 𝕜)) *
              diagonal (fun i => (s k i : 𝕜)⁻¹)) * vt k := by rw [hd, Matrix.mul_one]
        _ = u k * diagonal (fun i => (s k i : 𝕜)) * (vt k * (vt k)ᴴ) *
              diagonal (fun i => (s k i : 𝕜)⁻¹) * vt k := by
            rw [hk.orthV, Matrix.mul_one]; simp only [Matrix.mul_assoc]
        _ = _ := by simp only [Matrix.mul_assoc]

/-- C71: the retraction of the zero vector is the point, and its initial velocity is the tangent
vector. -/
theorem C71_retraction_initial {X Z : Stack κ n (Fin p) 𝕜} (hX : Orthonormal' X)
    (hZ : GrHorizontal X Z) :
    (∀ E, IsGrRetraction X (grZero X) E → E = X) ∧
      ∀ E : ℝ → Stack κ n (Fin p) 𝕜, (∀ t, IsGrRetraction X (t • Z) (E t)) → StackDeriv E Z 0 := by
  have h0 : GrHorizontal X 0 := (grHorizontal_subspace X).zero
  constructor
  · rintro E ⟨u, s, vt, h, rfl⟩
    funext k
    ext i j
    have := polar_close (h k) (grRetractArg_gram hX h0 k) i j
    rw [Pi.zero_apply, trDot_inner.zero_left, mul_zero] at this
    have := sub_eq_zero.mp (norm_le_zero_iff.mp this)
    refine this.trans ?_
    change X k i j + 0 = X k i j
    rw [add_zero]
  · intro E h
    choose u s vt hs hE using h
    have hn : ∀ (t : ℝ) k, trDot ((t • Z) k) ((t • Z) k) = trDot (Z k) (Z k) * t ^ 2 := by
      intro t k
      rw [Pi.smul_apply, trDot_inner.smul_left, trDot_inner.smul_right]; ring
    intro k i j
    refine hasDerivAt_of_quadratic (a := X k i j) (C := p * trDot (Z k) (Z k)) fun t => ?_
    have := polar_close (hs t k)
      (grRetractArg_gram hX ((grHorizontal_subspace X).smul t hZ) k) i j
    rw [hn, ← mul_assoc] at this
    rw [hE t]
    exact this

omit [Fintype n] in
theorem scaleCols_eq (A : Matrix n (Fin p) 𝕜) (f : Fin p → ℝ) :
    scaleCols A f = A * diagonal fun j => ((f j : ℝ) : 𝕜) := by
  ext i j; simp [scaleCols, mul_diagonal]

omit [Fintype n] in
theorem cgrExpArg_apply (X u : Stack κ n (Fin p) 𝕜) (s : κ → Fin p → ℝ)
    (vt : Stack κ (Fin p) (Fin p) 𝕜) (k : κ) :
    cgrExpArg X u s vt k =
      X k * ((vt k)ᴴ * diagonal (fun i => ((Real.cos (s k i) : ℝ) : 𝕜)) * vt k) +
        u k * diagonal (fun i => ((Real.sin (s k i) : ℝ) : 𝕜)) * vt k := by
  rw [← scaleCols_eq, ← scaleCols_eq, ← Matrix.mul_assoc]
  rfl

theorem horizontal_map {X Z u : Matrix n (Fin p) 𝕜} {s : Fin p → ℝ}
    {vt : Matrix (Fin p) (Fin p) 𝕜} (hZ : Xᴴ * Z = 0) (h : IsSVDAny Z u s vt) {f : ℝ → ℝ}
    (hf : f 0 = 0) : Xᴴ * (u * diagonal (fun i => ((f (s i) : ℝ) : 𝕜)) * vt) = 0 := by
  rw [h.map_eq hf, ← Matrix.mul_assoc, hZ, Matrix.zero_mul]

theorem expArg_orth {X Z u : Matrix n (Fin p) 𝕜} {s : Fin p → ℝ}
    {vt : Matrix (Fin p) (Fin p) 𝕜} (hX : Xᴴ * X = 1) (hZ : Xᴴ * Z = 0) (h : IsSVDAny Z u s vt) :
    (X * (vtᴴ * diagonal (fun i => ((Real.cos (s i) : ℝ) : 𝕜)) * vt) +
        u * diagonal (fun i => ((Real.sin (s i) : ℝ) : 𝕜)) * vt)ᴴ *
      (X * (vtᴴ * diagonal (fun i => ((Real.cos (s i) : ℝ) : 𝕜)) * vt) +
        u * diagonal (fun i => ((Real.sin (s i) : ℝ) : 𝕜)) * vt) = 1 := by
  set D := diagonal (fun i => ((Real.cos (s i) : ℝ) : 𝕜)) with hD
  set S := diagonal (fun i => ((Real.sin (s i) : ℝ) : 𝕜)) with hS
  have hDt : Dᴴ = D := by rw [hD, diagonal_conjTranspose]; congr 1; funext i; simp
  have hSt : Sᴴ = S := by rw [hS, diagonal_conjTranspose]; congr 1; funext i; simp
  have h1 : Xᴴ * (u * S * vt) = 0 := horizontal_map hZ h Real.sin_zero
  have h2 : (u * S * vt)ᴴ * X = 0 := by
    have := congrArg conjTranspose h1
    rwa [conjTranspose_mul, conjTranspose_conjTranspose, conjTranspose_zero] at this
  have hcs : D * D + S * S = 1 := by
    rw [hD, hS, diagonal_mul_diagonal, diagonal_mul_diagonal, diagonal_add, ← diagonal_one]
    congr 1; funext i
    rw [← RCLike.ofReal_mul, ← RCLike.ofReal_mul, ← RCLike.ofReal_add, ← sq, ← sq,
      Real.cos_sq_add_sin_sq, RCLike.ofReal_one]
  have hCC : (vtᴴ * D * vt)ᴴ = vtᴴ * D * vt := by
    simp only [conjTranspose_mul, conjTranspose_conjTranspose, hDt, Matrix.mul_assoc]
  rw [conjTranspose_add, conjTranspose_mul, hCC, Matrix.add_mul, Matrix.mul_add, Matrix.mul_add,
    Matrix.mul_assoc _ Xᴴ, Matrix.mul_assoc _ Xᴴ, h1, Matrix.mul_zero, ← Matrix.mul_assoc (u * S * vt)ᴴ X, h2,
    Matrix.zero_mul, ← Matrix.mul_assoc Xᴴ, hX, Matrix.one_mul, add_zero, zero_add]
  have e1 : vtᴴ * D * vt * (vtᴴ * D * vt) = vtᴴ * (D * D) * vt := by
    calc vtᴴ * D * vt * (vtᴴ * D * vt) = vtᴴ * D * (vt * vtᴴ) * D * vt := by
          simp only [Matrix.mul_assoc]
      _ = _ := by rw [h.orthV, Matrix.mul_one]; simp only [Matrix.mul_assoc]
  have e2 : (u * S * vt)ᴴ * (u * S * vt) = vtᴴ * (S * S) * vt := by
    rw [conjTranspose_mul, conjTranspose_mul, hSt]
    calc vtᴴ * (S * uᴴ) * (u * S * vt) = vtᴴ * S * (uᴴ * u) * S * vt := by
          simp only [Matrix.mul_assoc]
      _ = _ := by rw [h.orthU, Matrix.mul_one]; simp only [Matrix.mul_assoc]
  rw [e1, e2, ← Matrix.add_mul, ← Matrix.mul_add, hcs, Matrix.mul_one, h.orthV']

/-- The re-orthonormalisation in `exp` changes nothing: the result is the matrix handed to it. -/
theorem isGrExp_eq {X Z E : Stack κ n (Fin p) 𝕜} (hX : Orthonormal' X) (hZ : GrHorizontal X Z)
    (h : IsGrExp X Z E) (k : κ) {u : Matrix n (Fin p) 𝕜} {s : Fin p → ℝ}
    {vt : Matrix (Fin p) (Fin p) 𝕜} (h' : IsSVDAny (Z k) u s vt) :
    E k = X k * (vtᴴ * diagonal (fun i => ((Real.cos (s i) : ℝ) : 𝕜)) * vt) +
      u * diagonal (fun i => ((Real.sin (s i) : ℝ) : 𝕜)) * vt := by
  obtain ⟨u₁, s₁, vt₁, q, r, hs, hq, rfl⟩ := h
  have hXk := orthonormal_iff.mp hX k
  have hZk := grHorizontal_iff.mp hZ k
  rw [(hs k).any.map_unique h' Real.sin_zero |>.symm, (hs k).any.gram_unique h' Real.cos |>.symm,
    ← cgrExpArg_apply]
  have horth : (cgrExpArg X u₁ s₁ vt₁ k)ᴴ * cgrExpArg X u₁ s₁ vt₁ k =
      1 + (0 : Matrix n (Fin p) 𝕜)ᴴ * (0 : Matrix n (Fin p) 𝕜) := by
    rw [cgrExpArg_apply, expArg_orth hXk hZk (hs k).any, Matrix.mul_zero, add_zero]
  ext i j
  have hf := C51_factorisation le_rfl (hq k)
  have := qr_close hf.1 hf.2 horth i j
  rw [trDot_inner.zero_left, mul_zero] at this
  exact sub_eq_zero.mp (norm_le_zero_iff.mp this)

/-- C71: the exponential is orthonormal. -/
theorem C71_exp {X Z E : Stack κ n (Fin p) 𝕜} (hX : Orthonormal' X) (hZ : GrHorizontal X Z)
    (h : IsGrExp X Z E) : Orthonormal' E := by
  rw [orthonormal_iff]
  intro k
  have h' := h
  obtain ⟨u, s, vt, q, r, hs, -⟩ := h'
  rw [isGrExp_eq hX hZ h k (hs k).any]
  exact expArg_orth (orthonormal_iff.mp hX k) (grHorizontal_iff.mp hZ k) (hs k).any

/-- C71: random points are orthonormal. -/
theorem C71_random_point {Y q : Stack κ n (Fin p) 𝕜} {r : Stack κ (Fin p) (Fin p) 𝕜}
    (h : ∀ k, IsQR (Y k) (q k) (r k)) : Orthonormal' (grQ q r) := by
  rw [orthonormal_iff]
  intro k
  exact (C51_factorisation le_rfl (h k)).1.orth

theorem sub_sin_le {x : ℝ} (hx : 0 ≤ x) : |Real.sin x - x| ≤ 2 * x ^ 2 := by
  rw [abs_le]
  rcases le_or_gt x 1 with h | h
  · rcases hx.eq_or_lt with h0 | h0
    · subst h0; simp
    · have h1 := Real.sin_gt_sub_cube h0
      have h2 := Real.sin_lt h0
      constructor <;> nlinarith [sq_nonneg x]
  · have h1 := Real.neg_one_le_sin x
    have h2 := Real.sin_lt (by linarith : 0 < x)
    constructor <;> nlinarith [sq_nonneg x]

theorem one_sub_cos_le (x : ℝ) : |Real.cos x - 1| ≤ x ^ 2 := by
  rw [abs_le]
  have h1 := Real.one_sub_sq_div_two_le_cos (x := x)
  have h2 := Real.cos_le_one x
  constructor <;> nlinarith [sq_nonneg x]

theorem svd_entry_le {A u : Matrix n (Fin p) 𝕜} {d : Fin p → ℝ} {vt : Matrix (Fin p) (Fin p) 𝕜}
    (hu : uᴴ * u = 1) (hv : vtᴴ * vt = 1) {c : ℝ} (hA : A = u * diagonal (fun i => (d i : 𝕜)) * vt)
    (hd : ∀ i, |d i| ≤ c) (i : n) (j : Fin p) : ‖A i j‖ ≤ p * c := by
  have e : A i j = ∑ k, u i k * ((d k : ℝ) : 𝕜) * vt k j := by
    rw [hA, mul_apply]
    exact Finset.sum_congr rfl fun k _ => by rw [mul_diagonal]
  rw [e]
  calc ‖∑ k, u i k * ((d k : ℝ) : 𝕜) * vt k j‖
      ≤ ∑ k, ‖u i k * ((d k : ℝ) : 𝕜) * vt k j‖ := norm_sum_le _ _
    _ ≤ ∑ _k : Fin p, c := Finset.sum_le_sum fun k _ => by
        rw [norm_mul, norm_mul, RCLike.norm_ofReal]
        have h1 := orth_entry_le hu i k
        have h2 := orth_entry_le hv k j
        calc ‖u i k‖ * |d k| * ‖vt k j‖ ≤ 1 * c * 1 :=
              mul_le_mul (mul_le_mul h1 (hd k) (abs_nonneg _) zero_le_one) h2 (norm_nonneg _)
                (by linarith [hd k, abs_nonneg (d k)])
          _ = _ := by ring
    _ = p * c := by simp

/-- C71: the exponential of the zero vector is the point, and its initial velocity is the tangent
vector. -/
theorem C71_exp_initial {X Z : Stack κ n (Fin p) 𝕜} (hX : Orthonormal' X)
    (hZ : GrHorizontal X Z) :
    (∀ E, IsGrExp X (grZero X) E → E = X) ∧
      ∀ E : ℝ → Stack κ n (Fin p) 𝕜, (∀ t, IsGrExp X (t • Z) (E t)) → StackDeriv E Z 0 := by
  have key : ∀ (E : ℝ → Stack κ n (Fin p) 𝕜), (∀ t, IsGrExp X (t • Z) (E t)) →
      ∀ k i j (t : ℝ), ‖E t k i j - (X k i j + t • Z k i j)‖ ≤
        3 * p ^ 2 * trDot (Z k) (Z k) * t ^ 2 := by
    intro E h k i j t
    obtain ⟨u, s, vt, q, r, hs, -⟩ := h t
    have hk := hs k
    have hE := isGrExp_eq hX ((grHorizontal_subspace X).smul t hZ) (h t) k hk.any
    have hsum : ∑ i, s k i ^ 2 = trDot (Z k) (Z k) * t ^ 2 := by
      rw [← hk.any.norm, Pi.smul_apply, trDot_inner.smul_left, trDot_inner.smul_right]; ring
    have hle : ∀ i, s k i ^ 2 ≤ trDot (Z k) (Z k) * t ^ 2 := by
      intro i
      rw [← hsum]
      exact Finset.single_le_sum (f := fun i => s k i ^ 2) (fun i _ => sq_nonneg _)
        (Finset.mem_univ i)
    set τ := trDot (Z k) (Z k) * t ^ 2 with hτ
    have hτ0 : 0 ≤ τ := mul_nonneg (trDot_self_nonneg _) (sq_nonneg _)
    have hprod : t • Z k = u k * diagonal (fun i => ((s k i : ℝ) : 𝕜)) * vt k := hk.prod
    set C1 := (vt k)ᴴ * diagonal (fun i => ((Real.cos (s k i) - 1 : ℝ) : 𝕜)) * vt k with hC1
    set S1 := u k * diagonal (fun i => ((Real.sin (s k i) - s k i : ℝ) : 𝕜)) * vt k with hS1
    have hdec : E t k - (X k + t • Z k) = X k * C1 + S1 := by
      have e1 : (vt k)ᴴ * diagonal (fun i => ((Real.cos (s k i) : ℝ) : 𝕜)) * vt k = 1 + C1 := by
        have : diagonal (fun i => ((Real.cos (s k i) : ℝ) : 𝕜)) =
            1 + diagonal (fun i => ((Real.cos (s k i) - 1 : ℝ) : 𝕜)) := by
          rw [← diagonal_one, diagonal_add]; congr 1; funext i; push_cast; ring
        rw [this, Matrix.mul_add, Matrix.add_mul, Matrix.mul_one, hk.orthV']
      have e2 : u k * diagonal (fun i => ((Real.sin (s k i) : ℝ) : 𝕜)) * vt k =
          t • Z k + S1 := by
        rw [hprod, hS1, ← Matrix.add_mul, ← Matrix.mul_add, diagonal_add]
        congr 3; funext i; push_cast; ring
      rw [hE, e1, e2, Matrix.mul_add, Matrix.mul_one]
      abel
    have hentry : E t k i j - (X k i j + t • Z k i j) = (X k * C1) i j + S1 i j := by
      have := congrFun (congrFun hdec i) j
      exact this
    have b1 : ∀ l, ‖C1 l j‖ ≤ p * τ := by
      intro l
      refine svd_entry_le (by rw [conjTranspose_conjTranspose]; exact hk.orthV) hk.orthV' hC1
        (fun i => ?_) l j
      exact (one_sub_cos_le _).trans (hle i)
    have b2 : ‖S1 i j‖ ≤ p * (2 * τ) := by
      refine svd_entry_le hk.orthU hk.orthV' hS1 (fun i => ?_) i j
      exact (sub_sin_le (hk.nonneg i)).trans (by linarith [hle i])
    have b3 : ‖(X k * C1) i j‖ ≤ p * (p * τ) := by
      rw [mul_apply]
      calc ‖∑ l, X k i l * C1 l j‖ ≤ ∑ l, ‖X k i l * C1 l j‖ := norm_sum_le _ _
        _ ≤ ∑ _l : Fin p, (p * τ) := Finset.sum_le_sum fun l _ => by
            rw [norm_mul]
            calc ‖X k i l‖ * ‖C1 l j‖ ≤ 1 * (p * τ) :=
                  mul_le_mul (orth_entry_le (orthonormal_iff.mp hX k) i l) (b1 l) (norm_nonneg _)
                    zero_le_one
              _ = _ := one_mul _
        _ = _ := by simp
    rw [hentry]
    refine (norm_add_le _ _).trans ?_
    have hp : (p : ℝ) ≤ p ^ 2 := by
      have : (p : ℝ) ^ 2 = ((p ^ 2 : ℕ) : ℝ) := by push_cast; ring
      rw [this]
      exact_mod_cast Nat.le_self_pow two_ne_zero p
    have : p * (p * τ) + p * (2 * τ) ≤ 3 * p ^ 2 * τ := by nlinarith
    calc _ ≤ p * (p * τ) + p * (2 * τ) := add_le_add b3 b2
      _ ≤ 3 * p ^ 2 * τ := this
      _ = _ := by rw [hτ]; ring
  constructor
  · intro E hE
    have h0 : ∀ t : ℝ, IsGrExp X ((0 : ℝ) • Z) E := by
      intro t
      rw [zero_smul]; exact hE
    obtain ⟨u, s, vt, q, r, hs, -⟩ := hE
    have hk := fun k => isGrExp_eq hX (grHorizontal_subspace X).zero
      (by have := h0 0; rwa [zero_smul] at this) k (hs k).any
    funext k
    have hz : ∀ i, s k i = 0 := by
      intro i
      have h1 := (hs k).any.norm
      rw [show grZero X k = 0 from rfl, trDot_inner.zero_left] at h1
      have := (Finset.sum_eq_zero_iff_of_nonneg fun i _ => sq_nonneg (s k i)).mp h1.symm i
        (Finset.mem_univ i)
      exact pow_eq_zero_iff two_ne_zero |>.mp this
    rw [hk k]
    simp only [hz, Real.cos_zero, Real.sin_zero, RCLike.ofReal_one, RCLike.ofReal_zero,
      diagonal_one, Matrix.mul_one, (hs k).any.orthV']
    simp
  · intro E h k i j
    exact hasDerivAt_of_quadratic fun t => key E h k i j t

/-! ### C72 -/

theorem IsSVDAny.gram' {A u : Matrix (Fin p) (Fin p) 𝕜} {s : Fin p → ℝ}
    {vt : Matrix (Fin p) (Fin p) 𝕜} (h : IsSVDAny A u s vt) : IsSVDAny Aᴴ vtᴴ s uᴴ := by
  refine ⟨by rw [conjTranspose_conjTranspose, h.orthV],
    by rw [conjTranspose_conjTranspose, h.orthU], h.nonneg, ?_⟩
  rw [h.prod, conjTranspose_mul, conjTranspose_mul, diagonal_conjTranspose, Matrix.mul_assoc]
  congr 3
  funext i
  simp

theorem grDist_nonneg [Fintype κ] (s : κ → Fin p → ℝ) : 0 ≤ grDist s := npNorm_nonneg _

/-- The angle computed from one singular value. -/
noncomputable def svdAngle (x : ℝ) : ℝ := Real.arccos (if 1 < x then 1 else x)

theorem grDist_sq [Fintype κ] (s : κ → Fin p → ℝ) :
    grDist s ^ 2 = ∑ k, ∑ i, svdAngle (s k i) ^ 2 := by
  rw [grDist, npNorm_sq_real, tensordot, Fintype.sum_prod_type]
  exact Finset.sum_congr rfl fun k _ => Finset.sum_congr rfl fun i _ => (sq _).symm

theorem grDist_congr [Fintype κ] {s s' : κ → Fin p → ℝ}
    (h : ∀ k, ∑ i, svdAngle (s k i) ^ 2 = ∑ i, svdAngle (s' k i) ^ 2) : grDist s = grDist s' := by
  have : grDist s ^ 2 = grDist s' ^ 2 := by
    rw [grDist_sq, grDist_sq]; exact Finset.sum_congr rfl fun k _ => h k
  exact (pow_left_inj₀ (grDist_nonneg s) (grDist_nonneg s') two_ne_zero).mp this

/-- C72: the distance is symmetric and non-negative, whatever factors the singular value
decompositions return. -/
theorem C72_symmetric [Fintype κ] {X Y : Stack κ n (Fin p) 𝕜} {d d' : ℝ} (h : IsGrDist X Y d)
    (h' : IsGrDist Y X d') : d = d' ∧ 0 ≤ d := by
  obtain ⟨u, s, vt, hs, rfl⟩ := h
  obtain ⟨u', s', vt', hs', rfl⟩ := h'
  refine ⟨grDist_congr fun k => ?_, grDist_nonneg s⟩
  have e : (cgrDistArg X Y k)ᴴ = cgrDistArg Y X k := by
    change ((X k)ᴴ * Y k)ᴴ = (Y k)ᴴ * X k
    rw [conjTranspose_mul, conjTranspose_conjTranspose]
  exact (hs k).any.gram'.sum_unique (hs' k).any (by rw [e]) fun x => svdAngle x ^ 2

/-- C72: the distance depends on the column spaces only. -/
theorem C72_invariant [Fintype κ] {X Y : Stack κ n (Fin p) 𝕜} {P Q : Stack κ (Fin p) (Fin p) 𝕜}
    (hP : ∀ k, P k * (P k)ᴴ = 1) (hQ : ∀ k, Q k * (Q k)ᴴ = 1) {d d' : ℝ}
    (h : IsGrDist X Y d) (h' : IsGrDist (multiprod X P) (multiprod Y Q) d') : d = d' := by
  obtain ⟨u, s, vt, hs, rfl⟩ := h
  obtain ⟨u', s', vt', hs', rfl⟩ := h'
  refine grDist_congr fun k => ?_
  have hk := (hs k).any
  have hP' := mul_eq_one_comm.mp (hP k)
  have hQ' := mul_eq_one_comm.mp (hQ k)
  have hsvd : IsSVDAny (cgrDistArg (multiprod X P) (multiprod Y Q) k) ((P k)ᴴ * u k) (s k)
      (vt k * Q k) := by
    refine ⟨?_, ?_, hk.nonneg, ?_⟩
    · rw [conjTranspose_mul, conjTranspose_conjTranspose, Matrix.mul_assoc,
        ← Matrix.mul_assoc (P k), hP, Matrix.one_mul, hk.orthU]
    · rw [conjTranspose_mul, Matrix.mul_assoc, ← Matrix.mul_assoc (Q k), hQ, Matrix.one_mul,
        hk.orthV]
    · change (X k * P k)ᴴ * (Y k * Q k) = _
      have : (X k)ᴴ * Y k = u k * diagonal (fun i => (s k i : 𝕜)) * vt k := hk.prod
      rw [conjTranspose_mul]
      calc (P k)ᴴ * (X k)ᴴ * (Y k * Q k) = (P k)ᴴ * ((X k)ᴴ * Y k) * Q k := by
            simp only [Matrix.mul_assoc]
        _ = _ := by rw [this]; simp only [Matrix.mul_assoc]
  exact hsvd.sum_unique (hs' k).any rfl fun x => svdAngle x ^ 2

theorem svdAngle_eq_zero {x : ℝ} : svdAngle x = 0 ↔ 1 ≤ x := by
  rw [svdAngle, Real.arccos_eq_zero]
  split_ifs with h
  · exact ⟨fun _ => h.le, fun _ => le_rfl⟩
  · exact Iff.rfl

theorem residual_gram {X Y : Matrix n (Fin p) 𝕜} (hX : Xᴴ * X = 1) (hY : Yᴴ * Y = 1) :
    (Y - X * (Xᴴ * Y))ᴴ * (Y - X * (Xᴴ * Y)) = 1 - (Xᴴ * Y)ᴴ * (Xᴴ * Y) := by
  rw [conjTranspose_sub, conjTranspose_mul X, Matrix.sub_mul, Matrix.mul_sub, Matrix.mul_sub, hY,
    Matrix.mul_assoc _ Xᴴ (X * _), ← Matrix.mul_assoc Xᴴ X, hX, Matrix.one_mul,
    Matrix.mul_assoc _ Xᴴ Y]
  have : Yᴴ * (X * (Xᴴ * Y)) = (Xᴴ * Y)ᴴ * (Xᴴ * Y) := by
    rw [conjTranspose_mul, conjTranspose_conjTranspose, Matrix.mul_assoc]
  rw [this]
  abel

/-- Cosines of the angles between two subspaces are at most one: the clamp in `dist` never acts. -/
theorem cosines_le_one {X Y : Matrix n (Fin p) 𝕜} (hX : Xᴴ * X = 1) (hY : Yᴴ * Y = 1)
    {u vt : Matrix (Fin p) (Fin p) 𝕜} {s : Fin p → ℝ} (h : IsSVDAny (Xᴴ * Y) u s vt) (i : Fin p) :
    s i ≤ 1 := by
  set W := Y - X * (Xᴴ * Y) with hW
  have h1 : vt * (Wᴴ * W) * vtᴴ = diagonal fun i => ((1 - s i ^ 2 : ℝ) : 𝕜) := by
    rw [hW, residual_gram hX hY, h.gram.prod, conjTranspose_conjTranspose, Matrix.mul_sub,
      Matrix.sub_mul, Matrix.mul_one, h.orthV]
    have : vt * (vtᴴ * diagonal (fun i => ((s i ^ 2 : ℝ) : 𝕜)) * vt) * vtᴴ =
        diagonal (fun i => ((s i ^ 2 : ℝ) : 𝕜)) := by
      calc vt * (vtᴴ * diagonal (fun i => ((s i ^ 2 : ℝ) : 𝕜)) * vt) * vtᴴ
          = vt * vtᴴ * diagonal (fun i => ((s i ^ 2 : ℝ) : 𝕜)) * (vt * vtᴴ) := by
            simp only [Matrix.mul_assoc]
        _ = _ := by rw [h.orthV, Matrix.one_mul, Matrix.mul_one]
    rw [this, ← diagonal_one, diagonal_sub]
    congr 1; funext i; push_cast; rfl
  have h2 : vt * (Wᴴ * W) * vtᴴ = (W * vtᴴ)ᴴ * (W * vtᴴ) := by
    rw [conjTranspose_mul, conjTranspose_conjTranspose]; simp only [Matrix.mul_assoc]
  have h3 := congrFun (congrFun (h2.symm.trans h1) i) i
  rw [gram_apply_self, diagonal_apply_eq] at h3
  have h4 : ∑ l, ‖(W * vtᴴ) l i‖ ^ 2 = 1 - s i ^ 2 := by exact_mod_cast h3
  have h5 : 0 ≤ ∑ l, ‖(W * vtᴴ) l i‖ ^ 2 := Finset.sum_nonneg fun _ _ => sq_nonneg _
  nlinarith [h.nonneg i]

/-- C72: the distance of two points is zero exactly if their column spaces agree. -/
theorem C72_zero [Fintype κ] {X Y : Stack κ n (Fin p) 𝕜} (hX : Orthonormal' X)
    (hY : Orthonormal' Y) {d : ℝ} (h : IsGrDist X Y d) : d = 0 ↔ SameSpan X Y := by
  obtain ⟨u, s, vt, hs, rfl⟩ := h
  have hz : grDist s = 0 ↔ ∀ k i, 1 ≤ s k i := by
    rw [← sq_eq_zero_iff, grDist_sq, Finset.sum_eq_zero_iff_of_nonneg fun k _ =>
      Finset.sum_nonneg fun i _ => sq_nonneg _]
    constructor
    · intro h k i
      have h1 := (Finset.sum_eq_zero_iff_of_nonneg fun i _ => sq_nonneg (svdAngle (s k i))).mp
        (h k (Finset.mem_univ k)) i (Finset.mem_univ i)
      exact svdAngle_eq_zero.mp (pow_eq_zero_iff two_ne_zero |>.mp h1)
    · intro h k _
      refine Finset.sum_eq_zero fun i _ => ?_
      rw [svdAngle_eq_zero.mpr (h k i)]; simp
  rw [hz]
  constructor
  · intro h k
    have hk : IsSVDAny ((X k)ᴴ * Y k) (u k) (s k) (vt k) := (hs k).any
    have hXk := orthonormal_iff.mp hX k
    have hYk := orthonormal_iff.mp hY k
    have h1 : ∀ i, s k i = 1 := fun i => le_antisymm (cosines_le_one hXk hYk hk i) (h k i)
    have h2 : ((X k)ᴴ * Y k)ᴴ * ((X k)ᴴ * Y k) = 1 := by
      have := hk.gram.prod
      rw [this]
      simp only [h1, one_pow, RCLike.ofReal_one, diagonal_one, Matrix.mul_one,
        conjTranspose_conjTranspose, hk.orthV']
    have h3 := residual_gram hXk hYk
    rw [h2, sub_self] at h3
    have h4 : Y k - X k * ((X k)ᴴ * Y k) = 0 := by
      refine trDot_inner.definite _ ?_
      rw [trDot, h3]; simp
    have h5 : Y k = X k * ((X k)ᴴ * Y k) := sub_eq_zero.mp h4
    refine ⟨⟨_, h5⟩, ⟨((X k)ᴴ * Y k)ᴴ, ?_⟩⟩
    calc X k = X k * ((X k)ᴴ * Y k * ((X k)ᴴ * Y k)ᴴ) := by
          rw [mul_eq_one_comm.mp h2, Matrix.mul_one]
      _ = X k * ((X k)ᴴ * Y k) * ((X k)ᴴ * Y k)ᴴ := (Matrix.mul_assoc _ _ _).symm
      _ = Y k * ((X k)ᴴ * Y k)ᴴ := by rw [← h5]
  · intro h k i
    have hk : IsSVDAny ((X k)ᴴ * Y k) (u k) (s k) (vt k) := (hs k).any
    obtain ⟨⟨Q, hQ⟩, -⟩ := h k
    have hXk := orthonormal_iff.mp hX k
    have hYk := orthonormal_iff.mp hY k
    have h1 : (X k)ᴴ * Y k = Q := by rw [hQ, ← Matrix.mul_assoc, hXk, Matrix.one_mul]
    have h2 : ((X k)ᴴ * Y k)ᴴ * ((X k)ᴴ * Y k) = 1 := by
      rw [h1, ← hYk, hQ, conjTranspose_mul, Matrix.mul_assoc, ← Matrix.mul_assoc (X k)ᴴ, hXk,
        Matrix.one_mul]
    have h3 := hk.gram.prod
    rw [h2, conjTranspose_conjTranspose] at h3
    have h4 : (1 : Matrix (Fin p) (Fin p) 𝕜) = diagonal fun i => ((s k i ^ 2 : ℝ) : 𝕜) := by
      calc (1 : Matrix (Fin p) (Fin p) 𝕜) = vt k * 1 * (vt k)ᴴ := by
            rw [Matrix.mul_one, hk.orthV]
        _ = vt k * ((vt k)ᴴ * diagonal (fun i => ((s k i ^ 2 : ℝ) : 𝕜)) * vt k) * (vt k)ᴴ := by
            rw [← h3]
        _ = vt k * (vt k)ᴴ * diagonal (fun i => ((s k i ^ 2 : ℝ) : 𝕜)) * (vt k * (vt k)ᴴ) := by
            simp only [Matrix.mul_assoc]
        _ = _ := by rw [hk.orthV, Matrix.one_mul, Matrix.mul_one]
    have h5 := congrFun (congrFun h4 i) i
    rw [one_apply_eq, diagonal_apply_eq] at h5
    have h6 : s k i ^ 2 = 1 := by exact_mod_cast h5.symm
    nlinarith [hk.nonneg i]

theorem sum_norm_sq {m : Type*} [Fintype m] (w : m → 𝕜) :
    ((∑ i, ‖w i‖ ^ 2 : ℝ) : 𝕜) = star w ⬝ᵥ w := by
  rw [dotProduct, RCLike.ofReal_sum]
  refine Finset.sum_congr rfl fun i _ => ?_
  rw [Pi.star_apply, RCLike.star_def, RCLike.conj_mul, RCLike.ofReal_pow]

/-- A bound on `‖A y‖ / ‖y‖` bounds every singular value. -/
theorem IsSVDAny.le_of_bound {A u : Matrix n (Fin p) 𝕜} {s : Fin p → ℝ}
    {vt : Matrix (Fin p) (Fin p) 𝕜} (hk : IsSVDAny A u s vt) {c : ℝ} (hc : 0 ≤ c)
    (hle : ∀ y, ∑ i, ‖(A *ᵥ y) i‖ ^ 2 ≤ c ^ 2 * ∑ j, ‖y j‖ ^ 2) (i : Fin p) : s i ≤ c := by
  have h1 := hle (vtᴴ *ᵥ Pi.single i 1)
  have h2 : ∑ j, ‖(vtᴴ *ᵥ Pi.single i 1) j‖ ^ 2 = 1 := by
    have : ((∑ j, ‖(vtᴴ *ᵥ Pi.single i 1) j‖ ^ 2 : ℝ) : 𝕜) = 1 := by
      rw [sum_norm_sq, star_mulVec, ← dotProduct_mulVec, mulVec_mulVec, conjTranspose_conjTranspose,
        hk.orthV]
      simp
    exact_mod_cast this
  have h3 : ∑ j, ‖(A *ᵥ (vtᴴ *ᵥ Pi.single i 1)) j‖ ^ 2 = s i ^ 2 := by
    have : ((∑ j, ‖(A *ᵥ (vtᴴ *ᵥ Pi.single i 1)) j‖ ^ 2 : ℝ) : 𝕜) = ((s i ^ 2 : ℝ) : 𝕜) := by
      have hZV : A * vtᴴ = u * diagonal fun i => ((s i : ℝ) : 𝕜) := by
        rw [hk.prod, Matrix.mul_assoc, hk.orthV, Matrix.mul_one]
      rw [sum_norm_sq, mulVec_mulVec, hZV, star_mulVec, ← dotProduct_mulVec, mulVec_mulVec,
        conjTranspose_mul, Matrix.mul_assoc, ← Matrix.mul_assoc _ u, hk.orthU,
        Matrix.one_mul, diagonal_conjTranspose, diagonal_mul_diagonal]
      simp [sq]
    exact_mod_cast this
  rw [h2, h3, mul_one] at h1
  exact abs_le_of_sq_le_sq' h1 hc |>.2

/-- C72: the distance from a point to its exponential is the norm of the tangent vector, as long
as that vector has no singular value beyond `π / 2`. -/
theorem C72_exp [Fintype κ] {X Z E : Stack κ n (Fin p) 𝕜} (hX : Orthonormal' X)
    (hZ : GrHorizontal X Z) (h : IsGrExp X Z E)
    (hle : ∀ k y, ∑ i, ‖(Z k *ᵥ y) i‖ ^ 2 ≤ (Real.pi / 2) ^ 2 * ∑ j, ‖y j‖ ^ 2) {d : ℝ}
    (hd : IsGrDist X E d) : d = grNorm X Z := by
  have hE := h
  obtain ⟨u, s, vt, q, r, hs, -⟩ := h
  obtain ⟨u', s', vt', hs', rfl⟩ := hd
  have hsle : ∀ k i, s k i ≤ Real.pi / 2 := fun k i =>
    (hs k).any.le_of_bound (by positivity) (hle k) i
  have hn : grNorm X Z ^ 2 = ∑ k, ∑ i, s k i ^ 2 := by
    rw [grNorm, stackNorm_sq, stackDot_eq]
    exact Finset.sum_congr rfl fun k _ => (hs k).any.norm
  have key : grDist s' ^ 2 = grNorm X Z ^ 2 := by
    rw [grDist_sq, hn]
    refine Finset.sum_congr rfl fun k _ => ?_
    have hk := (hs k).any
    have hXE : cgrDistArg X E k =
        (vt k)ᴴ * diagonal (fun i => ((Real.cos (s k i) : ℝ) : 𝕜)) * vt k := by
      change (X k)ᴴ * E k = _
      rw [isGrExp_eq hX hZ hE k hk, Matrix.mul_add, ← Matrix.mul_assoc _ (X k),
        orthonormal_iff.mp hX k, Matrix.one_mul,
        horizontal_map (grHorizontal_iff.mp hZ k) hk Real.sin_zero, add_zero]
    have hsvd : IsSVDAny (cgrDistArg X E k) ((vt k)ᴴ) (fun i => Real.cos (s k i)) (vt k) :=
      ⟨by rw [conjTranspose_conjTranspose, hk.orthV], hk.orthV, fun i =>
        Real.cos_nonneg_of_mem_Icc ⟨by linarith [hk.nonneg i, Real.pi_pos], hsle k i⟩, hXE⟩
    rw [(hs' k).any.sum_unique hsvd rfl fun x => svdAngle x ^ 2]
    refine Finset.sum_congr rfl fun i _ => ?_
    have : svdAngle (Real.cos (s k i)) = s k i := by
      rw [svdAngle, if_neg (not_lt.mpr (Real.cos_le_one _)),
        Real.arccos_cos (hk.nonneg i) (by linarith [hsle k i, Real.pi_pos])]
    rw [this]
  exact (pow_left_inj₀ (grDist_nonneg s') (stackNorm_nonneg Z) two_ne_zero).mp key

/-! ### C73 -/

/-- The matrix whose singular values `log` takes satisfies `(X + B) (Xᴴ Y) = Y`. -/
theorem logArg_spec {X Y : Stack κ n (Fin p) 𝕜} {bh : Stack κ (Fin p) n 𝕜} {k : κ}
    (hX : (X k)ᴴ * X k = 1) (h : IsSolve (cgrYhx X Y k) (cgrAh X Y k) (bh k)) :
    (X k + cgrLogArg bh k) * ((X k)ᴴ * Y k) = Y k ∧ (X k)ᴴ * cgrLogArg bh k = 0 ∧
      IsUnit ((X k)ᴴ * Y k) := by
  have hu : IsUnit ((Y k)ᴴ * X k) := h.unit
  have hp : (Y k)ᴴ * X k * bh k = (Y k)ᴴ - (Y k)ᴴ * X k * (X k)ᴴ := h.prod
  have hB : cgrLogArg bh k = (bh k)ᴴ := rfl
  have hu' : IsUnit ((X k)ᴴ * Y k) := by
    have := hu.star
    rwa [star_eq_conjTranspose, conjTranspose_mul, conjTranspose_conjTranspose] at this
  have e1 : (bh k)ᴴ * ((X k)ᴴ * Y k) = Y k - X k * ((X k)ᴴ * Y k) := by
    have := congrArg conjTranspose hp
    simpa [conjTranspose_mul, conjTranspose_sub] using this
  refine ⟨?_, ?_, hu'⟩
  · rw [hB, Matrix.add_mul, e1]; abel
  · rw [hB]
    have e2 : (X k)ᴴ * (bh k)ᴴ * ((X k)ᴴ * Y k) = 0 := by
      rw [Matrix.mul_assoc, e1, Matrix.mul_sub, ← Matrix.mul_assoc _ (X k), hX, Matrix.one_mul,
        sub_self]
    obtain ⟨v, hv⟩ := hu'
    have := congrArg (· * (v⁻¹ : (Matrix (Fin p) (Fin p) 𝕜)ˣ).val) e2
    simp only [← hv, Matrix.mul_assoc, Units.mul_inv, Matrix.mul_one, Matrix.zero_mul] at this
    exact this

omit [Fintype n] in
theorem grLog_apply (u : Stack κ n (Fin p) 𝕜) (s : κ → Fin p → ℝ)
    (vt : Stack κ (Fin p) (Fin p) 𝕜) (k : κ) :
    grLog u s vt k = u k * diagonal (fun i => ((Real.arctan (s k i) : ℝ) : 𝕜)) * vt k := by
  rw [← scaleCols_eq]; rfl

/-- C73: `log` is horizontal. -/
theorem C73_horizontal {X Y L : Stack κ n (Fin p) 𝕜} (hX : Orthonormal' X) (h : IsGrLog X Y L) :
    GrHorizontal X L := by
  obtain ⟨bh, u, s, vt, hb, hs, rfl⟩ := h
  rw [grHorizontal_iff]
  intro k
  have hB := logArg_spec (orthonormal_iff.mp hX k) (hb k)
  rw [grLog_apply]
  exact horizontal_map hB.2.1 (hs k).any Real.arctan_zero

theorem isGrLog_svd {L : Stack κ n (Fin p) 𝕜} {bh : Stack κ (Fin p) n 𝕜}
    {u : Stack κ n (Fin p) 𝕜} {s : κ → Fin p → ℝ} {vt : Stack κ (Fin p) (Fin p) 𝕜}
    (hs : ∀ k, IsSVD (cgrLogArg bh k) (u k) (s k) (vt k)) (hL : L = grLog u s vt) (k : κ) :
    IsSVDAny (L k) (u k) (fun i => Real.arctan (s k i)) (vt k) := by
  have hk := (hs k).any
  refine ⟨hk.orthU, hk.orthV, fun i => Real.arctan_nonneg.mpr (hk.nonneg i), ?_⟩
  rw [hL, grLog_apply]

/-- C73: `exp(X, log(X, Y))` spans the column space of `Y`; `log` raises unless `Yᴴ X` is
invertible. -/
theorem C73_exp_log {X Y L E : Stack κ n (Fin p) 𝕜} (hX : Orthonormal' X) (h : IsGrLog X Y L)
    (hE : IsGrExp X L E) : SameSpan Y E := by
  have hL := C73_horizontal hX h
  obtain ⟨bh, u, s, vt, hb, hs, hLe⟩ := h
  intro k
  have hk := (hs k).any
  obtain ⟨hB1, hB2, hB3⟩ := logArg_spec (orthonormal_iff.mp hX k) (hb k)
  set M := (vt k)ᴴ * diagonal (fun i => ((Real.cos (Real.arctan (s k i)) : ℝ) : 𝕜)) * vt k with hM
  have hEk : E k = (X k + cgrLogArg bh k) * M := by
    rw [isGrExp_eq hX hL hE k (isGrLog_svd hs hLe k), Matrix.add_mul]
    congr 1
    rw [hk.prod, hM]
    calc u k * diagonal (fun i => ((Real.sin (Real.arctan (s k i)) : ℝ) : 𝕜)) * vt k
        = u k * (diagonal (fun i => ((s k i : ℝ) : 𝕜)) *
            diagonal (fun i => ((Real.cos (Real.arctan (s k i)) : ℝ) : 𝕜))) * vt k := by
          rw [diagonal_mul_diagonal]
          congr 3; funext i
          rw [← RCLike.ofReal_mul, Real.sin_arctan, Real.cos_arctan]
          congr 1; ring
      _ = u k * diagonal (fun i => ((s k i : ℝ) : 𝕜)) * (vt k * (vt k)ᴴ) *
            diagonal (fun i => ((Real.cos (Real.arctan (s k i)) : ℝ) : 𝕜)) * vt k := by
          rw [hk.orthV, Matrix.mul_one]; simp only [Matrix.mul_assoc]
      _ = _ := by simp only [Matrix.mul_assoc]
  have hMM : M * ((vt k)ᴴ * diagonal (fun i =>
      (((Real.cos (Real.arctan (s k i)))⁻¹ : ℝ) : 𝕜)) * vt k) = 1 := by
    rw [hM]
    calc _ = (vt k)ᴴ * diagonal (fun i => ((Real.cos (Real.arctan (s k i)) : ℝ) : 𝕜)) *
          (vt k * (vt k)ᴴ) *
          diagonal (fun i => (((Real.cos (Real.arctan (s k i)))⁻¹ : ℝ) : 𝕜)) * vt k := by
          simp only [Matrix.mul_assoc]
      _ = (vt k)ᴴ * (diagonal (fun i => ((Real.cos (Real.arctan (s k i)) : ℝ) : 𝕜)) *
          diagonal (fun i => (((Real.cos (Real.arctan (s k i)))⁻¹ : ℝ) : 𝕜))) * vt k := by
          rw [hk.orthV, Matrix.mul_one]; simp only [Matrix.mul_assoc]
      _ = 1 := by
          have : (diagonal (fun i => ((Real.cos (Real.arctan (s k i)) : ℝ) : 𝕜)) *
              diagonal (fun i => (((Real.cos (Real.arctan (s k i)))⁻¹ : ℝ) : 𝕜))) = 1 := by
            rw [diagonal_mul_diagonal, ← diagonal_one]
            congr 1; funext i
            rw [← RCLike.ofReal_mul, mul_inv_cancel₀ (Real.cos_arctan_pos _).ne', RCLike.ofReal_one]
          rw [this, Matrix.mul_one, hk.orthV']
  obtain ⟨v, hv⟩ := hB3
  have hXB : X k + cgrLogArg bh k = Y k * (v⁻¹ : (Matrix (Fin p) (Fin p) 𝕜)ˣ).val := by
    rw [← hv] at hB1
    rw [← hB1, Matrix.mul_assoc, Units.mul_inv, Matrix.mul_one]
  refine ⟨⟨(v⁻¹ : (Matrix (Fin p) (Fin p) 𝕜)ˣ).val * M, ?_⟩, ⟨((vt k)ᴴ *
    diagonal (fun i => (((Real.cos (Real.arctan (s k i)))⁻¹ : ℝ) : 𝕜)) * vt k) *
      ((X k)ᴴ * Y k), ?_⟩⟩
  · rw [hEk, hXB, Matrix.mul_assoc]
  · rw [hEk, Matrix.mul_assoc, ← Matrix.mul_assoc M, hMM, Matrix.one_mul, hB1]

/-- C73: the norm of `log(X, Y)` is the distance of `X` and `Y`. -/
theorem C73_norm [Fintype κ] {X Y L : Stack κ n (Fin p) 𝕜} (hX : Orthonormal' X)
    (hY : Orthonormal' Y) (h : IsGrLog X Y L) {d : ℝ} (hd : IsGrDist X Y d) : grNorm X L = d := by
  obtain ⟨bh, u, s, vt, hb, hs, hLe⟩ := h
  obtain ⟨u', s', vt', hs', rfl⟩ := hd
  have hn : grNorm X L ^ 2 = ∑ k, ∑ i, Real.arctan (s k i) ^ 2 := by
    rw [grNorm, stackNorm_sq, stackDot_eq]
    exact Finset.sum_congr rfl fun k _ => (isGrLog_svd hs hLe k).norm
  have key : grNorm X L ^ 2 = grDist s' ^ 2 := by
    rw [grDist_sq, hn]
    refine Finset.sum_congr rfl fun k _ => ?_
    have hk := (hs k).any
    have hk' : IsSVDAny ((X k)ᴴ * Y k) (u' k) (s' k) (vt' k) := (hs' k).any
    obtain ⟨hB1, hB2, hB3⟩ := logArg_spec (orthonormal_iff.mp hX k) (hb k)
    have hXk := orthonormal_iff.mp hX k
    have hYk := orthonormal_iff.mp hY k
    set A := (X k)ᴴ * Y k with hA
    set B := cgrLogArg bh k with hB
    -- `Aᴴ (1 + BᴴB) A = 1`
    have h1 : Aᴴ * ((1 + Bᴴ * B) * A) = 1 := by
      have e : (X k + B)ᴴ * (X k + B) = 1 + Bᴴ * B := by
        have hB2' : Bᴴ * X k = 0 := by
          have := congrArg conjTranspose hB2
          simpa [conjTranspose_mul] using this
        rw [conjTranspose_add, Matrix.add_mul, Matrix.mul_add, Matrix.mul_add, hXk, hB2, hB2']
        abel
      calc Aᴴ * ((1 + Bᴴ * B) * A) = ((X k + B) * A)ᴴ * ((X k + B) * A) := by
            rw [← e, conjTranspose_mul (X k + B) A]; simp only [Matrix.mul_assoc]
        _ = 1 := by rw [hB1, hYk]
    have h2 : (1 + Bᴴ * B) * (A * Aᴴ) = 1 := by
      rw [← Matrix.mul_assoc]; exact mul_eq_one_comm.mp h1
    have h3 : A * Aᴴ * (1 + Bᴴ * B) = 1 := mul_eq_one_comm.mp h2
    -- `A Aᴴ` in the eigenbasis of `BᴴB`
    have hG := hk.gram
    have hv : ((vt k)ᴴ)ᴴ * (vt k)ᴴ = 1 := by rw [conjTranspose_conjTranspose, hk.orthV]
    have e1 : 1 + Bᴴ * B = spectral (fun x => 1 + x) (fun i => s k i ^ 2) ((vt k)ᴴ) := by
      rw [hG.prod, spectral, conjTranspose_conjTranspose]
      have : (diagonal fun i => ((1 + s k i ^ 2 : ℝ) : 𝕜)) =
          1 + diagonal fun i => ((s k i ^ 2 : ℝ) : 𝕜) := by
        rw [← diagonal_one, diagonal_add]
        congr 1; funext i; push_cast; rfl
      rw [this, Matrix.mul_add, Matrix.add_mul, Matrix.mul_one, hk.orthV']
    have h4 : A * Aᴴ = spectral (fun x => 1 / (1 + x)) (fun i => s k i ^ 2) ((vt k)ᴴ) := by
      have e2 : (1 + Bᴴ * B) * spectral (fun x => 1 / (1 + x)) (fun i => s k i ^ 2) ((vt k)ᴴ) =
          1 := by
        rw [e1, spectral_mul _ _ hv]
        refine spectral_one _ (mul_eq_one_comm.mp hv) fun i => ?_
        have : (1 + s k i ^ 2) ≠ 0 := by positivity
        field_simp
      calc A * Aᴴ = A * Aᴴ * ((1 + Bᴴ * B) *
            spectral (fun x => 1 / (1 + x)) (fun i => s k i ^ 2) ((vt k)ᴴ)) := by
            rw [e2, Matrix.mul_one]
        _ = _ := by rw [← Matrix.mul_assoc, h3, Matrix.one_mul]
    have h5 := hG.spectral fun x => 1 / (1 + x)
    rw [← h4] at h5
    have h6 := hk'.gram'.gram
    rw [conjTranspose_conjTranspose] at h6
    have h7 := eigh_sum_unique h5 h6 fun x => svdAngle (Real.sqrt x) ^ 2
    simp only [Real.sqrt_sq (hk'.nonneg _)] at h7
    rw [← h7]
    refine Finset.sum_congr rfl fun i _ => ?_
    have h8 : Real.sqrt (1 / (1 + s k i ^ 2)) = Real.cos (Real.arctan (s k i)) := by
      rw [Real.cos_arctan, Real.sqrt_div zero_le_one, Real.sqrt_one]
    have h9 : 0 ≤ Real.arctan (s k i) := Real.arctan_nonneg.mpr (hk.nonneg i)
    rw [h8, svdAngle, if_neg (not_lt.mpr (Real.cos_le_one _)),
      Real.arccos_cos h9 (by linarith [Real.arctan_lt_pi_div_two (s k i), Real.pi_pos])]
  exact (pow_left_inj₀ (stackNorm_nonneg L) (grDist_nonneg s') two_ne_zero).mp key

/-- C73: `log(X, exp(X, Z)) = Z` for horizontal `Z` whose singular values stay below `π / 2`. -/
theorem C73_log_exp {X Z E L : Stack κ n (Fin p) 𝕜} (hX : Orthonormal' X)
    (hZ : GrHorizontal X Z) (hE : IsGrExp X Z E) {c : ℝ} (hc : 0 ≤ c) (hc' : c < Real.pi / 2)
    (hle : ∀ k y, ∑ i, ‖(Z k *ᵥ y) i‖ ^ 2 ≤ c ^ 2 * ∑ j, ‖y j‖ ^ 2) (hL : IsGrLog X E L) :
    L = Z := by
  have hE' := hE
  obtain ⟨u, s, vt, q, r, hs, -⟩ := hE
  obtain ⟨bh, u', s', vt', hb, hs', rfl⟩ := hL
  funext k
  have hk := (hs k).any
  have hXk := orthonormal_iff.mp hX k
  obtain ⟨hB1, hB2, hB3⟩ := logArg_spec hXk (hb k)
  have hsl : ∀ i, s k i < Real.pi / 2 := fun i =>
    lt_of_le_of_lt (hk.le_of_bound hc (hle k) i) hc'
  have hcos : ∀ i, 0 < Real.cos (s k i) := fun i =>
    Real.cos_pos_of_mem_Ioo ⟨by linarith [hk.nonneg i, Real.pi_pos], hsl i⟩
  have hEk := isGrExp_eq hX hZ hE' k hk
  set C := (vt k)ᴴ * diagonal (fun i => ((Real.cos (s k i) : ℝ) : 𝕜)) * vt k with hC
  have hXE : (X k)ᴴ * E k = C := by
    rw [hEk, Matrix.mul_add, ← Matrix.mul_assoc _ (X k), hXk, Matrix.one_mul,
      horizontal_map (grHorizontal_iff.mp hZ k) hk Real.sin_zero, add_zero]
  rw [hXE] at hB1 hB3
  have hBC : cgrLogArg bh k * C = u k * diagonal (fun i => ((Real.sin (s k i) : ℝ) : 𝕜)) * vt k := by
    rw [Matrix.add_mul, hEk] at hB1
    exact add_left_cancel hB1
  have hTC : u k * diagonal (fun i => ((Real.tan (s k i) : ℝ) : 𝕜)) * vt k * C =
      u k * diagonal (fun i => ((Real.sin (s k i) : ℝ) : 𝕜)) * vt k := by
    rw [hC]
    calc _ = u k * diagonal (fun i => ((Real.tan (s k i) : ℝ) : 𝕜)) * (vt k * (vt k)ᴴ) *
          diagonal (fun i => ((Real.cos (s k i) : ℝ) : 𝕜)) * vt k := by simp only [Matrix.mul_assoc]
      _ = u k * (diagonal (fun i => ((Real.tan (s k i) : ℝ) : 𝕜)) *
          diagonal (fun i => ((Real.cos (s k i) : ℝ) : 𝕜))) * vt k := by
          rw [hk.orthV, Matrix.mul_one]; simp only [Matrix.mul_assoc]
      _ = _ := by
          rw [diagonal_mul_diagonal]
          congr 3; funext i
          rw [← RCLike.ofReal_mul, Real.tan_mul_cos (hcos i).ne']
  have hB : cgrLogArg bh k = u k * diagonal (fun i => ((Real.tan (s k i) : ℝ) : 𝕜)) * vt k := by
    obtain ⟨v, hv⟩ := hB3
    have := congrArg (· * (v⁻¹ : (Matrix (Fin p) (Fin p) 𝕜)ˣ).val) (hBC.trans hTC.symm)
    simpa only [← hv, Matrix.mul_assoc, Units.mul_inv, Matrix.mul_one] using this
  have hsvd : IsSVDAny (cgrLogArg bh k) (u k) (fun i => Real.tan (s k i)) (vt k) :=
    ⟨hk.orthU, hk.orthV, fun i => by
      rw [Real.tan_eq_sin_div_cos]
      exact div_nonneg (Real.sin_nonneg_of_nonneg_of_le_pi (hk.nonneg i)
        (by linarith [hsl i, Real.pi_pos])) (hcos i).le, hB⟩
  rw [grLog_apply, (hs' k).any.map_unique hsvd Real.arctan_zero, hk.prod]
  congr 3; funext i
  rw [Real.arctan_tan (by linarith [hk.nonneg i, Real.pi_pos]) (hsl i)]

/-! ### The methods return a result -/

/-- C71: `retraction`, `exp` and `dist` have a result for all arguments with at least as many rows
as columns. -/
theorem C71_total [Fintype κ] (hp : p ≤ Fintype.card n) (X Y : Stack κ n (Fin p) 𝕜) :
    (∃ E, IsGrRetraction X Y E) ∧ (∃ E, IsGrExp X Y E) ∧ ∃ d, IsGrDist X Y d := by
  refine ⟨?_, ?_, ?_⟩
  · choose u s vt h using fun k => exists_isSVD hp (grRetractArg X Y k)
    exact ⟨_, u, s, vt, h, rfl⟩
  · choose u s vt h using fun k => exists_isSVD hp (Y k)
    choose q r h' using fun k => exists_isQR hp (cgrExpArg X u s vt k)
    exact ⟨_, u, s, vt, q, r, h, h', rfl⟩
  · choose u s vt h using fun k => exists_isSVD (by simp) (cgrDistArg X Y k)
    exact ⟨_, u, s, vt, h, rfl⟩

/-- C73: `log` returns a result exactly if every `Bᴴ A` is invertible, that is, if no direction
of one space is orthogonal to the other. -/
theorem C73_total (hp : p ≤ Fintype.card n) (X Y : Stack κ n (Fin p) 𝕜) :
    (∃ L, IsGrLog X Y L) ↔ ∀ k, IsUnit ((Y k)ᴴ * X k) := by
  constructor
  · rintro ⟨L, bh, u, s, vt, h, -⟩ k
    exact (h k).unit
  · intro h
    have h1 : ∀ k, ∃ b, IsSolve (cgrYhx X Y k) (cgrAh X Y k) b := by
      intro k
      obtain ⟨v, hv⟩ := h k
      refine ⟨(v⁻¹ : (Matrix (Fin p) (Fin p) 𝕜)ˣ).val * cgrAh X Y k, h k, ?_⟩
      change (Y k)ᴴ * X k * _ = _
      rw [← hv, ← Matrix.mul_assoc, Units.mul_inv, Matrix.one_mul]
    choose bh hb using h1
    choose u s vt hs using fun k => exists_isSVD hp (cgrLogArg bh k)
    exact ⟨_, bh, u, s, vt, hb, hs, rfl⟩

/-! ### Examples -/

/-- Two lines of the plane and a horizontal vector at the first. -/
def exX : Stack Unit (Fin 2) (Fin 1) ℝ := fun _ => !![1; 0]
/-- See `exX`. -/
noncomputable def exY : Stack Unit (Fin 2) (Fin 1) ℝ := fun _ => !![3 / 5; 4 / 5]
/-- See `exX`. -/
def exZ : Stack Unit (Fin 2) (Fin 1) ℝ := fun _ => !![0; 1]

theorem exX_orth : Orthonormal' exX := by
  intro k i j; fin_cases i; fin_cases j; simp [exX, Fin.sum_univ_two]

theorem exY_orth : Orthonormal' exY := by
  intro k i j; fin_cases i; fin_cases j; simp [exY, Fin.sum_univ_two]; norm_num

theorem exZ_horizontal : GrHorizontal exX exZ := by
  intro k i j; fin_cases i; fin_cases j; simp [exX, exZ, Fin.sum_univ_two]

-- C70, C71: the hypotheses are met, and the projection is not the identity.
example : Orthonormal' exX ∧ GrHorizontal exX exZ ∧ exZ ≠ 0 ∧ cgrProj exX exY ≠ exY := by
  refine ⟨exX_orth, exZ_horizontal, fun h => ?_, fun h => ?_⟩
  · have := congrFun (congrFun (congrFun h ()) 1) 0
    simp [exZ] at this
  · have := congrFun (congrFun (congrFun h ()) 0) 0
    rw [cgrProj_apply] at this
    simp [exX, exY, vecMul, dotProduct, mul_apply, Fin.sum_univ_two] at this
    norm_num at this

-- C71, C72: a retraction, an exponential and their distances exist.
example : (∃ E, IsGrRetraction exX exZ E ∧ Orthonormal' E) ∧
    ∃ E d, IsGrExp exX exZ E ∧ IsGrDist exX E d ∧ d = 1 := by
  have ht := C71_total (by simp) exX exZ
  obtain ⟨E, hE⟩ := ht.1
  obtain ⟨E', hE'⟩ := ht.2.1
  obtain ⟨d, hd⟩ := (C71_total (by simp) exX E').2.2
  refine ⟨⟨E, hE, (C71_retraction exX_orth exZ_horizontal hE).1⟩, E', d, hE', hd, ?_⟩
  rw [C72_exp exX_orth exZ_horizontal hE' (fun k y => ?_) hd]
  · have : grNorm exX exZ ^ 2 = 1 := by
      rw [grNorm, stackNorm_sq, stackDot_eq]
      simp [trDot_self_eq, exZ, Fin.sum_univ_two]
    have h0 : 0 ≤ grNorm exX exZ := stackNorm_nonneg exZ
    nlinarith
  · simp only [exZ, mulVec, dotProduct, Fin.sum_univ_two, Finset.univ_unique, Fin.default_eq_zero,
      Finset.sum_singleton]
    have : (1 : ℝ) ≤ (Real.pi / 2) ^ 2 := by nlinarith [Real.two_le_pi]
    simp
    nlinarith [sq_nonneg (y 0)]

-- C73: `log` is defined between the two lines.
example : (∃ L, IsGrLog exX exY L) ∧ ¬ ∃ L, IsGrLog exX exZ L := by
  rw [C73_total (by simp), C73_total (by simp)]
  constructor
  · intro k
    rw [isUnit_iff_isUnit_det]
    simp [exX, exY, det_unique, mul_apply, Fin.sum_univ_two]
  · intro h
    have := h ()
    rw [isUnit_iff_isUnit_det] at this
    simp [exX, exZ, det_unique, mul_apply, Fin.sum_univ_two] at this

end

end Verif.Geo
