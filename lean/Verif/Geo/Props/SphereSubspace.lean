/-
C62: intersections of the sphere with a subspace or its orthogonal complement.
Also the parts of C55 and C101 about the sphere.
-/
import Verif.Geo.Props.Sphere
import Verif.Geo.Model.Lapack
import Mathlib.LinearAlgebra.Matrix.Rank

namespace Verif.Geo
open scoped BigOperators
open Matrix

variable {ι : Type*} [Fintype ι]

/-- Column span of a matrix. -/
def InSpan {r : ℕ} (A : Matrix ι (Fin r) ℝ) (x : ι → ℝ) : Prop := ∃ y, x = A *ᵥ y

/-- Orthogonal complement of the column span. -/
def InComplement {r : ℕ} (A : Matrix ι (Fin r) ℝ) (x : ι → ℝ) : Prop :=
  ∀ j, ∑ i, A i j * x i = 0

/-- Full column rank. -/
def FullColumnRank {r : ℕ} (A : Matrix ι (Fin r) ℝ) : Prop := ∀ y, A *ᵥ y = 0 → y = 0

variable {r : ℕ} {A q : Matrix ι (Fin r) ℝ} {R : Matrix (Fin r) (Fin r) ℝ}

omit [Fintype ι] in
theorem inSpan_subspace (A : Matrix ι (Fin r) ℝ) : IsSubspace (InSpan A) where
  zero := ⟨0, by simp⟩
  add := by
    rintro u v ⟨y, rfl⟩ ⟨z, rfl⟩
    exact ⟨y + z, by rw [mulVec_add]⟩
  smul c u := by
    rintro ⟨y, rfl⟩
    exact ⟨c • y, by rw [mulVec_smul]⟩

theorem inComplement_iff (x : ι → ℝ) : InComplement A x ↔ Aᵀ *ᵥ x = 0 := by
  constructor
  · intro h; funext j; exact h j
  · intro h j; exact congrFun h j

theorem inComplement_subspace (A : Matrix ι (Fin r) ℝ) : IsSubspace (InComplement A) where
  zero := by rw [inComplement_iff]; simp
  add := by
    intro u v hu hv
    rw [inComplement_iff] at *
    rw [mulVec_add, hu, hv, add_zero]
  smul c u hu := by
    rw [inComplement_iff] at *
    rw [mulVec_smul, hu, smul_zero]

theorem tensordot_mulVec_left {κ : Type*} [Fintype κ] (M : Matrix ι κ ℝ) (y : κ → ℝ)
    (x : ι → ℝ) : tensordot (M *ᵥ y) x = tensordot y (Mᵀ *ᵥ x) := by
  change (M *ᵥ y) ⬝ᵥ x = y ⬝ᵥ (Mᵀ *ᵥ x)
  rw [dotProduct_mulVec, vecMul_transpose]

theorem IsQR.orthT (h : IsQR A q R) : qᵀ * q = 1 := by
  simpa [conjTranspose_eq_transpose_of_trivial] using h.orth

theorem IsQR.R_injective (h : IsQR A q R) (hA : FullColumnRank A) : IsUnit R := by
  rw [← Matrix.mulVec_injective_iff_isUnit]
  intro y z hyz
  have : A *ᵥ (y - z) = 0 := by
    rw [← h.prod, ← mulVec_mulVec, mulVec_sub, hyz, sub_self, mulVec_zero]
  exact sub_eq_zero.mp (hA _ this)

/-- With full column rank the columns of `q` span the same space. -/
theorem IsQR.span (h : IsQR A q R) (hA : FullColumnRank A) (x : ι → ℝ) :
    InSpan q x ↔ InSpan A x := by
  constructor
  · rintro ⟨y, rfl⟩
    have hu := (Matrix.isUnit_iff_isUnit_det _).mp (h.R_injective hA)
    refine ⟨R⁻¹ *ᵥ y, ?_⟩
    rw [← h.prod, mulVec_mulVec, Matrix.mul_assoc, mul_nonsing_inv _ hu, Matrix.mul_one]
  · rintro ⟨y, rfl⟩
    exact ⟨R *ᵥ y, by rw [← h.prod, mulVec_mulVec]⟩

theorem inComplement_of_span (x : ι → ℝ) : InComplement A x ↔ ∀ y, tensordot (A *ᵥ y) x = 0 := by
  rw [inComplement_iff]
  constructor
  · intro h y
    rw [tensordot_mulVec_left, h, tensordot_inner.zero_right]
  · intro h
    have := h (Aᵀ *ᵥ x)
    rw [tensordot_mulVec_left] at this
    exact tensordot_inner.definite _ this

theorem IsQR.complement (h : IsQR A q R) (hA : FullColumnRank A) (x : ι → ℝ) :
    InComplement q x ↔ InComplement A x := by
  rw [inComplement_of_span, inComplement_of_span]
  constructor
  · intro hx y
    obtain ⟨z, hz⟩ := (h.span hA (A *ᵥ y)).mpr ⟨y, rfl⟩
    rw [hz]; exact hx z
  · intro hx y
    obtain ⟨z, hz⟩ := (h.span hA (q *ᵥ y)).mp ⟨y, rfl⟩
    rw [hz]; exact hx z

theorem spanProjector_orthProj_q [DecidableEq ι] (h : qᵀ * q = 1) :
    IsOrthProj tensordot (InSpan q) (spanProjector q).mulVec := by
  refine tensordot_inner.orthProj (inSpan_subspace q) ?_ ?_
  · intro v
    exact ⟨qᵀ *ᵥ v, by rw [spanProjector, mulVec_mulVec]⟩
  · rintro v w ⟨y, rfl⟩
    rw [tensordot_inner.symm, tensordot_mulVec_left, mulVec_sub, mulVec_mulVec, spanProjector,
      ← Matrix.mul_assoc, h, Matrix.one_mul, sub_self, tensordot_inner.zero_right]

theorem complementProjector_orthProj_q [DecidableEq ι] (h : qᵀ * q = 1) :
    IsOrthProj tensordot (InComplement q) (complementProjector q).mulVec := by
  refine tensordot_inner.orthProj (inComplement_subspace q) ?_ ?_
  · intro v
    rw [inComplement_iff, mulVec_mulVec, complementProjector, Matrix.mul_sub, ← Matrix.mul_assoc, h]
    simp
  · intro v w hw
    rw [inComplement_iff] at hw
    have : v - complementProjector q *ᵥ v = q *ᵥ (qᵀ *ᵥ v) := by
      rw [complementProjector, sub_mulVec, one_mulVec, mulVec_mulVec]; abel
    rw [this, tensordot_mulVec_left, hw, tensordot_inner.zero_right]

/-- C62 for matrices of full column rank: whatever QR factorisation is returned, the stored
projectors are the orthogonal projectors onto the column span and onto its complement. -/
theorem C62_projectors_partial [DecidableEq ι] (h : IsQR A q R) (hA : FullColumnRank A) :
    IsOrthProj tensordot (InSpan A) (spanProjector q).mulVec ∧
      IsOrthProj tensordot (InComplement A) (complementProjector q).mulVec := by
  have h1 : InSpan A = InSpan q := funext fun x => propext (h.span hA x).symm
  have h2 : InComplement A = InComplement q := funext fun x => propext (h.complement hA x).symm
  rw [h1, h2]
  exact ⟨spanProjector_orthProj_q h.orthT, complementProjector_orthProj_q h.orthT⟩

/-- C62 fails for every matrix without full column rank, whatever QR factorisation is returned:
the stored projector leaves some vector outside the column span unchanged, and the projector of
the complement construction maps some vector orthogonal to the column span to another one. -/
theorem C62_rank_deficient [DecidableEq ι] (h : IsQR A q R) (hA : ¬ FullColumnRank A) :
    (∃ x, spanProjector q *ᵥ x = x ∧ ¬ InSpan A x) ∧
      ∃ x, InComplement A x ∧ complementProjector q *ᵥ x ≠ x := by
  have hproj := spanProjector_orthProj_q (ι := ι) h.orthT
  have hsub : ∀ x, InSpan A x → InSpan q x := by
    rintro x ⟨y, rfl⟩
    exact ⟨R *ᵥ y, by rw [← h.prod, mulVec_mulVec]⟩
  have hex : ∃ x, InSpan q x ∧ ¬ InSpan A x := by
    by_contra hcon
    push Not at hcon
    apply hA
    intro y hy
    -- the columns of `q` lie in the span of `A`, so `R` is surjective
    have hsurj : Function.Surjective R.mulVec := by
      intro z
      obtain ⟨w, hw⟩ := hcon (q *ᵥ z) ⟨z, rfl⟩
      refine ⟨w, ?_⟩
      have := congrArg (qᵀ *ᵥ ·) hw
      simp only [← h.prod, mulVec_mulVec, ← Matrix.mul_assoc, h.orthT, Matrix.one_mul,
        one_mulVec] at this
      exact this.symm
    have hinj : Function.Injective R.mulVec := by
      have := LinearMap.injective_iff_surjective (f := R.mulVecLin)
      exact this.mpr hsurj
    apply hinj
    have := congrArg (qᵀ *ᵥ ·) hy
    simp only [← h.prod, mulVec_mulVec, ← Matrix.mul_assoc, h.orthT, Matrix.one_mul] at this
    rw [this, mulVec_zero, mulVec_zero]
  obtain ⟨x, hxq, hxA⟩ := hex
  refine ⟨⟨x, hproj.fixes hxq, hxA⟩, ?_⟩
  -- remove from the columns of `q` the part in the span of `A`
  by_contra hcon
  push Not at hcon
  have hperp : ∀ z, InComplement A z → InComplement q z := by
    intro z hz
    have := (complementProjector_orthProj_q (ι := ι) h.orthT).mem z
    rwa [hcon z hz] at this
  -- `R` has a kernel in its transpose: take `u ≠ 0` with `Rᵀ u = 0`, then `q u` is orthogonal to
  -- the span of `A` but not to the columns of `q`
  have hdet : R.det = 0 := by
    by_contra hne
    apply hA
    intro y hy
    have hy' : R *ᵥ y = 0 := by
      have := congrArg (qᵀ *ᵥ ·) hy
      simpa only [← h.prod, mulVec_mulVec, ← Matrix.mul_assoc, h.orthT, Matrix.one_mul,
        mulVec_zero] using this
    exact Matrix.eq_zero_of_mulVec_eq_zero hne hy'
  obtain ⟨u, hu, hRu⟩ := Matrix.exists_mulVec_eq_zero_iff.mpr
    (show (Rᵀ).det = 0 by rw [det_transpose]; exact hdet)
  have h1 : InComplement A (q *ᵥ u) := by
    rw [inComplement_iff, mulVec_mulVec, ← h.prod, transpose_mul, Matrix.mul_assoc, h.orthT,
      Matrix.mul_one, hRu]
  have h2 := hperp _ h1
  rw [inComplement_iff, mulVec_mulVec, h.orthT, one_mulVec] at h2
  exact hu h2

/-- Points of the intersection with the subspace `S`. -/
def OnSubspaceSphere (S : (ι → ℝ) → Prop) (x : ι → ℝ) : Prop := S x ∧ OnSphere x

/-- Tangent vectors of the intersection. -/
def SubspaceTangent (S : (ι → ℝ) → Prop) (x v : ι → ℝ) : Prop := S v ∧ SphereTangent x v

theorem subspaceTangent_subspace {S : (ι → ℝ) → Prop} (hS : IsSubspace S) (x : ι → ℝ) :
    IsSubspace (SubspaceTangent S x) where
  zero := ⟨hS.zero, (sphereTangent_subspace x).zero⟩
  add hu hv := ⟨hS.add hu.1 hv.1, (sphereTangent_subspace x).add hu.2 hv.2⟩
  smul c _ hu := ⟨hS.smul c hu.1, (sphereTangent_subspace x).smul c hu.2⟩

variable {S : (ι → ℝ) → Prop} {M : Matrix ι ι ℝ}

/-- C62: `projection` is the orthogonal projection onto the tangent space of the intersection. -/
theorem C62_projection_partial (hS : IsSubspace S) (hM : IsOrthProj tensordot S M.mulVec)
    (x : ι → ℝ) (hx : OnSubspaceSphere S x) :
    IsOrthProj (sphereInner x) (SubspaceTangent S x) (subspaceProj M x) := by
  have hP := C56_projection x hx.2
  refine tensordot_inner.orthProj (subspaceTangent_subspace hS x) ?_ ?_
  · intro v
    refine ⟨hM.mem _, ?_⟩
    change tensordot x (M *ᵥ sphereProj x v) = 0
    rw [← hM.symm, hM.fixes hx.1]
    exact hP.mem v
  · rintro v w ⟨hw, hxw⟩
    rw [tensordot_inner.sub_left, subspaceProj, hM.symm, hM.fixes hw]
    have := hP.represents v hxw
    change tensordot _ _ = tensordot _ _ at this
    rw [this, sub_self]

/-- C62: exp, retraction, log, transport and pair mean stay in the intersection. -/
theorem C62_stays_partial (hS : IsSubspace S) (hM : IsOrthProj tensordot S M.mulVec)
    (x y v g : ι → ℝ) (hx : OnSubspaceSphere S x) (hy : OnSubspaceSphere S y)
    (hv : SubspaceTangent S x v) (eps : ℝ) :
    OnSubspaceSphere S (sphereExp x v) ∧ OnSubspaceSphere S (sphereRetraction x v) ∧
      (y ≠ -x → OnSubspaceSphere S (spherePairMean x y)) ∧
      SubspaceTangent S x (sphereLog (subspaceProj M) eps x y) ∧
      SubspaceTangent S y (sphereTransport (subspaceProj M) x y v) ∧
      SubspaceTangent S x (subE2rg (subspaceProj M) x g) := by
  have hP := C62_projection_partial hS hM x hx
  have hPy := C62_projection_partial hS hM y hy
  have h57 := C57_stays x v hx.2 hv.2
  refine ⟨⟨?_, h57.2.2.1⟩, ⟨?_, h57.2.1⟩, ?_, ?_, hPy.mem _, hP.mem _⟩
  · rw [sphereExp_eq]
    exact hS.add (hS.smul _ hx.1) (hS.smul _ hv.1)
  · exact hS.smul _ (hS.add hx.1 hv.1)
  · intro hne
    exact ⟨hS.smul _ (hS.add hx.1 hy.1), (C61_pair_mean x y hx.2 hy.2 hne).1⟩
  · exact (subspaceTangent_subspace hS x).smul _ (hP.mem _)

/-- C62: the converted Hessian is tangent, symmetric when the Euclidean Hessian is. -/
theorem C62_hessian_partial (hS : IsSubspace S) (hM : IsOrthProj tensordot S M.mulVec)
    (x g : ι → ℝ) (hx : OnSubspaceSphere S x) (H : (ι → ℝ) → ι → ℝ)
    (hH : ∀ u v, ∑ i, u i * H v i = ∑ i, H u i * v i) :
    IsSymmOn (sphereInner x) (SubspaceTangent S x)
      fun v => subE2rh (subspaceProj M) sphereWeingarten x g (H v) v := by
  have hP := C62_projection_partial hS hM x hx
  have hT := subspaceTangent_subspace hS x
  have hform : ∀ v, subE2rh (subspaceProj M) sphereWeingarten x g (H v) v =
      subspaceProj M x (H v) - tensordot x g • v := by
    intro v
    have h0 : tensordot x (subspaceProj M x g) = 0 := (hP.mem g).2
    simp only [subE2rh, sphereWeingarten, sphereInner, tensordot_inner.sub_right, h0]
    module
  refine ⟨?_, ?_⟩
  · intro v hv
    simp only [hform]
    have := hT.add (hP.mem (H v)) (hT.smul (-tensordot x g) hv)
    simpa [sub_eq_add_neg] using this
  · intro u v hu hv
    simp only [hform]
    change tensordot _ _ = tensordot _ _
    rw [tensordot_inner.sub_right, tensordot_inner.sub_left, tensordot_inner.smul_left,
      tensordot_inner.smul_right]
    congr 1
    have h1 : tensordot u (subspaceProj M x (H v)) = tensordot u (H v) := by
      rw [tensordot_inner.symm, tensordot_inner.symm u]
      exact hP.represents (H v) hu
    rw [h1]
    exact (hH u v).trans (hP.represents (H u) hv).symm

/-- C62: random points lie in the intersection unless the draw is mapped to zero. -/
theorem C62_random_point_partial (hS : IsSubspace S) (hM : IsOrthProj tensordot S M.mulVec)
    (draw : ι → ℝ) (hd : M *ᵥ draw ≠ 0) : OnSubspaceSphere S (subspaceRandomPoint M draw) := by
  have hne : M *ᵥ sphereRandomPoint draw ≠ 0 := by
    rw [sphereRandomPoint, sphereNormalize, mulVec_smul]
    refine smul_ne_zero (inv_ne_zero fun h => hd ?_) hd
    rw [(npNorm_eq_zero _).mp h, mulVec_zero]
  exact ⟨hS.smul _ (hM.mem _), onSphere_normalize hne⟩

/-! ### C55 -/

/-- C55 fails for the subspace manifolds: `to_tangent_space` is the projection of the sphere, so
it returns a vector outside the subspace for every vector outside the subspace. -/
theorem C55_sphere_subspace (hS : IsSubspace S) (x v : ι → ℝ) (hx : OnSubspaceSphere S x)
    (hv : ¬ S v) : ¬ SubspaceTangent S x (sphereToTangent x v) := by
  rintro ⟨h, -⟩
  apply hv
  have := hS.add h (hS.smul (sphereInner x x v) hx.1)
  simpa [sphereToTangent, sphereProj] using this

/-- C55 holds on the sphere. -/
theorem C55_sphere_partial (x v : ι → ℝ) (hx : OnSphere x) :
    SphereTangent x (sphereToTangent x v) := (C56_projection x hx).mem v

/-! ### C101 -/

theorem sphereNorm_normalize {v x : ι → ℝ} (h : v ≠ 0) : sphereNorm x (sphereNormalize v) = 1 :=
  npNorm_inv_smul h

/-- C101 on the sphere: every draw that is not a multiple of the point gives a unit tangent
vector. -/
theorem C101_sphere (x draw : ι → ℝ) (hx : OnSphere x) (hd : ∀ c : ℝ, draw ≠ c • x) :
    SphereTangent x (sphereRandomTangent sphereProj x draw) ∧
      sphereNorm x (sphereRandomTangent sphereProj x draw) = 1 := by
  refine ⟨(sphereTangent_subspace x).smul _ ((C56_projection x hx).mem draw),
    sphereNorm_normalize fun h => hd (sphereInner x x draw) ?_⟩
  exact sub_eq_zero.mp h

/-- Random points of the sphere are unit-norm for every non-zero draw. -/
theorem C101_sphere_point (draw : ι → ℝ) (h : draw ≠ 0) : OnSphere (sphereRandomPoint draw) :=
  onSphere_normalize h

/-- C101 on the subspace manifolds. -/
theorem C101_sphere_subspace (hS : IsSubspace S) (hM : IsOrthProj tensordot S M.mulVec)
    (x draw : ι → ℝ) (hx : OnSubspaceSphere S x)
    (hd : ∀ c : ℝ, M *ᵥ draw ≠ c • x) :
    SubspaceTangent S x (subspaceRandomTangent M x draw) ∧
      sphereNorm x (subspaceRandomTangent M x draw) = 1 := by
  have hP := C62_projection_partial hS hM x hx
  have hT := subspaceTangent_subspace hS x
  have hne : subspaceProj M x draw ≠ 0 := by
    intro h
    apply hd (sphereInner x x draw)
    rw [subspaceProj, sphereProj, mulVec_sub, mulVec_smul, hM.fixes hx.1] at h
    exact sub_eq_zero.mp h
  have h1 : SubspaceTangent S x (sphereRandomTangent (subspaceProj M) x draw) :=
    hT.smul _ (hP.mem draw)
  have h2 : M *ᵥ sphereRandomTangent (subspaceProj M) x draw =
      sphereRandomTangent (subspaceProj M) x draw := hM.fixes h1.1
  have h3 : npNorm (sphereRandomTangent (subspaceProj M) x draw) = 1 := npNorm_inv_smul hne
  have h4 : subspaceRandomTangent M x draw = sphereRandomTangent (subspaceProj M) x draw := by
    rw [subspaceRandomTangent, h2, sphereNormalize, h3]
    simp
  rw [h4]
  exact ⟨h1, h3⟩

/-! ### Examples -/

/-- A full-rank span matrix with a QR factorisation. -/
example : IsQR !![(3 : ℝ); 4] !![3 / 5; 4 / 5] !![5] ∧ FullColumnRank !![(3 : ℝ); 4] := by
  refine ⟨⟨?_, ?_, ?_⟩, ?_⟩
  · ext i j
    fin_cases i; fin_cases j
    norm_num [Matrix.mul_apply, Fin.sum_univ_two]
  · ext i j
    fin_cases i <;> fin_cases j <;> norm_num [Matrix.mul_apply]
  · intro i j h
    fin_cases i; fin_cases j
    exact absurd h (lt_irrefl _)
  · intro y hy
    funext i
    fin_cases i
    have := congrFun hy 0
    simpa [Matrix.mulVec, dotProduct] using this

/-- A rank-deficient span matrix with a QR factorisation. -/
example : IsQR !![(0 : ℝ); 0] !![1; 0] !![0] ∧ ¬ FullColumnRank !![(0 : ℝ); 0] := by
  refine ⟨⟨?_, ?_, ?_⟩, ?_⟩
  · ext i j
    fin_cases i; fin_cases j
    norm_num [Matrix.mul_apply, Fin.sum_univ_two]
  · ext i j
    fin_cases i <;> fin_cases j <;> norm_num [Matrix.mul_apply]
  · intro i j h
    fin_cases i; fin_cases j
    exact absurd h (lt_irrefl _)
  · intro h
    have := congrFun (h 1 (by ext i; fin_cases i <;> simp [Matrix.mulVec, dotProduct])) 0
    simp at this

end Verif.Geo
