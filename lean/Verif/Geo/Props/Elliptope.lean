/-
C76, C77, C55 and C101 for the elliptope.
-/
import Verif.Geo.Props.Psd
import Verif.Geo.Props.Sphere

namespace Verif.Geo
open scoped BigOperators ComplexOrder
open Matrix

variable {n : Type*} {k : ℕ} {Y V Z : Matrix n (Fin k) ℝ}

/-- Points: rows of unit norm. -/
def UnitRows (Y : Matrix n (Fin k) ℝ) : Prop := ∀ i, OnSphere (Y i)

/-- Vectors along which the norm of every row is stationary. -/
def RowTangent (Y V : Matrix n (Fin k) ℝ) : Prop := ∀ i, SphereTangent (Y i) (V i)

/-- Representation of tangent vectors: row-tangent and horizontal. -/
def EllTangent [Fintype n] (Y V : Matrix n (Fin k) ℝ) : Prop := RowTangent Y V ∧ Horizontal Y V

theorem ellProjRows_row (Y V : Matrix n (Fin k) ℝ) (i : n) :
    ellProjRows Y V i = sphereProj (Y i) (V i) := by
  funext j
  simp [ellProjRows, sphereProj, sphereInner, rowSums, tensordot, mul_comm]

theorem ellNormalize_row (A : Matrix n (Fin k) ℝ) (i : n) :
    ellNormalize A i = sphereNormalize (A i) := by
  funext j
  simp only [ellNormalize, sphereNormalize, of_apply, Pi.smul_apply, smul_eq_mul]
  rw [div_eq_inv_mul]

theorem rowTangent_subspace (Y : Matrix n (Fin k) ℝ) : IsSubspace (RowTangent Y) where
  zero i := (sphereTangent_subspace (Y i)).zero
  add hu hv i := (sphereTangent_subspace (Y i)).add (hu i) (hv i)
  smul c _ hu i := (sphereTangent_subspace (Y i)).smul c (hu i)

theorem ellProjRows_tangent (hY : UnitRows Y) (V : Matrix n (Fin k) ℝ) :
    RowTangent Y (ellProjRows Y V) := fun i => by
  rw [ellProjRows_row]; exact (C56_projection _ (hY i)).mem _

theorem ellProjRows_fixes (hV : RowTangent Y V) : ellProjRows Y V = V := by
  ext i j
  have h : rowSums Y V i = 0 := hV i
  simp [ellProjRows, h]

/-- A skew-symmetric matrix on the right moves every row orthogonally to itself. -/
theorem rowTangent_mul_skew (Y : Matrix n (Fin k) ℝ) {K : Matrix (Fin k) (Fin k) ℝ} (hK : Kᵀ = -K) :
    RowTangent Y (Y * K) := by
  intro i
  have h1 : ∑ j, Y i j * (Y * K) i j = ∑ j, ∑ l, Y i j * (Y i l * K l j) := by
    refine Finset.sum_congr rfl fun j _ => ?_
    rw [Matrix.mul_apply, Finset.mul_sum]
  have h2 : ∑ j, ∑ l, Y i j * (Y i l * K l j) = -∑ j, ∑ l, Y i j * (Y i l * K l j) := by
    conv_lhs => rw [Finset.sum_comm]
    rw [← Finset.sum_neg_distrib]
    refine Finset.sum_congr rfl fun j _ => ?_
    rw [← Finset.sum_neg_distrib]
    refine Finset.sum_congr rfl fun l _ => ?_
    have h3 : K l j = -K j l := by
      have := congrFun (congrFun hK j) l
      simpa using this
    rw [h3]; ring
  change ∑ j, Y i j * (Y * K) i j = 0
  rw [h1]
  linarith

variable [Fintype n]

theorem ellInner_eq (Y A B : Matrix n (Fin k) ℝ) : ellInner Y A B = trDot A B := by
  rw [trDot_eq_sum, ellInner, tensordot, Fintype.sum_prod_type]
  simp

theorem ellInner_inner (Y : Matrix n (Fin k) ℝ) : IsInner (ellInner Y) := by
  rw [show ellInner Y = trDot from funext fun A => funext fun B => ellInner_eq Y A B]
  exact trDot_inner

theorem ellNorm_eq (Y V : Matrix n (Fin k) ℝ) : ellNorm Y V = Real.sqrt (trDot V V) := by
  rw [ellNorm, ellInner_eq]

/-- What `projection` returns: the rows are projected, then a vertical vector `Y K` is added, where
`K` solves the equation that would have to be solved to subtract the vertical part. -/
theorem ellProj_form (h : IsEllProj Y V Z) :
    ∃ K : Matrix (Fin k) (Fin k) ℝ, Kᴴ = -K ∧
      IsLyapunov (Yᴴ * Y) (Yᴴ * ellProjRows Y V - (ellProjRows Y V)ᴴ * Y) K ∧
        Z = ellProjRows Y V + Y * K := by
  classical
  obtain ⟨ω, hω, rfl⟩ := h
  set η := ellProjRows Y V with hη
  simp only [← conjTranspose_eq_transpose_of_trivial] at hω ⊢
  have hV : V = η + diagonal (rowSums Y V) * Y := by
    ext i j
    rw [Matrix.add_apply, diagonal_mul, hη, ellProjRows, of_apply]
    ring
  have hVY : Vᴴ * Y = ηᴴ * Y + Yᴴ * diagonal (rowSums Y V) * Y := by
    conv_lhs => rw [hV]
    rw [conjTranspose_add, conjTranspose_mul, diagonal_conjTranspose, star_trivial, Matrix.add_mul]
  have hD : (Yᴴ * diagonal (rowSums Y V) * Y)ᴴ = Yᴴ * diagonal (rowSums Y V) * Y := by
    rw [conjTranspose_mul, conjTranspose_mul, diagonal_conjTranspose, conjTranspose_conjTranspose,
      star_trivial, Matrix.mul_assoc]
  rw [hVY] at hω
  have h1 : (Yᴴ * Y) * ω + ω * (Yᴴ * Y) = -(Yᴴ * η - (ηᴴ * Y + Yᴴ * diagonal (rowSums Y V) * Y)) := by
    rw [IsLyapunov] at hω
    rwa [conjTranspose_mul, conjTranspose_conjTranspose] at hω
  have h2 : ωᴴ * (Yᴴ * Y) + (Yᴴ * Y) * ωᴴ =
      -(ηᴴ * Y - (Yᴴ * η + Yᴴ * diagonal (rowSums Y V) * Y)) := by
    have h3 := congrArg conjTranspose h1
    rw [conjTranspose_add, conjTranspose_neg, conjTranspose_sub, conjTranspose_add, hD,
      conjTranspose_mul, conjTranspose_mul ω, conjTranspose_mul Yᴴ Y, conjTranspose_mul Yᴴ η,
      conjTranspose_mul ηᴴ, conjTranspose_conjTranspose, conjTranspose_conjTranspose] at h3
    exact h3
  refine ⟨-((1 / 2 : ℝ) • (ω - ωᴴ)), ?_, ?_, ?_⟩
  · rw [conjTranspose_neg, conjTranspose_smul, conjTranspose_sub, conjTranspose_conjTranspose,
      star_trivial, ← smul_neg, neg_sub, neg_neg]
  · rw [IsLyapunov, conjTranspose_mul, conjTranspose_conjTranspose, Matrix.mul_neg, Matrix.neg_mul,
      Matrix.mul_smul, Matrix.smul_mul, Matrix.mul_sub, Matrix.sub_mul]
    have h4 : Yᴴ * Y * ω - Yᴴ * Y * ωᴴ + (ω * (Yᴴ * Y) - ωᴴ * (Yᴴ * Y)) =
        -((2 : ℝ) • (Yᴴ * η - ηᴴ * Y)) := by
      have h5 : Yᴴ * Y * ω - Yᴴ * Y * ωᴴ + (ω * (Yᴴ * Y) - ωᴴ * (Yᴴ * Y)) =
          (Yᴴ * Y * ω + ω * (Yᴴ * Y)) - (ωᴴ * (Yᴴ * Y) + Yᴴ * Y * ωᴴ) := by abel
      rw [h5, h1, h2, two_smul]; abel
    rw [← neg_add, ← smul_add, h4, smul_neg, neg_neg, smul_smul]
    norm_num
  · rw [Matrix.mul_neg, Matrix.mul_smul, sub_eq_add_neg]

/-! ### C76 -/

omit [Fintype n] in
/-- C76: the retraction never divides by zero and keeps unit rows, random points have unit rows, and
the retraction returns the point at zero. -/
theorem C76_unit_rows (Y V draw : Matrix n (Fin k) ℝ) (hY : UnitRows Y) (hV : RowTangent Y V)
    (hd : ∀ i, draw i ≠ 0) :
    (∀ i, 1 ≤ npNorm ((Y + V) i)) ∧ UnitRows (ellRetraction Y V) ∧ UnitRows (ellRandomPoint draw) ∧
      ellRetraction Y 0 = Y := by
  have h := fun i => C57_stays (Y i) (V i) (hY i) (hV i)
  refine ⟨fun i => (h i).1, fun i => ?_, fun i => ?_, ?_⟩
  · rw [ellRetraction, ellNormalize_row]; exact (h i).2.1
  · rw [ellRandomPoint, ellNormalize_row]; exact onSphere_normalize (hd i)
  · funext i
    rw [ellRetraction, ellNormalize_row, add_zero]
    have := (h i).2.2.2.1
    rwa [sphereRetraction, show (sphereZero : Fin k → ℝ) = 0 from rfl, add_zero] at this

omit [Fintype n] in
/-- C76: the retraction starts at the point with the given velocity. -/
theorem C76_velocity (Y V : Matrix n (Fin k) ℝ) (hY : UnitRows Y) (hV : RowTangent Y V) :
    MatDeriv (fun t : ℝ => ellRetraction Y (t • V)) V 0 := by
  intro i j
  have h := (hasDerivAt_pi.mp (C57_retraction_velocity (Y i) (V i) (hY i) (hV i))) j
  refine h.congr_of_eventuallyEq (Filter.Eventually.of_forall fun t => ?_)
  change ellRetraction Y (t • V) i j = sphereRetraction (Y i) (t • V i) j
  rw [ellRetraction, ellNormalize_row]
  rfl

omit [Fintype n] in
/-- C76: the retraction does not depend on the representative of the equivalence class. -/
theorem C76_retraction_class (Y V : Matrix n (Fin k) ℝ) (Q : Matrix (Fin k) (Fin k) ℝ)
    (hQ : Qᴴ * Q = 1) : ellRetraction (Y * Q) (V * Q) = ellRetraction Y V * Q := by
  rw [ellRetraction, ellRetraction, ← Matrix.add_mul]
  have hn : ∀ i, npNorm (((Y + V) * Q) i) = npNorm ((Y + V) i) := by
    intro i
    rw [npNorm_eq_sqrt, npNorm_eq_sqrt]
    congr 1
    have h1 : ∀ A : Matrix n (Fin k) ℝ, tensordot (A i) (A i) = (A * Aᴴ) i i := by
      intro A
      rw [Matrix.mul_apply]
      rfl
    rw [h1, h1, conjTranspose_mul, Matrix.mul_assoc, ← Matrix.mul_assoc Q, mul_eq_one_comm.mp hQ,
      Matrix.one_mul]
  ext i j
  have h2 : ellNormalize ((Y + V) * Q) i j = ((Y + V) * Q) i j / npNorm (((Y + V) * Q) i) := rfl
  rw [h2, hn, Matrix.mul_apply, Matrix.mul_apply, Finset.sum_div]
  refine Finset.sum_congr rfl fun l _ => ?_
  change _ = (Y + V) i l / npNorm ((Y + V) i) * Q l j
  ring

/-- C76: the converted gradient is row-tangent and represents the differential, and the converted
Hessian is row-tangent. -/
theorem C76_tangent (Y G H V Z : Matrix n (Fin k) ℝ) (hY : UnitRows Y) (hZ : IsEllE2rh Y G H V Z) :
    RowTangent Y (ellE2rg Y G) ∧ RowTangent Y Z ∧
      ∀ W, RowTangent Y W → ellInner Y (ellE2rg Y G) W = trDot G W := by
  refine ⟨ellProjRows_tangent hY G, ?_, fun W hW => ?_⟩
  · obtain ⟨K, hK, -, rfl⟩ := ellProj_form hZ
    exact (rowTangent_subspace Y).add (ellProjRows_tangent hY _)
      (rowTangent_mul_skew Y (by rwa [conjTranspose_eq_transpose_of_trivial] at hK))
  · have h : ∀ A, trDot A W = ∑ i, tensordot (A i) (W i) := by
      intro A
      rw [← ellInner_eq Y, ellInner, tensordot, Fintype.sum_prod_type]
      rfl
    rw [ellInner_eq, h, h]
    refine Finset.sum_congr rfl fun i _ => ?_
    have := (C56_projection _ (hY i)).represents (G i) (hW i)
    rw [ellE2rg, ellProjRows_row]
    exact this

/-- C76: the gradient of a cost that depends on `Y Yᵀ` only is horizontal. -/
theorem C76_gradient_horizontal (Y G : Matrix n (Fin k) ℝ) (f : Matrix n (Fin k) ℝ → ℝ)
    (hY : UnitRows Y)
    (hinv : ∀ (Y : Matrix n (Fin k) ℝ) (Q : Matrix (Fin k) (Fin k) ℝ), Qᴴ * Q = 1 →
      f (Y * Q) = f Y)
    (hf : ∀ (c : ℝ → Matrix n (Fin k) ℝ) (c' : Matrix n (Fin k) ℝ), MatDeriv c c' 0 → c 0 = Y →
      HasDerivAt (fun s => f (c s)) (trDot G c') 0) : EllTangent Y (ellE2rg Y G) := by
  refine ⟨ellProjRows_tangent hY G, fun Ω hΩ => ?_⟩
  have h1 := (C74_gradient Y G f hinv hf).1 Ω hΩ
  rw [conjTranspose_eq_transpose_of_trivial] at hΩ
  have h2 : ∀ A W : Matrix n (Fin k) ℝ, trDot A W = ∑ i, tensordot (A i) (W i) := by
    intro A W
    rw [← ellInner_eq Y, ellInner, tensordot, Fintype.sum_prod_type]
    rfl
  rw [psdE2rg] at h1
  rw [← h1, h2, h2]
  refine Finset.sum_congr rfl fun i _ => ?_
  rw [ellE2rg, ellProjRows_row]
  exact (C56_projection _ (hY i)).represents (G i) (rowTangent_mul_skew Y hΩ i)

omit [Fintype n] in
/-- C76: before its final projection, the converted Hessian is the derivative of the gradient field
along any curve. -/
theorem C76_hessian_field {c g : ℝ → Matrix n (Fin k) ℝ} {V H : Matrix n (Fin k) ℝ} {t : ℝ}
    (hc : MatDeriv c V t) (hg : MatDeriv g H t) :
    MatDeriv (fun s => ellE2rg (c s) (g s)) (ellRowHess (c t) (g t) H V) t := by
  intro i j
  have h1 : HasDerivAt (fun s => rowSums (c s) (g s) i)
      (∑ l, (V i l * g t i l + c t i l * H i l)) t :=
    HasDerivAt.fun_sum fun l _ => (hc i l).mul (hg i l)
  refine ((hg i j).sub ((hc i j).mul h1)).congr_deriv ?_
  have h2 : rowSums (g t) (c t) i = rowSums (c t) (g t) i :=
    Finset.sum_congr rfl fun l _ => mul_comm _ _
  simp only [ellRowHess, of_apply, h2]
  ring

/-- C76: the bilinear form of the converted Hessian on tangent vectors is symmetric when the
Euclidean Hessian is. -/
theorem C76_hessian_symm (Y G : Matrix n (Fin k) ℝ) (hY : UnitRows Y)
    (H R : Matrix n (Fin k) ℝ → Matrix n (Fin k) ℝ)
    (hH : ∀ U V, trDot U (H V) = trDot (H U) V)
    (hR : ∀ V, IsEllE2rh Y G (H V) V (R V)) {U V : Matrix n (Fin k) ℝ}
    (hU : EllTangent Y U) (hV : EllTangent Y V) :
    ellInner Y U (R V) = ellInner Y (R U) V := by
  have h2 : ∀ A W : Matrix n (Fin k) ℝ, trDot A W = ∑ i, tensordot (A i) (W i) := by
    intro A W
    rw [← ellInner_eq Y, ellInner, tensordot, Fintype.sum_prod_type]
    rfl
  have key : ∀ U W, EllTangent Y U → ellInner Y U (R W) =
      trDot U (H W) - ∑ i, rowSums G Y i * tensordot (U i) (W i) := by
    intro U W hU
    obtain ⟨K, hK, -, e⟩ := ellProj_form (hR W)
    have h3 : trDot U (ellProjRows Y (ellRowHess Y G (H W) W)) = trDot U (ellRowHess Y G (H W) W) := by
      rw [h2, h2]
      refine Finset.sum_congr rfl fun i _ => ?_
      rw [ellProjRows_row]
      have := (C56_projection _ (hY i)).represents (ellRowHess Y G (H W) W i) (hU.1 i)
      have e1 := tensordot_inner.symm (U i) (sphereProj (Y i) (ellRowHess Y G (H W) W i))
      have e2 := tensordot_inner.symm (U i) (ellRowHess Y G (H W) W i)
      rw [e1, e2]
      exact this
    rw [ellInner_eq, e, trDot_inner.add_right, hU.2 K hK, add_zero, h3, h2, h2,
      ← Finset.sum_sub_distrib]
    refine Finset.sum_congr rfl fun i _ => ?_
    have h4 : tensordot (U i) (Y i) = 0 := (tensordot_inner.symm _ _).trans (hU.1 i)
    have h5 : ellRowHess Y G (H W) W i = H W i - rowSums G Y i • W i -
        (∑ j, (W i j * G i j + Y i j * H W i j)) • Y i := by
      funext j
      simp [ellRowHess, mul_comm]
    rw [h5, tensordot_inner.sub_right, tensordot_inner.sub_right, tensordot_inner.smul_right,
      tensordot_inner.smul_right, h4, mul_zero, sub_zero]
  rw [key U V hU, (ellInner_inner Y).symm (R U), key V U hV, hH, trDot_comm (H U)]
  congr 1
  refine Finset.sum_congr rfl fun i _ => ?_
  rw [tensordot_inner.symm (V i)]

/-! ### C77 -/

theorem mul_cancel_fullRank (hY : FullRank Y) {A B : Matrix (Fin k) (Fin k) ℝ} (h : Y * A = Y * B) :
    A = B := by
  have h1 := congrArg (fun X => (Yᴴ * Y)⁻¹ * (Yᴴ * X)) h
  simp only [← Matrix.mul_assoc] at h1
  have h2 : (Yᴴ * Y)⁻¹ * Yᴴ * Y = 1 := by
    rw [Matrix.mul_assoc]; exact inv_mul' hY.posDef.isUnit
  rwa [h2, Matrix.one_mul, Matrix.one_mul] at h1

/-- The full claim of C77. -/
def C77_claim (Y : Matrix n (Fin k) ℝ) : Prop :=
  (∀ V Z, IsEllProj Y V Z → EllTangent Y Z) ∧
    ∀ V Z W, IsEllProj Y V Z → IsEllProj Y Z W → W = Z

/-- C77, what holds: `projection` always returns a result, the result has rows orthogonal to those of
the point, and is the argument for tangent vectors.  It is horizontal exactly when the row-projected
vector is, which is also exactly when a second application changes nothing. -/
theorem C77_partial (Y : Matrix n (Fin k) ℝ) (hY : UnitRows Y) (hr : FullRank Y)
    (V : Matrix n (Fin k) ℝ) :
    (∃ Z, IsEllProj Y V Z) ∧
      (∀ Z, IsEllProj Y V Z → RowTangent Y Z ∧
        (Horizontal Y Z ↔ Horizontal Y (ellProjRows Y V)) ∧
        ∀ W, IsEllProj Y Z W → (W = Z ↔ Horizontal Y (ellProjRows Y V))) ∧
      (EllTangent Y V → ∀ Z, IsEllProj Y V Z → Z = V) := by
  have hz : ∀ {V K : _}, IsLyapunov (Yᴴ * Y) (Yᴴ * ellProjRows Y V - (ellProjRows Y V)ᴴ * Y) K →
      (K = 0 ↔ Horizontal Y (ellProjRows Y V)) := by
    intro V K hL
    have e : (Yᴴ * ellProjRows Y V)ᴴ = (ellProjRows Y V)ᴴ * Y := by
      rw [conjTranspose_mul, conjTranspose_conjTranspose]
    rw [horizontal_iff, e]
    constructor
    · rintro rfl
      rw [IsLyapunov, Matrix.mul_zero, Matrix.zero_mul, add_zero] at hL
      exact (sub_eq_zero.mp hL.symm).symm
    · intro h
      rw [h, sub_self] at hL
      refine lyapunov_unique hr.posDef hL ?_
      rw [IsLyapunov, Matrix.mul_zero, Matrix.zero_mul, add_zero]
  refine ⟨?_, ?_, ?_⟩
  · obtain ⟨ω, hω⟩ := exists_lyapunov hr.posDef (-(Yᵀ * ellProjRows Y V - Vᵀ * Y))
    exact ⟨_, ω, by rwa [conjTranspose_eq_transpose_of_trivial] at hω, rfl⟩
  · intro Z hZ
    obtain ⟨K, hK, hL, e⟩ := ellProj_form hZ
    have hrow : RowTangent Y Z := by
      rw [e]
      exact (rowTangent_subspace Y).add (ellProjRows_tangent hY _)
        (rowTangent_mul_skew Y (by rwa [conjTranspose_eq_transpose_of_trivial] at hK))
    -- the skew part of `Yᴴ Z` is twice that of `Yᴴ η`
    have hd : Yᴴ * Z - Zᴴ * Y =
        (2 : ℝ) • (Yᴴ * ellProjRows Y V - (ellProjRows Y V)ᴴ * Y) := by
      have hL' : Yᴴ * Y * K + K * (Yᴴ * Y) =
          Yᴴ * ellProjRows Y V - (ellProjRows Y V)ᴴ * Y := by
        rw [IsLyapunov] at hL
        rwa [conjTranspose_mul, conjTranspose_conjTranspose] at hL
      rw [two_smul]
      nth_rw 2 [← hL']
      rw [e, Matrix.mul_add, conjTranspose_add, conjTranspose_mul Y K, hK, Matrix.add_mul,
        Matrix.neg_mul, Matrix.neg_mul, Matrix.mul_assoc K, ← Matrix.mul_assoc Yᴴ Y K]
      abel
    have hiff : Horizontal Y Z ↔ Horizontal Y (ellProjRows Y V) := by
      rw [horizontal_iff, horizontal_iff, conjTranspose_mul, conjTranspose_mul,
        conjTranspose_conjTranspose, eq_comm, ← sub_eq_zero, hd, smul_eq_zero, sub_eq_zero,
        eq_comm (a := Yᴴ * ellProjRows Y V)]
      norm_num
    refine ⟨hrow, hiff, fun W hW => ?_⟩
    obtain ⟨K', hK', hL', e'⟩ := ellProj_form hW
    have hZr := ellProjRows_fixes hrow
    rw [← hiff]
    have hz' := hz hL'
    rw [hZr] at hz' e'
    rw [← hz', e']
    constructor
    · intro h
      refine mul_cancel_fullRank hr ?_
      rw [Matrix.mul_zero]
      simpa using h
    · rintro rfl
      rw [Matrix.mul_zero, add_zero]
  · intro hV Z hZ
    obtain ⟨K, hK, hL, e⟩ := ellProj_form hZ
    have hV' := ellProjRows_fixes hV.1
    have := (hz hL).mpr (by rw [hV']; exact hV.2)
    rw [e, this, hV', Matrix.mul_zero, add_zero]

omit [Fintype n] in
theorem FullRank.of_unit {m : ℕ} {Y : Matrix (Fin m) (Fin m) ℝ} (h : Yᴴ * Y = 1) : FullRank Y := by
  intro y hy
  have := congrArg (fun v => Yᴴ *ᵥ v) hy
  rwa [mulVec_mulVec, h, one_mulVec, mulVec_zero] at this

/-- C77 fails at every orthogonal point of a size of at least two: a non-symmetric vector with rows
orthogonal to those of the point is not projected to a tangent vector. -/
theorem C77_negation {m : ℕ} (hm : 2 ≤ m) (Y : Matrix (Fin m) (Fin m) ℝ) (hQ : Yᴴ * Y = 1) :
    UnitRows Y ∧ FullRank Y ∧ ¬C77_claim Y := by
  have hQ' : Y * Yᴴ = 1 := mul_eq_one_comm.mp hQ
  have hY : UnitRows Y := by
    intro i
    have := congrFun (congrFun hQ' i) i
    rw [Matrix.mul_apply, one_apply_eq] at this
    simpa [OnSphere, sq] using this
  have hr : FullRank Y := FullRank.of_unit hQ
  refine ⟨hY, hr, fun hC => ?_⟩
  let a : Fin m := ⟨0, by omega⟩
  let b : Fin m := ⟨1, by omega⟩
  have hab : a ≠ b := by simp [a, b, Fin.ext_iff]
  -- row `a` moves in the direction of row `b`
  let V : Matrix (Fin m) (Fin m) ℝ := single a b 1 * Y
  have hrow : RowTangent Y V := by
    intro i
    have h1 : ∑ j, Y i j * V i j = (Y * Vᴴ) i i := by
      rw [Matrix.mul_apply]; rfl
    change ∑ j, Y i j * V i j = 0
    rw [h1, conjTranspose_mul, ← Matrix.mul_assoc, hQ', Matrix.one_mul, conjTranspose_apply,
      single_apply, if_neg, star_zero]
    rintro ⟨rfl, h⟩
    exact hab h.symm
  obtain ⟨⟨Z, hZ⟩, h2, -⟩ := C77_partial Y hY hr V
  have h3 := ((h2 Z hZ).2.1).mp (hC.1 V Z hZ).2
  rw [ellProjRows_fixes hrow, horizontal_iff] at h3
  have h4 := congrArg (fun X => Y * X * Yᴴ) h3
  have h5 : Y * (Yᴴ * V) * Yᴴ = single a b 1 := by
    change Y * (Yᴴ * (single a b 1 * Y)) * Yᴴ = single a b 1
    rw [← Matrix.mul_assoc, hQ', Matrix.one_mul, Matrix.mul_assoc, hQ', Matrix.mul_one]
  have h6 : Y * (Yᴴ * V)ᴴ * Yᴴ = (single a b 1)ᴴ := by
    rw [← h5, conjTranspose_mul (Y * (Yᴴ * V)), conjTranspose_conjTranspose, conjTranspose_mul Y (_ * _),
      Matrix.mul_assoc]
  simp only [h5, h6] at h4
  have h7 := congrFun (congrFun h4 a) b
  rw [conjTranspose_apply, single_apply, single_apply, if_neg, if_pos ⟨rfl, rfl⟩] at h7
  · simp at h7
  · rintro ⟨h, -⟩
    exact hab h

/-- C77 for `transport` to a point `B` from any other: the result has rows orthogonal to those of
`B`, and vectors tangent at `B` are left as they are. -/
theorem C77_transport_partial (A : Matrix n (Fin k) ℝ) {B : Matrix n (Fin k) ℝ} (hB : UnitRows B)
    (hr : FullRank B) (V : Matrix n (Fin k) ℝ) :
    (∃ Z, IsEllTransport A B V Z) ∧ (∀ Z, IsEllTransport A B V Z → RowTangent B Z) ∧
      (EllTangent B V → ∀ Z, IsEllTransport A B V Z → Z = V) :=
  have h := C77_partial B hB hr V
  ⟨h.1, fun Z hZ => (h.2.1 Z hZ).1, h.2.2⟩

/-- C55 on the elliptope, where `to_tangent_space` is `projection`: rows only. -/
theorem C55_elliptope_partial (hY : UnitRows Y) (hr : FullRank Y) (h : IsEllProj Y V Z) :
    RowTangent Y Z := ((C77_partial Y hY hr V).2.1 Z h).1

/-- C55 fails on the elliptope. -/
theorem C55_elliptope_negation {m : ℕ} (hm : 2 ≤ m) :
    ∃ Y V Z : Matrix (Fin m) (Fin m) ℝ, UnitRows Y ∧ FullRank Y ∧ IsEllProj Y V Z ∧
      ¬EllTangent Y Z := by
  obtain ⟨h1, h2, h3⟩ := C77_negation hm (1 : Matrix (Fin m) (Fin m) ℝ) (by simp)
  by_contra hn
  push Not at hn
  refine h3 ⟨fun V Z h => hn _ V Z h1 h2 h, fun V Z W hZ hW => ?_⟩
  exact (C77_partial _ h1 h2 Z).2.2 (hn _ V Z h1 h2 hZ) W hW

/-- C101 on the elliptope: norm one and rows orthogonal; horizontal exactly when the row-projected
draw is. -/
theorem C101_elliptope_partial {draw T : Matrix n (Fin k) ℝ} (hY : UnitRows Y) (hr : FullRank Y)
    (hd : ¬IsEllProj Y (ellRandomPoint draw) 0) (h : IsEllRandomTangent Y draw T) :
    RowTangent Y T ∧ ellNorm Y T = 1 ∧
      (Horizontal Y T ↔ Horizontal Y (ellProjRows Y (ellRandomPoint draw))) := by
  obtain ⟨Z, hZ, rfl⟩ := h
  have hp := (C77_partial Y hY hr (ellRandomPoint draw)).2.1 Z hZ
  have hne : Z ≠ 0 := by rintro rfl; exact hd hZ
  have hs : trDot Z Z ≠ 0 := fun h0 => hne (trDot_inner.definite Z h0)
  have hpos : 0 < trDot Z Z := lt_of_le_of_ne (trDot_self_nonneg Z) hs.symm
  have hn : ellNorm Y Z ≠ 0 := by
    rw [ellNorm_eq]; exact (Real.sqrt_pos.mpr hpos).ne'
  refine ⟨(rowTangent_subspace Y).smul _ hp.1, ?_, ?_⟩
  · rw [ellNorm_eq Y (_ • _), trDot_inner.smul_left, trDot_inner.smul_right, ellNorm_eq]
    have h1 : Real.sqrt (trDot Z Z) ^ 2 = trDot Z Z := Real.sq_sqrt hpos.le
    rw [← mul_assoc, ← sq, inv_pow, h1, inv_mul_cancel₀ hs, Real.sqrt_one]
  · rw [← hp.2.1]
    refine ⟨fun h => ?_, fun h => (horizontal_subspace Y).smul _ h⟩
    have := (horizontal_subspace Y).smul (ellNorm Y Z) h
    rwa [smul_smul, mul_inv_cancel₀ hn, one_smul] at this

/-! ### Examples -/

private noncomputable def exE : Matrix (Fin 3) (Fin 2) ℝ := !![1, 0; 0, 1; 3 / 5, 4 / 5]

/-- A point with a tangent vector that is not zero. -/
example : UnitRows exE ∧ FullRank exE ∧ EllTangent exE !![0, 5; 0, 0; 4, -3] := by
  refine ⟨fun i => ?_, fun y hy => ?_, fun i => ?_, ?_⟩
  · fin_cases i <;> norm_num [exE, OnSphere, Fin.sum_univ_two]
  · funext j
    fin_cases j
    · have := congrFun hy 0
      simpa [exE, mulVec, dotProduct, Fin.sum_univ_two] using this
    · have := congrFun hy 1
      simpa [exE, mulVec, dotProduct, Fin.sum_univ_two] using this
  · fin_cases i <;> norm_num [exE, SphereTangent, Fin.sum_univ_two]
  · rw [horizontal_iff]
    ext i j
    fin_cases i <;> fin_cases j <;>
      norm_num [exE, Matrix.mul_apply, Fin.sum_univ_succ, Matrix.vecHead, Matrix.vecTail]

/-- A draw for which the random tangent vector is defined. -/
example : ¬IsEllProj (1 : Matrix (Fin 2) (Fin 2) ℝ) (ellRandomPoint !![0, 1; 0, 1]) 0 := by
  intro h
  obtain ⟨K, hK, hL, e⟩ := ellProj_form h
  have hd : ellRandomPoint !![0, 1; 0, 1] = (!![0, 1; 0, 1] : Matrix (Fin 2) (Fin 2) ℝ) := by
    ext i j
    have h1 : npNorm (fun j : Fin 2 => (!![0, 1; 0, 1] : Matrix (Fin 2) (Fin 2) ℝ) i j) = 1 := by
      rw [npNorm_eq_sqrt]
      fin_cases i <;> simp [tensordot, Fin.sum_univ_two]
    change _ / npNorm (fun j : Fin 2 => (!![0, 1; 0, 1] : Matrix (Fin 2) (Fin 2) ℝ) i j) = _
    rw [h1, div_one]
  rw [hd] at hL e
  have hη : ellProjRows (1 : Matrix (Fin 2) (Fin 2) ℝ) !![0, 1; 0, 1] = !![0, 1; 0, 0] := by
    ext i j
    fin_cases i <;> fin_cases j <;> simp [ellProjRows, rowSums, one_apply]
  rw [hη] at hL e
  have h1 := congrFun (congrFun hL 0) 1
  have h2 := congrFun (congrFun e 0) 1
  simp at h1 h2
  linarith

end Verif.Geo
