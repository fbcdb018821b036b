/-
C100: the dimension each constructor reports is the dimension of the tangent space at every point.
`tdim T` is the dimension of the real vector space of the vectors that satisfy `T`.
-/
import Verif.Geo.Lemmas.Dim
import Verif.Geo.Lemmas.Lyapunov
import Verif.Geo.Model.Positive
import Verif.Geo.Model.Hyperbolic
import Verif.Geo.Model.Euclidean
import Verif.Geo.Props.SphereSubspace
import Verif.Geo.Props.Oblique
import Verif.Geo.Props.ComplexCircle
import Verif.Geo.Props.Grassmann
import Verif.Geo.Props.Stiefel
import Verif.Geo.Props.SpecialPD
import Verif.Geo.Props.Elliptope
import Verif.Geo.Props.FixedRank
import Verif.Geo.Props.Group

namespace Verif.Geo
open scoped BigOperators
open Matrix
open scoped ComplexOrder

/-! ### Flat spaces -/

theorem C100_euclidean (ι : Type*) [Fintype ι] :
    tdim (fun _ : ι → ℝ => True) = eucDim ι := by
  rw [tdim_true, Module.finrank_fintype_fun_eq_card, eucDim]

theorem C100_complex_euclidean (ι : Type*) [Fintype ι] :
    tdim (fun _ : ι → ℂ => True) = complexEucDim ι := by
  rw [tdim_true, Module.finrank_pi_fintype]
  simp only [Complex.finrank_real_complex, Finset.sum_const, Finset.card_univ, smul_eq_mul]
  rw [complexEucDim, mul_comm]

theorem C100_positive (m n k : ℕ) :
    tdim (fun _ : Fin k × Fin m × Fin n → ℝ => True) = posDim m n k := by
  rw [tdim_true, Module.finrank_fintype_fun_eq_card, posDim]
  simp [mul_assoc]

theorem C100_poincare (n k : ℕ) :
    tdim (fun _ : Fin k × Fin n → ℝ => True) = pbDim n k := by
  rw [tdim_true, Module.finrank_fintype_fun_eq_card, pbDim]
  simp

theorem two_choose (n : ℕ) : (n + 1).choose 2 * 2 = n * (n + 1) := by
  rw [Nat.choose_two_right, Nat.add_sub_cancel]
  rw [Nat.div_mul_cancel]
  · ring
  · rw [mul_comm]; exact (Nat.even_mul_succ_self n).two_dvd

theorem choose_two (n : ℕ) : n.choose 2 * 2 = n * (n - 1) := by
  rw [Nat.choose_two_right]
  exact Nat.div_mul_cancel (Nat.even_mul_pred_self _).two_dvd

theorem tdim_stack {κ m n 𝕜 : Type*} [Fintype κ] [Fintype m] [Fintype n] [RCLike 𝕜]
    {T : Matrix m n 𝕜 → Prop} (hT : IsSubspace T) :
    tdim (fun V : Stack κ m n 𝕜 => ∀ k, T (V k)) = Fintype.card κ * tdim T := by
  have h := tdim_pi (κ := κ) (E := fun _ => Matrix m n 𝕜) (T := fun _ => T) fun _ => hT
  rw [Finset.sum_const, Finset.card_univ, smul_eq_mul] at h
  exact h

theorem C100_symmetric (k n : ℕ) :
    tdim (SymStack (κ := Fin k) (n := Fin n) (𝕜 := ℝ)) = symDim k n := by
  rw [tdim_congr fun V => symStack_iff V, tdim_stack symm_subspace, tdim_symm, symDim,
    Fintype.card_fin, Fintype.card_fin, mul_assoc, ← two_choose, ← mul_assoc,
    Nat.mul_div_cancel _ two_pos]

theorem C100_skew (k n : ℕ) :
    tdim (SkewStack (κ := Fin k) (n := Fin n) (𝕜 := ℝ)) = skewDim k n := by
  rw [tdim_congr fun V => skewStack_iff V, tdim_stack skew_subspace, tdim_skew, skewDim,
    Fintype.card_fin, Fintype.card_fin, mul_assoc, ← choose_two, ← mul_assoc,
    Nat.mul_div_cancel _ two_pos]

/-! ### Spheres -/

theorem tdim_sphere {ι : Type*} [Fintype ι] {x : ι → ℝ} (hx : OnSphere x) :
    tdim (SphereTangent x) + 1 = Fintype.card ι := by
  have h := tdim_orth (tensordot_inner (ι := ι)) (T := SphereTangent x)
    (R := fun _ : ℝ => True) ⟨trivial, fun _ _ => trivial, fun _ _ _ => trivial⟩
    (LinearMap.toSpanSingleton ℝ (ι → ℝ) x) (fun v => ?_) (fun t _ ht => ?_)
  · rw [tdim_true, Module.finrank_self, Module.finrank_fintype_fun_eq_card] at h
    exact h
  · simp only [LinearMap.toSpanSingleton_apply, tensordot_inner.smul_left, forall_const]
    constructor
    · intro hv t
      have : tensordot x v = 0 := hv
      rw [this, mul_zero]
    · intro hv
      have := hv 1
      rw [one_mul] at this
      exact this
  · rw [LinearMap.toSpanSingleton_apply] at ht
    have h1 : tensordot (t • x) x = 0 := by rw [ht]; simp [tensordot]
    rw [tensordot_inner.smul_left, hx.dot, mul_one] at h1
    exact h1

theorem C100_sphere {ι : Type*} [Fintype ι] (x : ι → ℝ) (hx : OnSphere x) :
    (tdim (SphereTangent x) : ℤ) = sphereDim ι := by
  have := tdim_sphere hx
  rw [sphereDim]
  omega

/-- Spheres intersected with a subspace: `M` is the projector of either constructor, by
`C62_projectors_partial`. -/
theorem C100_sphere_subspace {ι : Type*} [Fintype ι] [DecidableEq ι] {S : (ι → ℝ) → Prop}
    {M : Matrix ι ι ℝ} (hS : IsSubspace S) (hM : IsOrthProj tensordot S M.mulVec) (x : ι → ℝ)
    (hx : OnSubspaceSphere S x) : (tdim (SubspaceTangent S x) : ℤ) = subspaceDim M := by
  have hrank : tdim S = M.rank := by
    have : hS.sub = LinearMap.range M.mulVecLin := by
      ext v
      rw [hS.mem_sub, LinearMap.mem_range]
      constructor
      · intro hv
        exact ⟨v, by rw [mulVecLin_apply, hM.fixes hv]⟩
      · rintro ⟨u, rfl⟩
        exact hM.mem u
    rw [tdim_eq hS, this, Matrix.rank]
  have hC : IsSubspace fun u : ι → ℝ => ∀ y, S y → tensordot y u = 0 :=
    ⟨fun y _ => by simp [tensordot],
      fun h1 h2 y hy => by rw [tensordot_inner.add_right, h1 y hy, h2 y hy, add_zero],
      fun c _ h y hy => by rw [tensordot_inner.smul_right, h y hy, mul_zero]⟩
  have h1 := tdim_orth (tensordot_inner (ι := ι))
    (T := fun u : ι → ℝ => ∀ y, S y → tensordot y u = 0) hS LinearMap.id (fun _ => Iff.rfl)
    (fun _ _ h => h)
  have hT1 : IsSubspace fun _ : ℝ => True :=
    ⟨trivial, fun _ _ => trivial, fun _ _ _ => trivial⟩
  have hR : IsSubspace fun p : (ι → ℝ) × ℝ =>
      (∀ y, S y → tensordot y p.1 = 0) ∧ True :=
    ⟨⟨hC.zero, trivial⟩, fun a b => ⟨hC.add a.1 b.1, trivial⟩, fun c _ a =>
      ⟨hC.smul c a.1, trivial⟩⟩
  have h2 := tdim_orth (tensordot_inner (ι := ι)) (T := SubspaceTangent S x) hR
    ((LinearMap.id).coprod (LinearMap.toSpanSingleton ℝ (ι → ℝ) x)) (fun v => ?_)
    (fun p hp h => ?_)
  · rw [tdim_prod hC hT1, tdim_true, Module.finrank_self] at h2
    rw [subspaceDim, ← hrank]
    omega
  · simp only [LinearMap.coprod_apply, LinearMap.id_apply, LinearMap.toSpanSingleton_apply]
    constructor
    · rintro ⟨hv, ht⟩ p hp
      have ht' : tensordot x v = 0 := ht
      rw [tensordot_inner.add_left, tensordot_inner.smul_left, ht', tensordot_inner.symm,
        hp.1 v hv, mul_zero, add_zero]
    · intro h
      refine ⟨?_, ?_⟩
      · have hmem : ∀ y, S y → tensordot y (v - M.mulVec v) = 0 := fun y hy => by
          rw [tensordot_inner.sub_right, ← hM.symm, hM.fixes hy, sub_self]
        have h3 := h (v - M.mulVec v, 0) ⟨hmem, trivial⟩
        rw [zero_smul, add_zero] at h3
        have h4 : tensordot (v - M.mulVec v) (v - M.mulVec v) = 0 := by
          rw [tensordot_inner.sub_right, h3, tensordot_inner.symm, hmem _ (hM.mem v), sub_zero]
        rw [sub_eq_zero.mp (tensordot_inner.definite _ h4)]
        exact hM.mem v
      · have h3 := h (0, 1) ⟨hC.zero, trivial⟩
        rw [one_smul, zero_add] at h3
        exact h3
  · simp only [LinearMap.coprod_apply, LinearMap.id_apply, LinearMap.toSpanSingleton_apply] at h
    have h3 : tensordot x (p.1 + p.2 • x) = 0 := by rw [h]; simp [tensordot]
    rw [tensordot_inner.add_right, hp.1 x hx.1, tensordot_inner.smul_right, hx.2.dot, mul_one,
      zero_add] at h3
    rw [h3, zero_smul, add_zero] at h
    exact Prod.ext h h3

theorem C100_oblique {m n : ℕ} (X : Matrix (Fin m) (Fin n) ℝ) (hX : OnOblique X) :
    (tdim (ObliqueTangent X) : ℤ) = oblDim m n := by
  have h1 := tdim_pi (κ := Fin n) (E := fun _ => Fin m → ℝ)
    (T := fun j => SphereTangent (colOf X j)) fun j => sphereTangent_subspace _
  have h2 : tdim (ObliqueTangent X) =
      tdim (fun V : Fin n → Fin m → ℝ => ∀ j, SphereTangent (colOf X j) (V j)) :=
    tdim_image (obliqueTangent_subspace X)
      ⟨fun j => (sphereTangent_subspace _).zero, fun a b j => (sphereTangent_subspace _).add (a j) (b j),
        fun c _ a j => (sphereTangent_subspace _).smul c (a j)⟩
      { toFun := fun V => (of V)ᵀ
        map_add' := fun _ _ => rfl
        map_smul' := fun _ _ => rfl }
      (fun v => ⟨fun hv => ⟨vᵀ, hv, rfl⟩, by rintro ⟨y, hy, rfl⟩; exact hy⟩)
      (fun y _ h => by
        funext j i
        exact congrFun (congrFun h i) j)
  rw [h2, h1, oblDim]
  push_cast
  have h3 : ∀ j, (tdim (SphereTangent (colOf X j)) : ℤ) = (m : ℤ) - 1 := fun j => by
    have := tdim_sphere (hX j)
    rw [Fintype.card_fin] at this
    omega
  rw [Finset.sum_congr rfl fun j _ => h3 j, Finset.sum_const, Finset.card_univ, Fintype.card_fin,
    nsmul_eq_mul, mul_comm]

theorem C100_complex_circle {n : ℕ} (z : Fin n → ℂ) (hz : OnCircles z) :
    tdim (CirclesTangent z) = ccDim n := by
  have : Module.finrank ℝ (Fin n → ℝ) = ccDim n := by
    rw [Module.finrank_fintype_fun_eq_card, Fintype.card_fin, ccDim]
  rw [← this]
  refine tdim_param (circlesTangent_subspace z)
    (fun v i => (z i).re * (v i).im - (z i).im * (v i).re)
    { toFun := fun t i => (⟨-(t i * (z i).im), t i * (z i).re⟩ : ℂ)
      map_add' := fun s t => by
        funext i
        apply Complex.ext <;> simp <;> ring
      map_smul' := fun c t => by
        funext i
        apply Complex.ext <;> simp <;> ring }
    (fun t i => ?_) (fun t => ?_) (fun v hv => ?_)
  · change (z i).re * (-(t i * (z i).im)) + (z i).im * (t i * (z i).re) = 0
    ring
  · funext i
    change (z i).re * (t i * (z i).re) - (z i).im * (-(t i * (z i).im)) = t i
    linear_combination t i * (norm_one_iff (z i)).mp (hz i)
  · funext i
    have h1 := hv i
    have h2 := (norm_one_iff (z i)).mp (hz i)
    apply Complex.ext
    · change -(((z i).re * (v i).im - (z i).im * (v i).re) * (z i).im) = (v i).re
      linear_combination -(z i).re * h1 + (v i).re * h2
    · change ((z i).re * (v i).im - (z i).im * (v i).re) * (z i).re = (v i).im
      linear_combination -(z i).im * h1 + (v i).im * h2

/-! ### Stiefel and Grassmann -/

theorem finrank_real_matrix (m n : ℕ) : Module.finrank ℝ (Matrix (Fin m) (Fin n) ℝ) = m * n := by
  rw [Module.finrank_matrix, Module.finrank_self, mul_one, Fintype.card_fin, Fintype.card_fin]

theorem finrank_complex_matrix (m n : ℕ) :
    Module.finrank ℝ (Matrix (Fin m) (Fin n) ℂ) = m * n * 2 := by
  rw [Module.finrank_matrix, Complex.finrank_real_complex, Fintype.card_fin, Fintype.card_fin]

/-- Left multiplication as a real-linear map. -/
def mulLeftLin {l m n 𝕜 : Type*} [Fintype m] [RCLike 𝕜] (X : Matrix l m 𝕜) :
    Matrix m n 𝕜 →ₗ[ℝ] Matrix l n 𝕜 where
  toFun S := X * S
  map_add' S T := Matrix.mul_add X S T
  map_smul' c S := Matrix.mul_smul X c S

theorem tdim_pi_const {κ m n 𝕜 : Type*} [Fintype κ] [Fintype m] [Fintype n] [RCLike 𝕜]
    {T : κ → Matrix m n 𝕜 → Prop} (hT : ∀ k, IsSubspace (T k)) {d : ℕ} (h : ∀ k, tdim (T k) = d) :
    tdim (fun V : Stack κ m n 𝕜 => ∀ k, T k (V k)) = Fintype.card κ * d := by
  have h1 := tdim_pi (κ := κ) (E := fun _ => Matrix m n 𝕜) (T := T) hT
  rw [Finset.sum_congr rfl fun k _ => h k, Finset.sum_const, Finset.card_univ, smul_eq_mul] at h1
  exact h1

theorem tdim_stiefel {n p : ℕ} {X : Matrix (Fin n) (Fin p) ℝ} (hX : Xᵀ * X = 1) :
    tdim (fun Z : Matrix (Fin n) (Fin p) ℝ => (Xᵀ * Z)ᵀ = -(Xᵀ * Z)) + (p + 1).choose 2 = n * p := by
  have h := tdim_orth (trDot_inner (m := Fin n) (n := Fin p) (𝕜 := ℝ))
    (T := fun Z : Matrix (Fin n) (Fin p) ℝ => (Xᵀ * Z)ᵀ = -(Xᵀ * Z)) symm_subspace
    (mulLeftLin X) (fun Z => ?_) (fun S _ hS => ?_)
  · rw [tdim_symm, finrank_real_matrix, Fintype.card_fin] at h
    exact h
  · rw [skew_iff_orth]
    refine forall_congr' fun S => imp_congr_right fun _ => ?_
    change _ ↔ trDot (X * S) Z = 0
    rw [trDot_mul_left, conjTranspose_eq_transpose_of_trivial]
  · have h1 : X * S = 0 := hS
    rw [← Matrix.one_mul S, ← hX, Matrix.mul_assoc, h1, Matrix.mul_zero]

theorem C100_stiefel {n p k : ℕ} (X : Stack (Fin k) (Fin n) (Fin p) ℝ) (hX : OnStiefel X) :
    (tdim (StiefelTangent X) : ℤ) = stDim n p k := by
  have hsub : ∀ κ, IsSubspace fun Z : Matrix (Fin n) (Fin p) ℝ =>
      ((X κ)ᵀ * Z)ᵀ = -((X κ)ᵀ * Z) := fun κ =>
    ⟨by rw [Matrix.mul_zero, transpose_zero, neg_zero],
      fun h1 h2 => by rw [Matrix.mul_add, transpose_add, h1, h2, neg_add],
      fun c _ h1 => by rw [Matrix.mul_smul, transpose_smul, h1, smul_neg]⟩
  have h1 := tdim_pi_const (T := fun κ Z => ((X κ)ᵀ * Z)ᵀ = -((X κ)ᵀ * Z)) hsub
    (d := n * p - (p + 1).choose 2) fun κ => by
      have := tdim_stiefel (onStiefel_iff.mp hX κ)
      omega
  have h2 : ∀ Z, StiefelTangent X Z ↔ ∀ κ, ((X κ)ᵀ * Z κ)ᵀ = -((X κ)ᵀ * Z κ) := fun Z => by
    refine forall_congr' fun κ => ⟨fun h => ?_, fun h i j => ?_⟩
    · ext i j
      have := h j i
      simp only [transpose_apply, mul_apply, Matrix.neg_apply]
      linarith
    · have := congrFun (congrFun h j) i
      simp only [transpose_apply, mul_apply, Matrix.neg_apply] at this
      linarith
  rw [tdim_congr h2, h1, stDim, Fintype.card_fin]
  rcases Nat.eq_zero_or_pos k with h0 | h0
  · simp [h0]
  · have h3 := tdim_stiefel (onStiefel_iff.mp hX ⟨0, h0⟩)
    have h4 : (p + 1).choose 2 ≤ n * p := h3 ▸ Nat.le_add_left _ _
    have h5 : ((p : ℤ) * (p + 1)) / 2 = ((p + 1).choose 2 : ℕ) := by
      have := two_choose p
      have h6 : (p : ℤ) * (p + 1) = ((p + 1).choose 2 : ℕ) * 2 := by exact_mod_cast this.symm
      rw [h6, Int.mul_ediv_cancel _ two_ne_zero]
    rw [h5]
    push_cast [Nat.cast_sub h4]
    ring

theorem tdim_horizontal {n p : ℕ} {𝕜 : Type*} [RCLike 𝕜] {X : Matrix (Fin n) (Fin p) 𝕜}
    (hX : Xᴴ * X = 1) :
    tdim (fun Z : Matrix (Fin n) (Fin p) 𝕜 => Xᴴ * Z = 0) +
      Module.finrank ℝ (Matrix (Fin p) (Fin p) 𝕜) = Module.finrank ℝ (Matrix (Fin n) (Fin p) 𝕜) := by
  have h := tdim_orth (trDot_inner (m := Fin n) (n := Fin p) (𝕜 := 𝕜))
    (T := fun Z : Matrix (Fin n) (Fin p) 𝕜 => Xᴴ * Z = 0)
    (R := fun _ : Matrix (Fin p) (Fin p) 𝕜 => True)
    ⟨trivial, fun _ _ => trivial, fun _ _ _ => trivial⟩ (mulLeftLin X) (fun Z => ?_)
    (fun S _ hS => ?_)
  · rw [tdim_true] at h
    exact h
  · simp only [forall_const]
    constructor
    · intro hZ S
      change trDot (X * S) Z = 0
      rw [trDot_mul_left, hZ, trDot_inner.symm]
      simp [trDot]
    · intro hZ
      have h1 : trDot (X * (Xᴴ * Z)) Z = 0 := hZ (Xᴴ * Z)
      rw [trDot_mul_left] at h1
      exact trDot_inner.definite _ h1
  · have h1 : X * S = 0 := hS
    rw [← Matrix.one_mul S, ← hX, Matrix.mul_assoc, h1, Matrix.mul_zero]

theorem tdim_grassmann {n p k : ℕ} {𝕜 : Type*} [RCLike 𝕜] {X : Stack (Fin k) (Fin n) (Fin p) 𝕜}
    (hX : ∀ κ, (X κ)ᴴ * X κ = 1) :
    tdim (GrHorizontal X) + k * Module.finrank ℝ (Matrix (Fin p) (Fin p) 𝕜) =
      k * Module.finrank ℝ (Matrix (Fin n) (Fin p) 𝕜) := by
  have hsub : ∀ κ, IsSubspace fun Z : Matrix (Fin n) (Fin p) 𝕜 => (X κ)ᴴ * Z = 0 := fun κ =>
    ⟨Matrix.mul_zero _, fun h1 h2 => by rw [Matrix.mul_add, h1, h2, add_zero],
      fun c _ h1 => by rw [Matrix.mul_smul, h1, smul_zero]⟩
  have h2 : ∀ Z, GrHorizontal X Z ↔ ∀ κ, (X κ)ᴴ * Z κ = 0 := fun Z => by
    refine forall_congr' fun κ => ⟨fun h => ?_, fun h i j => ?_⟩
    · ext i j
      exact h i j
    · exact congrFun (congrFun h i) j
  have h1 := tdim_pi_const (T := fun κ Z => (X κ)ᴴ * Z = 0) hsub
    (d := Module.finrank ℝ (Matrix (Fin n) (Fin p) 𝕜) -
      Module.finrank ℝ (Matrix (Fin p) (Fin p) 𝕜)) fun κ => by
      have := tdim_horizontal (hX κ)
      omega
  rw [tdim_congr h2, h1, Fintype.card_fin]
  rcases Nat.eq_zero_or_pos k with h0 | h0
  · simp [h0]
  · have h3 := tdim_horizontal (hX ⟨0, h0⟩)
    rw [← Nat.mul_add, Nat.sub_add_cancel (h3 ▸ Nat.le_add_left _ _)]

theorem C100_grassmann {n p k : ℕ} (X : Stack (Fin k) (Fin n) (Fin p) ℝ)
    (hX : Orthonormal' X) : (tdim (GrHorizontal X) : ℤ) = grDim n p k := by
  have h := tdim_grassmann (fun κ => orthonormal_iff.mp hX κ)
  rw [finrank_real_matrix, finrank_real_matrix] at h
  have h' : (tdim (GrHorizontal X) : ℤ) + k * (p * p) = k * (n * p) := by exact_mod_cast h
  rw [grDim]
  linear_combination h'

theorem C100_complex_grassmann {n p k : ℕ} (X : Stack (Fin k) (Fin n) (Fin p) ℂ)
    (hX : Orthonormal' X) : (tdim (GrHorizontal X) : ℤ) = cgrDim n p k := by
  have h := tdim_grassmann (fun κ => orthonormal_iff.mp hX κ)
  rw [finrank_complex_matrix, finrank_complex_matrix] at h
  have h' : (tdim (GrHorizontal X) : ℤ) + k * (p * p * 2) = k * (n * p * 2) := by exact_mod_cast h
  rw [cgrDim]
  linear_combination h'

/-! ### Positive definite matrices -/

theorem C100_spd (n k : ℕ) : tdim (SymStack (κ := Fin k) (n := Fin n) (𝕜 := ℝ)) = spdDim n k :=
  C100_symmetric k n

/-- The dimension of the space of Hermitian stacks. -/
theorem tdim_hermStack (n k : ℕ) :
    tdim (HermStack (κ := Fin k) (n := Fin n) (𝕜 := ℂ)) = k * n ^ 2 := by
  rw [tdim_congr fun V => hermStack_iff V, tdim_stack herm_subspace, tdim_herm,
    Fintype.card_fin, Fintype.card_fin]

/-- C100 fails for `HermitianPositiveDefinite`, for all sizes: the reported `k n (n + 1)` exceeds
the dimension of the tangent spaces, the Hermitian stacks, by `k n`. -/
theorem C100_hpd_negation (n k : ℕ) (hn : 0 < n) (hk : 0 < k) :
    tdim (HermStack (κ := Fin k) (n := Fin n) (𝕜 := ℂ)) + k * n = hpdDim n k ∧
    tdim (HermStack (κ := Fin k) (n := Fin n) (𝕜 := ℂ)) ≠ hpdDim n k := by
  rw [tdim_hermStack, hpdDim]
  refine ⟨by ring, ?_⟩
  have : 0 < k * n := Nat.mul_pos hk hn
  intro h
  have h2 : k * n * (n + 1) = k * n ^ 2 + k * n := by ring
  omega

theorem tdim_shpd {n : ℕ} (hn : 0 < n) {P : Matrix (Fin n) (Fin n) ℂ} (hP : P.PosDef) :
    tdim (fun Z : Matrix (Fin n) (Fin n) ℂ => Zᴴ = Z ∧ (P⁻¹ * Z).trace = 0) + 1 = n ^ 2 := by
  have hPi : (P⁻¹)ᴴ = P⁻¹ := hP.isHermitian.inv
  have hT1 : IsSubspace fun _ : ℝ => True :=
    ⟨trivial, fun _ _ => trivial, fun _ _ _ => trivial⟩
  have hR : IsSubspace fun p : Matrix (Fin n) (Fin n) ℂ × ℝ => p.1ᴴ = -p.1 ∧ True :=
    ⟨⟨skewherm_subspace.zero, trivial⟩, fun a b => ⟨skewherm_subspace.add a.1 b.1, trivial⟩,
      fun c _ a => ⟨skewherm_subspace.smul c a.1, trivial⟩⟩
  have h := tdim_orth (trDot_inner (m := Fin n) (n := Fin n) (𝕜 := ℂ))
    (T := fun Z : Matrix (Fin n) (Fin n) ℂ => Zᴴ = Z ∧ (P⁻¹ * Z).trace = 0) hR
    ((LinearMap.id).coprod (LinearMap.toSpanSingleton ℝ (Matrix (Fin n) (Fin n) ℂ) P⁻¹))
    (fun Z => ?_) (fun p hp h0 => ?_)
  · rw [tdim_prod skewherm_subspace hT1, tdim_skewherm, tdim_true, Module.finrank_self,
      finrank_complex_matrix, Fintype.card_fin, mul_two, ← sq] at h
    omega
  · simp only [LinearMap.coprod_apply, LinearMap.id_apply, LinearMap.toSpanSingleton_apply]
    have hdot : trDot P⁻¹ Z = ((P⁻¹ * Z).trace).re := by rw [trDot, hPi]; rfl
    constructor
    · rintro ⟨hZ, ht⟩ p hp
      rw [trDot_inner.add_left, trDot_inner.smul_left, hdot, ht, Complex.zero_re, mul_zero,
        add_zero]
      exact (herm_iff_orth Z).mp hZ _ hp.1
    · intro h
      have hZ : Zᴴ = Z := (herm_iff_orth Z).mpr fun S hS => by
        have := h (S, 0) ⟨hS, trivial⟩
        rwa [zero_smul, add_zero] at this
      refine ⟨hZ, ?_⟩
      have h1 := h (0, 1) ⟨skewherm_subspace.zero, trivial⟩
      rw [one_smul, zero_add, hdot] at h1
      have h2 : star (P⁻¹ * Z).trace = (P⁻¹ * Z).trace := by
        rw [← trace_conjTranspose, conjTranspose_mul, hPi, hZ, trace_mul_comm]
      exact Complex.ext h1 (Complex.conj_eq_iff_im.mp h2)
  · simp only [LinearMap.coprod_apply, LinearMap.id_apply, LinearMap.toSpanSingleton_apply] at h0
    have h1 : p.1 = -(p.2 • P⁻¹) := eq_neg_of_add_eq_zero_left h0
    have h2 : p.1ᴴ = p.1 := by
      rw [h1, conjTranspose_neg, conjTranspose_smul, hPi, star_trivial]
    have h3 : p.1 = 0 := by
      have h4 := trDot_herm_skew h2 hp.1
      exact trDot_inner.definite _ h4
    have h5 : p.2 • P⁻¹ = 0 := by rw [h3, zero_add] at h0; exact h0
    have h6 : p.2 = 0 := by
      have h7 : (p.2 • P⁻¹) * P = 0 := by rw [h5, Matrix.zero_mul]
      rw [Matrix.smul_mul, nonsing_inv_mul P ((isUnit_iff_isUnit_det P).mp hP.isUnit)] at h7
      have h8 := congrFun (congrFun h7 ⟨0, hn⟩) ⟨0, hn⟩
      simpa using h8
    exact Prod.ext h3 h6

/-- C100 fails for `SpecialHermitianPositiveDefinite`, at every point and for all sizes: the
reported `k n (n + 1) - k` exceeds the dimension of the tangent space, `k (n² - 1)`, by `k n`. -/
theorem C100_shpd_negation {n k : ℕ} (hn : 0 < n) (hk : 0 < k)
    (P : Stack (Fin k) (Fin n) (Fin n) ℂ) (hP : SHPDPoint P) :
    (tdim (SHPDTangent P) : ℤ) + k * n = shpdDim n k ∧
    (tdim (SHPDTangent P) : ℤ) ≠ shpdDim n k := by
  have hsub : ∀ κ, IsSubspace fun Z : Matrix (Fin n) (Fin n) ℂ =>
      Zᴴ = Z ∧ ((P κ)⁻¹ * Z).trace = 0 := fun κ =>
    ⟨⟨conjTranspose_zero, by simp⟩,
      fun h1 h2 => ⟨herm_subspace.add h1.1 h2.1, by
        rw [Matrix.mul_add, trace_add, h1.2, h2.2, add_zero]⟩,
      fun c _ h1 => ⟨herm_subspace.smul c h1.1, by
        rw [Matrix.mul_smul, trace_smul, h1.2, smul_zero]⟩⟩
  have h2 : ∀ Z, SHPDTangent P Z ↔ ∀ κ, (Z κ)ᴴ = Z κ ∧ ((P κ)⁻¹ * Z κ).trace = 0 := fun Z => by
    rw [SHPDTangent, hermStack_iff, ← forall_and]
  have h1 := tdim_pi_const (T := fun κ Z => Zᴴ = Z ∧ ((P κ)⁻¹ * Z).trace = 0) hsub
    (d := n ^ 2 - 1) fun κ => by
      have := tdim_shpd hn (hP.1 κ)
      omega
  rw [tdim_congr h2, h1, shpdDim, Fintype.card_fin]
  have h3 : 1 ≤ n ^ 2 := Nat.one_le_pow _ _ hn
  push_cast [Nat.cast_sub h3]
  have h4 : (0 : ℤ) < k * n := by exact_mod_cast Nat.mul_pos hk hn
  refine ⟨by ring, fun h => ?_⟩
  have h5 : (k : ℤ) * n = 0 := by linear_combination -h
  omega

/-! ### Positive semidefinite matrices of fixed rank -/

theorem tdim_psd {n k : ℕ} {𝕜 : Type*} [RCLike 𝕜] {Y : Matrix (Fin n) (Fin k) 𝕜}
    (hY : FullRank Y) :
    tdim (Horizontal Y) + tdim (fun Ω : Matrix (Fin k) (Fin k) 𝕜 => Ωᴴ = -Ω) =
      Module.finrank ℝ (Matrix (Fin n) (Fin k) 𝕜) := by
  refine tdim_orth (trDot_inner (m := Fin n) (n := Fin k) (𝕜 := 𝕜)) (T := Horizontal Y)
    ⟨by rw [conjTranspose_zero, neg_zero],
      fun h1 h2 => by rw [conjTranspose_add, h1, h2, neg_add],
      fun c _ h => by rw [conjTranspose_smul, h, star_trivial, smul_neg]⟩
    (mulLeftLin Y) (fun Z => ?_) (fun Ω _ hΩ => ?_)
  · refine forall_congr' fun Ω => imp_congr_right fun _ => ?_
    change _ ↔ trDot (Y * Ω) Z = 0
    rw [trDot_inner.symm]
  · ext i j
    have h1 : Y * Ω = 0 := hΩ
    have h2 := hY (fun i => Ω i j) (by
      funext l
      exact congrFun (congrFun h1 l) j)
    exact congrFun h2 i

theorem half_choose (k : ℕ) : (k : ℤ) * (k - 1) / 2 = (k.choose 2 : ℕ) := by
  have := choose_two k
  have h6 : (k : ℤ) * (k - 1) = (k.choose 2 : ℕ) * 2 := by
    rcases Nat.eq_zero_or_pos k with h | h
    · simp [h]
    · have h2 : ((k - 1 : ℕ) : ℤ) = (k : ℤ) - 1 := by omega
      rw [← h2]
      exact_mod_cast this.symm
  rw [h6, Int.mul_ediv_cancel _ two_ne_zero]

theorem C100_psd {n k : ℕ} (Y : Matrix (Fin n) (Fin k) ℝ) (hY : FullRank Y) :
    (tdim (Horizontal Y) : ℤ) = psdDim n k := by
  have h := tdim_psd hY
  simp only [conjTranspose_eq_transpose_of_trivial] at h
  rw [tdim_skew, finrank_real_matrix, Fintype.card_fin] at h
  have h' : (tdim (Horizontal Y) : ℤ) + (k.choose 2 : ℕ) = n * k := by exact_mod_cast h
  rw [psdDim, half_choose]
  linear_combination h'

theorem C100_psd_complex {n k : ℕ} (Y : Matrix (Fin n) (Fin k) ℂ) (hY : FullRank Y) :
    (tdim (Horizontal Y) : ℤ) = psdComplexDim n k := by
  have h := tdim_psd hY
  rw [tdim_skewherm, finrank_complex_matrix, Fintype.card_fin] at h
  have h' : (tdim (Horizontal Y) : ℤ) + (k : ℤ) ^ 2 = n * k * 2 := by exact_mod_cast h
  rw [psdComplexDim]
  linear_combination h'

/-- At a point of full rank with unit rows, the directions `Y Ω` and the changes of the lengths of
the rows are independent. -/
theorem ell_independent {n k : ℕ} {Y : Matrix (Fin n) (Fin k) ℝ} (hY : FullRank Y)
    (hu : UnitRows Y) {Ω : Matrix (Fin k) (Fin k) ℝ} {d : Fin n → ℝ} (hΩ : Ωᵀ = -Ω)
    (h0 : Y * Ω + diagonal d * Y = 0) : Ω = 0 ∧ d = 0 := by
  have h1 : Y * Ω = -(diagonal d * Y) := eq_neg_of_add_eq_zero_left h0
  have hs : (Yᵀ * (Y * Ω))ᵀ = Yᵀ * (Y * Ω) := by
    rw [h1, Matrix.mul_neg, transpose_neg, transpose_mul, transpose_mul, diagonal_transpose,
      transpose_transpose, Matrix.mul_assoc]
  have hlyap : IsLyapunov (Yᴴ * Y) 0 Ω := by
    have h2 : (Yᴴ * Y)ᴴ = Yᴴ * Y := by rw [conjTranspose_mul, conjTranspose_conjTranspose]
    rw [IsLyapunov, h2, conjTranspose_eq_transpose_of_trivial]
    have h3 : (Yᵀ * (Y * Ω))ᵀ = -(Ω * (Yᵀ * Y)) := by
      rw [← Matrix.mul_assoc, transpose_mul, hΩ, transpose_mul, transpose_transpose, Matrix.neg_mul]
    rw [Matrix.mul_assoc, ← hs, h3, neg_add_cancel]
  have hz : Ω = 0 := lyapunov_unique hY.posDef hlyap (by
    rw [IsLyapunov, Matrix.mul_zero, Matrix.zero_mul, add_zero])
  refine ⟨hz, ?_⟩
  rw [hz, Matrix.mul_zero, zero_add] at h0
  funext i
  have h3 : ∑ j, d i ^ 2 * Y i j ^ 2 = 0 := Finset.sum_eq_zero fun j _ => by
    have h4 := congrFun (congrFun h0 i) j
    rw [diagonal_mul, Matrix.zero_apply] at h4
    rw [← mul_pow, h4]; ring
  have h5 : ∑ j, Y i j ^ 2 = 1 := hu i
  rw [← Finset.mul_sum, h5, mul_one] at h3
  exact pow_eq_zero_iff two_ne_zero |>.mp h3

theorem C100_elliptope {n k : ℕ} (Y : Matrix (Fin n) (Fin k) ℝ) (hY : FullRank Y)
    (hu : UnitRows Y) : (tdim (EllTangent Y) : ℤ) = ellDim n k := by
  have hT1 : IsSubspace fun _ : Fin n → ℝ => True :=
    ⟨trivial, fun _ _ => trivial, fun _ _ _ => trivial⟩
  have hR : IsSubspace fun p : Matrix (Fin k) (Fin k) ℝ × (Fin n → ℝ) => p.1ᵀ = -p.1 ∧ True :=
    ⟨⟨skew_subspace.zero, trivial⟩, fun a b => ⟨skew_subspace.add a.1 b.1, trivial⟩,
      fun c _ a => ⟨skew_subspace.smul c a.1, trivial⟩⟩
  obtain ⟨D, hD⟩ : ∃ D : (Fin n → ℝ) →ₗ[ℝ] Matrix (Fin n) (Fin k) ℝ, ∀ d, D d = diagonal d * Y :=
    ⟨{ toFun := fun d => diagonal d * Y
       map_add' := fun a b => by
         have : diagonal (a + b) = diagonal a + diagonal b := (diagonal_add a b).symm
         rw [this, Matrix.add_mul]
       map_smul' := fun c a => by
         rw [diagonal_smul, Matrix.smul_mul]; rfl }, fun _ => rfl⟩
  have hrow : ∀ (d : Fin n → ℝ) (V : Matrix (Fin n) (Fin k) ℝ),
      trDot (diagonal d * Y) V = ∑ i, d i * ∑ j, Y i j * V i j := fun d V => by
    rw [trDot_eq_sum]
    refine Finset.sum_congr rfl fun i _ => ?_
    rw [Finset.mul_sum]
    refine Finset.sum_congr rfl fun j _ => ?_
    simp [diagonal_mul, mul_assoc]
  have h := tdim_orth (trDot_inner (m := Fin n) (n := Fin k) (𝕜 := ℝ)) (T := EllTangent Y) hR
    ((mulLeftLin Y).coprod D) (fun V => ?_) (fun p hp h0 => ?_)
  · rw [tdim_prod skew_subspace hT1, tdim_skew, tdim_true, Module.finrank_fintype_fun_eq_card,
      finrank_real_matrix, Fintype.card_fin, Fintype.card_fin] at h
    have h' : (tdim (EllTangent Y) : ℤ) + ((k.choose 2 : ℕ) + n) = n * k := by exact_mod_cast h
    rw [ellDim, half_choose]
    linear_combination h'
  · simp only [LinearMap.coprod_apply]
    constructor
    · rintro ⟨hr, hh⟩ p hp
      rw [trDot_inner.add_left]
      have h1 : trDot (mulLeftLin Y p.1) V = 0 := by
        rw [trDot_inner.symm]
        exact hh p.1 (by rw [conjTranspose_eq_transpose_of_trivial]; exact hp.1)
      have h2 : trDot (D p.2) V = 0 := by
        rw [hD, hrow]
        refine Finset.sum_eq_zero fun i _ => ?_
        have : ∑ j, Y i j * V i j = 0 := hr i
        rw [this, mul_zero]
      rw [h1, h2, add_zero]
    · intro h
      refine ⟨fun i => ?_, fun Ω hΩ => ?_⟩
      · have h1 := h (0, Pi.single i 1) ⟨skew_subspace.zero, trivial⟩
        rw [map_zero, zero_add] at h1
        rw [hD, hrow] at h1
        dsimp only at h1
        rw [Finset.sum_eq_single i] at h1
        · rw [Pi.single_eq_same, one_mul] at h1
          exact h1
        · intro j _ hj
          rw [Pi.single_eq_of_ne hj, zero_mul]
        · exact fun hi => absurd (Finset.mem_univ i) hi
      · have h1 := h (Ω, 0) ⟨by rw [← conjTranspose_eq_transpose_of_trivial]; exact hΩ, trivial⟩
        rw [map_zero, add_zero] at h1
        rw [trDot_inner.symm]
        exact h1
  · simp only [LinearMap.coprod_apply] at h0
    rw [hD] at h0
    obtain ⟨h1, h2⟩ := ell_independent hY hu hp.1 h0
    exact Prod.ext h1 h2

/-! ### Fixed-rank matrices -/

theorem C100_fixed_rank {m n k : ℕ} (X : FRPoint (Fin m) (Fin n) k) (hX : FRValid X) :
    (tdim (IsFrTangent X) : ℤ) = frDim m n k := by
  have hs1 : IsSubspace fun Z : Matrix (Fin m) (Fin k) ℝ => X.1ᵀ * Z = 0 :=
    ⟨Matrix.mul_zero _, fun h1 h2 => by rw [Matrix.mul_add, h1, h2, add_zero],
      fun c _ h1 => by rw [Matrix.mul_smul, h1, smul_zero]⟩
  have hs3 : IsSubspace fun Z : Matrix (Fin n) (Fin k) ℝ => X.2.2 * Z = 0 :=
    ⟨Matrix.mul_zero _, fun h1 h2 => by rw [Matrix.mul_add, h1, h2, add_zero],
      fun c _ h1 => by rw [Matrix.mul_smul, h1, smul_zero]⟩
  have hs2 : IsSubspace fun _ : Matrix (Fin k) (Fin k) ℝ => True :=
    ⟨trivial, fun _ _ => trivial, fun _ _ _ => trivial⟩
  have hs23 : IsSubspace fun Z : Matrix (Fin k) (Fin k) ℝ × Matrix (Fin n) (Fin k) ℝ =>
      True ∧ X.2.2 * Z.2 = 0 :=
    ⟨⟨trivial, hs3.zero⟩, fun a b => ⟨trivial, hs3.add a.2 b.2⟩,
      fun c _ a => ⟨trivial, hs3.smul c a.2⟩⟩
  have hc : ∀ Z, IsFrTangent X Z ↔ X.1ᵀ * Z.1 = 0 ∧ True ∧ X.2.2 * Z.2.2 = 0 := fun Z =>
    ⟨fun h => ⟨h.left, trivial, h.right⟩, fun h => ⟨h.1, h.2.2⟩⟩
  have h := tdim_prod hs1 hs23
  rw [tdim_prod hs2 hs3, tdim_true, finrank_real_matrix] at h
  have h1 := tdim_horizontal (𝕜 := ℝ) (X := X.1)
    (by rw [conjTranspose_eq_transpose_of_trivial]; exact hX.u)
  have h3 := tdim_horizontal (𝕜 := ℝ) (X := X.2.2ᵀ)
    (by rw [conjTranspose_eq_transpose_of_trivial, transpose_transpose]; exact hX.v)
  simp only [conjTranspose_eq_transpose_of_trivial, transpose_transpose, finrank_real_matrix]
    at h1 h3
  rw [tdim_congr hc, h, frDim]
  zify at h1 h3
  push_cast
  linear_combination h1 + h3

/-! ### Groups -/

theorem C100_special_orthogonal (n k : ℕ) :
    (tdim (InLie (κ := Fin k) (n := Fin n) (𝕜 := ℝ)) : ℤ) = soDim n k := by
  have h1 := tdim_stack (κ := Fin k) (skew_subspace (n := Fin n))
  have h2 : ∀ V : Stack (Fin k) (Fin n) (Fin n) ℝ, InLie V ↔ ∀ κ, (V κ)ᵀ = -V κ := fun V => by
    simp only [InLie, conjTranspose_eq_transpose_of_trivial]
  rw [tdim_congr h2, h1, tdim_skew, soDim, Fintype.card_fin, Fintype.card_fin]
  push_cast
  rfl

theorem C100_unitary (n k : ℕ) :
    (tdim (InLie (κ := Fin k) (n := Fin n) (𝕜 := ℂ)) : ℤ) = unDim n k := by
  have h1 := tdim_stack (κ := Fin k) (skewherm_subspace (n := Fin n))
  have h2 : ∀ V : Stack (Fin k) (Fin n) (Fin n) ℂ, InLie V ↔ ∀ κ, (V κ)ᴴ = -V κ := fun V => Iff.rfl
  rw [tdim_congr h2, h1, tdim_skewherm, unDim, Fintype.card_fin, Fintype.card_fin]
  push_cast
  rfl

/-! ### Products -/

/-- Products: the tuples of tangent vectors have the sum of the dimensions. -/
theorem C100_product {κ : Type*} [Fintype κ] {E : κ → Type*} [∀ k, AddCommGroup (E k)]
    [∀ k, Module ℝ (E k)] [∀ k, FiniteDimensional ℝ (E k)] {T : ∀ k, E k → Prop}
    (hT : ∀ k, IsSubspace (T k)) (d : κ → ℕ) (hd : ∀ k, tdim (T k) = d k) :
    tdim (fun V : ∀ k, E k => ∀ k, T k (V k)) = ∑ k, d k := by
  rw [tdim_pi hT]
  exact Finset.sum_congr rfl fun k _ => hd k

/-! ### The hypotheses are satisfiable -/

example : OnSphere (![3 / 5, 4 / 5] : Fin 2 → ℝ) := by
  norm_num [OnSphere, Fin.sum_univ_two]

/-- A rank-one point of the elliptope of 2 × 2 correlation matrices. -/
example : FullRank (!![1; -1] : Matrix (Fin 2) (Fin 1) ℝ) ∧ UnitRows !![(1 : ℝ); -1] := by
  refine ⟨fun y hy => ?_, fun i => ?_⟩
  · have := congrFun hy 0
    funext i
    fin_cases i
    simpa [mulVec, dotProduct] using this
  · fin_cases i <;> simp [OnSphere]

example : OnCircles (![1, Complex.I] : Fin 2 → ℂ) := by
  intro i
  fin_cases i <;> simp

/-- A stack of two points of the Stiefel manifold of 2 × 1 matrices. -/
example : OnStiefel (fun _ : Fin 2 => (!![3 / 5; 4 / 5] : Matrix (Fin 2) (Fin 1) ℝ)) := by
  intro _ i j
  fin_cases i; fin_cases j
  norm_num [Fin.sum_univ_two]

example : FRValid ((!![1; 0], ![2], !![3 / 5, 4 / 5]) : FRPoint (Fin 2) (Fin 2) 1) := by
  refine ⟨?_, ?_, ?_⟩
  · ext i j
    fin_cases i; fin_cases j
    simp [Matrix.mul_apply]
  · intro i
    fin_cases i
    simp
  · ext i j
    fin_cases i; fin_cases j
    norm_num [Matrix.mul_apply, Fin.sum_univ_two]

example : SHPDPoint (fun _ : Fin 2 => (1 : Matrix (Fin 2) (Fin 2) ℂ)) :=
  ⟨fun _ => PosDef.one, fun _ => det_one⟩

end Verif.Geo
