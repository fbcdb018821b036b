/-
C134 on the Stiefel manifold, the special orthogonal group and positive definite matrices.
-/
import Verif.Geo.Props.Equivariance

namespace Verif.Geo
open Matrix Verif.Opt
open scoped ComplexOrder Topology

variable {κ n : Type*} {𝕜 : Type*} [RCLike 𝕜]

section lemmas
variable {p : Type*} [Fintype p]

/-- The symmetric part of a congruent matrix. -/
theorem symPart_congr (C M : Matrix p p ℝ) : symPart (Cᴴ * M * C) = Cᴴ * symPart M * C := by
  simp only [symPart, conjTranspose_eq_transpose_of_trivial, transpose_mul, transpose_transpose,
    Matrix.mul_smul, Matrix.smul_mul, Matrix.mul_add, Matrix.add_mul, Matrix.mul_assoc]

theorem skewPart_congr (C M : Matrix p p 𝕜) : skewPart (Cᴴ * M * C) = Cᴴ * skewPart M * C := by
  simp only [skewPart, conjTranspose_mul, conjTranspose_conjTranspose, Matrix.mul_smul,
    Matrix.smul_mul, Matrix.mul_sub, Matrix.sub_mul, Matrix.mul_assoc]

theorem hermPart_congr (C M : Matrix p p 𝕜) : hermPart (Cᴴ * M * C) = Cᴴ * hermPart M * C := by
  simp only [hermPart, conjTranspose_mul, conjTranspose_conjTranspose, Matrix.mul_smul,
    Matrix.smul_mul, Matrix.mul_add, Matrix.add_mul, Matrix.mul_assoc]

end lemmas

/-! ## Stiefel -/

section stiefel
variable {p : ℕ} [Fintype n] [DecidableEq n]
  {A : Stack κ n n ℝ} {C : Stack κ (Fin p) (Fin p) ℝ}

theorem stProj_translate (h : Unitary2 A C) (X V : Stack κ n (Fin p) ℝ) :
    stProj (twoSided A C X) (twoSided A C V) = twoSided A C (stProj X V) := by
  have e : ∀ X V : Stack κ n (Fin p) ℝ, stProj X V = V - fun k => X k * symPart ((X k)ᴴ * V k) := by
    intro X V; funext k
    rw [stProj_apply, Pi.sub_apply, conjTranspose_eq_transpose_of_trivial]
  rw [e, e, map_sub]
  congr 1
  funext k
  rw [h.gram, symPart_congr, h.mul]; rfl

theorem stWeingarten_translate (h : Unitary2 A C) (X Z N : Stack κ n (Fin p) ℝ) :
    stWeingarten (twoSided A C X) (twoSided A C Z) (twoSided A C N) =
      twoSided A C (stWeingarten X Z N) := by
  have e : ∀ X Z N : Stack κ n (Fin p) ℝ, stWeingarten X Z N =
      -(fun k => Z k * ((X k)ᴴ * N k)) - fun k => X k * symPart ((Z k)ᴴ * N k) := by
    intro X Z N; funext k
    change -Z k * (X k)ᵀ * N k - X k * ((1 / 2 : ℝ) • ((Z k)ᵀ * N k + ((Z k)ᵀ * N k)ᵀ)) =
      -(Z k * ((X k)ᴴ * N k)) - X k * symPart ((Z k)ᴴ * N k)
    rw [conjTranspose_eq_transpose_of_trivial, conjTranspose_eq_transpose_of_trivial,
      Matrix.neg_mul, Matrix.neg_mul, Matrix.mul_assoc, symPart]
  rw [e, e, map_sub, map_neg]
  congr 1
  · congr 1
    funext k
    rw [h.gram, h.mul]; rfl
  · funext k
    rw [h.gram, symPart_congr, h.mul]; rfl

theorem stOn_translate (h : Unitary2 A C) {X : Stack κ n (Fin p) ℝ} (hX : OnStiefel X) :
    OnStiefel (twoSided A C X) := by
  rw [onStiefel_iff] at hX ⊢
  intro k
  have := h.gram X X k
  rw [conjTranspose_eq_transpose_of_trivial, conjTranspose_eq_transpose_of_trivial (X k), hX,
    Matrix.mul_one, h.right] at this
  exact this

theorem stTan_translate (h : Unitary2 A C) {X V : Stack κ n (Fin p) ℝ} (hV : StiefelTangent X V) :
    StiefelTangent (twoSided A C X) (twoSided A C V) := by
  rw [stiefelTangent_iff] at hV ⊢
  intro k
  have h1 := h.gram X V k
  have h2 := h.gram V X k
  rw [conjTranspose_eq_transpose_of_trivial, conjTranspose_eq_transpose_of_trivial (V k)] at h2
  rw [conjTranspose_eq_transpose_of_trivial, conjTranspose_eq_transpose_of_trivial (X k)] at h1
  rw [h1, h2, hV, Matrix.mul_neg, Matrix.neg_mul]

omit [DecidableEq n] in
theorem stArg_translate (A : Stack κ n n ℝ) (C : Stack κ (Fin p) (Fin p) ℝ)
    (X V : Stack κ n (Fin p) ℝ) (k : κ) :
    stRetractArg (twoSided A C X) (twoSided A C V) k = A k * stRetractArg X V k * C k :=
  (congrFun (map_add (twoSided A C) X V) k).symm

/-- A function that returns results of `_retraction_polar`. -/
def StPolar (retraction : Stack κ n (Fin p) ℝ → Stack κ n (Fin p) ℝ → Stack κ n (Fin p) ℝ) : Prop :=
  ∀ X V, ∃ u, ∃ s : κ → Fin p → ℝ, ∃ vt, (∀ k, IsSVD (stRetractArg X V k) (u k) (s k) (vt k)) ∧
    retraction X V = stRetractPolar u vt

/-- A function that returns results of `_retraction_qr`. -/
def StQR (retraction : Stack κ n (Fin p) ℝ → Stack κ n (Fin p) ℝ → Stack κ n (Fin p) ℝ) : Prop :=
  ∀ X V, ∃ q r, (∀ k, IsQR (stRetractArg X V k) (q k) (r k)) ∧ retraction X V = stRetractQR q r

theorem stPolar_translate (h : Unitary2 A C)
    {retraction retraction' : Stack κ n (Fin p) ℝ → Stack κ n (Fin p) ℝ → Stack κ n (Fin p) ℝ}
    (hr : StPolar retraction) (hr' : StPolar retraction') {X V : Stack κ n (Fin p) ℝ}
    (hX : OnStiefel X) (hV : StiefelTangent X V) :
    retraction' (twoSided A C X) (twoSided A C V) = twoSided A C (retraction X V) := by
  obtain ⟨u, s, vt, hs, e⟩ := hr X V
  obtain ⟨u', s', vt', hs', e'⟩ := hr' (twoSided A C X) (twoSided A C V)
  rw [e, e']
  funext k
  have h2 := hs' k
  exact polar_translate (h.left k) (h.right k) (hs k) (stArg_translate A C X V k ▸ h2)
    (svd_pos (hs k) (stRetractArg_gram hX hV k))
    (svd_pos h2 (stRetractArg_gram (stOn_translate h hX) (stTan_translate h hV) k))

theorem stQR_translate (h : Unitary2 A C) (hC : ∀ k, C k = 1)
    {retraction retraction' : Stack κ n (Fin p) ℝ → Stack κ n (Fin p) ℝ → Stack κ n (Fin p) ℝ}
    (hr : StQR retraction) (hr' : StQR retraction') {X V : Stack κ n (Fin p) ℝ}
    (hX : OnStiefel X) (hV : StiefelTangent X V) :
    retraction' (twoSided A C X) (twoSided A C V) =
      twoSided A C (retraction X V) := by
  obtain ⟨q, r, hs, e⟩ := hr X V
  obtain ⟨q', r', hs', e'⟩ := hr' (twoSided A C X) (twoSided A C V)
  rw [e, e']
  funext k
  obtain ⟨R, hR, hpos⟩ := (C67_qr_factor hX hV hs k).1
  refine ((C67_qr_factor (stOn_translate h hX) (stTan_translate h hV) hs' k).2 _ R ?_
    fun i => (hpos i).le).symm
  refine ⟨?_, ?_, hR.upper⟩
  · have := h.gram (stRetractQR q r) (stRetractQR q r) k
    rw [this, hR.orth, hC]; simp
  · have e : twoSided A C X k + twoSided A C V k = A k * (X k + V k) := by
      simp only [twoSided_apply, hC, Matrix.mul_one, Matrix.mul_add]
    rw [e, ← hR.prod, twoSided_apply, hC, Matrix.mul_one, Matrix.mul_assoc]

/-- **C134** (Stiefel): rotations of the ambient space are symmetries, with either retraction; with
the polar retraction so are rotations among the columns. -/
theorem C134_stiefel [Fintype κ] (h : Unitary2 A C) (dim : ℤ)
    {retraction retraction' log log' pairMean pairMean' :
      Stack κ n (Fin p) ℝ → Stack κ n (Fin p) ℝ → Stack κ n (Fin p) ℝ}
    (hr : StPolar retraction ∧ StPolar retraction' ∨
      StQR retraction ∧ StQR retraction' ∧ ∀ k, C k = 1) :
    Symmetry stackDot OnStiefel StiefelTangent (stiefelMfd dim retraction log pairMean)
      (stiefelMfd dim retraction' log' pairMean') stE2rg stE2rg stE2rh stE2rh (fun _ v => v)
      (fun _ v => v) (twoSided A C) (twoSided A C) (twoSided A C) (twoSided A C) := by
  refine symmetry_of (twoSided A C) h.affine (fun _ _ _ _ => rfl) (fun X V _ _ => h.norm V)
    (fun X V W _ _ _ => by rw [stInner_eq, stInner_eq, h.dot])
    (fun X V hX hV => ?_)
    (fun X Y V _ _ _ => stProj_translate h Y V) (fun X _ => (map_zero _).symm)
    (fun X V _ _ => stProj_translate h X V) (fun X G _ => stProj_translate h X G)
    fun X G H V _ _ => ?_
  · rcases hr with ⟨ha, hb⟩ | ⟨ha, hb, hC⟩
    · exact stPolar_translate h ha hb hX hV
    · exact stQR_translate h hC ha hb hX hV
  rw [stE2rh, stE2rh, subE2rh, subE2rh, stProj_translate h, stProj_translate h,
    ← map_sub, stWeingarten_translate h, map_add]

end stiefel

/-! ## Special orthogonal group -/

section group
variable {p : ℕ} {A C : Stack κ (Fin p) (Fin p) ℝ}

/-- The translation of tangent vectors, which are skew-symmetric matrices. -/
noncomputable def lieMap (C : Stack κ (Fin p) (Fin p) ℝ) :
    Stack κ (Fin p) (Fin p) ℝ →ₗ[ℝ] Stack κ (Fin p) (Fin p) ℝ := twoSided (fun k => (C k)ᴴ) C

theorem Unitary2.lie (h : Unitary2 A C) : Unitary2 (fun k => (C k)ᴴ) C :=
  ⟨fun k => by rw [conjTranspose_conjTranspose]; exact h.right' k, h.right⟩

theorem gEmbed_translate (h : Unitary2 A C) (X V : Stack κ (Fin p) (Fin p) ℝ) :
    gEmbed (twoSided A C X) (lieMap C V) = twoSided A C (gEmbed X V) :=
  funext fun k => h.mul X (V k) k

theorem gE2rg_translate (h : Unitary2 A C) (X G : Stack κ (Fin p) (Fin p) ℝ) :
    gE2rg (twoSided A C X) (twoSided A C G) = lieMap C (gE2rg X G) := by
  have e : ∀ X G : Stack κ (Fin p) (Fin p) ℝ, gE2rg X G = fun k => skewPart ((X k)ᴴ * G k) := by
    intro X G; funext k
    rfl
  rw [e, e]
  funext k
  rw [h.gram, skewPart_congr]; rfl

theorem gTan_translate {C : Stack κ (Fin p) (Fin p) ℝ} {V : Stack κ (Fin p) (Fin p) ℝ} (hV : InLie V) :
    InLie (lieMap C V) := by
  intro k
  change ((C k)ᴴ * V k * C k)ᴴ = -((C k)ᴴ * V k * C k)
  rw [conjTranspose_mul, conjTranspose_mul, conjTranspose_conjTranspose, hV k]
  simp [Matrix.mul_assoc]

theorem gOn_translate (h : Unitary2 A C) {X : Stack κ (Fin p) (Fin p) ℝ} (hX : OnUnitary X) :
    OnUnitary (twoSided A C X) := by
  intro k
  rw [h.gram, hX k, Matrix.mul_one, h.right]

theorem gArg_translate (h : Unitary2 A C) (X V : Stack κ (Fin p) (Fin p) ℝ) (k : κ) :
    gRetractArg (twoSided A C X) (lieMap C V) k = A k * gRetractArg X V k * C k := by
  have := congrFun (gEmbed_translate h X V) k
  change twoSided A C X k + gEmbed (twoSided A C X) (lieMap C V) k = A k * (X k + X k * V k) * C k
  rw [this, twoSided_apply, twoSided_apply, Matrix.mul_add, Matrix.add_mul]; rfl

/-- A function that returns results of `_retraction_polar`. -/
def GPolar (retraction : Stack κ (Fin p) (Fin p) ℝ → Stack κ (Fin p) (Fin p) ℝ →
    Stack κ (Fin p) (Fin p) ℝ) : Prop :=
  ∀ X V, ∃ u, ∃ s : κ → Fin p → ℝ, ∃ vt, (∀ k, IsSVD (gRetractArg X V k) (u k) (s k) (vt k)) ∧
    retraction X V = gRetractPolar u vt

/-- A function that returns results of `_retraction_qr`. -/
def GQR (retraction : Stack κ (Fin p) (Fin p) ℝ → Stack κ (Fin p) (Fin p) ℝ →
    Stack κ (Fin p) (Fin p) ℝ) : Prop :=
  ∀ X V, ∃ q r, (∀ k, IsQR (gRetractArg X V k) (q k) (r k)) ∧ retraction X V = gRetractQR q r

theorem gPolar_translate (h : Unitary2 A C)
    {retraction retraction' : Stack κ (Fin p) (Fin p) ℝ → Stack κ (Fin p) (Fin p) ℝ →
      Stack κ (Fin p) (Fin p) ℝ}
    (hr : GPolar retraction) (hr' : GPolar retraction') {X V : Stack κ (Fin p) (Fin p) ℝ}
    (hX : OnUnitary X) (hV : InLie V) :
    retraction' (twoSided A C X) (lieMap C V) = twoSided A C (retraction X V) := by
  obtain ⟨u, s, vt, hs, e⟩ := hr X V
  obtain ⟨u', s', vt', hs', e'⟩ := hr' (twoSided A C X) (lieMap C V)
  rw [e, e']
  funext k
  have h2 := hs' k
  exact polar_translate (h.left k) (h.right k) (hs k) (gArg_translate h X V k ▸ h2)
    (svd_pos (hs k) (gRetractArg_gram hX hV k))
    (svd_pos h2 (gRetractArg_gram (gOn_translate h hX) (gTan_translate hV) k))

theorem gQR_translate (h : Unitary2 A C) (hC : ∀ k, C k = 1)
    {retraction retraction' : Stack κ (Fin p) (Fin p) ℝ → Stack κ (Fin p) (Fin p) ℝ →
      Stack κ (Fin p) (Fin p) ℝ}
    (hr : GQR retraction) (hr' : GQR retraction') {X V : Stack κ (Fin p) (Fin p) ℝ}
    (hX : OnUnitary X) (hV : InLie V) :
    retraction' (twoSided A C X) (lieMap C V) =
      twoSided A C (retraction X V) := by
  obtain ⟨q, r, hs, e⟩ := hr X V
  obtain ⟨q', r', hs', e'⟩ := hr' (twoSided A C X) (lieMap C V)
  rw [e, e']
  funext k
  have hf := C51_factorisation le_rfl (hs k)
  have hf' := C51_factorisation le_rfl (hs' k)
  have hcol : ∀ y, gRetractArg (twoSided A C X) (lieMap C V) k *ᵥ y = 0 → y = 0 :=
    fun y => gram_injective (gRetractArg_gram (gOn_translate h hX) (gTan_translate hV) k)
  refine ((C51_unique hcol ?_ hf'.1 hf.2 hf'.2).1).symm
  refine ⟨?_, ?_, hf.1.upper⟩
  · have := h.gram (gRetractQR q r) (gRetractQR q r) k
    rw [this]
    have ho : (gRetractQR q r k)ᴴ * gRetractQR q r k = 1 := hf.1.orth
    rw [ho, hC]; simp
  · rw [gArg_translate h, ← hf.1.prod, twoSided_apply]
    simp only [hC, Matrix.mul_one, Matrix.mul_assoc]; rfl

/-- **C134** (special orthogonal group): translations of the group `X ↦ A X` are symmetries, with
either retraction; with the polar retraction so are `X ↦ A X C`.  The tangent vectors,
skew-symmetric matrices, become `Cᵀ V C`. -/
theorem C134_special_orthogonal [Fintype κ] (h : Unitary2 A C) (dim : ℤ)
    {retraction retraction' log log' pairMean pairMean' :
      Stack κ (Fin p) (Fin p) ℝ → Stack κ (Fin p) (Fin p) ℝ → Stack κ (Fin p) (Fin p) ℝ}
    (hr : GPolar retraction ∧ GPolar retraction' ∨
      GQR retraction ∧ GQR retraction' ∧ ∀ k, C k = 1) :
    Symmetry stackDot OnSO (fun _ => InLie) (specialOrthogonalMfd dim retraction log pairMean)
      (specialOrthogonalMfd dim retraction' log' pairMean') gE2rg gE2rg gE2rh gE2rh gEmbed gEmbed
      (twoSided A C) (twoSided A C) (lieMap C) (twoSided A C) := by
  refine symmetry_of (lieMap C) h.affine (fun X V _ _ => gEmbed_translate h X V)
    (fun X V _ _ => h.lie.norm V) (fun X V W _ _ _ => h.lie.dot V W)
    (fun X V hX hV => ?_) (fun X Y V _ _ _ => rfl) (fun X _ => (map_zero _).symm)
    (fun X V _ _ => funext fun k => ?_) (fun X G _ => gE2rg_translate h X G) fun X G H V _ _ => ?_
  · rcases hr with ⟨ha, hb⟩ | ⟨ha, hb, hC⟩
    · exact gPolar_translate h ha hb hX.1 hV
    · exact gQR_translate h hC ha hb hX.1 hV
  · exact skewPart_congr (C k) (V k)
  have e : ∀ X G H V : Stack κ (Fin p) (Fin p) ℝ, gE2rh X G H V = fun k =>
      skewPart ((X k)ᴴ * H k - V k * hermPart ((X k)ᴴ * G k)) := fun _ _ _ _ => rfl
  rw [e, e]
  funext k
  have e2 : lieMap C V k * ((C k)ᴴ * hermPart ((X k)ᴴ * G k) * C k) =
      (C k)ᴴ * (V k * hermPart ((X k)ᴴ * G k)) * C k := h.lie.mul V _ k
  rw [h.gram, h.gram, hermPart_congr, e2, ← Matrix.sub_mul, ← Matrix.mul_sub, skewPart_congr]
  rfl

end group

/-! ## Positive definite matrices -/

section pd
variable [Fintype n] [DecidableEq n] {A : Stack κ n n 𝕜}

/-- `P ↦ A P Aᴴ`. -/
def congrMap (A : Stack κ n n 𝕜) : Stack κ n n 𝕜 →ₗ[ℝ] Stack κ n n 𝕜 :=
  twoSided A fun k => (A k)ᴴ

/-- Gradients change by the inverse of the adjoint. -/
noncomputable def cogradMap (A : Stack κ n n 𝕜) : Stack κ n n 𝕜 →ₗ[ℝ] Stack κ n n 𝕜 :=
  twoSided (fun k => ((A k)⁻¹)ᴴ) fun k => (A k)⁻¹

variable (hA : ∀ k, IsUnit (A k))
include hA

theorem inv_mul_of (k : κ) : (A k)⁻¹ * A k = 1 :=
  Matrix.nonsing_inv_mul _ ((Matrix.isUnit_iff_isUnit_det _).1 (hA k))
theorem mul_inv_of (k : κ) : A k * (A k)⁻¹ = 1 := mul_eq_one_comm.mp (inv_mul_of hA k)
theorem invH_mul_of (k : κ) : ((A k)⁻¹)ᴴ * (A k)ᴴ = 1 := by
  rw [← conjTranspose_mul, mul_inv_of hA, conjTranspose_one]
theorem mul_invH_of (k : κ) : (A k)ᴴ * ((A k)⁻¹)ᴴ = 1 := mul_eq_one_comm.mp (invH_mul_of hA k)

/-- A point times a gradient. -/
theorem congr_mul_cograd (P G : Stack κ n n 𝕜) (k : κ) :
    congrMap A P k * cogradMap A G k = A k * (P k * G k) * (A k)⁻¹ := by
  change A k * P k * (A k)ᴴ * (((A k)⁻¹)ᴴ * G k * (A k)⁻¹) = _
  calc A k * P k * (A k)ᴴ * (((A k)⁻¹)ᴴ * G k * (A k)⁻¹)
      = A k * P k * ((A k)ᴴ * ((A k)⁻¹)ᴴ) * G k * (A k)⁻¹ := by simp only [Matrix.mul_assoc]
    _ = _ := by rw [mul_invH_of hA, Matrix.mul_one]; simp only [Matrix.mul_assoc]

theorem conj_mul_congr (M : Matrix n n 𝕜) (V : Stack κ n n 𝕜) (k : κ) :
    A k * M * (A k)⁻¹ * congrMap A V k = A k * (M * V k) * (A k)ᴴ := by
  change A k * M * (A k)⁻¹ * (A k * V k * (A k)ᴴ) = _
  calc A k * M * (A k)⁻¹ * (A k * V k * (A k)ᴴ)
      = A k * M * ((A k)⁻¹ * A k) * V k * (A k)ᴴ := by simp only [Matrix.mul_assoc]
    _ = _ := by rw [inv_mul_of hA, Matrix.mul_one]; simp only [Matrix.mul_assoc]

theorem congr_surj : Function.Surjective (congrMap A) := by
  intro Y
  refine ⟨fun k => (A k)⁻¹ * Y k * ((A k)⁻¹)ᴴ, funext fun k => ?_⟩
  change A k * ((A k)⁻¹ * Y k * ((A k)⁻¹)ᴴ) * (A k)ᴴ = Y k
  calc A k * ((A k)⁻¹ * Y k * ((A k)⁻¹)ᴴ) * (A k)ᴴ
      = A k * (A k)⁻¹ * Y k * (((A k)⁻¹)ᴴ * (A k)ᴴ) := by simp only [Matrix.mul_assoc]
    _ = _ := by rw [mul_inv_of hA, invH_mul_of hA, Matrix.one_mul, Matrix.mul_one]

theorem congr_affine [Fintype κ] :
    AffineMap' (E := Stack κ n n 𝕜) stackDot (congrMap A) (congrMap A) (cogradMap A) where
  line x d t := by rw [map_add, map_smul]
  surj := congr_surj hA
  adj G V := by
    rw [stackDot_eq, stackDot_eq]
    refine Finset.sum_congr rfl fun k _ => ?_
    change trDot (((A k)⁻¹)ᴴ * G k * (A k)⁻¹) (A k * V k * (A k)ᴴ) = _
    rw [trDot_mul_right, trDot_mul_left, conjTranspose_conjTranspose]
    congr 1
    calc (A k)⁻¹ * (A k * V k * (A k)ᴴ * ((A k)⁻¹)ᴴ)
        = (A k)⁻¹ * A k * V k * ((A k)ᴴ * ((A k)⁻¹)ᴴ) := by simp only [Matrix.mul_assoc]
      _ = _ := by rw [inv_mul_of hA, mul_invH_of hA, Matrix.one_mul, Matrix.mul_one]

omit hA in
theorem congr_inv (P : Stack κ n n 𝕜) (k : κ) :
    (congrMap A P k)⁻¹ = ((A k)⁻¹)ᴴ * ((P k)⁻¹ * (A k)⁻¹) := by
  change (A k * P k * (A k)ᴴ)⁻¹ = _
  rw [Matrix.mul_inv_rev, Matrix.mul_inv_rev, conjTranspose_nonsing_inv]

/-- `solve` of translated matrices. -/
theorem congr_solve (P V : Stack κ n n 𝕜) (k : κ) :
    multisolve (congrMap A P) (congrMap A V) k =
      ((A k)⁻¹)ᴴ * multisolve P V k * (A k)ᴴ := by
  change (congrMap A P k)⁻¹ * (A k * V k * (A k)ᴴ) = ((A k)⁻¹)ᴴ * ((P k)⁻¹ * V k) * (A k)ᴴ
  rw [congr_inv]
  calc ((A k)⁻¹)ᴴ * ((P k)⁻¹ * (A k)⁻¹) * (A k * V k * (A k)ᴴ)
      = ((A k)⁻¹)ᴴ * ((P k)⁻¹ * ((A k)⁻¹ * A k) * V k) * (A k)ᴴ := by simp only [Matrix.mul_assoc]
    _ = _ := by rw [inv_mul_of hA, Matrix.mul_one]

theorem pdInner_translate [Fintype κ] (P V W : Stack κ n n 𝕜) :
    pdInner (congrMap A P) (congrMap A V) (congrMap A W) = pdInner P V W := by
  rw [pdInner_eq, pdInner_eq]
  refine Finset.sum_congr rfl fun k _ => ?_
  have e : ∀ Z, (congrMap A P k)⁻¹ * congrMap A Z k = ((A k)⁻¹)ᴴ * ((P k)⁻¹ * Z k) * (A k)ᴴ :=
    fun Z => congr_solve hA P Z k
  rw [e, e]
  have e2 : ∀ M N : Matrix n n 𝕜, (((A k)⁻¹)ᴴ * M * (A k)ᴴ * (((A k)⁻¹)ᴴ * N * (A k)ᴴ)).trace =
      (M * N).trace := by
    intro M N
    have : ((A k)⁻¹)ᴴ * M * (A k)ᴴ * (((A k)⁻¹)ᴴ * N * (A k)ᴴ) =
        ((A k)⁻¹)ᴴ * (M * ((A k)ᴴ * ((A k)⁻¹)ᴴ) * N) * (A k)ᴴ := by simp only [Matrix.mul_assoc]
    rw [this, mul_invH_of hA, Matrix.mul_one, Matrix.trace_mul_comm, ← Matrix.mul_assoc,
      mul_invH_of hA, Matrix.one_mul]
  rw [e2]

omit hA [DecidableEq n] in
theorem herm_translate (B V : Stack κ n n 𝕜) :
    multiherm (twoSided B (fun k => (B k)ᴴ) V) = twoSided B (fun k => (B k)ᴴ) (multiherm V) := by
  funext k
  have := hermPart_congr ((B k)ᴴ) (V k)
  rw [conjTranspose_conjTranspose] at this
  exact this

omit hA in
theorem cograd_herm (G : Stack κ n n 𝕜) :
    multiherm (cogradMap A G) = cogradMap A (multiherm G) := by
  have := herm_translate (fun k => ((A k)⁻¹)ᴴ) G
  simp only [conjTranspose_conjTranspose] at this
  exact this

theorem pdRetract_translate (P V : Stack κ n n 𝕜) :
    pdRetract (congrMap A P) (congrMap A V) = congrMap A (pdRetract P V) := by
  rw [pdRetract, pdRetract]
  have e : multiprod (congrMap A V) (multisolve (congrMap A P) (congrMap A V)) =
      congrMap A (multiprod V (multisolve P V)) := by
    funext k
    change congrMap A V k * multisolve (congrMap A P) (congrMap A V) k = _
    rw [congr_solve hA]
    change A k * V k * (A k)ᴴ * (((A k)⁻¹)ᴴ * multisolve P V k * (A k)ᴴ) =
      A k * (V k * multisolve P V k) * (A k)ᴴ
    calc A k * V k * (A k)ᴴ * (((A k)⁻¹)ᴴ * multisolve P V k * (A k)ᴴ)
        = A k * V k * ((A k)ᴴ * ((A k)⁻¹)ᴴ) * multisolve P V k * (A k)ᴴ := by
          simp only [Matrix.mul_assoc]
      _ = _ := by rw [mul_invH_of hA, Matrix.mul_one]; simp only [Matrix.mul_assoc]
  rw [e, ← map_add, ← map_smul, ← map_add]
  exact herm_translate A _

theorem pdE2rg_translate (P G : Stack κ n n 𝕜) :
    pdE2rg (congrMap A P) (cogradMap A G) = congrMap A (pdE2rg P G) := by
  rw [pdE2rg, pdE2rg, pdProj, pdProj]
  have e : multiprod (multiprod (congrMap A P) (cogradMap A G)) (congrMap A P) =
      congrMap A (multiprod (multiprod P G) P) := by
    funext k
    change congrMap A P k * cogradMap A G k * congrMap A P k = A k * (P k * G k * P k) * (A k)ᴴ
    rw [congr_mul_cograd hA, conj_mul_congr hA]
  rw [e]
  exact herm_translate A _

theorem pdE2rh_translate (P G H V : Stack κ n n 𝕜) :
    pdE2rh (congrMap A P) (cogradMap A G) (cogradMap A H) (congrMap A V) =
      congrMap A (pdE2rh P G H V) := by
  rw [pdE2rh, pdE2rh, map_add, cograd_herm, cograd_herm]
  congr 1
  · funext k
    change congrMap A P k * cogradMap A (multiherm H) k * congrMap A P k =
      A k * (P k * multiherm H k * P k) * (A k)ᴴ
    rw [congr_mul_cograd hA, conj_mul_congr hA]
  · have e : multiprod (multiprod (congrMap A V) (cogradMap A (multiherm G))) (congrMap A P) =
        congrMap A (multiprod (multiprod V (multiherm G)) P) := by
      funext k
      change congrMap A V k * cogradMap A (multiherm G) k * congrMap A P k =
        A k * (V k * multiherm G k * P k) * (A k)ᴴ
      rw [congr_mul_cograd hA, conj_mul_congr hA]
    rw [e]
    exact herm_translate A _

theorem pdExp_translate (P V : Stack κ n n 𝕜) :
    pdExp (congrMap A P) (congrMap A V) = congrMap A (pdExp P V) := by
  funext k
  rw [pdExp_apply, ← multisolve, congr_solve hA]
  have hu : IsUnit ((A k)ᴴ) := by
    rw [Matrix.isUnit_iff_isUnit_det, det_conjTranspose]
    exact ((Matrix.isUnit_iff_isUnit_det _).1 (hA k)).star
  have hi : ((A k)⁻¹)ᴴ = ((A k)ᴴ)⁻¹ := conjTranspose_nonsing_inv (A k)
  rw [hi, Matrix.exp_conj' _ _ hu, ← hi]
  change A k * P k * (A k)ᴴ * (((A k)⁻¹)ᴴ * NormedSpace.exp (multisolve P V k) * (A k)ᴴ) =
    A k * (pdExp P V k) * (A k)ᴴ
  rw [pdExp_apply]
  calc A k * P k * (A k)ᴴ * (((A k)⁻¹)ᴴ * NormedSpace.exp (multisolve P V k) * (A k)ᴴ)
      = A k * P k * ((A k)ᴴ * ((A k)⁻¹)ᴴ) * NormedSpace.exp (multisolve P V k) * (A k)ᴴ := by
        simp only [Matrix.mul_assoc]
    _ = _ := by rw [mul_invH_of hA, Matrix.mul_one]; simp only [Matrix.mul_assoc]; rfl

theorem pdOn_translate {P : Stack κ n n 𝕜} (hP : PDPoint P) : PDPoint (congrMap A P) := fun k => by
  have hu : IsUnit ((A k)ᴴ) := by
    rw [Matrix.isUnit_iff_isUnit_det, det_conjTranspose]
    exact ((Matrix.isUnit_iff_isUnit_det _).1 (hA k)).star
  have := (Matrix.IsUnit.posDef_star_left_conjugate_iff hu (x := P k)).2 (hP k)
  rwa [star_eq_conjTranspose, conjTranspose_conjTranspose] at this

/-- **C134** (symmetric and Hermitian positive definite matrices): every change of basis
`P ↦ A P Aᴴ`, `A` invertible, is a symmetry. -/
theorem C134_positive_definite [Fintype κ] (dim : ℤ)
    (log log' pairMean pairMean' : Stack κ n n 𝕜 → Stack κ n n 𝕜 → Stack κ n n 𝕜) :
    Symmetry stackDot PDPoint (fun _ => HermStack) (positiveDefiniteMfd dim log pairMean)
      (positiveDefiniteMfd dim log' pairMean') pdE2rg pdE2rg pdE2rh pdE2rh (fun _ v => v)
      (fun _ v => v) (congrMap A) (congrMap A) (congrMap A) (cogradMap A) :=
  symmetry_of (congrMap A) (congr_affine hA) (fun _ _ _ _ => rfl)
    (fun P V _ _ => by rw [pdNorm, pdInner_translate hA]; rfl)
    (fun P V W _ _ _ => pdInner_translate hA P V W)
    (fun P V _ _ => pdRetract_translate hA P V) (fun _ _ _ _ _ _ => rfl)
    (fun _ _ => (map_zero _).symm) (fun _ V _ _ => herm_translate A V)
    (fun P G _ => pdE2rg_translate hA P G) fun P G H V _ _ => pdE2rh_translate hA P G H V

end pd

/-- **C134** (positive definite matrices): the logarithm translates too, so that particle swarms
and centroids do. -/
theorem C134_positive_definite_log {n : ℕ} [Fintype κ] {A : Stack κ (Fin n) (Fin n) 𝕜}
    (hA : ∀ k, IsUnit (A k)) (dim : ℤ)
    {log log' : Stack κ (Fin n) (Fin n) 𝕜 → Stack κ (Fin n) (Fin n) 𝕜 → Stack κ (Fin n) (Fin n) 𝕜}
    (pairMean pairMean' : Stack κ (Fin n) (Fin n) 𝕜 → Stack κ (Fin n) (Fin n) 𝕜 →
      Stack κ (Fin n) (Fin n) 𝕜)
    (hl : ∀ P Q, PDPoint P → PDPoint Q → IsPdLog P Q (log P Q))
    (hl' : ∀ P Q, PDPoint P → PDPoint Q → IsPdLog P Q (log' P Q)) :
    TranslatesLog (congrMap A) (fun _ V => congrMap A V) PDPoint (fun _ => HermStack)
      (positiveDefiniteMfd dim log pairMean) (positiveDefiniteMfd dim log' pairMean') where
  closed := fun P Q hP hQ => (C82_exp_log hQ (hl P Q hP hQ)).1
  log := fun P Q hP hQ => by
    have h1 := C82_exp_log hQ (hl P Q hP hQ)
    have h2 := hl' _ _ (pdOn_translate hA hP) (pdOn_translate hA hQ)
    refine C82_log_exp (A := congrMap A P) (V := congrMap A (log P Q)) ?_ ?_
    · have := herm_translate A (log P Q)
      have e := (multiherm_mem (congrMap A (log P Q)))
      have e2 : multiherm (log P Q) = log P Q := multiherm_of_herm h1.1
      rw [e2] at this
      rw [← show multiherm (congrMap A (log P Q)) = congrMap A (log P Q) from this]
      exact e
    · rw [pdExp_translate hA, h1.2]
      exact h2

end Verif.Geo
