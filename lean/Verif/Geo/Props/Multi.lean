/-
C50, C51, C52: the stacked matrix tools.
-/
import Verif.Geo.Lemmas.Spectral
import Mathlib.Analysis.Normed.Algebra.MatrixExponential
import Mathlib.Analysis.SpecialFunctions.Exponential
import Mathlib.Analysis.SpecialFunctions.Log.Basic
import Mathlib.LinearAlgebra.Matrix.Block
import Mathlib.LinearAlgebra.Matrix.PosDef
import Mathlib.LinearAlgebra.Matrix.NonsingularInverse

namespace Verif.Geo
open scoped BigOperators ComplexOrder
open Matrix

variable {κ m n p : Type*} {𝕜 : Type*} [RCLike 𝕜]

/-! ### C50 -/

omit [RCLike 𝕜] in
theorem multitransp_apply (A : Stack κ m n 𝕜) (k : κ) : multitransp A k = (A k)ᵀ := rfl

theorem multihconj_apply (A : Stack κ m n 𝕜) (k : κ) : multihconj A k = (A k)ᴴ := rfl

/-- C50: the stacked transposes act matrix by matrix, are involutions and reverse products. -/
theorem C50_transpose [Fintype n] (A : Stack κ m n 𝕜) (B : Stack κ n p 𝕜) :
    (∀ k i j, multitransp A k j i = A k i j) ∧ (∀ k i j, multihconj A k j i = star (A k i j)) ∧
      multitransp (multitransp A) = A ∧ multihconj (multihconj A) = A ∧
      multitransp (multiprod A B) = multiprod (multitransp B) (multitransp A) ∧
      multihconj (multiprod A B) = multiprod (multihconj B) (multihconj A) := by
  refine ⟨fun _ _ _ => rfl, fun _ _ _ => rfl, rfl, ?_, ?_, ?_⟩
  · funext k; exact conjTranspose_conjTranspose (A k)
  · funext k; exact transpose_mul (A k) (B k)
  · funext k; exact conjTranspose_mul (A k) (B k)

/-- Stacks of symmetric, Hermitian, skew-symmetric and skew-Hermitian matrices. -/
def SymStack (A : Stack κ n n 𝕜) : Prop := ∀ k i j, A k j i = A k i j
/-- Hermitian stacks. -/
def HermStack (A : Stack κ n n 𝕜) : Prop := ∀ k i j, A k j i = star (A k i j)
/-- Skew-symmetric stacks. -/
def SkewStack (A : Stack κ n n 𝕜) : Prop := ∀ k i j, A k j i = -A k i j
/-- Skew-Hermitian stacks. -/
def SkewHermStack (A : Stack κ n n 𝕜) : Prop := ∀ k i j, A k j i = -star (A k i j)

omit [RCLike 𝕜] in
theorem symStack_iff (A : Stack κ n n 𝕜) : SymStack A ↔ ∀ k, (A k)ᵀ = A k :=
  ⟨fun h k => by ext i j; exact h k i j, fun h k i j => congrFun (congrFun (h k) i) j⟩
theorem hermStack_iff (A : Stack κ n n 𝕜) : HermStack A ↔ ∀ k, (A k)ᴴ = A k :=
  ⟨fun h k => by ext i j; exact (h k j i).symm, fun h k i j => (congrFun (congrFun (h k) j) i).symm⟩
theorem skewStack_iff (A : Stack κ n n 𝕜) : SkewStack A ↔ ∀ k, (A k)ᵀ = -A k :=
  ⟨fun h k => by ext i j; exact h k i j, fun h k i j => congrFun (congrFun (h k) i) j⟩
theorem skewHermStack_iff (A : Stack κ n n 𝕜) : SkewHermStack A ↔ ∀ k, (A k)ᴴ = -A k := by
  constructor
  · intro h k
    ext i j
    have := h k j i
    rw [neg_apply, this, neg_neg]; rfl
  · intro h k i j
    have := congrFun (congrFun (h k) j) i
    rw [neg_apply, conjTranspose_apply] at this
    rw [this, neg_neg]

theorem symStack_subspace : IsSubspace (E := Stack κ n n 𝕜) SymStack where
  zero _ _ _ := rfl
  add hu hv k i j := congrArg₂ (· + ·) (hu k i j) (hv k i j)
  smul c _ hu k i j := congrArg (c • ·) (hu k i j)

theorem skewStack_subspace : IsSubspace (E := Stack κ n n 𝕜) SkewStack where
  zero _ _ _ := by simp
  add {u v} hu hv k i j := by
    change u k j i + v k j i = -(u k i j + v k i j)
    rw [hu k i j, hv k i j]; ring
  smul c u hu k i j := by
    change c • u k j i = -(c • u k i j)
    rw [hu k i j, smul_neg]

theorem hermStack_subspace : IsSubspace (E := Stack κ n n 𝕜) HermStack where
  zero _ _ _ := by simp
  add {u v} hu hv k i j := by
    change u k j i + v k j i = star (u k i j + v k i j)
    rw [hu k i j, hv k i j, star_add]
  smul c u hu k i j := by
    change c • u k j i = star (c • u k i j)
    rw [hu k i j, star_smul]; rfl

theorem skewHermStack_subspace : IsSubspace (E := Stack κ n n 𝕜) SkewHermStack where
  zero _ _ _ := by simp
  add {u v} hu hv k i j := by
    change u k j i + v k j i = -star (u k i j + v k i j)
    rw [hu k i j, hv k i j, star_add]; ring
  smul c u hu k i j := by
    change c • u k j i = -star (c • u k i j)
    rw [hu k i j, star_smul, smul_neg]; rfl

theorem multisym_mem (A : Stack κ n n 𝕜) : SymStack (multisym A) := fun k i j => by
  simp [multisym, multitransp, add_comm]

theorem multiskew_mem (A : Stack κ n n 𝕜) : SkewStack (multiskew A) := fun k i j => by
  simp only [multiskew, multitransp, Pi.smul_apply, Pi.sub_apply, Matrix.smul_apply,
    Matrix.sub_apply, of_apply]
  rw [← smul_neg, neg_sub]

theorem multiherm_mem (A : Stack κ n n 𝕜) : HermStack (multiherm A) := fun k i j => by
  simp only [multiherm, multihconj, multitransp, Pi.smul_apply, Pi.add_apply, Matrix.smul_apply,
    Matrix.add_apply, of_apply, map_apply, star_smul, star_add, star_star, star_trivial]
  rw [add_comm]

theorem multiskewh_mem (A : Stack κ n n 𝕜) : SkewHermStack (multiskewh A) := fun k i j => by
  simp only [multiskewh, multihconj, multitransp, Pi.smul_apply, Pi.sub_apply, Matrix.smul_apply,
    Matrix.sub_apply, of_apply, map_apply, star_smul, star_sub, star_star, star_trivial]
  rw [← smul_neg, neg_sub]

/-- C50: symmetric and skew parts add up to the matrix. -/
theorem C50_complementary (A : Stack κ n n 𝕜) :
    multisym A + multiskew A = A ∧ multiherm A + multiskewh A = A := by
  constructor
  · simp only [multisym, multiskew]; module
  · simp only [multiherm, multiskewh]; module

section
variable [Fintype κ] [Fintype n]

theorem stackDot_sym_skew {A B : Stack κ n n 𝕜} (hA : SymStack A) (hB : SkewStack B) :
    stackDot A B = 0 := by
  rw [stackDot_eq]
  exact Finset.sum_eq_zero fun k _ =>
    trDot_symm_skew ((symStack_iff A).mp hA k) ((skewStack_iff B).mp hB k)

theorem stackDot_herm_skewh {A B : Stack κ n n 𝕜} (hA : HermStack A) (hB : SkewHermStack B) :
    stackDot A B = 0 := by
  rw [stackDot_eq]
  exact Finset.sum_eq_zero fun k _ =>
    trDot_herm_skew ((hermStack_iff A).mp hA k) ((skewHermStack_iff B).mp hB k)

/-- C50: each of the four maps is the orthogonal projection onto its space, for the real inner
product of all entries. -/
theorem C50_projections :
    IsOrthProj (E := Stack κ n n 𝕜) stackDot SymStack multisym ∧
      IsOrthProj (E := Stack κ n n 𝕜) stackDot SkewStack multiskew ∧
      IsOrthProj (E := Stack κ n n 𝕜) stackDot HermStack multiherm ∧
      IsOrthProj (E := Stack κ n n 𝕜) stackDot SkewHermStack multiskewh := by
  refine ⟨(stackDot_inner (κ := κ) (m := n) (n := n) (𝕜 := 𝕜)).orthProj symStack_subspace multisym_mem ?_,
    (stackDot_inner (κ := κ) (m := n) (n := n) (𝕜 := 𝕜)).orthProj skewStack_subspace multiskew_mem ?_,
    (stackDot_inner (κ := κ) (m := n) (n := n) (𝕜 := 𝕜)).orthProj hermStack_subspace multiherm_mem ?_,
    (stackDot_inner (κ := κ) (m := n) (n := n) (𝕜 := 𝕜)).orthProj skewHermStack_subspace multiskewh_mem ?_⟩
  · intro v w hw
    rw [sub_eq_of_eq_add' (C50_complementary v).1.symm, stackDot_comm]
    exact stackDot_sym_skew hw (multiskew_mem v)
  · intro v w hw
    rw [sub_eq_of_eq_add (C50_complementary v).1.symm]
    exact stackDot_sym_skew (multisym_mem v) hw
  · intro v w hw
    rw [sub_eq_of_eq_add' (C50_complementary v).2.symm, stackDot_comm]
    exact stackDot_herm_skewh hw (multiskewh_mem v)
  · intro v w hw
    rw [sub_eq_of_eq_add (C50_complementary v).2.symm]
    exact stackDot_herm_skewh (multiherm_mem v) hw

/-- C50: the complementary parts are orthogonal to each other. -/
theorem C50_orthogonal (A B : Stack κ n n 𝕜) :
    stackDot (multisym A) (multiskew B) = 0 ∧ stackDot (multiherm A) (multiskewh B) = 0 :=
  ⟨stackDot_sym_skew (multisym_mem A) (multiskew_mem B),
    stackDot_herm_skewh (multiherm_mem A) (multiskewh_mem B)⟩

end

/-! ### C51 -/

section QR
variable [Fintype m] {k n : ℕ} {A : Matrix m (Fin n) 𝕜} {q : Matrix m (Fin k) 𝕜}
  {r : Matrix (Fin k) (Fin n) 𝕜}

theorem qrPhase_star_mul (hk : k ≤ n) (r : Matrix (Fin k) (Fin n) 𝕜) (i : Fin k) :
    star (qrPhase hk r i) * qrPhase hk r i = 1 := by
  simp only [qrPhase]
  split_ifs with h
  · simp
  · have hn : ((‖r i (Fin.castLE hk i)‖ : ℝ) : 𝕜) ≠ 0 := by simpa using h
    rw [RCLike.star_def, map_div₀, RCLike.conj_ofReal, div_mul_div_comm, RCLike.conj_mul, ← sq,
      div_self (pow_ne_zero 2 hn)]

theorem mul_star_qrPhase (hk : k ≤ n) (r : Matrix (Fin k) (Fin n) 𝕜) (i : Fin k) :
    r i (Fin.castLE hk i) * star (qrPhase hk r i) = ((‖r i (Fin.castLE hk i)‖ : ℝ) : 𝕜) := by
  simp only [qrPhase]
  split_ifs with h
  · simp [h]
  · have hn : ((‖r i (Fin.castLE hk i)‖ : ℝ) : 𝕜) ≠ 0 := by simpa using h
    rw [RCLike.star_def, map_div₀, RCLike.conj_ofReal, ← mul_div_assoc, RCLike.mul_conj, sq,
      mul_div_assoc, div_self hn, mul_one]

omit [Fintype m] in
theorem multiqr_fst (hk : k ≤ n) : (multiqr hk q r).1 = q * diagonal (qrPhase hk r) := by
  ext i j; simp [multiqr, mul_diagonal]

omit [Fintype m] in
theorem multiqr_snd (hk : k ≤ n) :
    (multiqr hk q r).2 = diagonal (fun i => star (qrPhase hk r i)) * r := by
  ext i j; simp [multiqr, diagonal_mul, mul_comm]

/-- C51: whatever QR factorisation is returned, `multiqr` returns orthonormal columns and an upper
triangular factor with real non-negative diagonal whose product is the matrix. -/
theorem C51_factorisation (hk : k ≤ n) (h : IsQR A q r) :
    IsQR A (multiqr hk q r).1 (multiqr hk q r).2 ∧
      ∀ i, ∃ d : ℝ, 0 ≤ d ∧ (multiqr hk q r).2 i (Fin.castLE hk i) = (d : 𝕜) := by
  have hs : diagonal (qrPhase hk r) * diagonal (fun i => star (qrPhase hk r i)) = 1 := by
    rw [diagonal_mul_diagonal, ← diagonal_one]
    congr 1; funext i
    rw [mul_comm, qrPhase_star_mul]
  have hs' : diagonal (fun i => star (qrPhase hk r i)) * diagonal (qrPhase hk r) = 1 := by
    rw [diagonal_mul_diagonal, ← diagonal_one]
    congr 1; funext i
    rw [qrPhase_star_mul]
  refine ⟨⟨?_, ?_, ?_⟩, ?_⟩
  · rw [multiqr_fst, conjTranspose_mul, diagonal_conjTranspose, Matrix.mul_assoc,
      ← Matrix.mul_assoc _ q, h.orth, Matrix.one_mul]
    exact hs'
  · rw [multiqr_fst, multiqr_snd, Matrix.mul_assoc, ← Matrix.mul_assoc _ _ r, hs, Matrix.one_mul,
      h.prod]
  · intro i j hij
    simp [multiqr, h.upper i j hij]
  · intro i
    exact ⟨‖r i (Fin.castLE hk i)‖, norm_nonneg _, mul_star_qrPhase hk r i⟩

/-- C51: for a matrix with linearly independent columns there is only one such factorisation. -/
theorem C51_unique {A : Matrix m (Fin n) 𝕜} (hA : ∀ y, A *ᵥ y = 0 → y = 0)
    {q₁ q₂ : Matrix m (Fin n) 𝕜} {r₁ r₂ : Matrix (Fin n) (Fin n) 𝕜}
    (h₁ : IsQR A q₁ r₁) (h₂ : IsQR A q₂ r₂) (p₁ : ∀ i, ∃ d : ℝ, 0 ≤ d ∧ r₁ i i = (d : 𝕜))
    (p₂ : ∀ i, ∃ d : ℝ, 0 ≤ d ∧ r₂ i i = (d : 𝕜)) : q₁ = q₂ ∧ r₁ = r₂ := by
  have unit : ∀ {q : Matrix m (Fin n) 𝕜} {r : Matrix (Fin n) (Fin n) 𝕜}, IsQR A q r →
      IsUnit r := by
    intro q r h
    rw [← Matrix.mulVec_injective_iff_isUnit]
    intro y z hyz
    have : A *ᵥ (y - z) = 0 := by
      rw [← h.prod, ← mulVec_mulVec, mulVec_sub, hyz, sub_self, mulVec_zero]
    exact sub_eq_zero.mp (hA _ this)
  have tri : ∀ {q : Matrix m (Fin n) 𝕜} {r : Matrix (Fin n) (Fin n) 𝕜}, IsQR A q r →
      BlockTriangular r id := fun h i j hij => h.upper i j hij
  have triInv : ∀ {q : Matrix m (Fin n) 𝕜} {r : Matrix (Fin n) (Fin n) 𝕜}, IsQR A q r →
      BlockTriangular r⁻¹ id := by
    intro q r h
    have := (unit h).invertible
    exact blockTriangular_inv_of_blockTriangular (tri h)
  have hu₁ := (Matrix.isUnit_iff_isUnit_det _).mp (unit h₁)
  have hu₂ := (Matrix.isUnit_iff_isUnit_det _).mp (unit h₂)
  set U := q₁ᴴ * q₂ with hU
  have e₁ : r₁ = U * r₂ := by
    rw [hU, Matrix.mul_assoc, h₂.prod, ← h₁.prod, ← Matrix.mul_assoc, h₁.orth, Matrix.one_mul]
  have e₂ : r₂ = Uᴴ * r₁ := by
    rw [hU, conjTranspose_mul, conjTranspose_conjTranspose, Matrix.mul_assoc, h₁.prod, ← h₂.prod,
      ← Matrix.mul_assoc, h₂.orth, Matrix.one_mul]
  have U₁ : U = r₁ * r₂⁻¹ := by
    rw [e₁, Matrix.mul_assoc, mul_nonsing_inv _ hu₂, Matrix.mul_one]
  have U₂ : Uᴴ = r₂ * r₁⁻¹ := by
    conv_rhs => rw [e₂]
    rw [Matrix.mul_assoc, mul_nonsing_inv _ hu₁, Matrix.mul_one]
  have up : BlockTriangular U id := by rw [U₁]; exact (tri h₁).mul (triInv h₂)
  have lo : BlockTriangular Uᴴ id := by rw [U₂]; exact (tri h₂).mul (triInv h₁)
  have off : ∀ i j, i ≠ j → U i j = 0 := by
    intro i j hij
    rcases lt_or_gt_of_ne hij with h | h
    · have := lo (i := j) (j := i) h
      rw [conjTranspose_apply] at this
      exact star_eq_zero.mp this
    · exact up h
  have d₁ : ∀ i, r₁ i i = U i i * r₂ i i := by
    intro i
    conv_lhs => rw [e₁]
    rw [mul_apply, Finset.sum_eq_single i]
    · intro b _ hb; rw [off i b (Ne.symm hb), zero_mul]
    · simp
  have d₂ : ∀ i, r₂ i i = star (U i i) * r₁ i i := by
    intro i
    conv_lhs => rw [e₂]
    rw [mul_apply, Finset.sum_eq_single i]
    · rfl
    · intro b _ hb; rw [conjTranspose_apply, off b i hb, star_zero, zero_mul]
    · simp
  have hne : ∀ {q : Matrix m (Fin n) 𝕜} {r : Matrix (Fin n) (Fin n) 𝕜}, IsQR A q r →
      ∀ i, r i i ≠ 0 := by
    intro q r h i hi
    have hd := (Matrix.isUnit_iff_isUnit_det _).mp (unit h)
    rw [det_of_isUpperTriangular (tri h)] at hd
    exact hd.ne_zero (Finset.prod_eq_zero (Finset.mem_univ i) hi)
  have diag : ∀ i, U i i = 1 := by
    intro i
    obtain ⟨a, ha, hra⟩ := p₁ i
    obtain ⟨b, hb, hrb⟩ := p₂ i
    have ha0 : (a : 𝕜) ≠ 0 := hra ▸ hne h₁ i
    have hb0 : (b : 𝕜) ≠ 0 := hrb ▸ hne h₂ i
    have hUi : U i i = ((a / b : ℝ) : 𝕜) := by
      have := d₁ i
      rw [hra, hrb] at this
      push_cast
      rw [this, mul_div_assoc, div_self hb0, mul_one]
    have h2 := d₂ i
    rw [hra, hrb, hUi, RCLike.star_def, RCLike.conj_ofReal] at h2
    have h3 : b = a / b * a := by exact_mod_cast h2
    have hbr : b ≠ 0 := by simpa using hb0
    have h4 : b * b = a * a := by field_simp at h3; nlinarith
    have h5 : a = b := by nlinarith [mul_self_eq_mul_self_iff.mp h4, lt_of_le_of_ne hb hbr.symm]
    rw [hUi, h5, div_self hbr]
    simp
  have hU1 : U = 1 := by
    ext i j
    by_cases hij : i = j
    · subst hij; rw [diag, one_apply_eq]
    · rw [off i j hij, one_apply_ne hij]
  rw [hU1, Matrix.one_mul] at e₁
  refine ⟨?_, e₁⟩
  have : q₁ * r₁ = q₂ * r₁ := by rw [h₁.prod, ← h₂.prod, e₁]
  calc q₁ = q₁ * r₁ * r₁⁻¹ := by rw [Matrix.mul_assoc, mul_nonsing_inv _ hu₁, Matrix.mul_one]
    _ = q₂ * r₁ * r₁⁻¹ := by rw [this]
    _ = q₂ := by rw [Matrix.mul_assoc, mul_nonsing_inv _ hu₁, Matrix.mul_one]

end QR

/-! ### C52 -/

section Spectral
variable [Fintype n] [DecidableEq n] {A : Matrix n n 𝕜} {w : n → ℝ} {v : Matrix n n 𝕜}

/-- C52: whatever eigendecomposition is returned, `multiexpm(A, symmetric=True)` is the matrix
exponential, and it is Hermitian positive definite. -/
theorem C52_exp (h : IsEigh A w v) :
    expmSym w v = NormedSpace.exp A ∧ (expmSym w v).PosDef := by
  rw [expmSym_eq]
  exact ⟨(exp_spectral h).symm, (h.spectral Real.exp).posDef fun i => Real.exp_pos _⟩

/-- C52: whatever eigendecomposition is returned, `multilogm(A, positive_definite=True)` of a
positive definite matrix is the only Hermitian matrix whose exponential is `A`. -/
theorem C52_log (h : IsEigh A w v) (hA : A.PosDef) :
    (logmPos w v).IsHermitian ∧ NormedSpace.exp (logmPos w v) = A ∧
      ∀ B : Matrix n n 𝕜, B.IsHermitian → NormedSpace.exp B = A → B = logmPos w v := by
  rw [logmPos_eq]
  refine ⟨(h.spectral Real.log).herm, ?_, ?_⟩
  · rw [exp_spectral (h.spectral Real.log)]
    conv_rhs => rw [h.prod]
    rw [Geo.spectral]
    congr 3
    funext i
    rw [Real.exp_log (h.eigenvalue_pos hA i)]
  · intro B hBh hexp
    obtain ⟨w', v', hB⟩ := exists_isEigh hBh
    rw [exp_spectral hB] at hexp
    have h1 : IsEigh A (fun i => Real.exp (w' i)) v' := hexp ▸ hB.spectral Real.exp
    rw [h.spectral_unique h1 Real.log, Geo.spectral]
    simp only [Real.log_exp]
    exact hB.prod

/-- C52: the two functions invert each other, with any eigendecompositions. -/
theorem C52_inverse {w' : n → ℝ} {v' : Matrix n n 𝕜} (h : IsEigh A w v)
    (h' : IsEigh (expmSym w v) w' v') (hA : A.PosDef) {w'' : n → ℝ} {v'' : Matrix n n 𝕜}
    (h'' : IsEigh (logmPos w v) w'' v'') :
    logmPos w' v' = A ∧ expmSym w'' v'' = A := by
  constructor
  · exact ((C52_log h' (C52_exp h).2).2.2 A h.herm (C52_exp h).1.symm).symm
  · rw [(C52_exp h'').1, (C52_log h hA).2.1]

end Spectral

/-! ### Examples -/

/-- A QR factorisation with a negative diagonal entry, and a matrix with independent columns. -/
example : IsQR !![(1 : ℝ), 2; 0, 3] !![-1, 0; 0, 1] !![-1, -2; 0, 3] ∧
    ∀ y, !![(1 : ℝ), 2; 0, 3] *ᵥ y = 0 → y = 0 := by
  refine ⟨⟨?_, ?_, ?_⟩, ?_⟩
  · ext i j
    fin_cases i <;> fin_cases j <;> simp [Matrix.mul_apply, Fin.sum_univ_two]
  · ext i j
    fin_cases i <;> fin_cases j <;> simp [Matrix.mul_apply, Fin.sum_univ_two]
  · intro i j h
    fin_cases i <;> fin_cases j <;> simp at h ⊢
  · intro y hy
    have h0 := congrFun hy 0
    have h1 := congrFun hy 1
    simp [Matrix.mulVec, dotProduct, Fin.sum_univ_two] at h0 h1
    funext i
    fin_cases i
    · simp [h1] at h0; exact h0
    · exact h1

/-- An eigendecomposition of a positive definite matrix. -/
example : IsEigh !![(2 : ℂ), 0; 0, 3] ![3, 2] !![0, 1; 1, 0] := by
  refine ⟨?_, ?_⟩ <;> ext i j <;>
    fin_cases i <;> fin_cases j <;>
      simp [Matrix.mul_apply, Fin.sum_univ_two, vecMul, dotProduct]

end Verif.Geo
