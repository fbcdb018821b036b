/-
Functions of Hermitian matrices through an eigendecomposition.
-/
import Verif.Geo.Lemmas.Stack
import Mathlib.Analysis.Normed.Algebra.MatrixExponential
import Mathlib.Analysis.SpecialFunctions.Exponential
import Mathlib.Analysis.SpecialFunctions.Log.Basic
import Mathlib.LinearAlgebra.Matrix.PosDef
import Mathlib.LinearAlgebra.Matrix.NonsingularInverse
import Mathlib.Analysis.Matrix.Spectrum

namespace Verif.Geo
open scoped BigOperators ComplexOrder
open Matrix

variable {κ m n p : Type*} {𝕜 : Type*} [RCLike 𝕜]

section Spectral
variable [Fintype n] [DecidableEq n] {A : Matrix n n 𝕜} {w : n → ℝ} {v : Matrix n n 𝕜}

/-- Apply a function to the eigenvalues. -/
def spectral (f : ℝ → ℝ) (w : n → ℝ) (v : Matrix n n 𝕜) : Matrix n n 𝕜 :=
  v * diagonal (fun i => (f (w i) : 𝕜)) * vᴴ

theorem expmSym_eq (w : n → ℝ) (v : Matrix n n 𝕜) : expmSym w v = spectral Real.exp w v := by
  rw [expmSym, spectral, Matrix.mul_assoc]
  congr 1
  ext i j
  rw [diagonal_mul]; rfl

theorem logmPos_eq (w : n → ℝ) (v : Matrix n n 𝕜) : logmPos w v = spectral Real.log w v := by
  rw [logmPos, spectral, Matrix.mul_assoc]
  congr 1
  ext i j
  rw [diagonal_mul]; rfl

theorem IsEigh.orth' (h : IsEigh A w v) : v * vᴴ = 1 := mul_eq_one_comm.mp h.orth

theorem IsEigh.spectral (h : IsEigh A w v) (f : ℝ → ℝ) :
    IsEigh (spectral f w v) (fun i => f (w i)) v := ⟨h.orth, rfl⟩

theorem IsEigh.herm (h : IsEigh A w v) : Aᴴ = A := by
  rw [h.prod, conjTranspose_mul, conjTranspose_mul, conjTranspose_conjTranspose,
    diagonal_conjTranspose, Matrix.mul_assoc]
  congr 3
  funext i
  simp

/-- The function of the matrix does not depend on the eigendecomposition. -/
theorem IsEigh.spectral_unique {w' : n → ℝ} {v' : Matrix n n 𝕜} (h : IsEigh A w v)
    (h' : IsEigh A w' v') (f : ℝ → ℝ) : Geo.spectral f w v = Geo.spectral f w' v' := by
  set U := v'ᴴ * v with hU
  have hcomm : U * diagonal (fun i => (w i : 𝕜)) = diagonal (fun i => (w' i : 𝕜)) * U := by
    have h1 : A * v = v * diagonal (fun i => (w i : 𝕜)) := by
      rw [h.prod, Matrix.mul_assoc _ _ v, h.orth, Matrix.mul_one]
    have h2 : v'ᴴ * A = diagonal (fun i => (w' i : 𝕜)) * v'ᴴ := by
      rw [h'.prod, ← Matrix.mul_assoc, ← Matrix.mul_assoc, h'.orth, Matrix.one_mul]
    rw [hU, Matrix.mul_assoc, ← h1, ← Matrix.mul_assoc, h2, Matrix.mul_assoc]
  have hf : U * diagonal (fun i => (f (w i) : 𝕜)) = diagonal (fun i => (f (w' i) : 𝕜)) * U := by
    ext i j
    have hij := congrFun (congrFun hcomm i) j
    rw [mul_diagonal, diagonal_mul] at hij ⊢
    by_cases h0 : U i j = 0
    · simp [h0]
    · have : (w j : 𝕜) = w' i := by
        rw [mul_comm] at hij
        exact mul_right_cancel₀ h0 hij
      have : w j = w' i := by exact_mod_cast this
      rw [this, mul_comm]
  have hv : v = v' * U := by rw [hU, ← Matrix.mul_assoc, h'.orth', Matrix.one_mul]
  have hUU : U * Uᴴ = 1 := by
    rw [hU, conjTranspose_mul, conjTranspose_conjTranspose, Matrix.mul_assoc,
      ← Matrix.mul_assoc v, h.orth', Matrix.one_mul, h'.orth]
  rw [Geo.spectral, Geo.spectral, hv, conjTranspose_mul, Matrix.mul_assoc v', hf]
  calc v' * (diagonal (fun i => (f (w' i) : 𝕜)) * U) * (Uᴴ * v'ᴴ)
      = v' * diagonal (fun i => (f (w' i) : 𝕜)) * (U * Uᴴ) * v'ᴴ := by
        simp only [Matrix.mul_assoc]
    _ = _ := by rw [hUU, Matrix.mul_one]

theorem IsEigh.eigenvalue_pos (h : IsEigh A w v) (hA : A.PosDef) (i : n) : 0 < w i := by
  have hne : v *ᵥ (Pi.single i 1) ≠ 0 := by
    intro h0
    have := congrArg (vᴴ *ᵥ ·) h0
    simp only [mulVec_mulVec, h.orth, one_mulVec, mulVec_zero] at this
    have := congrFun this i
    simp at this
  have hpos := hA.dotProduct_mulVec_pos hne
  rw [h.prod] at hpos
  have hcalc : star (v *ᵥ Pi.single i (1 : 𝕜)) ⬝ᵥ
      ((v * diagonal (fun i => (w i : 𝕜)) * vᴴ) *ᵥ (v *ᵥ Pi.single i 1)) = (w i : 𝕜) := by
    rw [star_mulVec, ← dotProduct_mulVec, mulVec_mulVec, mulVec_mulVec]
    have : vᴴ * (v * diagonal (fun i => (w i : 𝕜)) * vᴴ * v) = diagonal (fun i => (w i : 𝕜)) := by
      rw [Matrix.mul_assoc _ _ v, h.orth, Matrix.mul_one, ← Matrix.mul_assoc, h.orth,
        Matrix.one_mul]
    rw [Matrix.mul_assoc vᴴ, this]
    simp
  rw [hcalc] at hpos
  exact_mod_cast hpos

/-- A spectral function with positive values is positive definite. -/
theorem IsEigh.posDef (h : IsEigh A w v) (hw : ∀ i, 0 < w i) : A.PosDef := by
  rw [h.prod]
  have hd : (diagonal fun i => (w i : 𝕜)).PosDef := by
    rw [Matrix.posDef_diagonal_iff]
    intro i
    exact_mod_cast hw i
  have hv : Function.Injective vᴴ.mulVec := by
    intro x y hxy
    have := congrArg (v *ᵥ ·) hxy
    simpa only [mulVec_mulVec, h.orth', one_mulVec] using this
  have := hd.conjTranspose_mul_mul_same (B := vᴴ) hv
  simpa using this

theorem exp_spectral (h : IsEigh A w v) : NormedSpace.exp A = Geo.spectral Real.exp w v := by
  have hv : IsUnit v := IsUnit.of_mul_eq_one _ h.orth'
  have hinv : v⁻¹ = vᴴ := Matrix.inv_eq_right_inv h.orth'
  conv_lhs => rw [h.prod, ← hinv, Matrix.exp_conj v _ hv, Matrix.exp_diagonal, hinv]
  rw [Geo.spectral]
  congr 3
  funext i
  rw [Pi.coe_exp, Real.exp_eq_exp_ℝ]
  exact (NormedSpace.algebraMap_exp_comm (𝕂 := ℝ) (𝔸 := 𝕜) (w i)).symm

/-- Every Hermitian matrix has an eigendecomposition. -/
theorem exists_isEigh (h : A.IsHermitian) : ∃ w v, IsEigh A w v := by
  refine ⟨h.eigenvalues, h.eigenvectorUnitary, ?_, ?_⟩
  · exact Unitary.coe_star_mul_self h.eigenvectorUnitary
  · exact h.spectral_theorem

end Spectral

end Verif.Geo
