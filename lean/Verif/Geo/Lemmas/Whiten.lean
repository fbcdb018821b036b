/-
Congruence by the inverse of a factor `C` with `C Cᴴ = P`, which turns the affine-invariant metric
at `P` into the trace inner product.
-/
import Verif.Geo.Lemmas.Spectral
import Verif.Geo.Lemmas.Stack
import Mathlib.LinearAlgebra.Matrix.NonsingularInverse

namespace Verif.Geo
open scoped BigOperators ComplexOrder
open Matrix

variable {n : Type*} [Fintype n] [DecidableEq n] {𝕜 : Type*} [RCLike 𝕜]

/-- `C⁻¹ A C⁻ᴴ`. -/
noncomputable def whiten (C A : Matrix n n 𝕜) : Matrix n n 𝕜 := C⁻¹ * A * (C⁻¹)ᴴ

/-- A square root of a positive definite matrix. -/
theorem exists_factor {P : Matrix n n 𝕜} (hP : P.PosDef) : ∃ C, C * Cᴴ = P ∧ IsUnit C := by
  obtain ⟨w, v, h⟩ := exists_isEigh hP.isHermitian
  have hw := h.eigenvalue_pos hP
  refine ⟨v * diagonal fun i => ((Real.sqrt (w i) : ℝ) : 𝕜), ?_, ?_⟩
  · rw [conjTranspose_mul, diagonal_conjTranspose, Matrix.mul_assoc, ← Matrix.mul_assoc (diagonal _),
      diagonal_mul_diagonal, h.prod, Matrix.mul_assoc]
    congr 3; funext i
    rw [Pi.star_apply, RCLike.star_def, RCLike.conj_ofReal, ← RCLike.ofReal_mul,
      Real.mul_self_sqrt (hw i).le]
  · refine (IsUnit.of_mul_eq_one _ h.orth').mul ?_
    rw [isUnit_iff_isUnit_det, det_diagonal, isUnit_iff_ne_zero, Finset.prod_ne_zero_iff]
    intro i _
    have := Real.sqrt_pos.mpr (hw i)
    exact_mod_cast this.ne'

theorem factor_isUnit {P C : Matrix n n 𝕜} (hP : P.PosDef) (h : C * Cᴴ = P) : IsUnit C := by
  have := hP.isUnit
  rw [← h, isUnit_iff_isUnit_det, det_mul] at this
  exact (isUnit_iff_isUnit_det _).mpr (isUnit_of_mul_isUnit_left this)

section
variable {C P : Matrix n n 𝕜} (hC : IsUnit C)
include hC

theorem inv_mul' : C⁻¹ * C = 1 := nonsing_inv_mul _ ((isUnit_iff_isUnit_det _).mp hC)

theorem mul_inv' : C * C⁻¹ = 1 := mul_nonsing_inv _ ((isUnit_iff_isUnit_det _).mp hC)

theorem invH_mul : (C⁻¹)ᴴ * Cᴴ = 1 := by
  rw [← conjTranspose_mul, mul_inv' hC, conjTranspose_one]

theorem mul_invH : Cᴴ * (C⁻¹)ᴴ = 1 := by
  rw [← conjTranspose_mul, inv_mul' hC, conjTranspose_one]

theorem factor_inv (h : C * Cᴴ = P) : P⁻¹ = (C⁻¹)ᴴ * C⁻¹ := by
  refine inv_eq_right_inv ?_
  rw [← h, Matrix.mul_assoc, ← Matrix.mul_assoc Cᴴ, mul_invH hC, Matrix.one_mul, mul_inv' hC]

theorem unwhiten (A : Matrix n n 𝕜) : C * whiten C A * Cᴴ = A := by
  rw [whiten]
  calc C * (C⁻¹ * A * (C⁻¹)ᴴ) * Cᴴ = C * C⁻¹ * A * ((C⁻¹)ᴴ * Cᴴ) := by
        simp only [Matrix.mul_assoc]
    _ = A := by rw [mul_inv' hC, invH_mul hC, Matrix.one_mul, Matrix.mul_one]

theorem whiten_mul (W : Matrix n n 𝕜) : whiten C (C * W * Cᴴ) = W := by
  rw [whiten]
  calc C⁻¹ * (C * W * Cᴴ) * (C⁻¹)ᴴ = C⁻¹ * C * W * (Cᴴ * (C⁻¹)ᴴ) := by
        simp only [Matrix.mul_assoc]
    _ = W := by rw [inv_mul' hC, mul_invH hC, Matrix.one_mul, Matrix.mul_one]

theorem whiten_injective : Function.Injective (whiten C) := fun A B h => by
  rw [← unwhiten hC A, h, unwhiten hC]

theorem solve_eq (h : C * Cᴴ = P) (A : Matrix n n 𝕜) : P⁻¹ * A = (C⁻¹)ᴴ * whiten C A * Cᴴ := by
  rw [factor_inv hC h, whiten]
  calc (C⁻¹)ᴴ * C⁻¹ * A = (C⁻¹)ᴴ * C⁻¹ * A * ((C⁻¹)ᴴ * Cᴴ) := by
        rw [invH_mul hC, Matrix.mul_one]
    _ = _ := by simp only [Matrix.mul_assoc]

theorem trace_solve (h : C * Cᴴ = P) (A : Matrix n n 𝕜) : (P⁻¹ * A).trace = (whiten C A).trace := by
  rw [solve_eq hC h, Matrix.mul_assoc, trace_mul_comm, Matrix.mul_assoc, mul_invH hC, Matrix.mul_one]

theorem trace_solve_solve (h : C * Cᴴ = P) (A B : Matrix n n 𝕜) :
    (P⁻¹ * A * (P⁻¹ * B)).trace = (whiten C A * whiten C B).trace := by
  rw [solve_eq hC h, solve_eq hC h]
  have : (C⁻¹)ᴴ * whiten C A * Cᴴ * ((C⁻¹)ᴴ * whiten C B * Cᴴ) =
      (C⁻¹)ᴴ * (whiten C A * whiten C B * Cᴴ) := by
    calc _ = (C⁻¹)ᴴ * whiten C A * (Cᴴ * (C⁻¹)ᴴ) * whiten C B * Cᴴ := by
          simp only [Matrix.mul_assoc]
      _ = _ := by rw [mul_invH hC, Matrix.mul_one]; simp only [Matrix.mul_assoc]
  rw [this, trace_mul_comm, Matrix.mul_assoc, mul_invH hC, Matrix.mul_one]

theorem exp_solve (h : C * Cᴴ = P) (V : Matrix n n 𝕜) :
    P * NormedSpace.exp (P⁻¹ * V) = C * NormedSpace.exp (whiten C V) * Cᴴ := by
  have hu : IsUnit (C⁻¹)ᴴ := IsUnit.of_mul_eq_one _ (invH_mul hC)
  have hinv : ((C⁻¹)ᴴ)⁻¹ = Cᴴ := inv_eq_right_inv (invH_mul hC)
  have h1 := exp_conj ((C⁻¹)ᴴ) (whiten C V) hu
  rw [hinv] at h1
  rw [solve_eq hC h, h1, ← h]
  calc C * Cᴴ * ((C⁻¹)ᴴ * NormedSpace.exp (whiten C V) * Cᴴ) =
      C * (Cᴴ * (C⁻¹)ᴴ) * NormedSpace.exp (whiten C V) * Cᴴ := by simp only [Matrix.mul_assoc]
    _ = _ := by rw [mul_invH hC, Matrix.mul_one]

end

theorem whiten_add (C A B : Matrix n n 𝕜) : whiten C (A + B) = whiten C A + whiten C B := by
  simp only [whiten, Matrix.mul_add, Matrix.add_mul]

theorem whiten_sub (C A B : Matrix n n 𝕜) : whiten C (A - B) = whiten C A - whiten C B := by
  simp only [whiten, Matrix.mul_sub, Matrix.sub_mul]

theorem whiten_smul (c : ℝ) (C A : Matrix n n 𝕜) : whiten C (c • A) = c • whiten C A := by
  simp only [whiten, Matrix.mul_smul, Matrix.smul_mul]

theorem whiten_conjTranspose (C A : Matrix n n 𝕜) : (whiten C A)ᴴ = whiten C Aᴴ := by
  simp only [whiten, conjTranspose_mul, conjTranspose_conjTranspose, Matrix.mul_assoc]

theorem whiten_herm {C A : Matrix n n 𝕜} (hA : Aᴴ = A) : (whiten C A)ᴴ = whiten C A := by
  rw [whiten_conjTranspose, hA]

theorem posDef_congr {C A : Matrix n n 𝕜} (hC : IsUnit C) (hA : A.PosDef) : (C * A * Cᴴ).PosDef :=
  (Matrix.IsUnit.posDef_star_right_conjugate_iff hC).mpr hA

theorem posDef_whiten {C A : Matrix n n 𝕜} (hC : IsUnit C) (hA : A.PosDef) :
    (whiten C A).PosDef := by
  have hu : IsUnit C⁻¹ := IsUnit.of_mul_eq_one _ (inv_mul' hC)
  exact posDef_congr hu hA

theorem posDef_exp {W : Matrix n n 𝕜} (hW : Wᴴ = W) : (NormedSpace.exp W).PosDef := by
  obtain ⟨w, v, h⟩ := exists_isEigh (A := W) hW
  rw [exp_spectral h]
  exact (h.spectral Real.exp).posDef fun i => Real.exp_pos _

theorem det_exp_herm {W : Matrix n n 𝕜} (hW : Wᴴ = W) :
    (NormedSpace.exp W).det = ((Real.exp (RCLike.re W.trace) : ℝ) : 𝕜) := by
  obtain ⟨w, v, h⟩ := exists_isEigh (A := W) hW
  have htr : RCLike.re W.trace = ∑ i, w i := by
    have h1 : W.trace = ((∑ i, w i : ℝ) : 𝕜) := by
      conv_lhs => rw [h.prod]
      rw [trace_mul_comm, ← Matrix.mul_assoc, h.orth, Matrix.one_mul, trace_diagonal]
      push_cast; rfl
    rw [h1, RCLike.ofReal_re]
  rw [exp_spectral h, spectral, det_mul_comm, ← Matrix.mul_assoc, h.orth, Matrix.one_mul,
    det_diagonal, htr, Real.exp_sum]
  push_cast; rfl

end Verif.Geo
