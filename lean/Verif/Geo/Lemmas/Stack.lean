/-
Trace inner product of matrices and stacks of matrices, and lifting of per-matrix facts to stacks.
-/
import Verif.Geo.Model.Multi
import Verif.Geo.Lemmas.Dot
import Mathlib.LinearAlgebra.Matrix.Trace

namespace Verif.Geo
open scoped BigOperators
open Matrix

section comap
variable {E F : Type*} [AddCommGroup E] [Module ℝ E] [AddCommGroup F] [Module ℝ F]

theorem IsInner.comap {B : F → F → ℝ} (h : IsInner B) (f : E →ₗ[ℝ] F)
    (hf : Function.Injective f) : IsInner fun u v => B (f u) (f v) where
  add_left u v w := by rw [map_add, h.add_left]
  smul_left c u v := by rw [map_smul, h.smul_left]
  symm u v := h.symm _ _
  nonneg u := h.nonneg _
  definite u hu := hf (by rw [h.definite _ hu, map_zero])

variable {κ : Type*} [Fintype κ] {E : κ → Type*} [∀ k, AddCommGroup (E k)] [∀ k, Module ℝ (E k)]

theorem IsInner.pi {B : ∀ k, E k → E k → ℝ} (h : ∀ k, IsInner (B k)) :
    IsInner (E := ∀ k, E k) fun u v => ∑ k, B k (u k) (v k) where
  add_left u v w := by simp [(h _).add_left, Finset.sum_add_distrib]
  smul_left c u v := by simp [(h _).smul_left, Finset.mul_sum]
  symm u v := Finset.sum_congr rfl fun k _ => (h k).symm _ _
  nonneg u := Finset.sum_nonneg fun k _ => (h k).nonneg _
  definite u hu := by
    have := (Finset.sum_eq_zero_iff_of_nonneg fun k _ => (h k).nonneg (u k)).mp hu
    exact funext fun k => (h k).definite _ (this k (Finset.mem_univ k))

omit [Fintype κ] in
theorem IsSubspace.pi {T : ∀ k, E k → Prop} (h : ∀ k, IsSubspace (T k)) :
    IsSubspace (E := ∀ k, E k) fun u => ∀ k, T k (u k) where
  zero k := (h k).zero
  add hu hv k := (h k).add (hu k) (hv k)
  smul c _ hu k := (h k).smul c (hu k)

/-- Orthogonal projections act factor by factor. -/
theorem IsOrthProj.pi {B : ∀ k, E k → E k → ℝ} (hB : ∀ k, IsInner (B k)) {T : ∀ k, E k → Prop}
    (hT : ∀ k, IsSubspace (T k)) {P : ∀ k, E k → E k} (h : ∀ k, IsOrthProj (B k) (T k) (P k)) :
    IsOrthProj (E := ∀ k, E k) (fun u v => ∑ k, B k (u k) (v k)) (fun u => ∀ k, T k (u k))
      fun u k => P k (u k) := by
  refine (IsInner.pi hB).orthProj (IsSubspace.pi hT) (fun v k => (h k).mem _) ?_
  intro v w hw
  refine Finset.sum_eq_zero fun k _ => ?_
  rw [Pi.sub_apply, (hB k).sub_left, (h k).represents _ (hw k), sub_self]

end comap

variable {κ m n p : Type*} {𝕜 : Type*} [RCLike 𝕜]

/-- Real trace inner product of two matrices: the sum of `re (conj a_ij * b_ij)`. -/
def trDot [Fintype m] [Fintype n] (A B : Matrix m n 𝕜) : ℝ := RCLike.re (Aᴴ * B).trace

section trDot
variable [Fintype m] [Fintype n] [Fintype p]

theorem trDot_eq_sum (A B : Matrix m n 𝕜) :
    trDot A B = ∑ i, ∑ j, RCLike.re (star (A i j) * B i j) := by
  simp only [trDot, trace, diag_apply, mul_apply, conjTranspose_apply, map_sum]
  rw [Finset.sum_comm]

theorem trDot_inner : IsInner (E := Matrix m n 𝕜) trDot := by
  have h : trDot (𝕜 := 𝕜) (m := m) (n := n) = fun u v =>
      retensordot (fun x : m × n => u x.1 x.2) fun x : m × n => v x.1 x.2 := by
    funext u v
    rw [trDot_eq_sum, retensordot, map_sum, Fintype.sum_prod_type]
  rw [h]
  refine retensordot_inner.comap
    (f := { toFun := fun (u : Matrix m n 𝕜) (x : m × n) => u x.1 x.2
            map_add' := fun _ _ => rfl
            map_smul' := fun _ _ => rfl }) ?_
  intro u v huv
  ext i j
  exact congrFun huv (i, j)

theorem trDot_mul_left (X : Matrix m p 𝕜) (A : Matrix p n 𝕜) (B : Matrix m n 𝕜) :
    trDot (X * A) B = trDot A (Xᴴ * B) := by
  simp only [trDot, conjTranspose_mul, Matrix.mul_assoc]

theorem trDot_mul_right (A : Matrix m p 𝕜) (X : Matrix p n 𝕜) (B : Matrix m n 𝕜) :
    trDot (A * X) B = trDot A (B * Xᴴ) := by
  simp only [trDot, conjTranspose_mul]
  rw [Matrix.mul_assoc, trace_mul_comm, Matrix.mul_assoc]

theorem trDot_conjTranspose (A B : Matrix m n 𝕜) : trDot Aᴴ Bᴴ = trDot A B := by
  have h : (Bᴴ * A).trace = star ((Aᴴ * B).trace) := by
    rw [← trace_conjTranspose, conjTranspose_mul, conjTranspose_conjTranspose]
  simp only [trDot, conjTranspose_conjTranspose]
  rw [trace_mul_comm, h, RCLike.star_def, RCLike.conj_re]

theorem trDot_transpose (A B : Matrix m n 𝕜) : trDot Aᵀ Bᵀ = trDot A B := by
  rw [trDot_eq_sum, trDot_eq_sum, Finset.sum_comm]
  rfl

/-- Hermitian and skew-Hermitian matrices are orthogonal. -/
theorem trDot_herm_skew {H S : Matrix n n 𝕜} (hH : Hᴴ = H) (hS : Sᴴ = -S) : trDot H S = 0 := by
  have := trDot_conjTranspose H S
  rw [hH, hS, trDot_inner.neg_right] at this
  linarith

/-- Symmetric and skew-symmetric matrices are orthogonal. -/
theorem trDot_symm_skew {H S : Matrix n n 𝕜} (hH : Hᵀ = H) (hS : Sᵀ = -S) : trDot H S = 0 := by
  have := trDot_transpose H S
  rw [hH, hS, trDot_inner.neg_right] at this
  linarith

theorem trDot_real (A B : Matrix m n ℝ) : trDot A B = (Aᵀ * B).trace := by
  simp [trDot, conjTranspose_eq_transpose_of_trivial]

end trDot

section stack
variable [Fintype κ] [Fintype m] [Fintype n]

theorem stackDot_eq (A B : Stack κ m n 𝕜) : stackDot A B = ∑ k, trDot (A k) (B k) := by
  simp only [stackDot, retensordot, map_sum, Fintype.sum_prod_type, trDot_eq_sum]

theorem stackDot_fun : stackDot (κ := κ) (m := m) (n := n) (𝕜 := 𝕜) =
    fun A B => ∑ k, trDot (A k) (B k) := by
  funext A B
  exact stackDot_eq A B

theorem stackDot_inner : IsInner (E := Stack κ m n 𝕜) stackDot := by
  rw [stackDot_fun]
  exact IsInner.pi fun _ => trDot_inner

theorem stackDot_comm (A B : Stack κ m n 𝕜) : stackDot A B = stackDot B A :=
  stackDot_inner.symm A B

theorem stackDot_add_left (A B C : Stack κ m n 𝕜) :
    stackDot (A + B) C = stackDot A C + stackDot B C := stackDot_inner.add_left A B C

theorem stackDot_add_right (A B C : Stack κ m n 𝕜) :
    stackDot A (B + C) = stackDot A B + stackDot A C := stackDot_inner.add_right A B C

theorem stackDot_sub_left (A B C : Stack κ m n 𝕜) :
    stackDot (A - B) C = stackDot A C - stackDot B C := stackDot_inner.sub_left A B C

theorem stackDot_sub_right (A B C : Stack κ m n 𝕜) :
    stackDot A (B - C) = stackDot A B - stackDot A C := stackDot_inner.sub_right A B C

theorem stackDot_smul_left (c : ℝ) (A B : Stack κ m n 𝕜) :
    stackDot (c • A) B = c * stackDot A B := stackDot_inner.smul_left c A B

theorem stackDot_smul_right (c : ℝ) (A B : Stack κ m n 𝕜) :
    stackDot A (c • B) = c * stackDot A B := stackDot_inner.smul_right c A B

theorem stackNorm_sq (A : Stack κ m n 𝕜) : stackNorm A ^ 2 = stackDot A A := npNorm_sq _

theorem stackNorm_nonneg (A : Stack κ m n 𝕜) : 0 ≤ stackNorm A := npNorm_nonneg _

theorem stackNorm_eq_sqrt (A : Stack κ m n 𝕜) : stackNorm A = Real.sqrt (stackDot A A) := by
  rw [← stackNorm_sq, Real.sqrt_sq (stackNorm_nonneg A)]

theorem stackNorm_eq_zero (A : Stack κ m n 𝕜) : stackNorm A = 0 ↔ A = 0 := by
  rw [← sq_eq_zero_iff, stackNorm_sq]
  exact stackDot_inner.eq_zero_iff A

theorem stackNorm_smul (c : ℝ) (A : Stack κ m n 𝕜) : stackNorm (c • A) = |c| * stackNorm A :=
  npNorm_smul c _

theorem stackNorm_inv_smul {A : Stack κ m n 𝕜} (h : A ≠ 0) :
    stackNorm ((stackNorm A)⁻¹ • A) = 1 := by
  have hn : stackNorm A ≠ 0 := fun h' => h ((stackNorm_eq_zero A).mp h')
  rw [stackNorm_smul, abs_of_nonneg (inv_nonneg.mpr (stackNorm_nonneg A)), inv_mul_cancel₀ hn]

/-- Orthogonal projections of stacks from orthogonal projections of matrices. -/
theorem orthProj_stack {T : κ → Matrix m n 𝕜 → Prop} (hT : ∀ k, IsSubspace (T k))
    {P : κ → Matrix m n 𝕜 → Matrix m n 𝕜} (h : ∀ k, IsOrthProj trDot (T k) (P k)) :
    IsOrthProj (E := Stack κ m n 𝕜) stackDot (fun A => ∀ k, T k (A k)) fun A k => P k (A k) := by
  rw [stackDot_fun]
  exact IsOrthProj.pi (fun _ => trDot_inner) hT h

end stack

end Verif.Geo
