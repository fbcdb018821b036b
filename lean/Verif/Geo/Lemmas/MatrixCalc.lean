/-
Derivatives of matrix valued functions, the matrix exponential along intertwined matrices, and
first order expansions.
-/
import Verif.Geo.Lemmas.Stack
import Mathlib.Analysis.Calculus.Deriv.Prod
import Mathlib.Analysis.Calculus.Deriv.Mul
import Mathlib.Analysis.Calculus.Deriv.Add
import Mathlib.Analysis.Calculus.Deriv.Star
import Mathlib.Analysis.Normed.Algebra.MatrixExponential
import Mathlib.Analysis.SpecialFunctions.Exponential

namespace Verif.Geo
open scoped BigOperators
open Matrix

variable {l m n p κ : Type*} {𝕜 : Type*} [RCLike 𝕜]

/-- Entrywise derivative of a matrix valued function. -/
def MatDeriv (F : ℝ → Matrix m n 𝕜) (F' : Matrix m n 𝕜) (t : ℝ) : Prop :=
  ∀ i j, HasDerivAt (fun s => F s i j) (F' i j) t

/-- Entrywise derivative of a stack valued function. -/
def StackDeriv (F : ℝ → Stack κ m n 𝕜) (F' : Stack κ m n 𝕜) (t : ℝ) : Prop :=
  ∀ k i j, HasDerivAt (fun s => F s k i j) (F' k i j) t

theorem stackDeriv_iff {F : ℝ → Stack κ m n 𝕜} {F' : Stack κ m n 𝕜} {t : ℝ} :
    StackDeriv F F' t ↔ ∀ k, MatDeriv (fun s => F s k) (F' k) t := Iff.rfl

namespace MatDeriv

theorem mul [Fintype n] {F : ℝ → Matrix m n 𝕜} {G : ℝ → Matrix n p 𝕜}
    {F' : Matrix m n 𝕜} {G' : Matrix n p 𝕜} {t : ℝ} (hF : MatDeriv F F' t)
    (hG : MatDeriv G G' t) : MatDeriv (fun s => F s * G s) (F' * G t + F t * G') t := by
  intro i j
  simp only [Matrix.add_apply, mul_apply, ← Finset.sum_add_distrib]
  exact HasDerivAt.fun_sum fun k _ => (hF i k).fun_mul (hG k j)

theorem transpose {F : ℝ → Matrix m n 𝕜} {F' : Matrix m n 𝕜} {t : ℝ}
    (hF : MatDeriv F F' t) : MatDeriv (fun s => (F s)ᵀ) F'ᵀ t := fun i j => hF j i

theorem conjTranspose {F : ℝ → Matrix m n 𝕜} {F' : Matrix m n 𝕜} {t : ℝ}
    (hF : MatDeriv F F' t) : MatDeriv (fun s => (F s)ᴴ) F'ᴴ t :=
  fun i j => HasDerivAt.star (hF j i)

theorem add {F G : ℝ → Matrix m n 𝕜} {F' G' : Matrix m n 𝕜} {t : ℝ}
    (hF : MatDeriv F F' t) (hG : MatDeriv G G' t) :
    MatDeriv (fun s => F s + G s) (F' + G') t := fun i j => (hF i j).fun_add (hG i j)

theorem sub {F G : ℝ → Matrix m n 𝕜} {F' G' : Matrix m n 𝕜} {t : ℝ}
    (hF : MatDeriv F F' t) (hG : MatDeriv G G' t) :
    MatDeriv (fun s => F s - G s) (F' - G') t := fun i j => (hF i j).fun_sub (hG i j)

theorem smul {F : ℝ → Matrix m n 𝕜} {F' : Matrix m n 𝕜} {t : ℝ}
    (hF : MatDeriv F F' t) (c : ℝ) : MatDeriv (fun s => c • F s) (c • F') t :=
  fun i j => (hF i j).fun_const_smul c

theorem const (A : Matrix m n 𝕜) (t : ℝ) : MatDeriv (fun _ => A) 0 t :=
  fun i j => hasDerivAt_const t (A i j)

theorem unique {F : ℝ → Matrix m n 𝕜} {A B : Matrix m n 𝕜} {t : ℝ} (hA : MatDeriv F A t)
    (hB : MatDeriv F B t) : A = B := by
  ext i j
  exact (hA i j).unique (hB i j)

theorem congr_deriv {F : ℝ → Matrix m n 𝕜} {A B : Matrix m n 𝕜} {t : ℝ} (hA : MatDeriv F A t)
    (h : A = B) : MatDeriv F B t := h ▸ hA

theorem congr_fun {F G : ℝ → Matrix m n 𝕜} {A : Matrix m n 𝕜} {t : ℝ} (hA : MatDeriv F A t)
    (h : ∀ s, G s = F s) : MatDeriv G A t := by
  have : G = F := funext h
  rwa [this]

end MatDeriv

/-- A function within a quadratic of an affine one has its slope as derivative. -/
theorem hasDerivAt_of_quadratic {f : ℝ → 𝕜} {a b : 𝕜} {C : ℝ}
    (h : ∀ t : ℝ, ‖f t - (a + t • b)‖ ≤ C * t ^ 2) : HasDerivAt f b 0 := by
  have h0 : f 0 = a := by
    have := h 0
    simp only [zero_smul, add_zero, ne_eq, OfNat.ofNat_ne_zero, not_false_eq_true, zero_pow,
      mul_zero] at this
    exact sub_eq_zero.mp (norm_le_zero_iff.mp this)
  rw [hasDerivAt_iff_isLittleO]
  have hO : (fun t : ℝ => f t - f 0 - (t - 0) • b) =O[nhds 0] fun t : ℝ => t ^ 2 := by
    refine Asymptotics.IsBigO.of_bound C (Filter.Eventually.of_forall fun t => ?_)
    have := h t
    rw [h0, sub_zero, Real.norm_of_nonneg (sq_nonneg t), sub_sub]
    exact this
  refine hO.trans_isLittleO ?_
  simpa using Asymptotics.isLittleO_pow_id (𝕜 := ℝ) (n := 2) (by norm_num)

set_option backward.isDefEq.respectTransparency false in
theorem hasSum_matrix_exp [Fintype m] [DecidableEq m] (M : Matrix m m 𝕜) :
    HasSum (fun k : ℕ => (k.factorial : ℚ)⁻¹ • M ^ k) (NormedSpace.exp M) :=
  open scoped Norms.Operator in NormedSpace.exp_series_hasSum_exp' M

/-- `exp` of intertwined matrices: if `M a = a N` then `exp M a = a exp N`, for rectangular `a`. -/
theorem exp_intertwine [Fintype m] [DecidableEq m] [Fintype n] [DecidableEq n]
    {M : Matrix m m 𝕜} {N : Matrix n n 𝕜} {a : Matrix m n 𝕜} (h : M * a = a * N) :
    NormedSpace.exp M * a = a * NormedSpace.exp N := by
  have hpow : ∀ k : ℕ, M ^ k * a = a * N ^ k := by
    intro k
    induction k with
    | zero => simp
    | succ k ih => rw [pow_succ, pow_succ, Matrix.mul_assoc, h, ← Matrix.mul_assoc, ih,
        Matrix.mul_assoc]
  have h1 : HasSum (fun k : ℕ => ((k.factorial : ℚ)⁻¹ • M ^ k) * a) (NormedSpace.exp M * a) :=
    (hasSum_matrix_exp M).map (⟨⟨fun A : Matrix m m 𝕜 => A * a, Matrix.zero_mul a⟩,
      fun A B => Matrix.add_mul A B a⟩ : Matrix m m 𝕜 →+ Matrix m n 𝕜)
      (continuous_id.matrix_mul continuous_const)
  have h2 : HasSum (fun k : ℕ => a * ((k.factorial : ℚ)⁻¹ • N ^ k)) (a * NormedSpace.exp N) :=
    (hasSum_matrix_exp N).map (⟨⟨fun A : Matrix n n 𝕜 => a * A, Matrix.mul_zero a⟩,
      fun A B => Matrix.mul_add a A B⟩ : Matrix n n 𝕜 →+ Matrix m n 𝕜)
      (continuous_const.matrix_mul continuous_id)
  refine h1.unique ?_
  convert h2 using 2 with k
  rw [Matrix.smul_mul, Matrix.mul_smul, hpow]

set_option backward.isDefEq.respectTransparency false in
open scoped Norms.Operator in
/-- Derivative of `t ↦ exp (t A)`. -/
theorem matDeriv_exp [Fintype n] [DecidableEq n] (A : Matrix n n 𝕜) (t : ℝ) :
    MatDeriv (fun s : ℝ => NormedSpace.exp (s • A)) (NormedSpace.exp (t • A) * A) t := by
  intro i j
  have h := hasDerivAt_exp_smul_const (𝕂 := ℝ) A t
  let e : Matrix n n 𝕜 →L[ℝ] 𝕜 :=
    { toFun := fun M => M i j
      map_add' := fun _ _ => rfl
      map_smul' := fun _ _ => rfl
      cont := continuous_id.matrix_elem i j }
  exact e.hasFDerivAt.comp_hasDerivAt t h

/-- Product rule for the trace inner product of stacks. -/
theorem hasDerivAt_stackDot [Fintype κ] [Fintype m] [Fintype n] {A B : ℝ → Stack κ m n 𝕜}
    {A' B' : Stack κ m n 𝕜} {t : ℝ} (hA : StackDeriv A A' t) (hB : StackDeriv B B' t) :
    HasDerivAt (fun s => stackDot (A s) (B s)) (stackDot A' (B t) + stackDot (A t) B') t := by
  simp only [stackDot, retensordot, map_sum]
  rw [← Finset.sum_add_distrib]
  refine HasDerivAt.fun_sum fun x _ => ?_
  have h1 : HasDerivAt (fun s => star (A s x.1 x.2.1 x.2.2)) (star (A' x.1 x.2.1 x.2.2)) t :=
    (hA x.1 x.2.1 x.2.2).star
  have h2 := h1.mul (hB x.1 x.2.1 x.2.2)
  have h3 := (RCLike.reCLM (K := 𝕜)).hasFDerivAt.comp_hasDerivAt t h2
  refine h3.congr_deriv ?_
  simp

end Verif.Geo
