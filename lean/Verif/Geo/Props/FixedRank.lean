/-
C91–C94, C55 and C101 for the manifold of matrices of fixed rank.
-/
import Verif.Geo.Model.FixedRank
import Verif.Geo.Lemmas.EckartYoung
import Verif.Geo.Lemmas.MatrixCalc
import Verif.Geo.Props.Euclidean
import Verif.Geo.Props.Stiefel
import Mathlib.Tactic.FieldSimp
import Mathlib.Tactic.LinearCombination
import Mathlib.Tactic.FinCases

namespace Verif.Geo
open scoped BigOperators
open Matrix

variable {m n : Type*} [Fintype m] [Fintype n] {k : ℕ}

/-! ### Specification -/

/-- Valid points: orthonormal factors and positive singular values. -/
structure FRValid (X : FRPoint m n k) : Prop where
  u : X.1ᵀ * X.1 = 1
  pos : ∀ i, 0 < X.2.1 i
  v : X.2.2 * X.2.2ᵀ = 1

/-- The matrix a point stands for. -/
def frMat (X : FRPoint m n k) : Matrix m n ℝ := X.1 * diagonal X.2.1 * X.2.2

/-- Conditions on the components of a tangent vector. -/
structure IsFrTangent (X : FRPoint m n k) (Z : FRTan m n k) : Prop where
  left : X.1ᵀ * Z.1 = 0
  right : X.2.2 * Z.2.2 = 0

/-- The matrix a tangent vector stands for. -/
def frAmb (X : FRPoint m n k) (Z : FRTan m n k) : Matrix m n ℝ :=
  X.1 * Z.2.1 * X.2.2 + Z.1 * X.2.2 + X.1 * Z.2.2ᵀ

/-- The matrix an ambient vector stands for. -/
def FRAmbient.toMat : FRAmbient m n → Matrix m n ℝ
  | .dense Z => Z
  | @FRAmbient.lowRank _ _ _p _ U S V => U * S * Vᵀ

/-- Velocities of curves of matrices of rank at most `k` through the point. -/
def IsRankVelocity (X : FRPoint m n k) (Z : Matrix m n ℝ) : Prop :=
  ∃ (C : ℝ → Matrix m (Fin k) ℝ) (E : ℝ → Matrix (Fin k) n ℝ) (C' : Matrix m (Fin k) ℝ)
    (E' : Matrix (Fin k) n ℝ), MatDeriv C C' 0 ∧ MatDeriv E E' 0 ∧ C 0 * E 0 = frMat X ∧
    MatDeriv (fun t => C t * E t) Z 0

theorem matDeriv_line {p q : Type*} (A B : Matrix p q ℝ) :
    MatDeriv (fun t : ℝ => A + t • B) B 0 := by
  intro i j
  have := ((hasDerivAt_id (0 : ℝ)).mul_const (B i j)).const_add (A i j)
  rw [one_mul] at this
  exact this

/-! ### C91 -/

omit [Fintype m] [Fintype n] in
theorem frAmb_add (X : FRPoint m n k) (A B : FRTan m n k) :
    frAmb X (A + B) = frAmb X A + frAmb X B := by
  simp only [frAmb, Prod.fst_add, Prod.snd_add, Matrix.mul_add, Matrix.add_mul, transpose_add]
  abel

omit [Fintype m] [Fintype n] in
theorem frAmb_smul (X : FRPoint m n k) (c : ℝ) (A : FRTan m n k) :
    frAmb X (c • A) = c • frAmb X A := by
  simp only [frAmb, Prod.smul_fst, Prod.smul_snd, Matrix.mul_smul, Matrix.smul_mul, transpose_smul,
    smul_add]

theorem tangent_subspace (X : FRPoint m n k) : IsSubspace (IsFrTangent X) where
  zero := ⟨by simp, by simp⟩
  add := fun hA hB => ⟨by simp [Matrix.mul_add, hA.left, hB.left],
    by simp [Matrix.mul_add, hA.right, hB.right]⟩
  smul := fun c _ hA => ⟨by simp [hA.left], by simp [hA.right]⟩

theorem frInner_eq (X : FRPoint m n k) (A B : FRTan m n k) :
    frInner X A B = trDot A.1 B.1 + trDot A.2.1 B.2.1 + trDot A.2.2 B.2.2 := by
  have h : ∀ {p q : Type _} [Fintype p] [Fintype q] (C D : Matrix p q ℝ),
      tensordot (fun x : p × q => C x.1 x.2) (fun x : p × q => D x.1 x.2) = trDot C D := by
    intro p q _ _ C D
    rw [trDot_eq_sum, tensordot, Fintype.sum_prod_type]
    simp
  rw [frInner]
  congr 1
  · congr 1
    · rw [trDot_eq_sum, tensordot, Fintype.sum_prod_type]; simp
    · exact h _ _
  · rw [trDot_eq_sum, tensordot, Fintype.sum_prod_type]; simp

theorem frInner_inner (X : FRPoint m n k) : IsInner (frInner X) := by
  refine ⟨?_, ?_, ?_, ?_, ?_⟩
  · intro u v w
    simp only [frInner_eq, Prod.fst_add, Prod.snd_add, trDot_inner.add_left]; ring
  · intro c u v
    simp only [frInner_eq, Prod.smul_fst, Prod.smul_snd, trDot_inner.smul_left]; ring
  · intro u v
    simp only [frInner_eq]
    rw [trDot_inner.symm u.1, trDot_inner.symm u.2.1, trDot_inner.symm u.2.2]
  · intro u
    rw [frInner_eq]
    have h1 := trDot_inner.nonneg u.1
    have h2 := trDot_inner.nonneg u.2.1
    have h3 := trDot_inner.nonneg u.2.2
    linarith
  · intro u h
    rw [frInner_eq] at h
    have h1 := trDot_inner.nonneg u.1
    have h2 := trDot_inner.nonneg u.2.1
    have h3 := trDot_inner.nonneg u.2.2
    exact Prod.ext (trDot_inner.definite _ (by linarith))
      (Prod.ext (trDot_inner.definite _ (by linarith)) (trDot_inner.definite _ (by linarith)))

section
variable {X : FRPoint m n k} (hX : FRValid X)
include hX

theorem amb_left {Z : FRTan m n k} (hZ : IsFrTangent X Z) :
    X.1ᵀ * frAmb X Z = Z.2.1 * X.2.2 + Z.2.2ᵀ := by
  rw [frAmb, Matrix.mul_add, Matrix.mul_add, ← Matrix.mul_assoc, ← Matrix.mul_assoc,
    ← Matrix.mul_assoc, ← Matrix.mul_assoc, hX.u, hZ.left, Matrix.one_mul, Matrix.zero_mul,
    Matrix.one_mul, add_zero]

theorem amb_right {Z : FRTan m n k} (hZ : IsFrTangent X Z) :
    frAmb X Z * X.2.2ᵀ = X.1 * Z.2.1 + Z.1 := by
  have h1 : Z.2.2ᵀ * X.2.2ᵀ = 0 := by rw [← transpose_mul, hZ.right, transpose_zero]
  rw [frAmb, Matrix.add_mul, Matrix.add_mul, Matrix.mul_assoc _ X.2.2, Matrix.mul_assoc _ X.2.2,
    Matrix.mul_assoc X.1 Z.2.2ᵀ, hX.v, Matrix.mul_one, Matrix.mul_one, h1, Matrix.mul_zero, add_zero]

theorem amb_both {Z : FRTan m n k} (hZ : IsFrTangent X Z) :
    X.1ᵀ * frAmb X Z * X.2.2ᵀ = Z.2.1 := by
  have h1 : Z.2.2ᵀ * X.2.2ᵀ = 0 := by rw [← transpose_mul, hZ.right, transpose_zero]
  rw [amb_left hX hZ, Matrix.add_mul, Matrix.mul_assoc, hX.v, Matrix.mul_one, h1, add_zero]

/-- C91: the represented inner product is the trace inner product of the ambient matrices, and
different tangent vectors stand for different matrices. -/
theorem C91_isometry {A B : FRTan m n k} (hA : IsFrTangent X A) (hB : IsFrTangent X B) :
    frInner X A B = (((frAmb X A)ᵀ * frAmb X B).trace) ∧ (frAmb X A = frAmb X B → A = B) := by
  constructor
  · have e : (frAmb X A)ᵀ * frAmb X B = X.2.2ᵀ * A.2.1ᵀ * (X.1ᵀ * frAmb X B) +
        X.2.2ᵀ * (A.1ᵀ * frAmb X B) + A.2.2 * (X.1ᵀ * frAmb X B) := by
      conv_lhs => rw [frAmb]
      simp only [transpose_add, transpose_mul, transpose_transpose, Matrix.add_mul,
        Matrix.mul_assoc]
    have e1 : A.1ᵀ * frAmb X B = A.1ᵀ * B.1 * X.2.2 := by
      have h : A.1ᵀ * X.1 = 0 := by
        rw [← transpose_transpose X.1, ← transpose_mul, hA.left, transpose_zero]
      rw [frAmb, Matrix.mul_add, Matrix.mul_add, Matrix.mul_assoc X.1, ← Matrix.mul_assoc _ X.1,
        ← Matrix.mul_assoc _ X.1, h, Matrix.zero_mul, Matrix.zero_mul, zero_add, add_zero,
        Matrix.mul_assoc]
    have h2 : B.2.2ᵀ * X.2.2ᵀ = 0 := by rw [← transpose_mul, hB.right, transpose_zero]
    rw [e, amb_left hX hB, e1, trace_add, trace_add, frInner_eq, trDot_real, trDot_real, trDot_real]
    have t1 : (X.2.2ᵀ * A.2.1ᵀ * (B.2.1 * X.2.2 + B.2.2ᵀ)).trace = (A.2.1ᵀ * B.2.1).trace := by
      rw [Matrix.mul_assoc, trace_mul_comm, Matrix.mul_add, Matrix.add_mul, Matrix.mul_assoc,
        Matrix.mul_assoc, Matrix.mul_assoc, hX.v, Matrix.mul_one, h2, Matrix.mul_zero, add_zero]
    have t2 : (X.2.2ᵀ * (A.1ᵀ * B.1 * X.2.2)).trace = (A.1ᵀ * B.1).trace := by
      rw [trace_mul_comm, Matrix.mul_assoc, hX.v, Matrix.mul_one]
    have t3 : (A.2.2 * (B.2.1 * X.2.2 + B.2.2ᵀ)).trace = (A.2.2ᵀ * B.2.2).trace := by
      rw [Matrix.mul_add, trace_add, trace_mul_comm, Matrix.mul_assoc, hA.right, Matrix.mul_zero,
        trace_zero, zero_add, ← trace_transpose, transpose_mul, transpose_transpose, trace_mul_comm]
    rw [t1, t2, t3]
    ring
  · intro h
    have hM : A.2.1 = B.2.1 := by rw [← amb_both hX hA, ← amb_both hX hB, h]
    have h1 : A.1 = B.1 := by
      have := amb_right hX hA
      rw [h, amb_right hX hB, hM] at this
      exact (add_left_cancel this).symm
    have h2 : A.2.2ᵀ = B.2.2ᵀ := by
      have := amb_left hX hA
      rw [h, amb_left hX hB, hM] at this
      exact (add_left_cancel this).symm
    exact Prod.ext h1 (Prod.ext hM (transpose_injective h2))

omit [Fintype m] [Fintype n] hX in
/-- C91: `embedding` returns factors of the matrix a tangent vector stands for. -/
theorem C91_embedding (X : FRPoint m n k) (Z : FRTan m n k) :
    (frEmbed X Z).toMat = frAmb X Z := by
  rw [frEmbed, FRAmbient.toMat, Matrix.mul_one, transpose_fromCols, fromCols_mul_fromRows, frAmb,
    transpose_transpose, Matrix.add_mul]

theorem proj_tangent (Z : Matrix m n ℝ) : IsFrTangent X (frProj X (.dense Z)) := by
  constructor
  · simp only [frProj, frApply, Matrix.mul_sub, ← Matrix.mul_assoc, hX.u, Matrix.one_mul, sub_self]
  · simp only [frProj, frApply, frApplyT, Matrix.mul_sub, ← Matrix.mul_assoc, hX.v, Matrix.one_mul,
      transpose_mul, transpose_transpose, sub_self]

/-- C91: projection gives tangent vectors, and the matrix it stands for is the orthogonal projection
of the ambient matrix onto the tangent space. -/
theorem C91_projection :
    (∀ Z, IsFrTangent X (frProj X (.dense Z))) ∧
    IsOrthProj (fun A B : Matrix m n ℝ => (Aᵀ * B).trace)
      (fun W => ∃ Z, IsFrTangent X Z ∧ frAmb X Z = W) fun Z => frAmb X (frProj X (.dense Z)) := by
  refine ⟨proj_tangent hX, ?_⟩
  have hB : IsInner (fun A B : Matrix m n ℝ => (Aᵀ * B).trace) := by
    have : (fun A B : Matrix m n ℝ => (Aᵀ * B).trace) = trDot := by
      funext A B; exact (trDot_real A B).symm
    rw [this]; exact trDot_inner
  refine hB.orthProj ?_ (fun Z => ⟨_, proj_tangent hX Z, rfl⟩) ?_
  · refine ⟨⟨0, (tangent_subspace X).zero, by simp [frAmb]⟩, ?_, ?_⟩
    · rintro _ _ ⟨A, hA, rfl⟩ ⟨B, hB, rfl⟩
      exact ⟨A + B, (tangent_subspace X).add hA hB, frAmb_add X A B⟩
    · rintro c _ ⟨A, hA, rfl⟩
      exact ⟨c • A, (tangent_subspace X).smul c hA, frAmb_smul X c A⟩
  · rintro Z _ ⟨W, hW, rfl⟩
    -- the residual vanishes under both factors
    have h1 : X.1ᵀ * (Z - frAmb X (frProj X (.dense Z))) = 0 := by
      rw [Matrix.mul_sub, amb_left hX (proj_tangent hX Z)]
      simp only [frProj, frApply, frApplyT, transpose_sub, transpose_mul, transpose_transpose]
      simp only [Matrix.mul_assoc]
      abel
    have h2 : (Z - frAmb X (frProj X (.dense Z))) * X.2.2ᵀ = 0 := by
      rw [Matrix.sub_mul, amb_right hX (proj_tangent hX Z)]
      simp only [frProj, frApply]
      abel
    change ((Z - frAmb X (frProj X (.dense Z)))ᵀ * frAmb X W).trace = 0
    obtain ⟨D, hD⟩ : ∃ D, D = Z - frAmb X (frProj X (.dense Z)) := ⟨_, rfl⟩
    rw [← hD] at h1 h2 ⊢
    have h3 : Dᵀ * X.1 = 0 := by
      rw [← transpose_transpose X.1, ← transpose_mul, h1, transpose_zero]
    have h4 : X.2.2 * Dᵀ = 0 := by
      rw [← transpose_transpose X.2.2, ← transpose_mul, h2, transpose_zero]
    rw [frAmb, Matrix.mul_add, Matrix.mul_add, Matrix.mul_assoc X.1, ← Matrix.mul_assoc Dᵀ X.1,
      ← Matrix.mul_assoc Dᵀ X.1, h3, Matrix.zero_mul, Matrix.zero_mul, zero_add, add_zero,
      ← Matrix.mul_assoc, trace_mul_comm, ← Matrix.mul_assoc, h4, Matrix.zero_mul, trace_zero]

/-- The inverse of the singular values. -/
theorem sinv_mul : diagonal (fun i => (X.2.1 i)⁻¹) * diagonal X.2.1 = 1 := by
  rw [diagonal_mul_diagonal, ← diagonal_one]
  congr 1
  funext i
  exact inv_mul_cancel₀ (hX.pos i).ne'

theorem mul_sinv : diagonal X.2.1 * diagonal (fun i => (X.2.1 i)⁻¹) = 1 := by
  rw [diagonal_mul_diagonal, ← diagonal_one]
  congr 1
  funext i
  exact mul_inv_cancel₀ (hX.pos i).ne'

/-- C91: tangent vectors stand for exactly the velocities of curves of matrices of rank at most
`k`. -/
theorem C91_tangent_space (W : Matrix m n ℝ) :
    IsRankVelocity X W ↔ ∃ Z, IsFrTangent X Z ∧ frAmb X Z = W := by
  classical
  constructor
  · rintro ⟨C, E, C', E', hC, hE, h0, hW⟩
    have hW' : W = C' * E 0 + C 0 * E' := hW.unique (hC.mul hE)
    -- `C 0` and `u` span the same columns
    have hl : X.1ᵀ * C 0 * (E 0 * X.2.2ᵀ * diagonal (fun i => (X.2.1 i)⁻¹)) = 1 := by
      have : X.1ᵀ * C 0 * (E 0 * X.2.2ᵀ * diagonal (fun i => (X.2.1 i)⁻¹)) =
          X.1ᵀ * (C 0 * E 0) * X.2.2ᵀ * diagonal (fun i => (X.2.1 i)⁻¹) := by
        simp only [Matrix.mul_assoc]
      rw [this, h0, frMat]
      have : X.1ᵀ * (X.1 * diagonal X.2.1 * X.2.2) * X.2.2ᵀ * diagonal (fun i => (X.2.1 i)⁻¹) =
          (X.1ᵀ * X.1) * diagonal X.2.1 * (X.2.2 * X.2.2ᵀ) * diagonal (fun i => (X.2.1 i)⁻¹) := by
        simp only [Matrix.mul_assoc]
      rw [this, hX.u, hX.v, Matrix.one_mul, Matrix.mul_one, mul_sinv hX]
    have hr := mul_eq_one_comm.mp hl
    have hE1 : E 0 * (X.2.2ᵀ * diagonal (fun i => (X.2.1 i)⁻¹) * (X.1ᵀ * C 0)) = 1 := by
      rw [← hr]; simp only [Matrix.mul_assoc]
    have hC1 : (E 0 * X.2.2ᵀ * diagonal (fun i => (X.2.1 i)⁻¹) * X.1ᵀ) * C 0 = 1 := by
      rw [← hr]; simp only [Matrix.mul_assoc]
    have hC0 : C 0 = X.1 * (X.1ᵀ * C 0) := by
      have e1 : C 0 * E 0 = X.1 * (X.1ᵀ * (C 0 * E 0)) := by
        rw [h0, frMat]
        have : X.1 * (X.1ᵀ * (X.1 * diagonal X.2.1 * X.2.2)) =
          X.1 * (X.1ᵀ * X.1) * diagonal X.2.1 * X.2.2 := by simp only [Matrix.mul_assoc]
        rw [this, hX.u, Matrix.mul_one]
      have e2 := congrArg (fun M => M * (X.2.2ᵀ * diagonal (fun i => (X.2.1 i)⁻¹) * (X.1ᵀ * C 0))) e1
      rw [Matrix.mul_assoc, hE1, Matrix.mul_one] at e2
      rw [← Matrix.mul_assoc X.1ᵀ, Matrix.mul_assoc X.1, Matrix.mul_assoc, hE1, Matrix.mul_one] at e2
      exact e2
    have hE0 : E 0 = E 0 * X.2.2ᵀ * X.2.2 := by
      have e1 : C 0 * E 0 = C 0 * E 0 * X.2.2ᵀ * X.2.2 := by
        rw [h0, frMat, Matrix.mul_assoc _ X.2.2, hX.v, Matrix.mul_one]
      have e2 := congrArg (fun M => (E 0 * X.2.2ᵀ * diagonal (fun i => (X.2.1 i)⁻¹) * X.1ᵀ) * M) e1
      rw [← Matrix.mul_assoc, hC1, Matrix.one_mul] at e2
      have e3 : E 0 * X.2.2ᵀ * diagonal (fun i => (X.2.1 i)⁻¹) * X.1ᵀ *
          (C 0 * E 0 * X.2.2ᵀ * X.2.2) = (E 0 * X.2.2ᵀ * diagonal (fun i => (X.2.1 i)⁻¹) * X.1ᵀ *
          C 0) * (E 0 * X.2.2ᵀ * X.2.2) := by simp only [Matrix.mul_assoc]
      rw [e3, hC1, Matrix.one_mul] at e2
      exact e2
    refine ⟨frProj X (.dense W), proj_tangent hX W, ?_⟩
    have hfix := (C91_projection hX).2.fixes (v := W)
    refine hfix ⟨((1 - X.1 * X.1ᵀ) * C' * (E 0 * X.2.2ᵀ), X.1ᵀ * W * X.2.2ᵀ,
      ((X.1ᵀ * C 0) * E' * (1 - X.2.2ᵀ * X.2.2))ᵀ), ⟨?_, ?_⟩, ?_⟩
    · simp only
      have : X.1ᵀ * (1 - X.1 * X.1ᵀ) = 0 := by
        rw [Matrix.mul_sub, ← Matrix.mul_assoc, hX.u, Matrix.mul_one, Matrix.one_mul, sub_self]
      have e : X.1ᵀ * ((1 - X.1 * X.1ᵀ) * C') * E 0 * X.2.2ᵀ =
          (X.1ᵀ * (1 - X.1 * X.1ᵀ)) * (C' * E 0 * X.2.2ᵀ) := by simp only [Matrix.mul_assoc]
      rw [← Matrix.mul_assoc, ← Matrix.mul_assoc, e, this, Matrix.zero_mul]
    · simp only
      rw [transpose_mul, ← Matrix.mul_assoc, transpose_sub, transpose_one, transpose_mul,
        transpose_transpose, Matrix.mul_sub, ← Matrix.mul_assoc, hX.v, Matrix.mul_one,
        Matrix.one_mul, sub_self, Matrix.zero_mul]
    · rw [frAmb]
      simp only [transpose_transpose]
      have t1 : (1 - X.1 * X.1ᵀ) * C' * (E 0 * X.2.2ᵀ) * X.2.2 = C' * E 0 - X.1 * (X.1ᵀ * (C' * E 0))
          := by
        have : (1 - X.1 * X.1ᵀ) * C' * (E 0 * X.2.2ᵀ) * X.2.2 =
          (1 - X.1 * X.1ᵀ) * C' * (E 0 * X.2.2ᵀ * X.2.2) := by simp only [Matrix.mul_assoc]
        rw [this, ← hE0, Matrix.sub_mul, Matrix.sub_mul, Matrix.one_mul]
        simp only [Matrix.mul_assoc]
      have t2 : X.1 * (X.1ᵀ * C 0 * E' * (1 - X.2.2ᵀ * X.2.2)) =
          C 0 * E' - C 0 * E' * X.2.2ᵀ * X.2.2 := by
        have : X.1 * (X.1ᵀ * C 0 * E' * (1 - X.2.2ᵀ * X.2.2)) =
          (X.1 * (X.1ᵀ * C 0)) * E' * (1 - X.2.2ᵀ * X.2.2) := by simp only [Matrix.mul_assoc]
        rw [this, ← hC0, Matrix.mul_sub, Matrix.mul_one, ← Matrix.mul_assoc]
      have t3 : X.1 * (X.1ᵀ * W * X.2.2ᵀ) * X.2.2 =
          X.1 * (X.1ᵀ * (C' * E 0)) + C 0 * E' * X.2.2ᵀ * X.2.2 := by
        have a1 : X.1 * (X.1ᵀ * (C' * E 0) * X.2.2ᵀ) * X.2.2 = X.1 * (X.1ᵀ * (C' * E 0)) := by
          have : X.1 * (X.1ᵀ * (C' * E 0) * X.2.2ᵀ) * X.2.2 =
            X.1 * (X.1ᵀ * (C' * (E 0 * X.2.2ᵀ * X.2.2))) := by simp only [Matrix.mul_assoc]
          rw [this, ← hE0]
        have a2 : X.1 * (X.1ᵀ * (C 0 * E') * X.2.2ᵀ) * X.2.2 = C 0 * E' * X.2.2ᵀ * X.2.2 := by
          have : X.1 * (X.1ᵀ * (C 0 * E') * X.2.2ᵀ) * X.2.2 =
            (X.1 * (X.1ᵀ * C 0)) * E' * X.2.2ᵀ * X.2.2 := by simp only [Matrix.mul_assoc]
          rw [this, ← hC0]
        rw [hW', Matrix.mul_add, Matrix.add_mul, Matrix.mul_add, Matrix.add_mul, a1, a2]
      rw [t1, t2, t3, hW']
      abel
  · rintro ⟨Z, hZ, rfl⟩
    let Si : Matrix (Fin k) (Fin k) ℝ := diagonal fun i => (X.2.1 i)⁻¹
    have dC : MatDeriv (fun t : ℝ => X.1 * diagonal X.2.1 + t • (X.1 * Z.2.1 + Z.1))
        (X.1 * Z.2.1 + Z.1) 0 := matDeriv_line _ _
    have dE : MatDeriv (fun t : ℝ => X.2.2 + t • (Si * Z.2.2ᵀ)) (Si * Z.2.2ᵀ) 0 := matDeriv_line _ _
    refine ⟨_, _, _, _, dC, dE, by simp [frMat], ?_⟩
    refine (dC.mul dE).congr_deriv ?_
    simp only [zero_smul, add_zero]
    rw [Matrix.add_mul, ← Matrix.mul_assoc, Matrix.mul_assoc X.1 (diagonal X.2.1), mul_sinv hX,
      Matrix.mul_one, frAmb]

omit hX in
theorem applyT_lowRank (X : FRPoint m n k) {p : Type} [Fintype p] (U : Matrix m p ℝ)
    (S : Matrix p p ℝ) (V : Matrix n p ℝ) :
    frProj X (.lowRank p U S V) =
      ((frProj X (.dense (U * S * Vᵀ))).1, (frProj X (.dense (U * S * Vᵀ))).2.1,
        (frProj X (.dense (U * S * Vᵀ))).2.2 + V * (S - Sᵀ) * Uᵀ * X.1) := by
  simp only [frProj, frApply, frApplyT]
  refine Prod.ext rfl (Prod.ext rfl ?_)
  simp only [Matrix.mul_sub, Matrix.sub_mul, transpose_mul, transpose_transpose, Matrix.mul_assoc]
  abel

omit hX in
/-- C91, what holds about low-rank ambient vectors: they are treated like the matrix they stand for
exactly when the middle factor is symmetric as far as the point sees it; in particular when it is
symmetric. -/
theorem C91_lowRank_partial (X : FRPoint m n k) {p : Type} [Fintype p] (U : Matrix m p ℝ)
    (S : Matrix p p ℝ) (V : Matrix n p ℝ) :
    (frProj X (.lowRank p U S V) = frProj X (.dense (FRAmbient.lowRank p U S V).toMat) ↔
      V * (S - Sᵀ) * Uᵀ * X.1 = 0) ∧
    (Sᵀ = S → frProj X (.lowRank p U S V) = frProj X (.dense (FRAmbient.lowRank p U S V).toMat)) := by
  have h : frProj X (.lowRank p U S V) = frProj X (.dense (FRAmbient.lowRank p U S V).toMat) ↔
      V * (S - Sᵀ) * Uᵀ * X.1 = 0 := by
    rw [applyT_lowRank, FRAmbient.toMat]
    constructor
    · intro h
      have := congrArg (fun Z => Z.2.2) h
      simpa using this
    · intro h
      rw [h, add_zero]
  refine ⟨h, fun hS => h.mpr ?_⟩
  rw [hS, sub_self, Matrix.mul_zero, Matrix.zero_mul, Matrix.zero_mul]

/-- C91: transport returns tangent vectors, the projection of the matrix transported. -/
theorem C91_transport (Y : FRPoint m n k) (Z : FRTan m n k) :
    IsFrTangent X (frTransport Y X Z) ∧ frTransport Y X Z = frProj X (.dense (frAmb Y Z)) := by
  have h : frTransport Y X Z = frProj X (.dense (frAmb Y Z)) := by
    rw [frTransport, ← C91_embedding Y Z]
    exact (C91_lowRank_partial X _ _ _).2 transpose_one
  exact ⟨h ▸ proj_tangent hX _, h⟩

end

/-- The full claim about low-rank ambient vectors. -/
def C91_lowRank_claim (X : FRPoint m n k) : Prop :=
  ∀ (p : Type) (_ : Fintype p) (U : Matrix m p ℝ) (S : Matrix p p ℝ) (V : Matrix n p ℝ),
    frProj X (.lowRank p U S V) = frProj X (.dense (FRAmbient.lowRank p U S V).toMat)

/-- C91 fails at every point for low-rank ambient vectors with a middle factor that is not symmetric:
the result may not even be a tangent vector. -/
theorem C91_negation (hk : 0 < k) (X : FRPoint m n k) (hX : FRValid X) :
    ¬C91_lowRank_claim X ∧
    ∃ (U : Matrix m (Fin 2) ℝ) (S : Matrix (Fin 2) (Fin 2) ℝ) (V : Matrix n (Fin 2) ℝ),
      ¬IsFrTangent X (frProj X (.lowRank (Fin 2) U S V)) := by
  obtain ⟨a, -⟩ : ∃ a : Fin k, a = ⟨0, hk⟩ := ⟨_, rfl⟩
  let U : Matrix m (Fin 2) ℝ := of fun i j => if j = 0 then X.1 i a else 0
  let S : Matrix (Fin 2) (Fin 2) ℝ := !![0, 1; 0, 0]
  let V : Matrix n (Fin 2) ℝ := of fun i j => if j = 1 then X.2.2 a i else 0
  have e : (X.2.2 * (V * (S - Sᵀ) * Uᵀ * X.1)) a a = -1 := by
    have e1 : (X.2.2 * (V * (S - Sᵀ) * Uᵀ * X.1)) = (X.2.2 * V) * (S - Sᵀ) * (Uᵀ * X.1) := by
      simp only [Matrix.mul_assoc]
    have e2 : ∀ j, (X.2.2 * V) a j = if j = 1 then 1 else 0 := by
      intro j
      have h := congrFun (congrFun hX.v a) a
      rw [mul_apply, one_apply_eq] at h
      rw [mul_apply]
      split
      · next hj => rw [← h]; exact Finset.sum_congr rfl fun i _ => by simp [V, hj]
      · next hj => exact Finset.sum_eq_zero fun i _ => by simp [V, hj]
    have e3 : ∀ j, (Uᵀ * X.1) j a = if j = 0 then 1 else 0 := by
      intro j
      have h := congrFun (congrFun hX.u a) a
      rw [mul_apply, one_apply_eq] at h
      rw [mul_apply]
      split
      · next hj => rw [← h]; exact Finset.sum_congr rfl fun i _ => by simp [U, hj]
      · next hj => exact Finset.sum_eq_zero fun i _ => by simp [U, hj]
    rw [e1, mul_apply]
    simp only [mul_apply (M := X.2.2 * V), e2, e3, Fin.sum_univ_two]
    simp [S]
  have hnt : ¬IsFrTangent X (frProj X (.lowRank (Fin 2) U S V)) := by
    intro h
    have h1 := h.right
    rw [applyT_lowRank] at h1
    simp only [Matrix.mul_add] at h1
    rw [(proj_tangent hX _).right, zero_add] at h1
    rw [h1] at e
    norm_num at e
  exact ⟨fun hc => hnt (by rw [hc (Fin 2) _ U S V]; exact proj_tangent hX _), U, S, V, hnt⟩

/-! ### C92 -/

/-- The directional derivative at a point, in terms of the three factors. -/
def factorDot (A B : FRPoint m n k) : ℝ :=
  (∑ i, ∑ j, A.1 i j * B.1 i j) + (∑ i, A.2.1 i * B.2.1 i) + ∑ i, ∑ j, A.2.2 i j * B.2.2 i j

omit [Fintype m] [Fintype n] in
theorem matDeriv_factors (X D : FRPoint m n k) :
    MatDeriv (fun t : ℝ => frMat (X + t • D)) (D.1 * diagonal X.2.1 * X.2.2 +
      X.1 * diagonal D.2.1 * X.2.2 + X.1 * diagonal X.2.1 * D.2.2) 0 := by
  have h2 : MatDeriv (fun t : ℝ => diagonal (X.2.1 + t • D.2.1)) (diagonal D.2.1) 0 := by
    refine (matDeriv_line (diagonal X.2.1) (diagonal D.2.1)).congr_fun fun t => ?_
    ext i j
    simp only [diagonal_apply, Matrix.add_apply, Matrix.smul_apply, Pi.add_apply, Pi.smul_apply]
    split <;> simp
  have h := ((matDeriv_line X.1 D.1).mul h2).mul (matDeriv_line X.2.2 D.2.2)
  refine h.congr_deriv ?_
  simp [Matrix.add_mul]

/-- C92: let `F` be a function of matrices with gradient `Z` at the matrix of the point, and `G` the
gradient of the cost `F(u diag(s) vt)` with respect to the three factors.  Then the converted
gradient is defined and is the projection of `Z`, provided the squared singular values differ. -/
theorem C92_gradient {X : FRPoint m n k} (hX : FRValid X) (hd : ∀ i j, i ≠ j → X.2.1 i ^ 2 ≠ X.2.1 j ^ 2)
    (F : Matrix m n ℝ → ℝ) (Z : Matrix m n ℝ) (G : FRPoint m n k)
    (hF : ∀ (γ : ℝ → Matrix m n ℝ) (W : Matrix m n ℝ), γ 0 = frMat X → MatDeriv γ W 0 →
      HasDerivAt (fun t => F (γ t)) (∑ i, ∑ j, Z i j * W i j) 0)
    (hG : ∀ D : FRPoint m n k, HasDerivAt (fun t : ℝ => F (frMat (X + t • D))) (factorDot G D) 0) :
    frE2rg X G = some (frProj X (.dense Z)) := by
  -- the gradient with respect to the factors
  have key : ∀ D : FRPoint m n k, factorDot G D = trDot Z (D.1 * diagonal X.2.1 * X.2.2 +
      X.1 * diagonal D.2.1 * X.2.2 + X.1 * diagonal X.2.1 * D.2.2) := by
    intro D
    have h1 := hF _ _ (by simp) (matDeriv_factors X D)
    rw [(hG D).unique h1, trDot_eq_sum]
    simp
  have g1 : G.1 = Z * X.2.2ᵀ * diagonal X.2.1 := by
    have : ∀ D : Matrix m (Fin k) ℝ, trDot (G.1 - Z * X.2.2ᵀ * diagonal X.2.1) D = 0 := by
      intro D
      have h := key (D, 0, 0)
      have e1 : factorDot G (D, 0, 0) = trDot G.1 D := by
        rw [trDot_eq_sum]; simp [factorDot]
      rw [e1] at h
      rw [trDot_inner.sub_left, h, trDot_mul_right, trDot_mul_right, sub_eq_zero]
      simp [Matrix.mul_assoc, conjTranspose_eq_transpose_of_trivial]
    exact sub_eq_zero.mp (trDot_inner.definite _ (this _))
  have g3 : G.2.2 = diagonal X.2.1 * X.1ᵀ * Z := by
    have : ∀ D : Matrix (Fin k) n ℝ, trDot (G.2.2 - diagonal X.2.1 * X.1ᵀ * Z) D = 0 := by
      intro D
      have h := key (0, 0, D)
      have e1 : factorDot G (0, 0, D) = trDot G.2.2 D := by
        rw [trDot_eq_sum]; simp [factorDot]
      rw [e1] at h
      rw [trDot_inner.sub_left, h, trDot_mul_left, sub_eq_zero]
      simp [conjTranspose_eq_transpose_of_trivial]
    exact sub_eq_zero.mp (trDot_inner.definite _ (this _))
  obtain ⟨N, hN⟩ : ∃ N, N = X.1ᵀ * (Z * X.2.2ᵀ) := ⟨_, rfl⟩
  have g2 : ∀ i, G.2.1 i = N i i := by
    have : ∀ d : Fin k → ℝ, ∑ i, (G.2.1 i - N i i) * d i = 0 := by
      intro d
      have h := key (0, d, 0)
      have e1 : factorDot G (0, d, 0) = ∑ i, G.2.1 i * d i := by simp [factorDot]
      have e2 : trDot Z (X.1 * diagonal d * X.2.2) = ∑ i, N i i * d i := by
        rw [trDot_inner.symm, trDot_mul_right, trDot_mul_left, trDot_inner.symm, trDot_real]
        rw [conjTranspose_eq_transpose_of_trivial, conjTranspose_eq_transpose_of_trivial, ← hN, trace]
        refine Finset.sum_congr rfl fun i _ => ?_
        rw [diag_apply, mul_diagonal, transpose_apply]
      simp only [Matrix.zero_mul, Matrix.mul_zero, add_zero, zero_add] at h
      rw [e1, e2] at h
      simp only [sub_mul, Finset.sum_sub_distrib]
      linarith
    intro i
    have h := this fun i => G.2.1 i - N i i
    rw [Finset.sum_eq_zero_iff_of_nonneg fun i _ => mul_self_nonneg _] at h
    have := h i (Finset.mem_univ i)
    rw [mul_self_eq_zero] at this
    linarith
  have hs : ∀ j, X.2.1 j ≠ 0 := fun j => (hX.pos j).ne'
  have hden : ∀ i j, X.2.1 j ^ 2 - X.2.1 i ^ 2 + (1 : Matrix (Fin k) (Fin k) ℝ) i j ≠ 0 := by
    intro i j
    by_cases h : i = j
    · subst h; simp
    · rw [one_apply_ne h, add_zero]
      exact sub_ne_zero.mpr (hd j i (Ne.symm h))
  have u1 : X.1ᵀ * G.1 = N * diagonal X.2.1 := by
    rw [g1, hN]; simp only [Matrix.mul_assoc]
  have v1 : X.2.2 * G.2.2ᵀ = Nᵀ * diagonal X.2.1 := by
    rw [g3, hN]
    simp only [transpose_mul, transpose_transpose, diagonal_transpose, Matrix.mul_assoc]
  rw [frE2rg, if_pos (by exact ⟨hs, hden⟩)]
  simp only [of_apply]
  rw [u1, v1]
  congr 1
  simp only [frProj, frApply, frApplyT]
  rw [← hN]
  refine Prod.ext ?_ (Prod.ext ?_ ?_)
  · ext i j
    simp only [of_apply]
    rw [g1, ← Matrix.mul_assoc, ← Matrix.sub_mul, mul_diagonal, mul_div_cancel_right₀ _ (hs j)]
  · ext i j
    simp only [of_apply]
    rw [Matrix.sub_apply, Matrix.sub_apply, transpose_apply, transpose_apply, mul_diagonal,
      mul_diagonal, mul_diagonal, mul_diagonal, transpose_apply, transpose_apply]
    by_cases h : i = j
    · subst h
      rw [diagonal_apply_eq, g2]; ring
    · have hij := hden i j
      rw [diagonal_apply_ne _ h]
      rw [one_apply_ne h, add_zero] at hij ⊢
      have : ∀ a b c d f : ℝ, f * (a * b - d * c) * b + c * f * (d * b - a * c) =
        a * ((b ^ 2 - c ^ 2) * f) := by intros; ring
      rw [add_zero, this, mul_one_div_cancel hij, mul_one]
  · ext i j
    simp only [of_apply]
    have : G.2.2ᵀ = Zᵀ * X.1 * diagonal X.2.1 := by
      rw [g3]
      simp only [transpose_mul, transpose_transpose, diagonal_transpose, Matrix.mul_assoc]
    rw [this, ← Matrix.mul_assoc, ← Matrix.sub_mul, mul_diagonal, mul_div_cancel_right₀ _ (hs j)]

/-- C92: without distinct squared singular values the conversion divides by zero. -/
theorem C92_distinct_needed (X G : FRPoint m n k) {i j : Fin k} (hij : i ≠ j)
    (h : X.2.1 i ^ 2 = X.2.1 j ^ 2) : frE2rg X G = none := by
  rw [frE2rg, if_neg]
  rintro ⟨-, h2⟩
  refine h2 i j ?_
  rw [of_apply, one_apply_ne hij, h]; ring

/-! ### C93 -/

omit [Fintype m] [Fintype n] in
theorem gram_blocks [Fintype m] (u Q : Matrix m (Fin k) ℝ) (W N R : Matrix (Fin k) (Fin k) ℝ)
    (hu : uᵀ * u = 1) (hQ : Qᵀ * Q = 1) (h : uᵀ * (Q * R) = 0) :
    (fromCols u Q * fromBlocks W N R 0)ᵀ * (fromCols u Q * fromBlocks W N R 0) =
      (fromBlocks W N R 0)ᵀ * fromBlocks W N R 0 := by
  have h' : (Q * R)ᵀ * u = 0 := by
    rw [← transpose_transpose u, ← transpose_mul, h, transpose_zero]
  rw [fromCols_mul_fromBlocks, Matrix.mul_zero, add_zero, transpose_fromCols, fromRows_mul_fromCols,
    fromBlocks_transpose, fromBlocks_multiply]
  have a1 : (u * W + Q * R)ᵀ * (u * W + Q * R) = Wᵀ * W + Rᵀ * R := by
    have e1 : (u * W)ᵀ * (u * W) = Wᵀ * W := by
      rw [transpose_mul, Matrix.mul_assoc, ← Matrix.mul_assoc uᵀ, hu, Matrix.one_mul]
    have e2 : (u * W)ᵀ * (Q * R) = 0 := by
      rw [transpose_mul, Matrix.mul_assoc, h, Matrix.mul_zero]
    have e3 : (Q * R)ᵀ * (u * W) = 0 := by
      rw [← Matrix.mul_assoc, h', Matrix.zero_mul]
    have e4 : (Q * R)ᵀ * (Q * R) = Rᵀ * R := by
      rw [transpose_mul, Matrix.mul_assoc, ← Matrix.mul_assoc Qᵀ, hQ, Matrix.one_mul]
    rw [transpose_add, Matrix.add_mul, Matrix.mul_add, Matrix.mul_add, e1, e2, e3, e4]
    abel
  have a2 : (u * W + Q * R)ᵀ * (u * N) = Wᵀ * N := by
    rw [transpose_add, Matrix.add_mul, ← Matrix.mul_assoc (Q * R)ᵀ, h', Matrix.zero_mul, add_zero,
      transpose_mul, Matrix.mul_assoc, ← Matrix.mul_assoc uᵀ, hu, Matrix.one_mul]
  have a3 : (u * N)ᵀ * (u * W + Q * R) = Nᵀ * W := by
    rw [Matrix.mul_add, transpose_mul, Matrix.mul_assoc, Matrix.mul_assoc, h, Matrix.mul_zero,
      add_zero, ← Matrix.mul_assoc uᵀ, hu, Matrix.one_mul]
  have a4 : (u * N)ᵀ * (u * N) = Nᵀ * N := by
    rw [transpose_mul, Matrix.mul_assoc, ← Matrix.mul_assoc uᵀ, hu, Matrix.one_mul]
  rw [a1, a2, a3, a4]
  simp

theorem IsQR.real {p q : ℕ} {A : Matrix m (Fin q) ℝ} {Q : Matrix m (Fin p) ℝ}
    {R : Matrix (Fin p) (Fin q) ℝ} (h : IsQR A Q R) : Qᵀ * Q = 1 := by
  simpa [conjTranspose_eq_transpose_of_trivial] using h.orth

theorem retract_compressed {X : FRPoint m n k} (hX : FRValid X) {Z : FRTan m n k}
    (hZ : IsFrTangent X Z) {Qu : Matrix m (Fin k) ℝ} {Ru : Matrix (Fin k) (Fin k) ℝ}
    {Qv : Matrix n (Fin k) ℝ} {Rv : Matrix (Fin k) (Fin k) ℝ}
    {Ut : Matrix (Fin k ⊕ Fin k) (Fin (k + k)) ℝ} {St : Fin (k + k) → ℝ}
    {Vt : Matrix (Fin (k + k)) (Fin k ⊕ Fin k) ℝ} (hu : IsQR Z.1 Qu Ru) (hv : IsQR Z.2.2 Qv Rv)
    (hT : IsSVD (frT X Z Ru Rv) Ut St Vt) :
    Compressed (frMat X + frAmb X Z) (fromCols X.1 Qu) (frT X Z Ru Rv) (fromCols X.2.2ᵀ Qv)
      Ut St Vt where
  prod := by
    rw [frT, fromCols_mul_fromBlocks, transpose_fromCols, fromCols_mul_fromRows, Matrix.mul_zero,
      add_zero, hu.prod, transpose_transpose, Matrix.mul_assoc X.1 Rvᵀ, ← transpose_mul, hv.prod,
      frMat, frAmb, Matrix.mul_add, Matrix.add_mul, Matrix.add_mul]
    abel
  left := gram_blocks _ _ _ _ _ hX.u hu.real (by rw [hu.prod, hZ.left])
  right := by
    have : (frT X Z Ru Rv)ᵀ = fromBlocks (diagonal X.2.1 + Z.2.1)ᵀ Ruᵀ Rv 0 := by
      rw [frT, fromBlocks_transpose, transpose_transpose, transpose_zero]
    rw [this, gram_blocks _ _ _ _ _ (by rw [transpose_transpose, hX.v]) hv.real
      (by rw [hv.prod, transpose_transpose, hZ.right]), ← this, transpose_transpose]
  svd := hT

/-- The point returned by the retraction with the shift of the singular values taken back. -/
def unshift (eps : ℝ) (R : FRPoint m n k) : FRPoint m n k := (R.1, fun i => R.2.1 i - eps, R.2.2)

theorem card_of_orth {u : Matrix m (Fin k) ℝ} (h : uᵀ * u = 1) : k ≤ Fintype.card m := by
  have h1 : (1 : Matrix (Fin k) (Fin k) ℝ).rank ≤ Fintype.card m := by
    rw [← h]
    exact (rank_mul_le_right _ _).trans (rank_le_card_height _)
  rwa [rank_one, Fintype.card_fin] at h1

/-- C93: whatever factors the linear algebra library returns, the singular values are positive and,
up to their shift, the result is a best approximation of point plus tangent vector among all
matrices of rank at most `k`. -/
theorem C93_best {X : FRPoint m n k} (hX : FRValid X) {Z : FRTan m n k} (hZ : IsFrTangent X Z)
    {eps : ℝ} (he : 0 < eps) {R : FRPoint m n k} (h : IsFrRetract eps X Z R) :
    (∀ i, 0 < R.2.1 i) ∧ Antitone R.2.1 ∧ ∀ (C : Matrix m (Fin k) ℝ) (E : Matrix (Fin k) n ℝ),
      ∑ i, ∑ j, ((frMat X + frAmb X Z) i j - frMat (unshift eps R) i j) ^ 2 ≤
        ∑ i, ∑ j, ((frMat X + frAmb X Z) i j - (C * E) i j) ^ 2 := by
  obtain ⟨Qu, Ru, Qv, Rv, Ut, St, Vt, hu, hv, hT, rfl⟩ := h
  have hc := retract_compressed hX hZ hu hv hT
  refine ⟨fun i => by have := hT.nonneg (Fin.castAdd k i); simp only; linarith, ?_, ?_⟩
  · intro i j hij
    have := hT.sorted (show Fin.castAdd k i ≤ Fin.castAdd k j from hij)
    simp only; linarith
  · intro C E
    have e : frMat (unshift eps (fromCols X.1 Qu * Ut.submatrix id (Fin.castAdd k),
        (fun i => St (Fin.castAdd k i) + eps),
        (fromCols X.2.2ᵀ Qv * Vtᵀ.submatrix id (Fin.castAdd k))ᵀ)) =
        fromCols X.1 Qu * Ut.submatrix id (Fin.castAdd k) *
          diagonal (fun i => St (Fin.castAdd k i)) *
          (fromCols X.2.2ᵀ Qv * Vtᵀ.submatrix id (Fin.castAdd k))ᵀ := by
      simp [frMat, unshift]
    have h1 := hc.lead_dist
    have h2 := hc.bound (card_of_orth hX.u) C E
    rw [← h1, ← e, trDot_eq_sum, trDot_eq_sum] at h2
    simpa [sq] using h2

/-- C93: when point plus tangent vector has rank at least `k`, the result is a valid point.  (For a
smaller rank orthonormal columns are not guaranteed, see `C93_gap`.) -/
theorem C93_valid_partial {X : FRPoint m n k} (hX : FRValid X) {Z : FRTan m n k}
    (hZ : IsFrTangent X Z) {eps : ℝ} (he : 0 < eps) (hr : k ≤ (frMat X + frAmb X Z).rank)
    {R : FRPoint m n k} (h : IsFrRetract eps X Z R) : FRValid R := by
  have hpos := (C93_best hX hZ he h).1
  obtain ⟨Qu, Ru, Qv, Rv, Ut, St, Vt, hu, hv, hT, rfl⟩ := h
  have hc := retract_compressed hX hZ hu hv hT
  have hσ : ∀ i : Fin k, St (Fin.castAdd k i) ≠ 0 := fun i => (hc.pos_of_rank hr i).ne'
  refine ⟨hc.lead_orth hσ, hpos, ?_⟩
  have := hc.swap.lead_orth hσ
  rwa [transpose_transpose]

/-- C93: that is the case when the middle block stays invertible, in particular for all tangent
vectors with `M = 0`. -/
theorem C93_rank {X : FRPoint m n k} (hX : FRValid X) {Z : FRTan m n k} (hZ : IsFrTangent X Z)
    (hM : IsUnit (diagonal X.2.1 + Z.2.1)) : k ≤ (frMat X + frAmb X Z).rank := by
  have e : X.1ᵀ * (frMat X + frAmb X Z) * X.2.2ᵀ = diagonal X.2.1 + Z.2.1 := by
    rw [Matrix.mul_add, Matrix.add_mul, amb_both hX hZ, frMat]
    have : X.1ᵀ * (X.1 * diagonal X.2.1 * X.2.2) * X.2.2ᵀ =
      (X.1ᵀ * X.1) * diagonal X.2.1 * (X.2.2 * X.2.2ᵀ) := by simp only [Matrix.mul_assoc]
    rw [this, hX.u, hX.v, Matrix.one_mul, Matrix.mul_one]
  have h1 : (diagonal X.2.1 + Z.2.1).rank = k := by
    rw [rank_of_isUnit _ hM, Fintype.card_fin]
  refine h1.ge.trans ?_
  rw [← e]
  exact (rank_mul_le_left _ _).trans (rank_mul_le_right _ _)

/-- C93: the retraction returns a result for every point and every vector. -/
theorem C93_total {X : FRPoint m n k} (hX : FRValid X) (Z : FRTan m n k) (eps : ℝ) :
    ∃ R, IsFrRetract eps X Z R := by
  have hv : (X.2.2ᵀ)ᵀ * X.2.2ᵀ = 1 := by rw [transpose_transpose, hX.v]
  obtain ⟨Qu, Ru, hu⟩ := exists_isQR (𝕜 := ℝ) (card_of_orth hX.u) Z.1
  obtain ⟨Qv, Rv, hv⟩ := exists_isQR (𝕜 := ℝ) (card_of_orth hv) Z.2.2
  obtain ⟨u, s, vt, h⟩ := exists_isSVD (𝕜 := ℝ) (m := Fin k ⊕ Fin k) (p := k + k) (by simp)
    ((frT X Z Ru Rv).submatrix id finSumFinEquiv.symm)
  refine ⟨_, Qu, Ru, Qv, Rv, u, s, vt.submatrix id finSumFinEquiv, hu, hv,
    ⟨h.orthU, ?_, h.nonneg, h.sorted, ?_⟩, rfl⟩
  · rw [conjTranspose_submatrix, submatrix_mul_equiv, h.orthV, submatrix_id_id]
  · have := congrArg (fun A => A.submatrix id finSumFinEquiv) h.prod
    simp only [submatrix_submatrix] at this
    rw [Equiv.symm_comp_self, Function.id_comp, submatrix_id_id] at this
    rw [this]
    rfl

/-- C93: whatever factors are returned along `t ↦ t Z`, the represented matrices (shift taken back)
start at the point with velocity `Z`. -/
theorem C93_first_order {X : FRPoint m n k} (hX : FRValid X) {Z : FRTan m n k}
    (hZ : IsFrTangent X Z) {eps : ℝ} (he : 0 < eps) {R : ℝ → FRPoint m n k}
    (h : ∀ t, IsFrRetract eps X (t • Z) (R t)) :
    frMat (unshift eps (R 0)) = frMat X ∧
      MatDeriv (fun t => frMat (unshift eps (R t))) (frAmb X Z) 0 := by
  obtain ⟨W, hW⟩ : ∃ W, W = (X.1 * Z.2.1 + Z.1) * (diagonal (fun i => (X.2.1 i)⁻¹) * Z.2.2ᵀ) :=
    ⟨_, rfl⟩
  have hCE : ∀ t : ℝ, (X.1 * diagonal X.2.1 + t • (X.1 * Z.2.1 + Z.1)) *
      (X.2.2 + t • (diagonal (fun i => (X.2.1 i)⁻¹) * Z.2.2ᵀ)) =
      frMat X + frAmb X (t • Z) + t ^ 2 • W := by
    intro t
    rw [frAmb_smul, hW, frMat, frAmb]
    rw [Matrix.add_mul, Matrix.mul_add, Matrix.mul_add, Matrix.smul_mul, Matrix.smul_mul,
      Matrix.mul_smul, Matrix.mul_smul, Matrix.mul_assoc X.1 (diagonal X.2.1) (diagonal _ * _),
      ← Matrix.mul_assoc (diagonal X.2.1), mul_sinv hX, Matrix.one_mul, smul_smul, ← sq, smul_add,
      Matrix.add_mul, Matrix.add_mul, smul_add, smul_add]
    abel
  obtain ⟨c, hc⟩ : ∃ c, c = Real.sqrt (∑ i, ∑ j, W i j ^ 2) := ⟨_, rfl⟩
  have hc2 : c ^ 2 = ∑ i, ∑ j, W i j ^ 2 := by
    rw [hc, Real.sq_sqrt]
    exact Finset.sum_nonneg fun i _ => Finset.sum_nonneg fun j _ => sq_nonneg _
  have hc0 : 0 ≤ c := hc ▸ Real.sqrt_nonneg _
  have bound : ∀ t i j, ‖frMat (unshift eps (R t)) i j - (frMat X i j + t • frAmb X Z i j)‖ ≤
      c * t ^ 2 := by
    intro t i j
    have hb := (C93_best hX ((tangent_subspace X).smul t hZ) he (h t)).2.2 _ _ |>.trans
      (le_of_eq (by rw [hCE t]))
    have e : ∀ i j, (frMat X + frAmb X (t • Z)) i j - (frMat X + frAmb X (t • Z) + t ^ 2 • W) i j =
        -(t ^ 2 * W i j) := by
      intro i j; simp
    simp only [e, neg_sq, mul_pow, ← Finset.mul_sum] at hb
    have h1 : ((frMat X + frAmb X (t • Z)) i j - frMat (unshift eps (R t)) i j) ^ 2 ≤
        (c * t ^ 2) ^ 2 := by
      calc _ ≤ ∑ j, ((frMat X + frAmb X (t • Z)) i j - frMat (unshift eps (R t)) i j) ^ 2 :=
            Finset.single_le_sum (f := fun j => ((frMat X + frAmb X (t • Z)) i j -
              frMat (unshift eps (R t)) i j) ^ 2) (fun _ _ => sq_nonneg _) (Finset.mem_univ j)
        _ ≤ ∑ i, ∑ j, ((frMat X + frAmb X (t • Z)) i j - frMat (unshift eps (R t)) i j) ^ 2 :=
            Finset.single_le_sum (f := fun i => ∑ j, ((frMat X + frAmb X (t • Z)) i j -
              frMat (unshift eps (R t)) i j) ^ 2)
              (fun _ _ => Finset.sum_nonneg fun _ _ => sq_nonneg _) (Finset.mem_univ i)
        _ ≤ _ := hb
        _ = _ := by rw [← hc2]; ring
    have h2 := abs_le_of_sq_le_sq h1 (by positivity)
    rw [Real.norm_eq_abs, abs_sub_comm]
    rw [frAmb_smul] at h2
    exact h2
  refine ⟨?_, fun i j => hasDerivAt_of_quadratic fun t => bound t i j⟩
  ext i j
  have := bound 0 i j
  rw [zero_smul, add_zero, zero_pow two_ne_zero, mul_zero] at this
  exact sub_eq_zero.mp (norm_le_zero_iff.mp this)

/-- C93: the documented properties of the factorisations alone do not make the returned factors
orthonormal: for the `1 × 1` matrix `1` and the tangent vector `-1` a singular value decomposition
of the zero matrix may return factors that mix `u` with `Qu`. -/
theorem C93_gap : ∃ (X : FRPoint (Fin 1) (Fin 1) 1) (Z : FRTan (Fin 1) (Fin 1) 1),
    FRValid X ∧ IsFrTangent X Z ∧
    ∀ eps, ∃ R, IsFrRetract eps X Z R ∧ ¬ (R.1ᵀ * R.1 = 1) := by
  refine ⟨(1, fun _ => 1, 1), (0, -1, 0), ⟨by rw [transpose_one, Matrix.one_mul], by simp,
    by rw [transpose_one, Matrix.one_mul]⟩, ⟨by simp, by simp⟩, ?_⟩
  intro eps
  have qr0 : IsQR (0 : Matrix (Fin 1) (Fin 1) ℝ) 1 (0 : Matrix (Fin 1) (Fin 1) ℝ) :=
    ⟨by simp, by simp, by simp⟩
  have hT : frT ((1, fun _ => 1, 1) : FRPoint (Fin 1) (Fin 1) 1) (0, -1, 0) 0 0 = 0 := by
    rw [frT]
    ext i j
    rcases i with i | i <;> rcases j with j | j <;> simp [Subsingleton.elim i 0, Subsingleton.elim j 0]
  let U : Matrix (Fin 1 ⊕ Fin 1) (Fin (1 + 1)) ℝ :=
    of (Sum.elim (fun _ => ![3 / 5, 4 / 5]) fun _ => ![4 / 5, -3 / 5])
  have hU : Uᵀ * U = 1 := by
    ext i j
    fin_cases i <;> fin_cases j <;> norm_num [U, Matrix.mul_apply, Fintype.sum_sum_type]
  refine ⟨_, ⟨1, 0, 1, 0, U, 0, Uᵀ, qr0, qr0, ?_, rfl⟩, ?_⟩
  · rw [hT]
    exact ⟨by rwa [conjTranspose_eq_transpose_of_trivial],
      by rwa [conjTranspose_eq_transpose_of_trivial, transpose_transpose], by simp,
      fun _ _ _ => le_rfl, by simp⟩
  · intro h
    have := congrFun (congrFun h 0) 0
    norm_num [U, Matrix.mul_apply, Fintype.sum_sum_type, fromCols, Matrix.one_apply, Fin.castAdd,
      Fin.castLE] at this

/-! ### C94 -/

theorem retract_zero {X : FRPoint m n k} (hX : FRValid X) {eps : ℝ} (he : 0 < eps)
    {R : FRPoint m n k} (h : IsFrRetract eps X (frZero X) R) :
    FRValid R ∧ frMat R - frMat X = eps • (R.1 * R.2.2) := by
  have hZ : IsFrTangent X (frZero X) := ⟨by simp [frZero], by simp [frZero]⟩
  have hr : k ≤ (frMat X + frAmb X (frZero X)).rank := by
    refine C93_rank hX hZ ?_
    rw [frZero, add_zero, isUnit_iff_exists]
    exact ⟨_, mul_sinv hX, sinv_mul hX⟩
  refine ⟨C93_valid_partial hX hZ he hr h, ?_⟩
  have hb := (C93_best hX hZ he h).2.2 (X.1 * diagonal X.2.1) X.2.2
  have h0 : frAmb X (frZero X) = 0 := by simp [frAmb, frZero]
  have e : X.1 * diagonal X.2.1 * X.2.2 = frMat X := rfl
  rw [h0, add_zero, e] at hb
  simp only [sub_self, ne_eq, OfNat.ofNat_ne_zero, not_false_eq_true, zero_pow,
    Finset.sum_const_zero] at hb
  have e1 : frMat (unshift eps R) = frMat X := by
    ext i j
    have h1 := (Finset.sum_eq_zero_iff_of_nonneg (fun i _ => Finset.sum_nonneg
      fun j _ => sq_nonneg (frMat X i j - frMat (unshift eps R) i j))).mp
        (le_antisymm hb (Finset.sum_nonneg fun i _ => Finset.sum_nonneg fun j _ => sq_nonneg _)) i
        (Finset.mem_univ i)
    have h2 := (Finset.sum_eq_zero_iff_of_nonneg
      (fun j _ => sq_nonneg (frMat X i j - frMat (unshift eps R) i j))).mp h1 j (Finset.mem_univ j)
    linarith [pow_eq_zero_iff (two_ne_zero) |>.mp h2]
  have e2 : diagonal R.2.1 = diagonal (fun i => R.2.1 i - eps) + eps • (1 : Matrix (Fin k) (Fin k) ℝ)
      := by
    ext i j
    by_cases h : i = j
    · subst h; simp
    · simp [h]
  rw [← e1]
  simp only [frMat, unshift]
  rw [e2, Matrix.mul_add, Matrix.add_mul, Matrix.mul_smul, Matrix.mul_one, Matrix.smul_mul]
  abel

/-- C94: what holds instead of the claim is that the squared distance between the matrix of the
point and that of the retracted zero vector is `k` times the squared shift. -/
theorem C94_partial {X : FRPoint m n k} (hX : FRValid X) {eps : ℝ} (he : 0 < eps)
    {R : FRPoint m n k} (h : IsFrRetract eps X (frZero X) R) :
    ∑ i, ∑ j, (frMat R i j - frMat X i j) ^ 2 = k * eps ^ 2 := by
  obtain ⟨hR, hd⟩ := retract_zero hX he h
  have e1 : ∑ i, ∑ j, (frMat R i j - frMat X i j) ^ 2 =
      trDot (frMat R - frMat X) (frMat R - frMat X) := by
    rw [trDot_eq_sum]; simp [sq]
  rw [e1, hd, trDot_inner.smul_left, trDot_inner.smul_right, trDot_real, transpose_mul]
  have : R.2.2ᵀ * R.1ᵀ * (R.1 * R.2.2) = R.2.2ᵀ * (R.1ᵀ * R.1) * R.2.2 := by
    simp only [Matrix.mul_assoc]
  rw [this, hR.u, Matrix.mul_one, trace_mul_comm, hR.v, trace_one, Fintype.card_fin]
  ring

/-- C94, the statement: a retraction of the zero vector represents the same matrix. -/
def C94_claim (X : FRPoint m n k) : Prop :=
  ∀ R, IsFrRetract npSpacing1 X (frZero X) R → frMat R = frMat X

/-- C94 is false at every point of positive rank: the shift of the singular values always changes
the matrix. -/
theorem C94_negation (hk : 0 < k) {X : FRPoint m n k} (hX : FRValid X) : ¬ C94_claim X := by
  intro h
  have he : 0 < npSpacing1 := by rw [npSpacing1]; positivity
  obtain ⟨R, hR⟩ := C93_total hX (frZero X) npSpacing1
  have h1 := C94_partial hX he hR
  rw [h R hR] at h1
  simp only [sub_self, ne_eq, OfNat.ofNat_ne_zero, not_false_eq_true, zero_pow,
    Finset.sum_const_zero] at h1
  have : (0 : ℝ) < k * npSpacing1 ^ 2 := by positivity
  linarith

/-! ### C55, C101 and C108 -/

/-- C55 for fixed-rank matrices; tangent vectors are unchanged. -/
theorem C55_fixedRank {X : FRPoint m n k} (hX : FRValid X) (Z : FRTan m n k) :
    IsFrTangent X (frToTangent X Z) ∧ (IsFrTangent X Z → frToTangent X Z = Z) := by
  refine ⟨⟨?_, ?_⟩, fun hZ => ?_⟩
  · simp only [frToTangent]
    rw [Matrix.mul_sub, ← Matrix.mul_assoc, ← Matrix.mul_assoc, hX.u, Matrix.one_mul, sub_self]
  · simp only [frToTangent]
    rw [Matrix.mul_sub, ← Matrix.mul_assoc, ← Matrix.mul_assoc, hX.v, Matrix.one_mul, sub_self]
  · rw [frToTangent, Matrix.mul_assoc, Matrix.mul_assoc, hZ.left, hZ.right]
    simp

/-- C101 for fixed-rank matrices. -/
theorem C101_fixedRank {X : FRPoint m n k} (hX : FRValid X) (draw : FRTan m n k)
    (hd : frToTangent X draw ≠ 0) :
    IsFrTangent X (frRandomTangent X draw) ∧ frNorm X (frRandomTangent X draw) = 1 := by
  have hI := frInner_inner X
  refine ⟨(tangent_subspace X).smul _ (C55_fixedRank hX draw).1, ?_⟩
  have hs : frInner X (frToTangent X draw) (frToTangent X draw) ≠ 0 :=
    fun h => hd (hI.definite _ h)
  have h1 : frNorm X (frToTangent X draw) ^ 2 = frInner X (frToTangent X draw) (frToTangent X draw)
    := Real.sq_sqrt (hI.nonneg _)
  rw [frNorm, frRandomTangent, hI.smul_left, hI.smul_right, ← mul_assoc, ← sq, inv_pow, h1,
    inv_mul_cancel₀ hs, Real.sqrt_one]

/-- C108: whatever QR factors are returned for the two draws, and for all positive draws of the
singular values, sorted in ascending order, a random point is valid with descending singular values;
if the draws differ, gradients can be converted there. -/
theorem C108_random_point {Yu qu : Stack (Fin 1) m (Fin k) ℝ} {ru : Stack (Fin 1) (Fin k) (Fin k) ℝ}
    {Yv qv : Stack (Fin 1) n (Fin k) ℝ} {rv : Stack (Fin 1) (Fin k) (Fin k) ℝ}
    (hu : ∀ i, IsQR (Yu i) (qu i) (ru i)) (hv : ∀ i, IsQR (Yv i) (qv i) (rv i))
    {s : Fin k → ℝ} (hs : Monotone s) (hp : ∀ i, 0 < s i) :
    FRValid (frRandomPoint (stRandomPoint qu ru 0) s (stRandomPoint qv rv 0)) ∧
    Antitone (frRandomPoint (stRandomPoint qu ru 0) s (stRandomPoint qv rv 0)).2.1 ∧
    (Function.Injective s → ∀ G,
      (frE2rg (frRandomPoint (stRandomPoint qu ru 0) s (stRandomPoint qv rv 0)) G).isSome) := by
  have h1 := onStiefel_iff.mp (C67_qr_orthonormal hu).2 0
  have h2 := onStiefel_iff.mp (C67_qr_orthonormal hv).2 0
  refine ⟨⟨?_, fun i => hp _, ?_⟩, fun i j hij => hs (Fin.rev_le_rev.mpr hij), fun hi G => ?_⟩
  · simpa [frRandomPoint, conjTranspose_eq_transpose_of_trivial] using h1
  · simpa [frRandomPoint, conjTranspose_eq_transpose_of_trivial] using h2
  · rw [frE2rg, if_pos, Option.isSome_some]
    refine ⟨fun j => (hp _).ne', fun i j => ?_⟩
    rw [of_apply]
    by_cases h : i = j
    · subst h; simp
    · rw [one_apply_ne h, add_zero]
      refine sub_ne_zero.mpr fun h3 => h ?_
      have := (sq_eq_sq₀ (hp _).le (hp _).le).mp h3
      exact (Fin.rev_injective (hi this)).symm

/-! ### Examples -/

/-- A `3 × 2` matrix of rank two with distinct singular values and a tangent vector with all three
components non-zero. -/
example : ∃ (X : FRPoint (Fin 3) (Fin 3) 2) (Z : FRTan (Fin 3) (Fin 3) 2), FRValid X ∧
    (∀ i j, i ≠ j → X.2.1 i ^ 2 ≠ X.2.1 j ^ 2) ∧ IsFrTangent X Z ∧ Z.1 ≠ 0 ∧ Z.2.1 ≠ 0 ∧ Z.2.2 ≠ 0 ∧
    IsUnit (diagonal X.2.1 + Z.2.1) := by
  refine ⟨(!![1, 0; 0, 1; 0, 0], ![3, 2], !![1, 0, 0; 0, 1, 0]),
    (!![0, 0; 0, 0; 1, 1], !![0, 1; 0, 0], !![0, 0; 0, 0; 1, -1]), ⟨?_, ?_, ?_⟩, ?_, ⟨?_, ?_⟩,
    ?_, ?_, ?_, ?_⟩
  · ext i j; fin_cases i <;> fin_cases j <;> simp [Matrix.mul_apply, Fin.sum_univ_three]
  · intro i; fin_cases i <;> norm_num
  · ext i j; fin_cases i <;> fin_cases j <;> simp [Matrix.mul_apply, Fin.sum_univ_three]
  · intro i j hij; fin_cases i <;> fin_cases j <;> first | exact absurd rfl hij | norm_num
  · ext i j; fin_cases i <;> fin_cases j <;> simp [Matrix.mul_apply, Fin.sum_univ_three]
  · ext i j; fin_cases i <;> fin_cases j <;> simp [Matrix.mul_apply, Fin.sum_univ_three]
  · intro h; simpa using congrFun (congrFun h 2) 0
  · intro h; simpa using congrFun (congrFun h 0) 1
  · intro h; simpa using congrFun (congrFun h 2) 0
  · rw [isUnit_iff_isUnit_det, det_fin_two]; simp

end Verif.Geo
