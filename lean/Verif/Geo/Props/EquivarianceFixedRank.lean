/-
C134 on matrices of fixed rank.
-/
import Verif.Geo.Props.Equivariance
import Verif.Geo.Props.FixedRank
import Verif.Geo.Model.FixedRankMfd
import Verif.Geo.Props.Examples

namespace Verif.Geo
open Matrix Verif.Opt Examples

variable {m n : Type*} [Fintype m] [Fintype n] [DecidableEq m] [DecidableEq n] {k : ℕ}
  {A : Matrix m m ℝ} {B : Matrix n n ℝ} {ε : Fin k → ℝ}

/-- Orthogonal changes of coordinates of rows and columns, and signs of the singular vectors. -/
structure FRChange (A : Matrix m m ℝ) (B : Matrix n n ℝ) (ε : Fin k → ℝ) : Prop where
  rows : Aᵀ * A = 1
  cols : Bᵀ * B = 1
  signs : ∀ i, ε i * ε i = 1

/-- The factors `(u, s, vt)` of `A X Bᵀ`, with other signs of the singular vectors. -/
def frMove (A : Matrix m m ℝ) (B : Matrix n n ℝ) (ε : Fin k → ℝ) (X : FRPoint m n k) :
    FRPoint m n k := (A * X.1 * diagonal ε, X.2.1, diagonal ε * X.2.2 * Bᵀ)

/-- The components of a tangent vector after the change. -/
def frMoveTan (A : Matrix m m ℝ) (B : Matrix n n ℝ) (ε : Fin k → ℝ) (Z : FRTan m n k) :
    FRTan m n k := (A * Z.1 * diagonal ε, diagonal ε * Z.2.1 * diagonal ε, B * Z.2.2 * diagonal ε)

theorem trDot_change {p q : Type*} [Fintype p] [DecidableEq p] [Fintype q] [DecidableEq q]
    {C : Matrix p p ℝ} {D : Matrix q q ℝ} (hC : Cᵀ * C = 1) (hD : D * Dᵀ = 1)
    (M N : Matrix p q ℝ) : trDot (C * M * D) (C * N * D) = trDot M N := by
  rw [trDot_mul_right, conjTranspose_eq_transpose_of_trivial, Matrix.mul_assoc (C * N), hD,
    Matrix.mul_one, trDot_mul_left, conjTranspose_eq_transpose_of_trivial, ← Matrix.mul_assoc, hC,
    Matrix.one_mul]

omit [DecidableEq m] [DecidableEq n] in
theorem factorDot_eq (X Y : FRPoint m n k) :
    factorDot X Y = trDot X.1 Y.1 + ∑ i, X.2.1 i * Y.2.1 i + trDot X.2.2 Y.2.2 := by
  rw [factorDot, trDot_eq_sum, trDot_eq_sum]
  simp

section
variable (h : FRChange A B ε)
include h

theorem FRChange.dd : diagonal ε * diagonal ε = (1 : Matrix (Fin k) (Fin k) ℝ) := by
  rw [diagonal_mul_diagonal, ← diagonal_one]
  exact congrArg diagonal (funext h.signs)

theorem FRChange.dd' {p : Type*} (W : Matrix (Fin k) p ℝ) :
    diagonal ε * (diagonal ε * W) = W := by
  rw [← Matrix.mul_assoc, h.dd, Matrix.one_mul]

theorem FRChange.aa {p : Type*} (W : Matrix m p ℝ) : Aᵀ * (A * W) = W := by
  rw [← Matrix.mul_assoc, h.rows, Matrix.one_mul]

theorem FRChange.bb {p : Type*} (W : Matrix n p ℝ) : Bᵀ * (B * W) = W := by
  rw [← Matrix.mul_assoc, h.cols, Matrix.one_mul]

theorem FRChange.dsd (s : Fin k → ℝ) : diagonal ε * diagonal s * diagonal ε = diagonal s := by
  rw [diagonal_mul_diagonal, diagonal_mul_diagonal]
  refine congrArg diagonal (funext fun i => ?_)
  rw [mul_right_comm, h.signs, one_mul]

/-- The changed factors are those of `A X Bᵀ`. -/
theorem frMat_move (X : FRPoint m n k) : frMat (frMove A B ε X) = A * frMat X * Bᵀ := by
  have e := h.dsd X.2.1
  change A * X.1 * diagonal ε * diagonal X.2.1 * (diagonal ε * X.2.2 * Bᵀ) =
    A * (X.1 * diagonal X.2.1 * X.2.2) * Bᵀ
  calc A * X.1 * diagonal ε * diagonal X.2.1 * (diagonal ε * X.2.2 * Bᵀ)
      = A * (X.1 * (diagonal ε * diagonal X.2.1 * diagonal ε) * X.2.2) * Bᵀ := by
        simp only [Matrix.mul_assoc]
    _ = _ := by rw [e]

theorem frAmb_move (X : FRPoint m n k) (Z : FRTan m n k) :
    frAmb (frMove A B ε X) (frMoveTan A B ε Z) = A * frAmb X Z * Bᵀ := by
  simp only [frAmb, frMove, frMoveTan, transpose_mul, diagonal_transpose, Matrix.mul_assoc, h.dd',
    Matrix.mul_add, Matrix.add_mul]

theorem frProj_move (X : FRPoint m n k) (W : Matrix m n ℝ) :
    frProj (frMove A B ε X) (.dense (A * W * Bᵀ)) = frMoveTan A B ε (frProj X (.dense W)) := by
  simp only [frProj, frApply, frApplyT, frMove, frMoveTan, transpose_mul, transpose_transpose,
    diagonal_transpose, Matrix.mul_assoc, h.dd', h.aa, h.bb, Matrix.mul_sub, Matrix.sub_mul]

omit h [DecidableEq m] [DecidableEq n] in
theorem frTransport_eq (X Y : FRPoint m n k) (Z : FRTan m n k) :
    frTransport X Y Z = frProj Y (.dense (frAmb X Z)) := by
  rw [frTransport, ← C91_embedding X Z]
  exact (C91_lowRank_partial Y _ _ _).2 transpose_one

theorem frTransport_move (X Y : FRPoint m n k) (Z : FRTan m n k) :
    frTransport (frMove A B ε X) (frMove A B ε Y) (frMoveTan A B ε Z) =
      frMoveTan A B ε (frTransport X Y Z) := by
  rw [frTransport_eq, frTransport_eq, frAmb_move h, frProj_move h]

theorem frToTangent_move (X : FRPoint m n k) (Z : FRTan m n k) :
    frToTangent (frMove A B ε X) (frMoveTan A B ε Z) = frMoveTan A B ε (frToTangent X Z) := by
  simp only [frToTangent, frMove, frMoveTan, transpose_mul, transpose_transpose,
    diagonal_transpose, Matrix.mul_assoc, h.dd', h.aa, h.bb, Matrix.mul_sub, Matrix.sub_mul]

theorem frInner_move (X : FRPoint m n k) (Z W : FRTan m n k) :
    frInner (frMove A B ε X) (frMoveTan A B ε Z) (frMoveTan A B ε W) = frInner X Z W := by
  have hd : diagonal ε * (diagonal ε)ᵀ = (1 : Matrix (Fin k) (Fin k) ℝ) := by
    rw [diagonal_transpose, h.dd]
  rw [frInner_eq, frInner_eq]
  change trDot (A * Z.1 * diagonal ε) (A * W.1 * diagonal ε) +
    trDot (diagonal ε * Z.2.1 * diagonal ε) (diagonal ε * W.2.1 * diagonal ε) +
    trDot (B * Z.2.2 * diagonal ε) (B * W.2.2 * diagonal ε) = _
  rw [trDot_change h.rows hd, trDot_change h.cols hd,
    trDot_change (by rw [diagonal_transpose, h.dd]) hd]

theorem factorDot_move (X Y : FRPoint m n k) :
    factorDot (frMove A B ε X) (frMove A B ε Y) = factorDot X Y := by
  have hd : diagonal ε * (diagonal ε)ᵀ = (1 : Matrix (Fin k) (Fin k) ℝ) := by
    rw [diagonal_transpose, h.dd]
  have hb : Bᵀ * (Bᵀ)ᵀ = 1 := by rw [transpose_transpose, h.cols]
  rw [factorDot_eq, factorDot_eq]
  change trDot (A * X.1 * diagonal ε) (A * Y.1 * diagonal ε) + ∑ i, X.2.1 i * Y.2.1 i +
    trDot (diagonal ε * X.2.2 * Bᵀ) (diagonal ε * Y.2.2 * Bᵀ) = _
  rw [trDot_change h.rows hd, trDot_change (by rw [diagonal_transpose, h.dd]) hb]

/-- The signs of the singular vectors of the small matrix. -/
def bigSign (ε : Fin k → ℝ) : Fin (k + k) → ℝ := Fin.append ε 1

omit h [DecidableEq m] [DecidableEq n] [Fintype n] [Fintype m] in
theorem submatrix_sign {p : Type*} (M : Matrix p (Fin (k + k)) ℝ) :
    (M * diagonal (bigSign ε)).submatrix id (Fin.castAdd k) =
      M.submatrix id (Fin.castAdd k) * diagonal ε := by
  ext i j
  rw [submatrix_apply, mul_diagonal, mul_diagonal, bigSign, Fin.append_left]
  rfl

theorem FRChange.big (i : Fin (k + k)) : bigSign ε i * bigSign ε i = 1 := by
  refine Fin.addCases (fun j => ?_) (fun j => ?_) i
  · rw [bigSign, Fin.append_left, h.signs]
  · rw [bigSign, Fin.append_right]; exact one_mul 1

theorem FRChange.bigD : diagonal (bigSign ε) * diagonal (bigSign ε) =
    (1 : Matrix (Fin (k + k)) (Fin (k + k)) ℝ) := by
  rw [diagonal_mul_diagonal, ← diagonal_one]
  exact congrArg diagonal (funext h.big)

omit [Fintype m] [Fintype n] [DecidableEq m] [DecidableEq n] h in
theorem qr_move {p : Type*} [Fintype p] [DecidableEq p] {C : Matrix p p ℝ} (hC : Cᵀ * C = 1)
    {W Q : Matrix p (Fin k) ℝ} {R : Matrix (Fin k) (Fin k) ℝ} (hq : IsQR W Q R) :
    IsQR (C * W * diagonal ε) (C * Q) (R * diagonal ε) := by
  refine ⟨?_, ?_, fun i j hij => ?_⟩
  · have := hq.orth
    rw [conjTranspose_eq_transpose_of_trivial] at this ⊢
    rw [transpose_mul, Matrix.mul_assoc, ← Matrix.mul_assoc Cᵀ, hC, Matrix.one_mul, this]
  · rw [← hq.prod]; simp only [Matrix.mul_assoc]
  · rw [mul_diagonal, hq.upper i j hij, zero_mul]

theorem cols_sign {p : Type*} [Fintype p] (u Q : Matrix p (Fin k) ℝ) :
    fromCols (u * diagonal ε) Q * fromBlocks (diagonal ε) 0 0 1 = fromCols u Q := by
  rw [fromCols_mul_fromBlocks]
  simp only [Matrix.mul_zero, add_zero, zero_add, Matrix.mul_one, Matrix.mul_assoc, h.dd]

theorem cols_move {p : Type*} [Fintype p] [DecidableEq p] (C : Matrix p p ℝ)
    (u Q : Matrix p (Fin k) ℝ) (M : Matrix (Fin k ⊕ Fin k) (Fin k) ℝ) :
    fromCols (C * u * diagonal ε) (C * Q) * ((fromBlocks (diagonal ε) 0 0 1 : Matrix (Fin k ⊕ Fin k) (Fin k ⊕ Fin k) ℝ) * M *
      diagonal ε) =
      C * (fromCols u Q * M) * diagonal ε := by
  rw [← Matrix.mul_assoc, ← Matrix.mul_assoc, cols_sign h, ← mul_fromCols, Matrix.mul_assoc C]

theorem IsFrRetract.move {eps : ℝ} {X R : FRPoint m n k} {Z : FRTan m n k}
    (hR : IsFrRetract eps X Z R) :
    IsFrRetract eps (frMove A B ε X) (frMoveTan A B ε Z) (frMove A B ε R) := by
  obtain ⟨Qu, Ru, Qv, Rv, Ut, St, Vt, hu, hv, hs, rfl⟩ := hR
  set E : Matrix (Fin k ⊕ Fin k) (Fin k ⊕ Fin k) ℝ := fromBlocks (diagonal ε) 0 0 1 with hE
  set F := diagonal (bigSign ε) with hF
  have hEE : E * E = 1 := by
    rw [hE, fromBlocks_multiply, h.dd]
    simp
  have hET : Eᵀ = E := by
    rw [hE, fromBlocks_transpose]; simp
  have hFF : F * F = 1 := h.bigD
  have hEE' : ∀ {p : Type} (W : Matrix (Fin k ⊕ Fin k) p ℝ), E * (E * W) = W := fun W => by
    rw [← Matrix.mul_assoc, hEE, Matrix.one_mul]
  have hFF' : ∀ {p : Type} (W : Matrix (Fin (k + k)) p ℝ), F * (F * W) = W := fun W => by
    rw [← Matrix.mul_assoc, hFF, Matrix.one_mul]
  have hFS : F * diagonal St * F = diagonal St := by
    rw [hF, diagonal_mul_diagonal, diagonal_mul_diagonal]
    refine congrArg diagonal (funext fun i => ?_)
    rw [mul_right_comm, h.big, one_mul]
  have hT : frT (frMove A B ε X) (frMoveTan A B ε Z) (Ru * diagonal ε) (Rv * diagonal ε) =
      E * frT X Z Ru Rv * E := by
    rw [frT, frT, hE, fromBlocks_multiply, fromBlocks_multiply]
    simp only [Matrix.zero_mul, Matrix.mul_zero, add_zero, zero_add, Matrix.one_mul, Matrix.mul_one,
      transpose_mul, diagonal_transpose, Matrix.mul_add, Matrix.add_mul, h.dsd]
    rfl
  have hsub : ∀ (M : Matrix (Fin k ⊕ Fin k) (Fin (k + k)) ℝ),
      (E * M * F).submatrix id (Fin.castAdd k) =
        E * M.submatrix id (Fin.castAdd k) * diagonal ε := fun M => by
    rw [hF, submatrix_sign]; rfl
  refine ⟨A * Qu, Ru * diagonal ε, B * Qv, Rv * diagonal ε, E * Ut * F, St, F * Vt * E,
    qr_move h.rows hu, qr_move h.cols hv, ⟨?_, ?_, hs.nonneg, hs.sorted, ?_⟩, ?_⟩
  · have e := hs.orthU
    rw [conjTranspose_eq_transpose_of_trivial] at e ⊢
    rw [transpose_mul, transpose_mul, hET, hF, diagonal_transpose, ← hF]
    simp only [Matrix.mul_assoc, hEE']
    rw [← Matrix.mul_assoc Utᵀ, e, Matrix.one_mul, hFF]
  · have e := hs.orthV
    rw [conjTranspose_eq_transpose_of_trivial] at e ⊢
    rw [transpose_mul, transpose_mul, hET, hF, diagonal_transpose, ← hF]
    simp only [Matrix.mul_assoc, hEE']
    rw [← Matrix.mul_assoc Vt, e, Matrix.one_mul, hFF]
  · have e := hs.prod
    change frT X Z Ru Rv = Ut * diagonal St * Vt at e
    change _ = E * Ut * F * diagonal St * (F * Vt * E)
    rw [hT, e]
    calc E * (Ut * diagonal St * Vt) * E
        = E * Ut * (F * diagonal St * F) * Vt * E := by rw [hFS]; simp only [Matrix.mul_assoc]
      _ = _ := by simp only [Matrix.mul_assoc]
  · refine Prod.ext ?_ (Prod.ext rfl ?_)
    · change A * (fromCols X.1 Qu * Ut.submatrix id (Fin.castAdd k)) * diagonal ε =
        fromCols (A * X.1 * diagonal ε) (A * Qu) * (E * Ut * F).submatrix id (Fin.castAdd k)
      rw [hsub, hE, cols_move h]
    · change diagonal ε * (fromCols X.2.2ᵀ Qv * Vtᵀ.submatrix id (Fin.castAdd k))ᵀ * Bᵀ =
        (fromCols (diagonal ε * X.2.2 * Bᵀ)ᵀ (B * Qv) *
          (F * Vt * E)ᵀ.submatrix id (Fin.castAdd k))ᵀ
      have e1 : (F * Vt * E)ᵀ = E * Vtᵀ * F := by
        rw [transpose_mul, transpose_mul, hET, hF, diagonal_transpose, Matrix.mul_assoc]
      have e2 : (diagonal ε * X.2.2 * Bᵀ)ᵀ = B * X.2.2ᵀ * diagonal ε := by
        rw [transpose_mul, transpose_mul, transpose_transpose, diagonal_transpose,
          Matrix.mul_assoc]
      rw [e1, e2, hsub, hE, cols_move h, transpose_mul (B * _), transpose_mul B,
        diagonal_transpose, Matrix.mul_assoc]

omit [Fintype m] [Fintype n] [DecidableEq m] [DecidableEq n] h in
theorem scale_move {p : Type*} [Fintype p] {s : Fin k → ℝ} (W : Matrix p (Fin k) ℝ)
    (C : Matrix p p ℝ) (i : p) (j : Fin k) :
    (C * (of fun i j => W i j / s j : Matrix p (Fin k) ℝ) * diagonal ε) i j =
      (C * W * diagonal ε) i j / s j := by
  rw [mul_diagonal, mul_diagonal, Matrix.mul_apply, Matrix.mul_apply, Finset.sum_mul,
    Finset.sum_mul, Finset.sum_div]
  refine Finset.sum_congr rfl fun l _ => ?_
  rw [of_apply]
  ring

theorem frE2rg_move (X G : FRPoint m n k) :
    frE2rg (frMove A B ε X) (frMove A B ε G) = (frE2rg X G).map (frMoveTan A B ε) := by
  have e1 : (A * X.1 * diagonal ε)ᵀ * (A * G.1 * diagonal ε) =
      diagonal ε * (X.1ᵀ * G.1) * diagonal ε := by
    simp only [transpose_mul, diagonal_transpose, Matrix.mul_assoc, h.aa]
  have e2 : diagonal ε * X.2.2 * Bᵀ * (diagonal ε * G.2.2 * Bᵀ)ᵀ =
      diagonal ε * (X.2.2 * G.2.2ᵀ) * diagonal ε := by
    simp only [transpose_mul, transpose_transpose, diagonal_transpose, Matrix.mul_assoc, h.bb]
  have e3 : ∀ M : Matrix (Fin k) (Fin k) ℝ, (diagonal ε * M * diagonal ε)ᵀ =
      diagonal ε * Mᵀ * diagonal ε := fun M => by
    rw [transpose_mul, transpose_mul, diagonal_transpose, Matrix.mul_assoc]
  have e4 : ∀ (M : Matrix (Fin k) (Fin k) ℝ) i j, (diagonal ε * M * diagonal ε) i j =
      ε i * M i j * ε j := fun M i j => by rw [mul_diagonal, diagonal_mul]
  have e5 := scale_move (ε := ε) (s := X.2.1) (p := m)
  have e6 := fun W => scale_move (ε := ε) (s := X.2.1) (p := n) W B
  unfold frE2rg
  simp only [frMove]
  rw [e1, e2]
  by_cases hc : (∀ j, X.2.1 j ≠ 0) ∧ ∀ i j, (of fun i j => X.2.1 j ^ 2 - X.2.1 i ^ 2 +
      (1 : Matrix (Fin k) (Fin k) ℝ) i j : Matrix (Fin k) (Fin k) ℝ) i j ≠ 0
  · refine (if_pos hc).trans ?_
    rw [if_pos hc, Option.map_some]
    refine congrArg some (Prod.ext ?_ (Prod.ext ?_ ?_))
    · ext i j
      refine Eq.trans ?_ (e5 _ A i j).symm
      simp only [of_apply, Matrix.mul_sub, Matrix.sub_mul, Matrix.mul_assoc, h.dd']
    · ext i j
      refine Eq.trans ?_ (e4 _ i j).symm
      simp only [e3, ← Matrix.mul_sub, ← Matrix.sub_mul, e4, of_apply]
      rcases eq_or_ne i j with rfl | hij
      · rw [diagonal_apply_eq]
        linear_combination (-G.2.1 i) * h.signs i
      · rw [diagonal_apply_ne _ hij]
        ring
    · ext i j
      refine Eq.trans ?_ (e6 _ i j).symm
      simp only [of_apply, Matrix.mul_sub, Matrix.sub_mul, Matrix.mul_assoc, h.dd', transpose_mul,
        transpose_transpose, diagonal_transpose]
  · refine (if_neg hc).trans ?_
    rw [if_neg hc, Option.map_none]

theorem frMoveTan_injective : Function.LeftInverse (frMoveTan Aᵀ Bᵀ ε) (frMoveTan (k := k) A B ε) :=
  fun Z => by
    simp only [frMoveTan, Matrix.mul_assoc, h.aa, h.bb, h.dd', h.dd, Matrix.mul_one]

theorem frMove_injective : Function.LeftInverse (frMove Aᵀ Bᵀ ε) (frMove (k := k) A B ε) :=
  fun X => by
    simp only [frMove, Matrix.mul_assoc, h.aa, h.dd', h.dd, Matrix.mul_one, transpose_transpose,
      h.cols]

/-- The reverse change. -/
theorem FRChange.symm : FRChange Aᵀ Bᵀ ε :=
  ⟨by rw [transpose_transpose]; exact mul_eq_one_comm.mp h.rows,
    by rw [transpose_transpose]; exact mul_eq_one_comm.mp h.cols, h.signs⟩

theorem frMove_affine :
    AffineMap' (E := FRPoint m n k) factorDot (frMove A B ε) (frMove A B ε) (frMove A B ε) where
  line X D t := by
    simp only [frMove, Prod.fst_add, Prod.snd_add, Prod.smul_fst, Prod.smul_snd, Matrix.mul_add,
      Matrix.add_mul, Matrix.mul_smul, Matrix.smul_mul, Prod.mk_add_mk, Prod.smul_mk]
  surj Y := ⟨frMove Aᵀ Bᵀ ε Y, by
    have e := frMove_injective h.symm Y
    simp only [transpose_transpose] at e
    exact e⟩
  adj := factorDot_move h

end

omit [DecidableEq m] [DecidableEq n] in
theorem factorDot_inner : IsInner (E := FRPoint m n k) factorDot where
  add_left u v w := by
    simp only [factorDot_eq, Prod.fst_add, Prod.snd_add, trDot_inner.add_left, Pi.add_apply,
      add_mul, Finset.sum_add_distrib]
    ring
  smul_left c u v := by
    simp only [factorDot_eq, Prod.smul_fst, Prod.smul_snd, trDot_inner.smul_left, Pi.smul_apply,
      smul_eq_mul, mul_assoc, ← Finset.mul_sum]
    ring
  symm u v := by
    simp only [factorDot_eq, trDot_inner.symm u.1, trDot_inner.symm u.2.2, mul_comm (u.2.1 _)]
  nonneg u := by
    rw [factorDot_eq]
    exact add_nonneg (add_nonneg (trDot_inner.nonneg _)
      (Finset.sum_nonneg fun i _ => mul_self_nonneg _)) (trDot_inner.nonneg _)
  definite u hu := by
    rw [factorDot_eq] at hu
    have h1 := trDot_inner.nonneg u.1
    have h2 : 0 ≤ ∑ i, u.2.1 i * u.2.1 i := Finset.sum_nonneg fun i _ => mul_self_nonneg _
    have h3 := trDot_inner.nonneg u.2.2
    have e2 : ∑ i, u.2.1 i * u.2.1 i = 0 := by linarith
    refine Prod.ext (trDot_inner.definite _ (by linarith))
      (Prod.ext (funext fun i => ?_) (trDot_inner.definite _ (by linarith)))
    have := (Finset.sum_eq_zero_iff_of_nonneg fun i _ => mul_self_nonneg (u.2.1 i)).1 e2 i
      (Finset.mem_univ i)
    exact mul_self_eq_zero.1 this

/-- **C134** (matrices of fixed rank): orthogonal changes of coordinates of rows and columns, and
changes of the signs of singular vectors, commute with the operations of the class, and the possible
results of the retraction correspond to each other. -/
theorem C134_fixed_rank (h : FRChange A B ε) (X Y : FRPoint m n k) (Z W : FRTan m n k) :
    frMat (frMove A B ε X) = A * frMat X * Bᵀ ∧
    frAmb (frMove A B ε X) (frMoveTan A B ε Z) = A * frAmb X Z * Bᵀ ∧
    frInner (frMove A B ε X) (frMoveTan A B ε Z) (frMoveTan A B ε W) = frInner X Z W ∧
    frTransport (frMove A B ε X) (frMove A B ε Y) (frMoveTan A B ε Z) =
      frMoveTan A B ε (frTransport X Y Z) ∧
    frToTangent (frMove A B ε X) (frMoveTan A B ε Z) = frMoveTan A B ε (frToTangent X Z) ∧
    (∀ V, frProj (frMove A B ε X) (.dense (A * V * Bᵀ)) = frMoveTan A B ε (frProj X (.dense V))) ∧
    (∀ G, frE2rg (frMove A B ε X) (frMove A B ε G) = (frE2rg X G).map (frMoveTan A B ε)) ∧
    ∀ eps R, IsFrRetract eps (frMove A B ε X) (frMoveTan A B ε Z) (frMove A B ε R) ↔
      IsFrRetract eps X Z R := by
  refine ⟨frMat_move h X, frAmb_move h X Z, frInner_move h X Z W, frTransport_move h X Y Z,
    frToTangent_move h X Z, frProj_move h X, frE2rg_move h X, fun eps R => ⟨fun hR => ?_, .move h⟩⟩
  have := hR.move h.symm
  rwa [frMove_injective h, frMove_injective h, frMoveTan_injective h] at this

/-- **C134** (matrices of fixed rank): whatever LAPACK returns in the runs on the first problem,
there are results it may return in the runs on the second, whose cost is the same in the new
coordinates, with which the problems correspond to each other, so that all the runs do which only
use gradients (C133). -/
theorem C134_fixed_rank_problems (h : FRChange A B ε) {eps : ℝ}
    {retraction : FRPoint m n k → FRTan m n k → FRPoint m n k}
    (hr : ∀ X Z, IsFrRetract eps X Z (retraction X Z))
    (log log' : FRPoint m n k → FRPoint m n k → FRTan m n k)
    (pairMean pairMean' : FRPoint m n k → FRPoint m n k → FRPoint m n k)
    (hess hess' : FRPoint m n k → FRTan m n k → FRTan m n k) {On U U' : FRPoint m n k → Prop}
    {cost cost' : FRPoint m n k → ℝ} {egrad egrad' : FRPoint m n k → FRPoint m n k}
    (hOn : ∀ X Z, On X → On (retraction X Z)) (hU : ∀ X, On X → U X)
    (hg : GradOn factorDot U cost egrad) (hg' : GradOn factorDot U' cost' egrad')
    (hc : SameCost (frMove A B ε) U U' cost cost') :
    ∃ retraction', (∀ X Z, IsFrRetract eps X Z (retraction' X Z)) ∧
      Translates (frMove A B ε) (fun _ => frMoveTan A B ε) On (fun _ _ => True)
        (fixedRankProb retraction log pairMean cost egrad hess)
        (fixedRankProb retraction' log' pairMean' cost' egrad' hess') := by
  have hb : ∀ Y, frMove A B ε (frMove Aᵀ Bᵀ ε Y) = Y := fun Y => by
    have e := frMove_injective h.symm Y
    simpa only [transpose_transpose] using e
  have hbt : ∀ Y, frMoveTan A B ε (frMoveTan Aᵀ Bᵀ ε Y) = Y := fun Y => by
    have e := frMoveTan_injective h.symm Y
    simpa only [transpose_transpose] using e
  refine ⟨fun X Z => frMove A B ε (retraction (frMove Aᵀ Bᵀ ε X) (frMoveTan Aᵀ Bᵀ ε Z)),
    fun X Z => ?_, ⟨⟨⟨fun X Z hX _ => hOn X Z hX, fun _ _ _ _ _ _ => trivial, fun _ _ => trivial,
      fun _ _ _ _ => trivial, fun _ _ _ _ _ _ => trivial, fun _ _ _ _ => trivial,
      fun _ _ _ _ _ => trivial⟩, fun _ _ => trivial, fun _ _ _ _ => trivial⟩,
      fun _ _ _ _ _ _ => trivial, rfl, fun X Z _ _ => ?_, fun X Z W _ _ _ => frInner_move h X Z W,
      fun X Z _ _ => ?_, fun X Y Z _ _ _ => frTransport_move h X Y Z, fun X _ => ?_,
      fun X Z _ _ => frToTangent_move h X Z, fun X Z W _ _ _ => ?_, fun X Z W _ _ _ => ?_,
      fun X Z _ _ => ?_, fun X a Z _ _ => ?_, fun X hX => (hc X (hU X hX)).2, fun X hX => ?_,
      fun _ _ _ _ => rfl⟩⟩
  · have := (hr (frMove Aᵀ Bᵀ ε X) (frMoveTan Aᵀ Bᵀ ε Z)).move h
    rwa [hb, hbt] at this
  · exact congrArg Real.sqrt (frInner_move h X Z Z)
  · change frMove A B ε (retraction (frMove Aᵀ Bᵀ ε (frMove A B ε X))
      (frMoveTan Aᵀ Bᵀ ε (frMoveTan A B ε Z))) = frMove A B ε (retraction X Z)
    rw [frMove_injective h, frMoveTan_injective h]
  · change (0, 0, 0) = frMoveTan A B ε (0, 0, 0)
    simp only [frMoveTan, Matrix.mul_zero, Matrix.zero_mul]
  · change frMoveTan A B ε Z + frMoveTan A B ε W = frMoveTan A B ε (Z + W)
    simp only [frMoveTan, Prod.fst_add, Prod.snd_add, Matrix.mul_add, Matrix.add_mul,
      Prod.mk_add_mk]
  · change frMoveTan A B ε Z - frMoveTan A B ε W = frMoveTan A B ε (Z - W)
    simp only [frMoveTan, Prod.fst_sub, Prod.snd_sub, Matrix.mul_sub, Matrix.sub_mul,
      Prod.mk_sub_mk]
  · change -frMoveTan A B ε Z = frMoveTan A B ε (-Z)
    simp only [frMoveTan, Prod.fst_neg, Prod.snd_neg, Matrix.mul_neg, Matrix.neg_mul, Prod.neg_mk]
  · change a • frMoveTan A B ε Z = frMoveTan A B ε (a • Z)
    simp only [frMoveTan, Prod.smul_fst, Prod.smul_snd, Matrix.mul_smul, Matrix.smul_mul,
      Prod.smul_mk]
  · change (frE2rg (frMove A B ε X) (egrad' (frMove A B ε X))).getD 0 =
      frMoveTan A B ε ((frE2rg X (egrad X)).getD 0)
    rw [egrad_translate factorDot_inner (frMove_affine h) hg hg' hc (hU X hX), frE2rg_move h]
    cases frE2rg X (egrad X) with
    | none =>
      change (0, 0, 0) = frMoveTan A B ε (0, 0, 0)
      simp only [frMoveTan, Matrix.mul_zero, Matrix.zero_mul]
    | some g => rfl

/-- **C134** (low_rank_matrix_approximation.py): rotating the rows and columns of the matrix, and
changing the signs of singular vectors of the starting point, changes the runs accordingly. -/
theorem C134_low_rank (h : FRChange A B ε) (matrix : Matrix m n ℝ) {eps : ℝ}
    {retraction : FRPoint m n k → FRTan m n k → FRPoint m n k}
    (hr : ∀ X Z, IsFrRetract eps X Z (retraction X Z))
    (log log' : FRPoint m n k → FRPoint m n k → FRTan m n k)
    (pairMean pairMean' : FRPoint m n k → FRPoint m n k → FRPoint m n k)
    (hess hess' : FRPoint m n k → FRTan m n k → FRTan m n k) :
    ∃ retraction', (∀ X Z, IsFrRetract eps X Z (retraction' X Z)) ∧
      Translates (frMove A B ε) (fun _ => frMoveTan A B ε) (fun _ => True) (fun _ _ => True)
        (fixedRankProb retraction log pairMean (fun X => lowRankCost matrix X.1 X.2.1 X.2.2)
          (fun X => lowRankGrad matrix X.1 X.2.1 X.2.2) hess)
        (fixedRankProb retraction' log' pairMean'
          (fun X => lowRankCost (A * matrix * Bᵀ) X.1 X.2.1 X.2.2)
          (fun X => lowRankGrad (A * matrix * Bᵀ) X.1 X.2.1 X.2.2) hess') := by
  have hg : ∀ M : Matrix m n ℝ, GradOn (E := FRPoint m n k) factorDot (fun _ => True)
      (fun X => lowRankCost M X.1 X.2.1 X.2.2) fun X => lowRankGrad M X.1 X.2.1 X.2.2 :=
    fun M => ⟨fun _ _ _ => Filter.Eventually.of_forall fun _ => trivial, fun X D _ => by
      rw [factorDot_eq]
      exact C128_low_rank M X D⟩
  refine C134_fixed_rank_problems h hr log log' pairMean pairMean' hess hess'
    (fun _ _ _ => trivial) (fun _ _ => trivial) (hg matrix) (hg _) fun X _ => ⟨trivial, ?_⟩
  change matNorm (frMat (frMove A B ε X) - A * matrix * Bᵀ) ^ 2 = matNorm (frMat X - matrix) ^ 2
  have hb : Bᵀ * (Bᵀ)ᵀ = 1 := by rw [transpose_transpose, h.cols]
  rw [frMat_move h, ← Matrix.sub_mul, ← Matrix.mul_sub, matNorm_sq, matNorm_sq,
    trDot_change h.rows hb]

omit [DecidableEq m] [DecidableEq n] in
/-- LAPACK can always return factors, if the rank is at most the numbers of rows and columns. -/
theorem exists_frRetract (hm : k ≤ Fintype.card m) (hn : k ≤ Fintype.card n) (eps : ℝ) :
    ∃ retraction : FRPoint m n k → FRTan m n k → FRPoint m n k,
      ∀ X Z, IsFrRetract eps X Z (retraction X Z) := by
  have : ∀ (X : FRPoint m n k) (Z : FRTan m n k), ∃ R, IsFrRetract eps X Z R := by
    intro X Z
    obtain ⟨Qu, Ru, hu⟩ := exists_isQR (𝕜 := ℝ) hm Z.1
    obtain ⟨Qv, Rv, hv⟩ := exists_isQR (𝕜 := ℝ) hn Z.2.2
    obtain ⟨u, s, vt, h⟩ := exists_isSVD (𝕜 := ℝ) (m := Fin k ⊕ Fin k) (p := k + k) (by simp)
      ((frT X Z Ru Rv).submatrix id finSumFinEquiv.symm)
    refine ⟨_, Qu, Ru, Qv, Rv, u, s, vt.submatrix id finSumFinEquiv, hu, hv,
      ⟨h.orthU, ?_, h.nonneg, h.sorted, ?_⟩, rfl⟩
    · rw [conjTranspose_submatrix, submatrix_mul_equiv, h.orthV, submatrix_id_id]
    · have := congrArg (fun A => A.submatrix id finSumFinEquiv) h.prod
      simp only [submatrix_submatrix] at this
      rw [Equiv.symm_comp_self, Function.id_comp, submatrix_id_id] at this
      rw [this]
      rfl
  choose r hr using this
  exact ⟨r, hr⟩

/-- The hypotheses are met: two rows exchanged, and the sign of a singular vector changed. -/
example : FRChange (k := 1) !![0, 1; 1, (0 : ℝ)] (1 : Matrix (Fin 3) (Fin 3) ℝ) (fun _ => -1) ∧
    (∃ retraction : FRPoint (Fin 2) (Fin 3) 1 → FRTan (Fin 2) (Fin 3) 1 → FRPoint (Fin 2) (Fin 3) 1,
      ∀ X Z, IsFrRetract npSpacing1 X Z (retraction X Z)) ∧
    (frMove (k := 1) !![0, 1; 1, (0 : ℝ)] (1 : Matrix (Fin 3) (Fin 3) ℝ) (fun _ => -1)
      (!![1; 2], fun _ => 5, !![1, 2, 3])).1 = !![-2; -1] := by
  refine ⟨⟨?_, by simp, fun _ => by norm_num⟩, exists_frRetract (by simp) (by simp) _, ?_⟩
  · ext i j
    fin_cases i <;> fin_cases j <;> simp [Matrix.mul_apply, Fin.sum_univ_two]
  · ext i j
    fin_cases i <;> fin_cases j <;> simp [frMove]

/-! ### Two representations of the same matrix -/

/-- **C134** (matrices of fixed rank): points with distinct, sorted singular values that stand for
the same matrix only differ in the signs of the singular vectors. -/
theorem C134_fixed_rank_unique {X Y : FRPoint m n k}
    (hX : FRValid X) (hY : FRValid Y) (sX : StrictAnti X.2.1) (sY : StrictAnti Y.2.1)
    (hM : frMat X = frMat Y) :
    ∃ ε : Fin k → ℝ, FRChange (1 : Matrix m m ℝ) (1 : Matrix n n ℝ) ε ∧ Y = frMove 1 1 ε X := by
  set W := X.1ᵀ * Y.1 with hW
  -- both factors span the same columns
  have pX : ∀ P : FRPoint m n k, FRValid P →
      P.1 = frMat P * (P.2.2ᵀ * diagonal (fun i => (P.2.1 i)⁻¹)) := fun P hP => by
    rw [frMat, Matrix.mul_assoc, ← Matrix.mul_assoc P.2.2, hP.v, Matrix.one_mul, Matrix.mul_assoc,
      mul_sinv hP, Matrix.mul_one]
  have qX : ∀ P : FRPoint m n k, FRValid P → P.1 * (P.1ᵀ * frMat P) = frMat P := fun P hP => by
    rw [frMat, Matrix.mul_assoc P.1, ← Matrix.mul_assoc P.1ᵀ, hP.u, Matrix.one_mul]
  have hYW : Y.1 = X.1 * W := by
    have e := pX Y hY
    rw [← hM] at e
    rw [hW]
    conv_rhs => rw [e]
    rw [← Matrix.mul_assoc X.1ᵀ, ← Matrix.mul_assoc X.1, qX X hX]
    exact e
  have hXW : X.1 = Y.1 * Wᵀ := by
    have e := pX X hX
    rw [hM] at e
    rw [hW, transpose_mul, transpose_transpose]
    conv_rhs => rw [e]
    rw [← Matrix.mul_assoc Y.1ᵀ, ← Matrix.mul_assoc Y.1, qX Y hY]
    exact e
  have hWW : W * Wᵀ = 1 :=
    (Matrix.mul_assoc X.1ᵀ Y.1 Wᵀ).trans (by rw [← hXW, hX.u])
  have hWW' : Wᵀ * W = 1 := mul_eq_one_comm.mp hWW
  -- the squares of the singular values agree along `W`
  have gram : ∀ P : FRPoint m n k, FRValid P →
      frMat P * (frMat P)ᵀ = P.1 * (diagonal P.2.1 * diagonal P.2.1) * P.1ᵀ := fun P hP => by
    rw [frMat, transpose_mul, transpose_mul, diagonal_transpose, Matrix.mul_assoc,
      ← Matrix.mul_assoc P.2.2, hP.v, Matrix.one_mul]
    simp only [Matrix.mul_assoc]
  have comm : diagonal X.2.1 * diagonal X.2.1 * W = W * (diagonal Y.2.1 * diagonal Y.2.1) := by
    have e1 := gram X hX
    rw [hM, gram Y hY] at e1
    have e2 := congrArg (fun N => X.1ᵀ * N * Y.1) e1
    have e3 : X.1ᵀ * (Y.1 * (diagonal Y.2.1 * diagonal Y.2.1) * Y.1ᵀ) * Y.1 =
        W * (diagonal Y.2.1 * diagonal Y.2.1) := by
      rw [hW]
      simp only [Matrix.mul_assoc, hY.u, Matrix.mul_one]
    have e4 : X.1ᵀ * (X.1 * (diagonal X.2.1 * diagonal X.2.1) * X.1ᵀ) * Y.1 =
        diagonal X.2.1 * diagonal X.2.1 * W := by
      rw [hW, ← Matrix.mul_assoc X.1ᵀ, ← Matrix.mul_assoc X.1ᵀ, hX.u, Matrix.one_mul,
        Matrix.mul_assoc _ X.1ᵀ]
    rw [← e4, ← e2, e3]
  have entry : ∀ i j, W i j ≠ 0 → X.2.1 i = Y.2.1 j := fun i j hij => by
    have e := congrFun (congrFun comm i) j
    rw [diagonal_mul_diagonal, diagonal_mul_diagonal, diagonal_mul, mul_diagonal,
      mul_comm (W i j)] at e
    exact (mul_self_inj (hX.pos i).le (hY.pos j).le).1 (mul_right_cancel₀ hij e)
  have row : ∀ i, ∃ j, W i j ≠ 0 := fun i => by
    by_contra hc
    push Not at hc
    have e := congrFun (congrFun hWW i) i
    rw [Matrix.mul_apply, Finset.sum_eq_zero fun j _ => by rw [hc j, zero_mul], one_apply_eq] at e
    exact zero_ne_one e
  have col : ∀ j, ∃ i, W i j ≠ 0 := fun j => by
    by_contra hc
    push Not at hc
    have e := congrFun (congrFun hWW' j) j
    rw [Matrix.mul_apply, Finset.sum_eq_zero fun i _ => by rw [hc i, mul_zero], one_apply_eq] at e
    exact zero_ne_one e
  have hs : X.2.1 = Y.2.1 := by
    have hr : Set.range X.2.1 = Set.range Y.2.1 := by
      ext a
      constructor
      · rintro ⟨i, rfl⟩
        obtain ⟨j, hj⟩ := row i
        exact ⟨j, (entry i j hj).symm⟩
      · rintro ⟨j, rfl⟩
        obtain ⟨i, hi⟩ := col j
        exact ⟨i, entry i j hi⟩
    have h1 : StrictMono fun i => -X.2.1 i := fun i j hij => neg_lt_neg (sX hij)
    have h2 : StrictMono fun i => -Y.2.1 i := fun i j hij => neg_lt_neg (sY hij)
    have h3 : Set.range (fun i => -X.2.1 i) = Set.range fun i => -Y.2.1 i := by
      have : Neg.neg '' Set.range X.2.1 = Neg.neg '' Set.range Y.2.1 := by rw [hr]
      rw [← Set.range_comp, ← Set.range_comp] at this
      exact this
    have h4 := (h1.range_inj h2).1 h3
    funext i
    exact neg_injective (congrFun h4 i)
  have off : ∀ i j, i ≠ j → W i j = 0 := fun i j hij => by
    by_contra hc
    have e := entry i j hc
    rw [← hs] at e
    exact hij (sX.injective e)
  have hdiag : W = diagonal fun i => W i i := by
    ext i j
    rcases eq_or_ne i j with rfl | hij
    · rw [diagonal_apply_eq]
    · rw [diagonal_apply_ne _ hij, off i j hij]
  have hε : ∀ i, W i i * W i i = 1 := fun i => by
    have e := hWW
    rw [hdiag, diagonal_transpose, diagonal_mul_diagonal] at e
    have := congrFun (congrFun e i) i
    rwa [diagonal_apply_eq, one_apply_eq] at this
  have hc : FRChange (1 : Matrix m m ℝ) (1 : Matrix n n ℝ) fun i => W i i :=
    ⟨by simp, by simp, hε⟩
  refine ⟨fun i => W i i, hc, Prod.ext ?_ (Prod.ext hs.symm ?_)⟩
  · change Y.1 = 1 * X.1 * diagonal (fun i => W i i)
    rw [Matrix.one_mul, ← hdiag, ← hYW]
  · change Y.2.2 = diagonal (fun i => W i i) * X.2.2 * 1ᵀ
    have hv : ∀ P : FRPoint m n k, FRValid P →
        P.2.2 = diagonal (fun i => (P.2.1 i)⁻¹) * (P.1ᵀ * frMat P) := fun P hP => by
      rw [frMat, Matrix.mul_assoc P.1, ← Matrix.mul_assoc P.1ᵀ, hP.u, Matrix.one_mul,
        ← Matrix.mul_assoc, sinv_mul hP, Matrix.one_mul]
    rw [transpose_one, Matrix.mul_one, hv Y hY, ← hM, ← hs, hYW, transpose_mul, hdiag,
      diagonal_transpose]
    conv_rhs => rw [hv X hX]
    rw [← Matrix.mul_assoc, ← Matrix.mul_assoc, ← Matrix.mul_assoc, ← Matrix.mul_assoc,
      diagonal_mul_diagonal, diagonal_mul_diagonal]
    simp only [diagonal_apply_eq, mul_comm]

/-- **C134** (matrices of fixed rank): if the cost depends on the matrix only, then the runs from two
representations of the same matrix with distinct singular values, which only use gradients, go
through the same matrices: the corresponding points stand for the same matrix. -/
theorem C134_fixed_rank_representations {X Y : FRPoint m n k} (hX : FRValid X) (hY : FRValid Y)
    (sX : StrictAnti X.2.1) (sY : StrictAnti Y.2.1) (hM : frMat X = frMat Y) {eps : ℝ}
    {retraction : FRPoint m n k → FRTan m n k → FRPoint m n k}
    (hr : ∀ X Z, IsFrRetract eps X Z (retraction X Z))
    (log log' : FRPoint m n k → FRPoint m n k → FRTan m n k)
    (pairMean pairMean' : FRPoint m n k → FRPoint m n k → FRPoint m n k)
    (hess hess' : FRPoint m n k → FRTan m n k → FRTan m n k) {On : FRPoint m n k → Prop}
    {U : Matrix m n ℝ → Prop} {F : Matrix m n ℝ → ℝ} {egrad : FRPoint m n k → FRPoint m n k}
    (hOn : ∀ X Z, On X → On (retraction X Z)) (hU : ∀ X, On X → U (frMat X))
    (hg : GradOn factorDot (fun X => U (frMat X)) (fun X => F (frMat X)) egrad) :
    ∃ retraction' φ ψ, (∀ X Z, IsFrRetract eps X Z (retraction' X Z)) ∧ φ X = Y ∧
      (∀ P, frMat (φ P) = frMat P) ∧ (∀ P V, frAmb (φ P) (ψ V) = frAmb P V) ∧
      Translates φ (fun _ => ψ) On (fun _ _ => True)
        (fixedRankProb retraction log pairMean (fun X => F (frMat X)) egrad hess)
        (fixedRankProb retraction' log' pairMean' (fun X => F (frMat X)) egrad hess') := by
  obtain ⟨ε, h, hY⟩ := C134_fixed_rank_unique hX hY sX sY hM
  have hm : ∀ P, frMat (frMove (1 : Matrix m m ℝ) (1 : Matrix n n ℝ) ε P) = frMat P := fun P => by
    rw [frMat_move h, Matrix.one_mul, transpose_one, Matrix.mul_one]
  obtain ⟨r, h1, h2⟩ := C134_fixed_rank_problems h hr log log' pairMean pairMean' hess hess' hOn hU
    hg hg fun P hP => ⟨by rw [hm]; exact hP, by rw [hm]⟩
  refine ⟨r, _, _, h1, hY.symm, hm, fun P V => ?_, h2⟩
  rw [frAmb_move h, Matrix.one_mul, transpose_one, Matrix.mul_one]

/-- The hypotheses are met by two representations of a diagonal matrix. -/
example : ∃ X Y : FRPoint (Fin 2) (Fin 2) 2, FRValid X ∧ FRValid Y ∧ StrictAnti X.2.1 ∧
    StrictAnti Y.2.1 ∧ frMat X = frMat Y ∧ X.1 ≠ Y.1 := by
  refine ⟨(1, ![2, 1], 1), (diagonal ![-1, 1], ![2, 1], diagonal ![-1, 1]), ⟨?_, ?_, ?_⟩,
    ⟨?_, ?_, ?_⟩, ?_, ?_, ?_, fun h => ?_⟩
  · simp
  · intro i; fin_cases i <;> simp
  · simp
  · ext i j; fin_cases i <;> fin_cases j <;> simp
  · intro i; fin_cases i <;> simp
  · ext i j; fin_cases i <;> fin_cases j <;> simp
  · intro i j hij
    fin_cases i <;> fin_cases j <;> simp_all
  · intro i j hij
    fin_cases i <;> fin_cases j <;> simp_all
  · ext i j; fin_cases i <;> fin_cases j <;> simp [frMat]
  · have := congrFun (congrFun h 0) 0
    norm_num at this

end Verif.Geo
