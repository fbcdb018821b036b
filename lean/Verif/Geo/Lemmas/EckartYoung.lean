/-
Best approximation by matrices of bounded rank (Eckart and Young), in the form needed for the
retraction of the fixed-rank manifold: the factors are orthonormal only where the singular values do
not vanish.
-/
import Verif.Geo.Lemmas.Exists
import Verif.Geo.Lemmas.Stack
import Mathlib.LinearAlgebra.Matrix.Rank
import Mathlib.Data.Matrix.ColumnRowPartitioned

namespace Verif.Geo
open scoped BigOperators
open Matrix

variable {m n l : Type*} [Fintype m] [Fintype n] [Fintype l] {k : ℕ}

theorem weighted_le (σ w : Fin (k + k) → ℝ) (h0 : ∀ i, 0 ≤ σ i) (hs : Antitone σ)
    (hw0 : ∀ i, 0 ≤ w i) (hw1 : ∀ i, w i ≤ 1) (hsum : ∑ i, w i ≤ k) :
    ∑ i, σ i ^ 2 * w i ≤ ∑ i : Fin k, σ (Fin.castAdd k i) ^ 2 := by
  rcases Nat.eq_zero_or_pos k with rfl | hk
  · simp
  · set c := σ (Fin.natAdd k ⟨0, hk⟩) ^ 2 with hc
    rw [Fin.sum_univ_add] at hsum ⊢
    have h1 : ∀ i : Fin k, σ (Fin.castAdd k i) ^ 2 * w (Fin.castAdd k i) ≤
        σ (Fin.castAdd k i) ^ 2 - c + c * w (Fin.castAdd k i) := by
      intro i
      have : c ≤ σ (Fin.castAdd k i) ^ 2 := by
        rw [hc]
        refine pow_le_pow_left₀ (h0 _) (hs ?_) 2
        rw [Fin.le_def]; simp
      nlinarith [hw1 (Fin.castAdd k i)]
    have h2 : ∀ i : Fin k, σ (Fin.natAdd k i) ^ 2 * w (Fin.natAdd k i) ≤
        c * w (Fin.natAdd k i) := by
      intro i
      refine mul_le_mul_of_nonneg_right ?_ (hw0 _)
      rw [hc]
      refine pow_le_pow_left₀ (h0 _) (hs ?_) 2
      rw [Fin.le_def]; simp
    have h3 := Finset.sum_le_sum fun i (_ : i ∈ Finset.univ) => h1 i
    have h4 := Finset.sum_le_sum fun i (_ : i ∈ Finset.univ) => h2 i
    rw [Finset.sum_add_distrib, Finset.sum_sub_distrib, ← Finset.mul_sum] at h3
    rw [← Finset.mul_sum] at h4
    simp only [Finset.sum_const, Finset.card_univ, Fintype.card_fin, nsmul_eq_mul] at h3
    have h5 : 0 ≤ c := sq_nonneg _
    nlinarith

omit [Fintype l] in
theorem gram_diag_nonneg (A : Matrix m l ℝ) (i : l) : 0 ≤ (Aᵀ * A) i i := by
  rw [mul_apply]
  exact Finset.sum_nonneg fun j _ => by
    rw [transpose_apply]; exact mul_self_nonneg _

theorem gram_trace_nonneg (A : Matrix m l ℝ) : 0 ≤ (Aᵀ * A).trace :=
  Finset.sum_nonneg fun i _ => gram_diag_nonneg A i

theorem eckart_young_bound {Y : Matrix m n ℝ} {P : Matrix m (Fin (k + k)) ℝ}
    {σ e : Fin (k + k) → ℝ} (h0 : ∀ i, 0 ≤ σ i) (hs : Antitone σ)
    (he : ∀ i, e i = if σ i = 0 then 0 else 1) (hP : Pᵀ * P = diagonal e)
    (hY : Y * Yᵀ = P * diagonal (fun i => σ i ^ 2) * Pᵀ) (hk : k ≤ Fintype.card m)
    (C : Matrix m (Fin k) ℝ) (E : Matrix (Fin k) n ℝ) :
    ∑ i : Fin k, σ (Fin.natAdd k i) ^ 2 ≤ trDot (Y - C * E) (Y - C * E) := by
  obtain ⟨Q, R, hQR⟩ := exists_isQR (𝕜 := ℝ) hk C
  have hQ : Qᵀ * Q = 1 := by simpa [conjTranspose_eq_transpose_of_trivial] using hQR.orth
  obtain ⟨F, hF⟩ : ∃ F, F = R * E := ⟨_, rfl⟩
  have hCE : C * E = Q * F := by rw [hF, ← Matrix.mul_assoc, hQR.prod]
  have hPe : P * diagonal e = P := by
    ext i j
    rw [mul_diagonal]
    have hj : e j = 0 ∨ e j = 1 := by rw [he]; split <;> simp
    rcases hj with h | h
    · have h1 : (Pᵀ * P) j j = 0 := by rw [hP, diagonal_apply_eq, h]
      rw [mul_apply, Finset.sum_eq_zero_iff_of_nonneg fun x _ => by
        rw [transpose_apply]; exact mul_self_nonneg _] at h1
      have h2 := h1 i (Finset.mem_univ i)
      rw [transpose_apply, mul_self_eq_zero] at h2
      rw [h2, zero_mul]
    · rw [h, mul_one]
  -- weights
  obtain ⟨G, hG⟩ : ∃ G, G = Qᵀ * P := ⟨_, rfl⟩
  let w : Fin (k + k) → ℝ := fun i => (Gᵀ * G) i i
  have hw0 : ∀ i, 0 ≤ w i := fun i => gram_diag_nonneg _ i
  have hw1 : ∀ i, w i ≤ 1 := by
    intro i
    have h1 := gram_diag_nonneg (P - Q * G) i
    have h2 : (P - Q * G)ᵀ * (P - Q * G) = diagonal e - Gᵀ * G := by
      have e1 : Pᵀ * (Q * G) = Gᵀ * G := by
        rw [← Matrix.mul_assoc]; congr 1; rw [hG, transpose_mul, transpose_transpose]
      have e2 : (Q * G)ᵀ * P = Gᵀ * G := by
        rw [transpose_mul, Matrix.mul_assoc, ← hG]
      have e3 : (Q * G)ᵀ * (Q * G) = Gᵀ * G := by
        rw [transpose_mul, Matrix.mul_assoc, ← Matrix.mul_assoc Qᵀ, hQ, Matrix.one_mul]
      rw [transpose_sub, Matrix.sub_mul, Matrix.mul_sub, Matrix.mul_sub, hP, e1, e2, e3]
      abel
    rw [h2, Matrix.sub_apply, diagonal_apply_eq] at h1
    have hj : e i ≤ 1 := by rw [he]; split <;> norm_num
    change (Gᵀ * G) i i ≤ 1
    linarith
  have hsum : ∑ i, w i ≤ k := by
    have h1 := gram_trace_nonneg (Q - P * Gᵀ)
    have h2 : (Q - P * Gᵀ)ᵀ * (Q - P * Gᵀ) = 1 - G * Gᵀ := by
      have e1 : Qᵀ * (P * Gᵀ) = G * Gᵀ := by rw [← Matrix.mul_assoc, ← hG]
      have e2 : (P * Gᵀ)ᵀ * Q = G * Gᵀ := by
        rw [transpose_mul, transpose_transpose, Matrix.mul_assoc]
        congr 1
        rw [hG, transpose_mul, transpose_transpose]
      have e3 : (P * Gᵀ)ᵀ * (P * Gᵀ) = G * Gᵀ := by
        rw [transpose_mul, transpose_transpose, Matrix.mul_assoc, ← Matrix.mul_assoc Pᵀ, hP,
          ← Matrix.mul_assoc]
        congr 1
        rw [hG, Matrix.mul_assoc, hPe]
      rw [transpose_sub, Matrix.sub_mul, Matrix.mul_sub, Matrix.mul_sub, hQ, e1, e2, e3]
      abel
    rw [h2, trace_sub, trace_one, Fintype.card_fin, trace_mul_comm] at h1
    change (Gᵀ * G).trace ≤ k
    linarith
  have hmain := weighted_le σ w h0 hs hw0 hw1 hsum
  -- norms
  have n1 : trDot Y Y = ∑ i, σ i ^ 2 := by
    rw [trDot_real, trace_mul_comm, hY, trace_mul_comm, ← Matrix.mul_assoc, hP, diagonal_mul_diagonal,
      trace_diagonal]
    refine Finset.sum_congr rfl fun i _ => ?_
    rw [he]
    split
    · next h => rw [h]; ring
    · ring
  have n2 : trDot (Qᵀ * Y) (Qᵀ * Y) = ∑ i, σ i ^ 2 * w i := by
    rw [trDot_real, trace_mul_comm, transpose_mul, transpose_transpose, Matrix.mul_assoc,
      ← Matrix.mul_assoc Y, hY]
    have e1 : Qᵀ * (P * diagonal (fun i => σ i ^ 2) * Pᵀ * Q) =
        G * (diagonal (fun i => σ i ^ 2) * Gᵀ) := by
      rw [hG, transpose_mul, transpose_transpose]
      simp only [Matrix.mul_assoc]
    rw [e1, trace_mul_comm, Matrix.mul_assoc]
    rw [trace]
    refine Finset.sum_congr rfl fun i _ => ?_
    rw [diag_apply, diagonal_mul]
  have n3 : trDot (Y - Q * F) (Y - Q * F) =
      trDot Y Y - trDot (Qᵀ * Y) (Qᵀ * Y) + trDot (Qᵀ * Y - F) (Qᵀ * Y - F) := by
    have a1 : trDot (Q * F) (Q * F) = trDot F F := by
      rw [trDot_real, trDot_real, transpose_mul, Matrix.mul_assoc, ← Matrix.mul_assoc Qᵀ, hQ,
        Matrix.one_mul]
    have a2 : trDot Y (Q * F) = trDot (Qᵀ * Y) F := by
      rw [trDot_real, trDot_real, transpose_mul, transpose_transpose, Matrix.mul_assoc]
    rw [trDot_inner.sub_left, trDot_inner.sub_right, trDot_inner.sub_right,
      trDot_inner.symm (Q * F) Y, a1, a2, trDot_inner.sub_left, trDot_inner.sub_right,
      trDot_inner.sub_right, trDot_inner.symm F (Qᵀ * Y)]
    ring
  rw [hCE, n3, n1, n2]
  have := trDot_inner.nonneg (Qᵀ * Y - F)
  rw [Fin.sum_univ_add (fun i => σ i ^ 2)]
  linarith

/-- The setting of the fixed-rank retraction: `Y = A T Bᵀ`, where `A` and `B` preserve lengths on the
images of `T` and of its transpose, and a singular value decomposition of `T`. -/
structure Compressed (Y : Matrix m n ℝ) (A : Matrix m l ℝ) (T : Matrix l l ℝ) (B : Matrix n l ℝ)
    (U : Matrix l (Fin (k + k)) ℝ) (σ : Fin (k + k) → ℝ) (V : Matrix (Fin (k + k)) l ℝ) : Prop where
  prod : Y = A * T * Bᵀ
  left : (A * T)ᵀ * (A * T) = Tᵀ * T
  right : (B * Tᵀ)ᵀ * (B * Tᵀ) = T * Tᵀ
  svd : IsSVD T U σ V

namespace Compressed

variable {Y : Matrix m n ℝ} {A : Matrix m l ℝ} {T : Matrix l l ℝ} {B : Matrix n l ℝ}
  {U : Matrix l (Fin (k + k)) ℝ} {σ : Fin (k + k) → ℝ} {V : Matrix (Fin (k + k)) l ℝ}

theorem orthU (h : Compressed Y A T B U σ V) : Uᵀ * U = 1 := by
  simpa [conjTranspose_eq_transpose_of_trivial] using h.svd.orthU

theorem orthV (h : Compressed Y A T B U σ V) : V * Vᵀ = 1 := by
  simpa [conjTranspose_eq_transpose_of_trivial] using h.svd.orthV

theorem svdT (h : Compressed Y A T B U σ V) : T = U * diagonal σ * V := by
  simpa using h.svd.prod

theorem gramL (h : Compressed Y A T B U σ V) (i j : Fin (k + k)) :
    σ i * ((A * U)ᵀ * (A * U)) i j * σ j = if i = j then σ i ^ 2 else 0 := by
  have e1 : V * ((A * T)ᵀ * (A * T)) * Vᵀ = diagonal σ * ((A * U)ᵀ * (A * U)) * diagonal σ := by
    have : A * T = A * U * diagonal σ * V := by
      conv_lhs => rw [h.svdT]
      simp only [Matrix.mul_assoc]
    rw [this, transpose_mul, transpose_mul, diagonal_transpose]
    have : V * (Vᵀ * (diagonal σ * (A * U)ᵀ) * (A * U * diagonal σ * V)) * Vᵀ =
        (V * Vᵀ) * (diagonal σ * ((A * U)ᵀ * (A * U)) * diagonal σ) * (V * Vᵀ) := by
      simp only [Matrix.mul_assoc]
    rw [this, h.orthV, Matrix.one_mul, Matrix.mul_one]
  have e2 : V * (Tᵀ * T) * Vᵀ = diagonal fun i => σ i * σ i := by
    conv_lhs => rw [h.svdT]
    rw [transpose_mul, transpose_mul, diagonal_transpose]
    have : V * (Vᵀ * (diagonal σ * Uᵀ) * (U * diagonal σ * V)) * Vᵀ =
        (V * Vᵀ) * (diagonal σ * (Uᵀ * U) * diagonal σ) * (V * Vᵀ) := by
      simp only [Matrix.mul_assoc]
    rw [this, h.orthV, h.orthU, Matrix.one_mul, Matrix.mul_one, Matrix.mul_one,
      diagonal_mul_diagonal]
  have e3 := congrFun (congrFun (e1.symm.trans ((congrArg (fun Z => V * Z * Vᵀ) h.left).trans e2)) i) j
  rw [mul_diagonal, diagonal_mul, diagonal_apply] at e3
  rw [e3]
  split <;> ring

/-- The transposed setting. -/
theorem swap (h : Compressed Y A T B U σ V) : Compressed Yᵀ B Tᵀ A Vᵀ σ Uᵀ where
  prod := by
    rw [h.prod, transpose_mul, transpose_mul, transpose_transpose, Matrix.mul_assoc]
  left := by rw [h.right, transpose_transpose]
  right := by rw [transpose_transpose, h.left]
  svd := by
    refine ⟨?_, ?_, h.svd.nonneg, h.svd.sorted, ?_⟩
    · simpa [conjTranspose_eq_transpose_of_trivial] using h.orthV
    · simpa [conjTranspose_eq_transpose_of_trivial] using h.orthU
    · conv_lhs => rw [h.svdT]
      rw [transpose_mul, transpose_mul, diagonal_transpose, Matrix.mul_assoc]
      simp

theorem gramR (h : Compressed Y A T B U σ V) (i j : Fin (k + k)) :
    σ i * ((B * Vᵀ)ᵀ * (B * Vᵀ)) i j * σ j = if i = j then σ i ^ 2 else 0 := h.swap.gramL i j

theorem prod' (h : Compressed Y A T B U σ V) : Y = A * U * diagonal σ * (B * Vᵀ)ᵀ := by
  rw [h.prod]
  conv_lhs => rw [h.svdT]
  rw [transpose_mul, transpose_transpose]
  simp only [Matrix.mul_assoc]

/-- The compressed matrix determines the size of what is cut off. -/
theorem diag_dot (h : Compressed Y A T B U σ V) (d : Fin (k + k) → ℝ) (hd : ∀ i, σ i = 0 → d i = 0) :
    trDot (A * U * diagonal d * (B * Vᵀ)ᵀ) (A * U * diagonal d * (B * Vᵀ)ᵀ) = ∑ i, d i ^ 2 := by
  have key : ∀ (W : Matrix (Fin (k + k)) (Fin (k + k)) ℝ),
      (∀ i j, σ i * W i j * σ j = if i = j then σ i ^ 2 else 0) →
      diagonal d * W * diagonal d = diagonal fun i => d i ^ 2 := by
    intro W hW
    ext i j
    rw [mul_diagonal, diagonal_mul, diagonal_apply]
    by_cases hi : σ i = 0
    · rw [hd i hi]; split <;> simp
    by_cases hj : σ j = 0
    · rw [hd j hj]
      split
      · next e => subst e; exact absurd hj hi
      · simp
    have h1 := hW i j
    split
    · next e =>
      subst e
      rw [if_pos rfl] at h1
      have : W i i = 1 := by
        have h2 : σ i ^ 2 * W i i = σ i ^ 2 * 1 := by linarith
        exact mul_left_cancel₀ (pow_ne_zero 2 hi) h2
      rw [this]; ring
    · next e =>
      rw [if_neg e] at h1
      have : W i j = 0 := by
        rcases mul_eq_zero.mp h1 with h2 | h2
        · exact (mul_eq_zero.mp h2).resolve_left hi
        · exact absurd h2 hj
      rw [this]; ring
  rw [trDot_real, transpose_mul, transpose_transpose, transpose_mul, diagonal_transpose]
  have e1 : B * Vᵀ * (diagonal d * (A * U)ᵀ) * (A * U * diagonal d * (B * Vᵀ)ᵀ) =
      B * Vᵀ * (diagonal d * ((A * U)ᵀ * (A * U)) * diagonal d) * (B * Vᵀ)ᵀ := by
    simp only [Matrix.mul_assoc]
  rw [e1, key _ h.gramL, trace_mul_comm, ← Matrix.mul_assoc, trace]
  refine Finset.sum_congr rfl fun i _ => ?_
  rw [diag_apply, mul_diagonal]
  by_cases hi : σ i = 0
  · rw [hd i hi]; ring
  · have h1 := h.gramR i i
    rw [if_pos rfl] at h1
    have h2 : σ i ^ 2 * ((B * Vᵀ)ᵀ * (B * Vᵀ)) i i = σ i ^ 2 * 1 := by linarith
    rw [mul_left_cancel₀ (pow_ne_zero 2 hi) h2]; ring

omit [Fintype m] [Fintype n] in
/-- The leading factors. -/
theorem lead_prod (A : Matrix m l ℝ) (B : Matrix n l ℝ) (U : Matrix l (Fin (k + k)) ℝ)
    (σ : Fin (k + k) → ℝ) (V : Matrix (Fin (k + k)) l ℝ) :
    A * U.submatrix id (Fin.castAdd k) * diagonal (fun i => σ (Fin.castAdd k i)) *
      (B * Vᵀ.submatrix id (Fin.castAdd k))ᵀ =
    A * U * diagonal (Fin.addCases (fun i => σ (Fin.castAdd k i)) fun _ => 0) * (B * Vᵀ)ᵀ := by
  have e1 : A * U.submatrix id (Fin.castAdd k) = (A * U).submatrix id (Fin.castAdd k) := by
    ext i j; simp [mul_apply]
  have e2 : B * Vᵀ.submatrix id (Fin.castAdd k) = (B * Vᵀ).submatrix id (Fin.castAdd k) := by
    ext i j; simp [mul_apply]
  rw [e1, e2]
  ext i j
  rw [mul_apply, mul_apply, Fin.sum_univ_add]
  simp only [mul_diagonal, Fin.addCases_left, Fin.addCases_right, transpose_apply, submatrix_apply,
    id, mul_zero, zero_mul, Finset.sum_const_zero, add_zero]

/-- The leading part is as close to `Y` as the singular values cut off allow. -/
theorem lead_dist (h : Compressed Y A T B U σ V) :
    trDot (Y - A * U.submatrix id (Fin.castAdd k) * diagonal (fun i => σ (Fin.castAdd k i)) *
        (B * Vᵀ.submatrix id (Fin.castAdd k))ᵀ)
      (Y - A * U.submatrix id (Fin.castAdd k) * diagonal (fun i => σ (Fin.castAdd k i)) *
        (B * Vᵀ.submatrix id (Fin.castAdd k))ᵀ) = ∑ i : Fin k, σ (Fin.natAdd k i) ^ 2 := by
  let d : Fin (k + k) → ℝ := Fin.addCases (fun _ => 0) fun i => σ (Fin.natAdd k i)
  have e : Y - A * U.submatrix id (Fin.castAdd k) * diagonal (fun i => σ (Fin.castAdd k i)) *
      (B * Vᵀ.submatrix id (Fin.castAdd k))ᵀ = A * U * diagonal d * (B * Vᵀ)ᵀ := by
    rw [lead_prod, h.prod', ← Matrix.sub_mul, ← Matrix.mul_sub]
    congr 2
    ext i j
    rw [Matrix.sub_apply, diagonal_apply, diagonal_apply, diagonal_apply]
    split
    · refine Fin.addCases (fun i => ?_) (fun i => ?_) i <;>
        simp only [d, Fin.addCases_left, Fin.addCases_right, sub_self, sub_zero]
    · rw [sub_zero]
  rw [e, h.diag_dot d]
  · rw [Fin.sum_univ_add]
    simp only [d, Fin.addCases_left, Fin.addCases_right]
    simp
  · intro i
    refine Fin.addCases (fun i => ?_) (fun i => ?_) i <;>
      simp only [d, Fin.addCases_left, Fin.addCases_right]
    · exact fun _ => trivial
    · exact id

/-- No matrix of rank at most `k` is closer to `Y`. -/
theorem bound (h : Compressed Y A T B U σ V) (hk : k ≤ Fintype.card m) (C : Matrix m (Fin k) ℝ)
    (E : Matrix (Fin k) n ℝ) :
    ∑ i : Fin k, σ (Fin.natAdd k i) ^ 2 ≤ trDot (Y - C * E) (Y - C * E) := by
  let e : Fin (k + k) → ℝ := fun i => if σ i = 0 then 0 else 1
  refine eckart_young_bound (P := A * U * diagonal e) (e := e) h.svd.nonneg h.svd.sorted
    (fun i => rfl) ?_ ?_ hk C E
  · rw [transpose_mul, diagonal_transpose]
    have : diagonal e * (A * U)ᵀ * (A * U * diagonal e) =
        diagonal e * ((A * U)ᵀ * (A * U)) * diagonal e := by simp only [Matrix.mul_assoc]
    rw [this]
    ext i j
    rw [mul_diagonal, diagonal_mul, diagonal_apply]
    have h1 := h.gramL i j
    by_cases hi : σ i = 0
    · simp [e, hi]
    by_cases hj : σ j = 0
    · have : i ≠ j := by rintro rfl; exact hi hj
      simp [e, hj, this]
    simp only [e, if_neg hi, if_neg hj, one_mul, mul_one]
    split
    · next e => 
      subst e
      rw [if_pos rfl] at h1
      have h2 : σ i ^ 2 * ((A * U)ᵀ * (A * U)) i i = σ i ^ 2 * 1 := by linarith
      exact mul_left_cancel₀ (pow_ne_zero 2 hi) h2
    · next e =>
      rw [if_neg e] at h1
      rcases mul_eq_zero.mp h1 with h2 | h2
      · exact (mul_eq_zero.mp h2).resolve_left hi
      · exact absurd h2 hj
  · have e1 : Y * Yᵀ = A * (T * Tᵀ) * Aᵀ := by
      rw [← h.right, h.prod]
      simp only [transpose_mul, transpose_transpose, Matrix.mul_assoc]
    have e2 : T * Tᵀ = U * diagonal (fun i => σ i ^ 2) * Uᵀ := by
      conv_lhs => rw [h.svdT]
      rw [transpose_mul, transpose_mul, diagonal_transpose]
      have : U * diagonal σ * V * (Vᵀ * (diagonal σ * Uᵀ)) =
          U * (diagonal σ * (V * Vᵀ) * diagonal σ) * Uᵀ := by simp only [Matrix.mul_assoc]
      rw [this, h.orthV, Matrix.mul_one, diagonal_mul_diagonal]
      congr 3; funext i; ring
    have e3 : A * U * diagonal e * diagonal (fun i => σ i ^ 2) * (A * U * diagonal e)ᵀ =
        A * U * (diagonal e * diagonal (fun i => σ i ^ 2) * diagonal e) * (A * U)ᵀ := by
      rw [transpose_mul _ (diagonal e), diagonal_transpose]
      simp only [Matrix.mul_assoc]
    have e4 : diagonal e * diagonal (fun i => σ i ^ 2) * diagonal e = diagonal fun i => σ i ^ 2 := by
      rw [diagonal_mul_diagonal, diagonal_mul_diagonal]
      congr 1
      funext i
      by_cases hi : σ i = 0 <;> simp [e, hi]
    rw [e1, e2, e3, e4, transpose_mul]
    simp only [Matrix.mul_assoc]

/-- Leading factors belonging to positive singular values are orthonormal. -/
theorem lead_orth (h : Compressed Y A T B U σ V) (hσ : ∀ i : Fin k, σ (Fin.castAdd k i) ≠ 0) :
    (A * U.submatrix id (Fin.castAdd k))ᵀ * (A * U.submatrix id (Fin.castAdd k)) = 1 := by
  have e1 : A * U.submatrix id (Fin.castAdd k) = (A * U).submatrix id (Fin.castAdd k) := by
    ext i j; simp [mul_apply]
  ext i j
  have h1 := h.gramL (Fin.castAdd k i) (Fin.castAdd k j)
  have h2 : ((A * U.submatrix id (Fin.castAdd k))ᵀ * (A * U.submatrix id (Fin.castAdd k))) i j =
      ((A * U)ᵀ * (A * U)) (Fin.castAdd k i) (Fin.castAdd k j) := by
    rw [e1]; rfl
  rw [h2, one_apply]
  split
  · next e =>
    subst e
    rw [if_pos rfl] at h1
    have h3 : σ (Fin.castAdd k i) ^ 2 * ((A * U)ᵀ * (A * U)) (Fin.castAdd k i) (Fin.castAdd k i) =
      σ (Fin.castAdd k i) ^ 2 * 1 := by linarith
    exact mul_left_cancel₀ (pow_ne_zero 2 (hσ i)) h3
  · next e =>
    have : Fin.castAdd k i ≠ Fin.castAdd k j := fun h => e (Fin.castAdd_injective k k h)
    rw [if_neg this] at h1
    rcases mul_eq_zero.mp h1 with h3 | h3
    · exact (mul_eq_zero.mp h3).resolve_left (hσ i)
    · exact absurd h3 (hσ j)

/-- Matrices of rank at least `k` have `k` positive singular values. -/
theorem pos_of_rank [DecidableEq l] (h : Compressed Y A T B U σ V) (hr : k ≤ Y.rank) (i : Fin k) :
    0 < σ (Fin.castAdd k i) := by
  refine lt_of_le_of_ne (h.svd.nonneg _) fun h0 => ?_
  have h1 : Y.rank ≤ (diagonal σ).rank := by
    rw [h.prod']
    exact (rank_mul_le_left _ _).trans (rank_mul_le_right _ _)
  rw [rank_diagonal] at h1
  have h2 : Fintype.card {j // σ j ≠ 0} ≤ (i : ℕ) := by
    have hinj : Function.Injective (fun j : {j // σ j ≠ 0} => (⟨(j.1 : ℕ), by
        by_contra hc
        have : σ j.1 ≤ σ (Fin.castAdd k i) := h.svd.sorted (by rw [Fin.le_def]; simpa using hc)
        exact j.2 (le_antisymm (this.trans h0.ge) (h.svd.nonneg _))⟩ : Fin (i : ℕ))) := by
      intro a b hab
      have := congrArg Fin.val hab
      exact Subtype.ext (Fin.ext this)
    simpa using Fintype.card_le_of_injective _ hinj
  have := i.2
  omega

end Compressed

end Verif.Geo
