/-
C129: the costs an example defines for the different backends are the same function; what the cost of
packing_on_the_sphere.py computes, and what its TensorFlow version computes instead.
-/
import Verif.Geo.Props.Examples

namespace Verif.Geo.Examples
open Matrix
open scoped BigOperators

variable {m n p : Type*} {𝕜 : Type*} [RCLike 𝕜]

/-- **C129** (dominant_eigenvector.py, check_gradient.py, check_hessian.py,
dominant_invariant_subspace.py, dominant_invariant_complex_subspace.py, pca.py). -/
theorem C129_agree [Fintype m] [Fintype n] [Fintype p] (A : Matrix n n ℝ) (x : n → ℝ)
    (M : Matrix n n 𝕜) (X : Matrix n p 𝕜) (S : Matrix m n ℝ) (w : Matrix n p ℝ) :
    eigCost A x = eigCostInner A x ∧ subspaceCost M X = subspaceCostTensordot M X ∧
      pcaCost S w = pcaCostProjector S w := by
  refine ⟨?_, ?_, ?_⟩
  · rw [eigCost, eigCostInner, neg_vecMul, neg_dotProduct, ← dotProduct_mulVec]
  · rw [subspaceCost, subspaceCostTensordot, matTensordot, Matrix.mul_assoc]
    congr 2
    simp only [Matrix.trace, Matrix.diag, Matrix.mul_apply, conjTranspose_apply, map_apply]
    exact Finset.sum_comm
  · rw [pcaCost, pcaCostProjector, Matrix.mul_assoc]

/-- The pairs of different points. -/
def pairs (N : ℕ) : Finset (Fin N × Fin N) := Finset.univ.filter fun x => x.1 < x.2

theorem matSum_triu1 {N : ℕ} (a : Matrix (Fin N) (Fin N) ℝ) :
    matSum (triu1 a) = ∑ x ∈ pairs N, a x.1 x.2 := by
  rw [matSum, pairs, Finset.sum_filter, Fintype.sum_prod_type]
  rfl

theorem pairs_nonempty (N : ℕ) : (pairs (N + 2)).Nonempty :=
  ⟨(0, 1), by simp [pairs]⟩

theorem packCost_eq {N : ℕ} [Fintype p] {ε : ℝ} (hε : 0 < ε) (X : Matrix (Fin (N + 2)) p ℝ) :
    packCost ε X = ε * Real.log (∑ x ∈ pairs (N + 2), Real.exp ((X * Xᵀ) x.1 x.2 / ε)) := by
  obtain ⟨Y, hY⟩ : ∃ Y, X * Xᵀ = Y := ⟨_, rfl⟩
  obtain ⟨s, hs⟩ : ∃ s, matMax (triu1 Y) = s := ⟨_, rfl⟩
  have h1 : ∀ x ∈ pairs (N + 2), ((of fun i j => Real.exp ((Y i j - s) / ε)) -
      diagonal (of fun i j => Real.exp ((Y i j - s) / ε)).diag :
        Matrix (Fin (N + 2)) (Fin (N + 2)) ℝ) x.1 x.2 =
      Real.exp (Y x.1 x.2 / ε) * Real.exp (-(s / ε)) := by
    intro x hx
    have hne : x.1 ≠ x.2 := (Finset.mem_filter.1 hx).2.ne
    rw [Matrix.sub_apply, diagonal_apply_ne _ hne, sub_zero, of_apply, ← Real.exp_add]
    congr 1
    ring
  simp only [packCost, hY, hs]
  rw [matSum_triu1, Finset.sum_congr rfl h1, ← Finset.sum_mul, Real.log_mul, Real.log_exp]
  · field_simp
    ring
  · exact (Finset.sum_pos (fun _ _ => Real.exp_pos _) (pairs_nonempty N)).ne'
  · exact (Real.exp_pos _).ne'

/-- **C129** (packing_on_the_sphere.py) With autograd, JAX and PyTorch the cost is the smoothed maximum
of the cosines between different points: it does not depend on the shift, and lies between the
greatest cosine and that plus `epsilon * log` of the number of pairs. -/
theorem C129_packing_partial {N : ℕ} [Fintype p] {ε : ℝ} (hε : 0 < ε)
    (X : Matrix (Fin (N + 2)) p ℝ) :
    (∀ i j : Fin (N + 2), i < j → ∑ l, X i l * X j l ≤ packCost ε X) ∧
    ∀ c : ℝ, (∀ i j : Fin (N + 2), i < j → ∑ l, X i l * X j l ≤ c) →
      packCost ε X ≤ c + ε * Real.log (pairs (N + 2)).card := by
  have hdot : ∀ i j, (X * Xᵀ) i j = ∑ l, X i l * X j l := fun i j => by
    simp [Matrix.mul_apply]
  have hpos : 0 < ∑ x ∈ pairs (N + 2), Real.exp ((X * Xᵀ) x.1 x.2 / ε) :=
    Finset.sum_pos (fun _ _ => Real.exp_pos _) (pairs_nonempty N)
  rw [packCost_eq hε]
  constructor
  · intro i j hij
    rw [← hdot, ← div_le_iff₀' hε, Real.le_log_iff_exp_le hpos]
    exact Finset.single_le_sum (f := fun x : Fin (N + 2) × Fin (N + 2) =>
      Real.exp ((X * Xᵀ) x.1 x.2 / ε)) (fun _ _ => (Real.exp_pos _).le)
      (Finset.mem_filter.2 ⟨Finset.mem_univ (i, j), hij⟩)
  · intro c hc
    have h1 : ∑ x ∈ pairs (N + 2), Real.exp ((X * Xᵀ) x.1 x.2 / ε) ≤
        (pairs (N + 2)).card * Real.exp (c / ε) := by
      rw [← nsmul_eq_mul]
      refine Finset.sum_le_card_nsmul _ _ _ fun x hx => Real.exp_le_exp.2 ?_
      rw [hdot]
      exact div_le_div_of_nonneg_right (hc _ _ (Finset.mem_filter.1 hx).2) hε.le
    have hcard : (0 : ℝ) < (pairs (N + 2)).card :=
      Nat.cast_pos.2 (Finset.card_pos.2 (pairs_nonempty N))
    have h2 := Real.log_le_log hpos h1
    rw [Real.log_mul hcard.ne' (Real.exp_pos _).ne', Real.log_exp] at h2
    have h3 := mul_le_mul_of_nonneg_left h2 hε.le
    rw [mul_add, mul_div_cancel₀ _ hε.ne'] at h3
    linarith

/-- The TensorFlow cost at points of length one depends on the points only through the length of
their sum. -/
theorem packCostTf_eq {N : ℕ} [Fintype p] (ε : ℝ) {X : Matrix (Fin (N + 1)) p ℝ}
    (hX : ∀ i, ∑ l, X i l ^ 2 = 1) :
    packCostTf ε X = 1 + ε * Real.log ((N + 1 + ∑ l, (∑ i, X i l) ^ 2) / 2) := by
  have hdot : ∀ i j, (X * Xᵀ) i j = ∑ l, X i l * X j l := fun i j => by
    simp [Matrix.mul_apply]
  have hdiag : ∀ i, (X * Xᵀ) i i = 1 := fun i => by
    rw [hdot, ← hX i]
    exact Finset.sum_congr rfl fun l _ => (sq _).symm
  have hsymm : ∀ i j, (X * Xᵀ) i j = (X * Xᵀ) j i := fun i j => by
    rw [hdot, hdot]
    exact Finset.sum_congr rfl fun l _ => mul_comm _ _
  have hle : ∀ i j, (X * Xᵀ) i j ≤ 1 := fun i j => by
    have h := Finset.sum_nonneg fun l (_ : l ∈ Finset.univ) => sq_nonneg (X i l - X j l)
    have e : ∑ l, (X i l - X j l) ^ 2 = ∑ l, X i l ^ 2 + ∑ l, X j l ^ 2 - 2 * ∑ l, X i l * X j l := by
      rw [Finset.mul_sum, ← Finset.sum_add_distrib, ← Finset.sum_sub_distrib]
      exact Finset.sum_congr rfl fun l _ => by ring
    rw [e, hX, hX] at h
    rw [hdot]
    linarith
  have hs : matMax (bandPart (X * Xᵀ)) = 1 := by
    refine le_antisymm (Finset.sup'_le _ _ fun x _ => ?_) ?_
    · rw [bandPart, of_apply]
      split
      · exact hle _ _
      · exact zero_le_one
    · refine Finset.le_sup'_of_le _ (Finset.mem_univ ((0, 0) : Fin (N + 1) × Fin (N + 1))) ?_
      rw [bandPart, of_apply, if_pos le_rfl, hdiag]
  have hu : 2 * matSum (bandPart (X * Xᵀ)) = N + 1 + ∑ l, (∑ i, X i l) ^ 2 := by
    have h1 : matSum (bandPart (X * Xᵀ)) + matSum (bandPart (X * Xᵀ)) =
        ∑ i, ∑ j, ((X * Xᵀ) i j + if i = j then 1 else 0) := by
      have h2 : matSum (bandPart (X * Xᵀ)) =
          ∑ i, ∑ j : Fin (N + 1), if j ≤ i then (X * Xᵀ) i j else 0 := by
        rw [matSum, Finset.sum_comm]
        refine Finset.sum_congr rfl fun i _ => Finset.sum_congr rfl fun j _ => ?_
        rw [bandPart, of_apply, hsymm]
      nth_rewrite 2 [h2]
      rw [matSum, ← Finset.sum_add_distrib]
      refine Finset.sum_congr rfl fun i _ => ?_
      rw [← Finset.sum_add_distrib]
      refine Finset.sum_congr rfl fun j _ => ?_
      rw [bandPart, of_apply]
      rcases lt_trichotomy i j with h | h | h
      · rw [if_pos h.le, if_neg (not_le.2 h), if_neg h.ne]
      · subst h
        rw [if_pos le_rfl, if_pos rfl, hdiag]
      · rw [if_neg (not_le.2 h), if_pos h.le, if_neg h.ne', zero_add, add_zero]
    have h3 : ∑ i, ∑ j, (X * Xᵀ) i j = ∑ l, (∑ i, X i l) ^ 2 := by
      simp only [hdot]
      rw [show ∑ i, ∑ j, ∑ l, X i l * X j l = ∑ i, ∑ l, ∑ j, X i l * X j l from
        Finset.sum_congr rfl fun i _ => Finset.sum_comm, Finset.sum_comm]
      refine Finset.sum_congr rfl fun l _ => ?_
      rw [sq, Finset.sum_mul_sum]
    rw [two_mul, h1]
    simp only [Finset.sum_add_distrib, Finset.sum_ite_eq, Finset.mem_univ, if_true]
    rw [h3]
    simp
    ring
  simp only [packCostTf, hs]
  rw [← hu, mul_div_cancel_left₀ _ two_ne_zero]

/-- **C129** (negative) The TensorFlow cost of packing_on_the_sphere.py is another function: on the
sphere it is least for all configurations with sum zero, whatever the distances between the points.
For four points it is least for a configuration in which points coincide, which the other cost ranks
behind a configuration without coincidences. -/
theorem C129_packing_tensorflow_negation {ε : ℝ} (hε : 0 < ε) (hε1 : ε * Real.log 6 < 1) :
    ∃ X Z : Matrix (Fin 4) (Fin 2) ℝ, (∀ i, ∑ l, X i l ^ 2 = 1) ∧ (∀ i, ∑ l, Z i l ^ 2 = 1) ∧
      (∀ W : Matrix (Fin 4) (Fin 2) ℝ, (∀ i, ∑ l, W i l ^ 2 = 1) →
        packCostTf ε X ≤ packCostTf ε W) ∧
      X 0 = X 1 ∧ packCostTf ε Z = packCostTf ε X ∧ packCost ε Z < packCost ε X := by
  have hX : ∀ i, ∑ l, (!![1, 0; 1, 0; -1, 0; -1, 0] : Matrix (Fin 4) (Fin 2) ℝ) i l ^ 2 = 1 := by
    intro i
    fin_cases i <;> simp [Fin.sum_univ_two]
  have hZ : ∀ i, ∑ l, (!![1, 0; 0, 1; -1, 0; 0, -1] : Matrix (Fin 4) (Fin 2) ℝ) i l ^ 2 = 1 := by
    intro i
    fin_cases i <;> simp [Fin.sum_univ_two]
  refine ⟨!![1, 0; 1, 0; -1, 0; -1, 0], !![1, 0; 0, 1; -1, 0; 0, -1], hX, hZ, fun W hW => ?_, rfl,
    ?_, ?_⟩
  · rw [packCostTf_eq ε hX, packCostTf_eq ε hW]
    have h0 := Finset.sum_nonneg fun l (_ : l ∈ Finset.univ) => sq_nonneg (∑ i, W i l)
    refine add_le_add_right (mul_le_mul_of_nonneg_left (Real.log_le_log ?_ ?_) hε.le) _
    · simp [Fin.sum_univ_two, Fin.sum_univ_four]
      norm_num
    · have e : ∑ l, (∑ i, (!![1, 0; 1, 0; -1, 0; -1, 0] : Matrix (Fin 4) (Fin 2) ℝ) i l) ^ 2 = 0 := by
        simp [Fin.sum_univ_two, Fin.sum_univ_four]
      rw [e]
      linarith
  · rw [packCostTf_eq ε hX, packCostTf_eq ε hZ]
    simp [Fin.sum_univ_two, Fin.sum_univ_four]
  · have h1 := (C129_packing_partial hε
      (!![1, 0; 1, 0; -1, 0; -1, 0] : Matrix (Fin (2 + 2)) (Fin 2) ℝ)).1 0 1 (by decide)
    have h2 := (C129_packing_partial hε
      (!![1, 0; 0, 1; -1, 0; 0, -1] : Matrix (Fin (2 + 2)) (Fin 2) ℝ)).2 0 (by
        intro i j hij
        fin_cases i <;> fin_cases j <;> first | exact absurd hij (by decide) | norm_num [Fin.sum_univ_two])
    have h3 : (pairs (2 + 2)).card = 6 := by decide
    rw [h3] at h2
    norm_num [Fin.sum_univ_two] at h1 h2
    linarith

/-- The hypotheses can be met, with the value of the example. -/
example : (0 : ℝ) < 5 / 1000 ∧ 5 / 1000 * Real.log 6 < 1 := by
  refine ⟨by norm_num, ?_⟩
  have h := Real.log_le_sub_one_of_pos (show (0 : ℝ) < 6 by norm_num)
  linarith

end Verif.Geo.Examples
