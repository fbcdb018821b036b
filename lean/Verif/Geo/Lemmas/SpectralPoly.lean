/-
Polynomials of a symmetric linear map and the Chebyshev polynomial of an interval.
-/
import Mathlib.Analysis.InnerProductSpace.Spectrum
import Mathlib.Analysis.SpecialFunctions.Trigonometric.Chebyshev.RootsExtrema
import Mathlib.Analysis.SpecialFunctions.Log.Deriv
import Verif.Geo.Spec

namespace Verif.Geo
open Polynomial

/-- Coordinates of a polynomial of a symmetric map in its basis of eigenvectors. -/
theorem repr_aeval {E : Type*} [NormedAddCommGroup E] [InnerProductSpace ℝ E]
    [FiniteDimensional ℝ E] {T : E →ₗ[ℝ] E} (hT : T.IsSymmetric) (q : ℝ[X]) (w : E)
    (i : Fin (Module.finrank ℝ E)) :
    (hT.eigenvectorBasis rfl).repr (aeval T q w) i =
      q.eval (hT.eigenvalues rfl i) * (hT.eigenvectorBasis rfl).repr w i := by
  induction q using Polynomial.induction_on generalizing w with
  | C c => simp [Module.algebraMap_end_apply]
  | add q r hq hr =>
    rw [map_add, LinearMap.add_apply, map_add, eval_add, add_mul, ← hq, ← hr]
    rfl
  | monomial n c h =>
    rw [pow_succ, ← mul_assoc, map_mul, aeval_X, Module.End.mul_apply, h,
      hT.eigenvectorBasis_apply_self_apply]
    simp only [eval_mul, eval_X, RCLike.ofReal_real_eq_id, id_eq]
    ring

/-- A polynomial that vanishes at the eigenvalues of a symmetric map annihilates it. -/
theorem aeval_eq_zero_of_eigenvalues {E : Type*} [NormedAddCommGroup E] [InnerProductSpace ℝ E]
    [FiniteDimensional ℝ E] {T : E →ₗ[ℝ] E} (hT : T.IsSymmetric) {p : ℝ[X]}
    (hp : ∀ c, Module.End.HasEigenvalue T c → p.eval c = 0) : aeval T p = 0 := by
  ext v
  refine (hT.eigenvectorBasis rfl).repr.injective ?_
  ext i
  have h0 : p.eval (hT.eigenvalues rfl i) = 0 := hp _ (hT.hasEigenvalue_eigenvalues rfl i)
  rw [repr_aeval, h0]
  simp

/-- A polynomial of a symmetric map is bounded by its values on an interval that holds the Rayleigh
quotients. -/
theorem norm_aeval_le {E : Type*} [NormedAddCommGroup E] [InnerProductSpace ℝ E]
    [FiniteDimensional ℝ E] {T : E →ₗ[ℝ] E} (hT : T.IsSymmetric) {a b M : ℝ}
    (ha : ∀ v, a * ‖v‖ ^ 2 ≤ inner ℝ v (T v)) (hb : ∀ v, inner ℝ v (T v) ≤ b * ‖v‖ ^ 2) {p : ℝ[X]}
    (hM : ∀ y, a ≤ y → y ≤ b → |p.eval y| ≤ M) (v : E) :
    ‖aeval T p v‖ ^ 2 ≤ M ^ 2 * ‖v‖ ^ 2 := by
  set B := hT.eigenvectorBasis rfl with hB
  have hev : ∀ i, a ≤ hT.eigenvalues rfl i ∧ hT.eigenvalues rfl i ≤ b := by
    intro i
    have h1 := ha (B i)
    have h2 := hb (B i)
    rw [hB, hT.apply_eigenvectorBasis, ← hB, real_inner_smul_right, real_inner_self_eq_norm_sq,
      B.norm_eq_one] at h1 h2
    norm_num at h1 h2
    exact ⟨h1, h2⟩
  have key := fun q w i => repr_aeval hT q w i
  rw [← hB] at key
  have hsum : ∀ w : E, ‖w‖ ^ 2 = ∑ i, (B.repr w i) ^ 2 := by
    intro w
    rw [← B.repr.norm_map w, EuclideanSpace.norm_sq_eq]
    simp
  rw [hsum, hsum, Finset.mul_sum]
  refine Finset.sum_le_sum fun i _ => ?_
  rw [key, mul_pow]
  refine mul_le_mul_of_nonneg_right ?_ (sq_nonneg _)
  obtain ⟨h1, h2⟩ := hev i
  have := hM _ h1 h2
  exact sq_le_sq' (abs_le.1 this).1 (abs_le.1 this).2

/-- The same for an inner product given as a function. -/
theorem IsInner.aeval_le {V : Type*} [AddCommGroup V] [Module ℝ V] [FiniteDimensional ℝ V]
    {B : V → V → ℝ} (hB : IsInner B) {T : V →ₗ[ℝ] V} (hT : ∀ u v, B (T u) v = B u (T v)) {a b M : ℝ}
    (ha : ∀ v, a * B v v ≤ B v (T v)) (hb : ∀ v, B v (T v) ≤ b * B v v) {p : ℝ[X]}
    (hM : ∀ y, a ≤ y → y ≤ b → |p.eval y| ≤ M) (v : V) :
    B (aeval T p v) (aeval T p v) ≤ M ^ 2 * B v v := by
  let core : InnerProductSpace.Core ℝ V :=
    { inner := B
      conj_inner_symm := fun u w => hB.symm _ _
      re_inner_nonneg := fun u => hB.nonneg u
      add_left := hB.add_left
      smul_left := fun u w c => hB.smul_left c u w
      definite := hB.definite }
  let : NormedAddCommGroup V := core.toNormedAddCommGroup
  let : InnerProductSpace ℝ V := InnerProductSpace.ofCore core.toCore
  have hn : ∀ w : V, ‖w‖ ^ 2 = B w w := fun w => (real_inner_self_eq_norm_sq w).symm
  have := norm_aeval_le (E := V) (T := T) (fun u w => hT u w) (a := a) (b := b) (M := M)
    (fun w => by rw [hn]; exact ha w) (fun w => by rw [hn]; exact hb w) hM v
  rwa [hn, hn] at this

/-- A polynomial that vanishes at the eigenvalues annihilates the map. -/
theorem IsInner.aeval_eq_zero {V : Type*} [AddCommGroup V] [Module ℝ V] [FiniteDimensional ℝ V]
    {B : V → V → ℝ} (hB : IsInner B) {T : V →ₗ[ℝ] V} (hT : ∀ u v, B (T u) v = B u (T v)) {p : ℝ[X]}
    (hp : ∀ c, Module.End.HasEigenvalue T c → p.eval c = 0) : aeval T p = 0 := by
  let core : InnerProductSpace.Core ℝ V :=
    { inner := B
      conj_inner_symm := fun u w => hB.symm _ _
      re_inner_nonneg := fun u => hB.nonneg u
      add_left := hB.add_left
      smul_left := fun u w c => hB.smul_left c u w
      definite := hB.definite }
  let : NormedAddCommGroup V := core.toNormedAddCommGroup
  let : InnerProductSpace ℝ V := InnerProductSpace.ofCore core.toCore
  exact aeval_eq_zero_of_eigenvalues (E := V) (T := T) (fun u w => hT u w) hp

/-- The rate `(√b - √a) / (√b + √a)`. -/
noncomputable def chebRate (a b : ℝ) : ℝ := (√b - √a) / (√b + √a)

theorem chebRate_nonneg {a b : ℝ} (hab : a ≤ b) : 0 ≤ chebRate a b :=
  div_nonneg (sub_nonneg.2 (Real.sqrt_le_sqrt hab)) (by positivity)

theorem chebRate_lt_one {a b : ℝ} (ha : 0 < a) (hab : a ≤ b) : chebRate a b < 1 := by
  have h1 : 0 < √a := Real.sqrt_pos.2 ha
  have h2 : 0 < √b := Real.sqrt_pos.2 (ha.trans_le hab)
  unfold chebRate
  rw [div_lt_one (by positivity)]
  linarith

theorem chebRate_le_exp {a b : ℝ} (ha : 0 < a) (hab : a ≤ b) :
    chebRate a b ≤ Real.exp (-(2 * √(a / b))) := by
  rcases eq_or_lt_of_le hab with rfl | hlt
  · simp only [chebRate, sub_self, zero_div]
    exact (Real.exp_pos _).le
  · have hb := ha.trans hlt
    have h1 : 0 < √b := Real.sqrt_pos.2 hb
    set x := √(a / b) with hx
    have hx1 : x < 1 := by
      rw [hx, Real.sqrt_lt' one_pos, one_pow, div_lt_one hb]
      exact hlt
    have hx0 : 0 < x := Real.sqrt_pos.2 (div_pos ha hb)
    have hxe : x = √a / √b := Real.sqrt_div ha.le b
    have hr : chebRate a b = (1 - x) / (1 + x) := by
      rw [chebRate, hxe]
      field_simp
    have hs := Real.hasSum_log_sub_log_of_abs_lt_one (x := x) (by rw [abs_of_pos hx0]; exact hx1)
    have h2 := le_hasSum hs 0 fun j _ => by positivity
    norm_num at h2
    rw [hr, ← Real.exp_log (show 0 < 1 - x by linarith), ← Real.exp_log (show 0 < 1 + x by linarith),
      ← Real.exp_sub, Real.exp_le_exp]
    linarith

/-- There is a polynomial of degree at most `k` with value `1` at `0` that is small on the whole
interval. -/
theorem exists_chebyshev {a b : ℝ} (ha : 0 < a) (hab : a ≤ b) (k : ℕ) :
    ∃ p : ℝ[X], p.natDegree ≤ k ∧ p.eval 0 = 1 ∧
      ∀ y, a ≤ y → y ≤ b → |p.eval y| ≤ 2 * chebRate a b ^ k := by
  rcases eq_or_lt_of_le hab with rfl | hlt
  · cases k with
    | zero => exact ⟨1, by simp, by simp, fun y _ _ => by simp⟩
    | succ k =>
      refine ⟨1 - C a⁻¹ * X, ?_, by simp, fun y h1 h2 => ?_⟩
      · refine (natDegree_sub_le _ _).trans ?_
        have := natDegree_C_mul_X_pow_le a⁻¹ 1
        rw [pow_one] at this
        rw [natDegree_one]
        omega
      · obtain rfl := le_antisymm h1 h2
        simp [ha.ne', chebRate]
  · have h1 : 0 < √a := Real.sqrt_pos.2 ha
    have h2 : √a < √b := Real.sqrt_lt_sqrt ha.le hlt
    have h1s : √a ^ 2 = a := Real.sq_sqrt ha.le
    have h2s : √b ^ 2 = b := Real.sq_sqrt (ha.trans hlt).le
    have hd : 0 < b - a := sub_pos.2 hlt
    set r := (√b + √a) / (√b - √a) with hr
    have hr0 : 0 < r := div_pos (by linarith) (by linarith)
    have hρ : chebRate a b = r⁻¹ := by rw [hr, inv_div, chebRate]
    have hc : Real.cosh (Real.log r) = (b + a) / (b - a) := by
      rw [Real.cosh_eq, Real.exp_neg, Real.exp_log hr0, hr, inv_div]
      have h3 : √b - √a ≠ 0 := by linarith
      have h4 : √b + √a ≠ 0 := by linarith
      rw [div_add_div _ _ h3 h4, div_div, div_eq_div_iff (by positivity) hd.ne']
      nlinarith
    have hTk : r ^ k / 2 ≤ (Chebyshev.T ℝ k).eval ((b + a) / (b - a)) := by
      rw [← hc, Chebyshev.T_real_cosh, Real.cosh_eq]
      push_cast
      rw [Real.exp_nat_mul, Real.exp_log hr0]
      have := Real.exp_pos (-(k * Real.log r))
      linarith
    have hTpos : 0 < (Chebyshev.T ℝ k).eval ((b + a) / (b - a)) :=
      lt_of_lt_of_le (by positivity) hTk
    set t := (Chebyshev.T ℝ k).eval ((b + a) / (b - a)) with ht
    refine ⟨C t⁻¹ * (Chebyshev.T ℝ k).comp (C ((b + a) / (b - a)) - C (2 / (b - a)) * X), ?_, ?_, ?_⟩
    · refine (natDegree_C_mul_le _ _).trans (natDegree_comp_le.trans ?_)
      rw [Chebyshev.natDegree_T]
      have : (C ((b + a) / (b - a)) - C (2 / (b - a)) * X : ℝ[X]).natDegree ≤ 1 := by
        refine (natDegree_sub_le _ _).trans ?_
        have := natDegree_C_mul_X_pow_le (2 / (b - a)) 1
        rw [pow_one] at this
        rw [natDegree_C]
        omega
      simpa using Nat.mul_le_mul_left k this
    · simp only [eval_mul, eval_C, eval_comp, eval_sub, eval_X, mul_zero, sub_zero]
      exact inv_mul_cancel₀ hTpos.ne'
    · intro y hy1 hy2
      simp only [eval_mul, eval_C, eval_comp, eval_sub, eval_X]
      have hle : |(b + a) / (b - a) - 2 / (b - a) * y| ≤ 1 := by
        have : (b + a) / (b - a) - 2 / (b - a) * y = (b + a - 2 * y) / (b - a) := by ring
        rw [this, abs_le]
        constructor
        · rw [le_div_iff₀ hd]; linarith
        · rw [div_le_iff₀ hd]; linarith
      rw [abs_mul, abs_of_pos (inv_pos.2 hTpos)]
      calc t⁻¹ * |(Chebyshev.T ℝ k).eval ((b + a) / (b - a) - 2 / (b - a) * y)| ≤ t⁻¹ * 1 :=
            mul_le_mul_of_nonneg_left (Chebyshev.abs_eval_T_real_le_one _ hle) (inv_pos.2 hTpos).le
        _ ≤ (r ^ k / 2)⁻¹ := by
            rw [mul_one]
            exact inv_anti₀ (by positivity) hTk
        _ = 2 * chebRate a b ^ k := by rw [hρ, inv_div, inv_pow]; ring

end Verif.Geo
