/-
C130: the closed-form solutions with which the examples compare the results of the optimizers.
-/
import Mathlib.LinearAlgebra.Matrix.ToLinearEquiv
import Mathlib.Data.Fin.Tuple.Sort
import Mathlib.LinearAlgebra.Matrix.Notation
import Verif.Geo.Model.Lapack
import Verif.Geo.Lemmas.KyFan
import Verif.Geo.Props.Oblique
import Verif.Geo.Props.Examples

namespace Verif.Geo.Examples
open Matrix
open scoped BigOperators

variable {κ m n p : Type*} {𝕜 : Type*} [RCLike 𝕜]

/-! ## Specification -/

/-- `x` is a point of the feasible set `S` where `cost` is as small as anywhere in `S`. -/
def IsMinimiser {E : Type*} (S : E → Prop) (cost : E → ℝ) (x : E) : Prop :=
  S x ∧ ∀ y, S y → cost x ≤ cost y

/-! ## Selected indices -/

/-- No entry that is left out is larger than a selected one. -/
def IsTop {k N : ℕ} (w : Fin N → ℝ) (idx : Fin k → Fin N) : Prop :=
  Function.Injective idx ∧ ∀ j, (∀ i, idx i ≠ j) → ∀ i, w j ≤ w (idx i)

theorem IsArgsort.mono {N : ℕ} {w : Fin N → 𝕜} {σ : Equiv.Perm (Fin N)} (h : IsArgsort w σ)
    {i j : Fin N} (hij : i ≤ j) : RCLike.re (w (σ i)) ≤ RCLike.re (w (σ j)) :=
  (h i j hij).elim le_of_lt fun h => h.1.le

theorem isTop_last {k N : ℕ} (hk : k ≤ N) {w : Fin N → 𝕜} {σ : Equiv.Perm (Fin N)}
    (h : IsArgsort w σ) : IsTop (fun j => RCLike.re (w j)) (lastIndices hk σ) := by
  refine ⟨fun a b hab => ?_, fun j hj i => ?_⟩
  · have h1 := congrArg Fin.val (σ.injective hab)
    simp only at h1
    exact Fin.ext (by omega)
  · obtain ⟨l, rfl⟩ := σ.surjective j
    refine h.mono (Fin.le_def.2 ?_)
    by_contra hc
    refine hj ⟨(l : ℕ) - (N - k), by simp only [not_le] at hc; omega⟩ ?_
    simp only [not_le] at hc
    exact congrArg σ (Fin.ext (by simp only; omega))

theorem isTop_firstReversed {k N : ℕ} (hk : k ≤ N) {w : Fin N → 𝕜} {σ : Equiv.Perm (Fin N)}
    (h : IsArgsort w σ) : IsTop (fun j => RCLike.re (w j)) (firstReversed hk σ) := by
  refine ⟨fun a b hab => ?_, fun j hj i => ?_⟩
  · have h1 := congrArg Fin.val (σ.injective hab)
    simp only at h1
    exact Fin.ext (by omega)
  · obtain ⟨l, rfl⟩ := σ.surjective j
    refine h.mono (Fin.le_def.2 ?_)
    by_contra hc
    refine hj ⟨N - 1 - (l : ℕ), by simp only [not_le] at hc; omega⟩ ?_
    simp only [not_le] at hc
    exact congrArg σ (Fin.ext (by simp only; omega))

theorem exists_threshold {k N : ℕ} {w : Fin N → ℝ} {idx : Fin k → Fin N} (h : IsTop w idx) :
    ∃ θ : ℝ, (∀ i, θ ≤ w (idx i)) ∧ (∀ j, (∀ i, idx i ≠ j) → w j ≤ θ) ∧
      ((∀ j, 0 ≤ w j) → 0 ≤ θ) := by
  rcases k with _ | k
  · obtain ⟨θ, hθ⟩ := (insert 0 (Finset.univ.image w)).exists_le
    exact ⟨θ, fun i => i.elim0, fun j _ => hθ _ (Finset.mem_insert_of_mem
      (Finset.mem_image_of_mem _ (Finset.mem_univ _))), fun _ => hθ _ (Finset.mem_insert_self _ _)⟩
  · obtain ⟨i₀, hi⟩ := Finite.exists_min fun i => w (idx i)
    exact ⟨w (idx i₀), hi, fun j hj => h.2 j hj i₀, fun h0 => h0 _⟩

/-! ## Eigenvalue decompositions -/

theorem IsEig.column [Fintype n] [DecidableEq n] {a : Matrix n n 𝕜} {w : n → 𝕜} {v : Matrix n n 𝕜}
    (h : IsEig a w v) : (vᴴ * v).diag = 1 ∧ vᴴ * a * v = vᴴ * v * diagonal w := by
  constructor
  · funext j
    rw [diag_apply, Matrix.mul_apply, Pi.one_apply]
    have h1 := congrArg (RCLike.ofReal : ℝ → 𝕜) (h.unit j)
    rw [RCLike.ofReal_one] at h1
    rw [← h1, RCLike.ofReal_sum]
    refine Finset.sum_congr rfl fun i _ => ?_
    rw [conjTranspose_apply, RCLike.star_def, RCLike.conj_mul, RCLike.ofReal_pow]
  · rw [Matrix.mul_assoc, h.eigen, Matrix.mul_assoc]

/-- The eigenvalues of a Hermitian matrix are real. -/
theorem IsEig.real [Fintype n] [DecidableEq n] {a : Matrix n n 𝕜} {w : n → 𝕜} {v : Matrix n n 𝕜}
    (h : IsEig a w v) (ha : aᴴ = a) (j : n) : w j = (RCLike.re (w j) : 𝕜) := by
  obtain ⟨h1, h2⟩ := h.column
  have h3 : (vᴴ * a * v) j j = w j := by
    have h4 := congrFun h1 j
    rw [diag_apply, Pi.one_apply] at h4
    rw [h2, mul_diagonal, h4, one_mul]
  have h5 : (vᴴ * a * v)ᴴ = vᴴ * a * v := by
    rw [conjTranspose_mul, conjTranspose_mul, conjTranspose_conjTranspose, ha, Matrix.mul_assoc]
  have h6 := congrFun (congrFun h5 j) j
  rw [conjTranspose_apply, h3] at h6
  exact (RCLike.conj_eq_iff_re.1 h6).symm

/-- Eigenvectors for different eigenvalues of a Hermitian matrix are orthogonal. -/
theorem IsEig.orth [Fintype n] [DecidableEq n] {k : ℕ} {a : Matrix n n 𝕜} {w : n → 𝕜}
    {v : Matrix n n 𝕜} (h : IsEig a w v) (ha : aᴴ = a) {idx : Fin k → n}
    (hd : ∀ i j, i ≠ j → w (idx i) ≠ w (idx j)) :
    (v.submatrix id idx)ᴴ * v.submatrix id idx = 1 := by
  obtain ⟨h1, h2⟩ := h.column
  have h5 : (vᴴ * a * v)ᴴ = vᴴ * a * v := by
    rw [conjTranspose_mul, conjTranspose_mul, conjTranspose_conjTranspose, ha, Matrix.mul_assoc]
  have e : (v.submatrix id idx)ᴴ * v.submatrix id idx = (vᴴ * v).submatrix idx idx := by
    ext i j
    rfl
  rw [e]
  ext i j
  rw [submatrix_apply]
  by_cases hij : i = j
  · subst hij
    rw [one_apply_eq]
    exact congrFun h1 (idx i)
  · rw [one_apply_ne hij]
    have h6 := congrFun (congrFun h5 (idx i)) (idx j)
    rw [conjTranspose_apply, h2, mul_diagonal, mul_diagonal, star_mul', ← conjTranspose_apply,
      conjTranspose_mul, conjTranspose_conjTranspose, h.real ha (idx i), RCLike.star_def,
      RCLike.conj_ofReal, ← h.real ha (idx i)] at h6
    have h7 : (vᴴ * v) (idx i) (idx j) * (w (idx i) - w (idx j)) = 0 := by
      rw [mul_sub, h6, sub_self]
    exact (mul_eq_zero.1 h7).resolve_right (sub_ne_zero.2 (hd i j hij))

theorem IsEig.trace_top [Fintype n] [DecidableEq n] {k : ℕ} {a : Matrix n n 𝕜} {w : n → 𝕜}
    {v : Matrix n n 𝕜} (h : IsEig a w v) (idx : Fin k → n) :
    RCLike.re ((v.submatrix id idx)ᴴ * a * v.submatrix id idx).trace =
      ∑ i, RCLike.re (w (idx i)) := by
  obtain ⟨h1, h2⟩ := h.column
  have e : (v.submatrix id idx)ᴴ * a * v.submatrix id idx = (vᴴ * a * v).submatrix idx idx := by
    ext i j
    rfl
  rw [e, trace, map_sum]
  refine Finset.sum_congr rfl fun i _ => ?_
  have h4 := congrFun h1 (idx i)
  rw [diag_apply, Pi.one_apply] at h4
  rw [diag_apply, submatrix_apply, h2, mul_diagonal, h4, one_mul]

theorem IsEig.trace_le {N k : ℕ} {a : Matrix (Fin N) (Fin N) 𝕜} {w : Fin N → 𝕜}
    {v : Matrix (Fin N) (Fin N) 𝕜} (h : IsEig a w v) (ha : aᴴ = a) {idx : Fin k → Fin N}
    (ht : IsTop (fun j => RCLike.re (w j)) idx) {X : Matrix (Fin N) (Fin k) 𝕜} (hX : Xᴴ * X = 1) :
    RCLike.re (Xᴴ * a * X).trace ≤ ∑ i, RCLike.re (w (idx i)) := by
  obtain ⟨θ, h1, h2, -⟩ := exists_threshold ht
  have hw : a.charpoly =
      ∏ j, (Polynomial.X - Polynomial.C ((RCLike.re (w j) : ℝ) : 𝕜)) := by
    rw [h.roots]
    refine Finset.prod_congr rfl fun j _ => ?_
    rw [← h.real ha j]
  exact (trace_le_charpoly (A := a) ha hw hX θ).trans_eq (threshold_sum ht.1 h1 h2)

/-- With different eigenvalues only the span of the selected eigenvectors reaches the bound. -/
theorem IsEig.unique {N k : ℕ} {a : Matrix (Fin N) (Fin N) 𝕜} {w : Fin N → 𝕜}
    {v : Matrix (Fin N) (Fin N) 𝕜} (h : IsEig a w v) (ha : aᴴ = a) (hw : Function.Injective w)
    {idx : Fin k → Fin N} (ht : IsTop (fun j => RCLike.re (w j)) idx)
    {X : Matrix (Fin N) (Fin k) 𝕜} (hX : Xᴴ * X = 1)
    (hle : ∑ i, RCLike.re (w (idx i)) ≤ RCLike.re (Xᴴ * a * X).trace) :
    X * Xᴴ = v.submatrix id idx * (v.submatrix id idx)ᴴ := by
  have hv : vᴴ * v = 1 := h.orth ha (idx := id) fun i j hij hc => hij (hw hc)
  have hv' : v * vᴴ = 1 := mul_eq_one_comm.1 hv
  have hwr : Function.Injective fun j => RCLike.re (w j) := fun i j hij => hw (by
    rw [h.real ha i, h.real ha j]
    exact congrArg _ hij)
  have hprod : a = v * diagonal (fun i => ((RCLike.re (w i) : ℝ) : 𝕜)) * vᴴ := by
    have e : (fun i => ((RCLike.re (w i) : ℝ) : 𝕜)) = w := funext fun i => (h.real ha i).symm
    rw [e, ← h.eigen, Matrix.mul_assoc, hv', Matrix.mul_one]
  obtain ⟨q, hq⟩ : ∃ q : Fin N → ℝ, (fun i => ∑ j, ‖(vᴴ * X) i j‖ ^ 2) = q := ⟨_, rfl⟩
  obtain ⟨r, hr⟩ : ∃ r : Fin N → ℝ, (fun i => RCLike.re (w i)) = r := ⟨_, rfl⟩
  have hq0 : ∀ i, 0 ≤ q i := fun i => by
    rw [← hq]
    exact Finset.sum_nonneg fun j _ => sq_nonneg _
  have hq1 : ∀ i, q i ≤ 1 := fun i => by
    rw [← hq]
    exact (weight_bounds hv hX).1 i
  have hqs : ∑ i, q i = k := by
    rw [← hq]
    simp only
    rw [← trDot_self_eq, trDot_mul_left, conjTranspose_conjTranspose, ← Matrix.mul_assoc, hv',
      Matrix.one_mul, trDot, hX, trace_one, Fintype.card_fin]
    simp
  have hsum : ∑ i, r (idx i) ≤ ∑ i, r i * q i := by
    conv_rhs at hle => rw [hprod]
    rw [trace_diag_weights] at hle
    rw [← hr, ← hq]
    exact hle
  rw [hr] at ht hwr
  obtain ⟨θ, h1, h2, -⟩ := exists_threshold ht
  have hterm : ∀ i, 0 ≤ max (r i - θ) 0 - (r i - θ) * q i := fun i => by
    rcases le_or_gt (r i - θ) 0 with hc | hc
    · rw [max_eq_right hc]
      have := mul_nonpos_of_nonpos_of_nonneg hc (hq0 i)
      linarith
    · rw [max_eq_left hc.le]
      have := mul_le_of_le_one_right hc.le (hq1 i)
      linarith
  have htot : ∑ i, (max (r i - θ) 0 - (r i - θ) * q i) ≤ 0 := by
    rw [Finset.sum_sub_distrib]
    have e1 := threshold_sum ht.1 h1 h2
    have e2 : ∑ i, (r i - θ) * q i = ∑ i, r i * q i - θ * k := by
      rw [← hqs, Finset.mul_sum, ← Finset.sum_sub_distrib]
      exact Finset.sum_congr rfl fun i _ => by ring
    rw [e2]
    linarith
  have hz := (Finset.sum_eq_zero_iff_of_nonneg fun i _ => hterm i).1
    (le_antisymm htot (Finset.sum_nonneg fun i _ => hterm i))
  have hout : ∀ j, (∀ i, idx i ≠ j) → q j = 0 := by
    intro j hj
    rcases k with _ | k
    · refine le_antisymm ?_ (hq0 j)
      have h3 := Finset.single_le_sum (f := q) (fun i _ => hq0 i) (Finset.mem_univ j)
      rw [hqs] at h3
      simpa using h3
    · by_contra hne
      have h3 := hz j (Finset.mem_univ j)
      rw [max_eq_right (sub_nonpos.2 (h2 j hj)), zero_sub, neg_eq_zero] at h3
      have h4 : r j = θ := sub_eq_zero.1 ((mul_eq_zero.1 h3).resolve_right hne)
      -- then all selected weights are one, and their sum is already `k + 1`
      have h5 : ∀ i, q (idx i) = 1 := fun i => by
        have h6 := hz (idx i) (Finset.mem_univ _)
        have h7 : 0 < r (idx i) - θ := by
          refine lt_of_le_of_ne (sub_nonneg.2 (h1 i)) fun hc => hj i (hwr ?_)
          rw [h4]
          linarith
        rw [max_eq_left h7.le] at h6
        have h8 : (r (idx i) - θ) * (1 - q (idx i)) = 0 := by linarith
        have h9 := (mul_eq_zero.1 h8).resolve_left h7.ne'
        linarith
      have h6 : ∑ i, q (idx i) + q j ≤ ∑ i, q i := by
        rw [← Finset.sum_image (f := q) fun x _ y _ hxy => ht.1 hxy, add_comm,
          ← Finset.sum_insert (by simpa using hj)]
        exact Finset.sum_le_sum_of_subset_of_nonneg (Finset.subset_univ _) fun i _ _ => hq0 i
      rw [hqs] at h6
      simp only [h5] at h6
      have h7 := lt_of_le_of_ne (hq0 j) (Ne.symm hne)
      simp at h6
      linarith
  have hrow : ∀ j, (∀ i, idx i ≠ j) → ∀ l, (vᴴ * X) j l = 0 := by
    intro j hj l
    have h3 := hout j hj
    rw [← hq] at h3
    have h4 := (Finset.sum_eq_zero_iff_of_nonneg fun l _ => sq_nonneg ‖(vᴴ * X) j l‖).1 h3 l
      (Finset.mem_univ l)
    exact norm_eq_zero.1 (pow_eq_zero_iff (two_ne_zero) |>.1 h4)
  obtain ⟨V, hV⟩ : ∃ V, v.submatrix id idx = V := ⟨_, rfl⟩
  have hVo : Vᴴ * V = 1 := by
    rw [← hV]
    exact h.orth ha fun i j hij hc => hij (ht.1 (hw hc))
  have hXV : X = V * (Vᴴ * X) := by
    have h3 : X = v * (vᴴ * X) := by rw [← Matrix.mul_assoc, hv', Matrix.one_mul]
    conv_lhs => rw [h3]
    ext i l
    rw [Matrix.mul_apply, Matrix.mul_apply, ← hV]
    have h4 : ∀ c, ((v.submatrix id idx)ᴴ * X) c l = (vᴴ * X) (idx c) l := fun c => rfl
    simp only [h4, submatrix_apply, id]
    rw [← Finset.sum_image (f := fun c => v i c * (vᴴ * X) c l) fun x _ y _ hxy => ht.1 hxy]
    symm
    refine Finset.sum_subset (Finset.subset_univ _) fun j _ hj => ?_
    rw [hrow j fun c hc => hj (Finset.mem_image.2 ⟨c, Finset.mem_univ _, hc⟩), mul_zero]
  obtain ⟨C, hC⟩ : ∃ C, Vᴴ * X = C := ⟨_, rfl⟩
  rw [hC] at hXV
  have hCo : Cᴴ * C = 1 := by
    rw [hXV, conjTranspose_mul, Matrix.mul_assoc, ← Matrix.mul_assoc Vᴴ, hVo, Matrix.one_mul] at hX
    exact hX
  rw [hV, hXV, conjTranspose_mul, Matrix.mul_assoc, ← Matrix.mul_assoc C, mul_eq_one_comm.1 hCo,
    Matrix.one_mul]

/-- **C130** (dominant_eigenvector.py) The column at the largest eigenvalue minimises the cost on the
sphere; if the eigenvalues are different every minimiser is that column up to its sign. -/
theorem C130_eigenvector {N : ℕ} {matrix v : Matrix (Fin N) (Fin N) ℝ} {w : Fin N → ℝ}
    (hA : matrixᵀ = matrix) (h : IsEig matrix w v) {i : Fin N} (hi : IsArgmax w i) :
    IsMinimiser OnSphere (eigCost matrix) (eigSolution v i) ∧
    eigCost matrix (eigSolution v i) = -w i ∧
    (Function.Injective w → ∀ x, IsMinimiser OnSphere (eigCost matrix) x →
      x = eigSolution v i ∨ x = -eigSolution v i) := by
  have hA' : matrixᴴ = matrix := by rw [conjTranspose_eq_transpose_of_trivial, hA]
  have ec : ∀ x : Fin N → ℝ, eigCost matrix x =
      -RCLike.re ((replicateCol (Fin 1) x)ᴴ * matrix * replicateCol (Fin 1) x).trace := by
    intro x
    rw [conjTranspose_eq_transpose_of_trivial, eigCost, neg_vecMul, neg_dotProduct, trace]
    simp [Matrix.mul_apply, vecMul, dotProduct]
  have hT : IsTop (fun j => RCLike.re (w j)) (fun _ : Fin 1 => i) :=
    ⟨fun a b _ => Subsingleton.elim a b, fun j _ _ => hi.1 j⟩
  have hs : replicateCol (Fin 1) (eigSolution v i) = v.submatrix id (fun _ : Fin 1 => i) := by
    ext a b
    rfl
  have hv : eigCost matrix (eigSolution v i) = -w i := by
    rw [ec, hs, h.trace_top]
    simp
  have ho : ∀ y : Fin N → ℝ, OnSphere y →
      (replicateCol (Fin 1) y)ᴴ * replicateCol (Fin 1) y = 1 := by
    intro y hy
    ext a b
    rw [Subsingleton.elim a b, conjTranspose_eq_transpose_of_trivial, Matrix.mul_apply,
      one_apply_eq]
    simpa [OnSphere, sq] using hy
  have hs1 : OnSphere (eigSolution v i) := by
    have h1 := h.unit i
    simpa [OnSphere, eigSolution] using h1
  refine ⟨⟨hs1, fun y hy => ?_⟩, hv, fun hw x hx => ?_⟩
  · rw [hv, ec]
    exact neg_le_neg ((h.trace_le hA' hT (ho y hy)).trans_eq (by simp))
  · have h1 := hx.2 _ hs1
    rw [hv, ec] at h1
    have h2 := h.unique hA' hw hT (ho x hx.1) (by simpa using h1)
    rw [← hs, conjTranspose_eq_transpose_of_trivial, conjTranspose_eq_transpose_of_trivial] at h2
    have h3 : ∀ a b, x a * x b = eigSolution v i a * eigSolution v i b := fun a b => by
      have h4 := congrFun (congrFun h2 a) b
      simpa [Matrix.mul_apply] using h4
    obtain ⟨y, hy⟩ : ∃ y, eigSolution v i = y := ⟨_, rfl⟩
    rw [hy] at h3 hs1 ⊢
    -- the inner product of the two unit vectors is `1` or `-1`
    have h4 : x = (∑ b, y b * x b) • y := by
      funext a
      rw [Pi.smul_apply, smul_eq_mul, Finset.sum_mul]
      have h5 : ∑ b, x b ^ 2 = 1 := hx.1
      calc x a = x a * ∑ b, x b ^ 2 := by rw [h5, mul_one]
        _ = ∑ b, x a * x b * x b := by
          rw [Finset.mul_sum]
          exact Finset.sum_congr rfl fun b _ => by ring
        _ = _ := Finset.sum_congr rfl fun b _ => by rw [h3]; ring
    obtain ⟨c, hc⟩ : ∃ c, ∑ b, y b * x b = c := ⟨_, rfl⟩
    rw [hc] at h4
    have h5 : c ^ 2 = 1 := by
      have h6 : ∑ b, x b ^ 2 = 1 := hx.1
      have h7 : ∑ b, y b ^ 2 = 1 := hs1
      rw [h4] at h6
      simp only [Pi.smul_apply, smul_eq_mul, mul_pow] at h6
      rwa [← Finset.mul_sum, h7, mul_one] at h6
    rcases mul_self_eq_one_iff.1 ((sq c).symm.trans h5) with h6 | h6
    · left
      rw [h4, h6, one_smul]
    · right
      rw [h4, h6, neg_one_smul]

/-- **C130** (dominant_invariant_subspace.py, dominant_invariant_complex_subspace.py) No orthonormal
basis of a subspace has a smaller cost than the eigenvectors of the largest eigenvalues; if the
eigenvalues differ from each other the eigenvectors are an orthonormal basis themselves, and all
minimisers span the same subspace. -/
theorem C130_subspace {k N : ℕ} (hk : k ≤ N) {matrix v : Matrix (Fin N) (Fin N) 𝕜} {w : Fin N → 𝕜}
    (hA : matrixᴴ = matrix) (h : IsEig matrix w v) {σ : Equiv.Perm (Fin N)} (hσ : IsArgsort w σ) :
    (∀ X : Matrix (Fin N) (Fin k) 𝕜, Xᴴ * X = 1 →
      subspaceCost matrix (subspaceSolution hk v σ) ≤ subspaceCost matrix X) ∧
    (Function.Injective w →
      IsMinimiser (fun X : Matrix (Fin N) (Fin k) 𝕜 => Xᴴ * X = 1) (subspaceCost matrix)
        (subspaceSolution hk v σ) ∧
      ∀ X, IsMinimiser (fun X : Matrix (Fin N) (Fin k) 𝕜 => Xᴴ * X = 1) (subspaceCost matrix) X →
        X * Xᴴ = subspaceSolution hk v σ * (subspaceSolution hk v σ)ᴴ) := by
  have hT := isTop_last hk hσ
  have h1 : ∀ X : Matrix (Fin N) (Fin k) 𝕜, Xᴴ * X = 1 →
      subspaceCost matrix (subspaceSolution hk v σ) ≤ subspaceCost matrix X := by
    intro X hX
    rw [subspaceCost, subspaceCost, subspaceSolution, h.trace_top]
    exact neg_le_neg (h.trace_le hA hT hX)
  refine ⟨h1, fun hw => ?_⟩
  have ho := h.orth hA (idx := lastIndices hk σ) fun i j hij hc => hij (hT.1 (hw hc))
  refine ⟨⟨ho, h1⟩, fun X hX => h.unique hA hw hT hX.1 ?_⟩
  have h2 := hX.2 (subspaceSolution hk v σ) ho
  rw [subspaceCost, subspaceCost, subspaceSolution, h.trace_top] at h2
  exact neg_le_neg_iff.1 h2

/-- On orthonormal bases the cost of pca.py is that of the dominant subspace of `samples.T @ samples`
up to a constant. -/
theorem pcaCost_eq [Fintype m] [Fintype n] {k : ℕ} (S : Matrix m n ℝ) {W : Matrix n (Fin k) ℝ}
    (hW : Wᴴ * W = 1) :
    pcaCost S W = trDot S S - RCLike.re (Wᴴ * (Sᵀ * S) * W).trace := by
  rw [conjTranspose_eq_transpose_of_trivial] at hW ⊢
  have h1 : trDot S (S * W * Wᵀ) = (Wᵀ * (Sᵀ * S) * W).trace := by
    rw [trDot, conjTranspose_eq_transpose_of_trivial, RCLike.re_to_real, Matrix.mul_assoc S,
      ← Matrix.mul_assoc, ← Matrix.mul_assoc, trace_mul_comm, Matrix.mul_assoc Wᵀ]
  have h2 : trDot (S * W * Wᵀ) (S * W * Wᵀ) = (Wᵀ * (Sᵀ * S) * W).trace := by
    rw [← h1, trDot, trDot]
    simp only [conjTranspose_eq_transpose_of_trivial, transpose_mul, transpose_transpose,
      RCLike.re_to_real]
    rw [show W * (Wᵀ * Sᵀ) * (S * W * Wᵀ) = W * (Wᵀ * Sᵀ * S * W * Wᵀ) by
      simp only [Matrix.mul_assoc], trace_mul_comm,
      show Wᵀ * Sᵀ * S * W * Wᵀ * W = Wᵀ * (Sᵀ * S * W) * (Wᵀ * W) by
      simp only [Matrix.mul_assoc], hW, Matrix.mul_one, trace_mul_comm]
    simp only [Matrix.mul_assoc]
  rw [pcaCost, matNorm_sq, trDot_inner.sub_left, trDot_inner.sub_right, trDot_inner.sub_right,
    trDot_inner.symm (S * W * Wᵀ) S, h1, h2, RCLike.re_to_real]
  ring

/-- **C130** (pca.py) The eigenvectors of the largest eigenvalues of `samples.T @ samples`, if these
differ from each other, minimise the cost on the Stiefel manifold; if all eigenvalues differ every
minimiser has the same projector. -/
theorem C130_pca [Fintype m] {k N : ℕ} (hk : k ≤ N) {samples : Matrix m (Fin N) ℝ}
    {v : Matrix (Fin N) (Fin N) ℝ} {w : Fin N → ℝ} (h : IsEig (samplesᵀ * samples) w v)
    {σ : Equiv.Perm (Fin N)} (hσ : IsArgsort w σ)
    (hw : ∀ i j : Fin k, i ≠ j → w (firstReversed hk σ i) ≠ w (firstReversed hk σ j)) :
    IsMinimiser (fun X : Matrix (Fin N) (Fin k) ℝ => Xᴴ * X = 1) (pcaCost samples)
      (pcaSolution hk v σ) ∧
    (Function.Injective w → ∀ X,
      IsMinimiser (fun X : Matrix (Fin N) (Fin k) ℝ => Xᴴ * X = 1) (pcaCost samples) X →
      X * Xᵀ = pcaSolution hk v σ * (pcaSolution hk v σ)ᵀ) := by
  have hA : (samplesᵀ * samples)ᴴ = samplesᵀ * samples := by
    rw [conjTranspose_eq_transpose_of_trivial, transpose_mul, transpose_transpose]
  have hT := isTop_firstReversed hk hσ
  have ho : (pcaSolution hk v σ)ᴴ * pcaSolution hk v σ = 1 := h.orth hA hw
  refine ⟨⟨ho, fun X hX => ?_⟩, fun hw X hX => ?_⟩
  · rw [pcaCost_eq samples ho, pcaCost_eq samples hX, pcaSolution, h.trace_top]
    exact sub_le_sub_left (h.trace_le hA hT hX) _
  · have h2 := hX.2 (pcaSolution hk v σ) ho
    rw [pcaCost_eq samples ho, pcaCost_eq samples hX.1, pcaSolution, h.trace_top] at h2
    exact h.unique hA hw hT hX.1 (by linarith)

/-- **C130** (closest_unit_norm_column_approximation.py) Scaling the columns to unit length gives the
closest point of the oblique manifold, and the only one. -/
theorem C130_column [Fintype m] [Fintype n] {matrix : Matrix m n ℝ}
    (h : ∀ j, ∃ i, matrix i j ≠ 0) :
    IsMinimiser OnOblique (columnCost matrix) (columnSolution matrix) ∧
    ∀ Y, IsMinimiser OnOblique (columnCost matrix) Y → Y = columnSolution matrix := by
  have hpos : ∀ j, 0 < npNorm fun i => matrix i j := fun j => by
    refine lt_of_le_of_ne (npNorm_nonneg _) fun h0 => ?_
    obtain ⟨i, hi⟩ := h j
    exact hi (congrFun ((npNorm_eq_zero _).1 h0.symm) i)
  have hsq : ∀ j, (npNorm fun i => matrix i j) ^ 2 = ∑ i, matrix i j ^ 2 := fun j => by
    rw [npNorm, Real.sq_sqrt (Finset.sum_nonneg fun i _ => sq_nonneg _)]
    simp
  have hs : OnOblique (columnSolution matrix) := fun j => by
    change ∑ i, (matrix i j / npNorm fun i => matrix i j) ^ 2 = 1
    simp only [div_pow]
    rw [← Finset.sum_div, ← hsq]
    exact div_self (pow_ne_zero 2 (hpos j).ne')
  have hm : ∀ i j, matrix i j = (npNorm fun i => matrix i j) * columnSolution matrix i j :=
    fun i j => (mul_div_cancel₀ _ (hpos j).ne').symm
  have hc : ∀ Y, OnOblique Y → columnCost matrix Y = columnCost matrix (columnSolution matrix) +
      1 / 2 * ∑ j, (npNorm fun i => matrix i j) * ∑ i, (Y i j - columnSolution matrix i j) ^ 2 := by
    intro Y hY
    have e : ∀ X : Matrix m n ℝ, columnCost matrix X =
        1 / 2 * ∑ j, ∑ i, (X i j - matrix i j) ^ 2 := fun X => by rw [Finset.sum_comm]; rfl
    rw [e, e, ← mul_add, ← Finset.sum_add_distrib]
    congr 1
    refine Finset.sum_congr rfl fun j _ => ?_
    have hY1 : ∑ i, Y i j ^ 2 = 1 := hY j
    have hS1 : ∑ i, columnSolution matrix i j ^ 2 = 1 := hs j
    obtain ⟨c, hcj⟩ : ∃ c, (npNorm fun i => matrix i j) = c := ⟨_, rfl⟩
    have h1 : ∀ X : Matrix m n ℝ, ∑ i, (X i j - matrix i j) ^ 2 = ∑ i, X i j ^ 2 -
        2 * c * ∑ i, X i j * columnSolution matrix i j +
        c ^ 2 * ∑ i, columnSolution matrix i j ^ 2 := fun X => by
      rw [Finset.mul_sum, Finset.mul_sum, ← Finset.sum_sub_distrib, ← Finset.sum_add_distrib]
      refine Finset.sum_congr rfl fun i _ => ?_
      rw [hm i j, hcj]
      ring
    have h2 : ∑ i, (Y i j - columnSolution matrix i j) ^ 2 = ∑ i, Y i j ^ 2 -
        2 * ∑ i, Y i j * columnSolution matrix i j + ∑ i, columnSolution matrix i j ^ 2 := by
      rw [Finset.mul_sum, ← Finset.sum_sub_distrib, ← Finset.sum_add_distrib]
      exact Finset.sum_congr rfl fun i _ => by ring
    have h3 : ∑ i, columnSolution matrix i j * columnSolution matrix i j = 1 := by
      simpa [sq] using hS1
    rw [h1, h1, h2, hY1, hS1, h3, hcj]
    ring
  have hnn : ∀ Y : Matrix m n ℝ, ∀ j, 0 ≤ (npNorm fun i => matrix i j) *
      ∑ i, (Y i j - columnSolution matrix i j) ^ 2 := fun Y j =>
    mul_nonneg (hpos j).le (Finset.sum_nonneg fun i _ => sq_nonneg _)
  refine ⟨⟨hs, fun Y hY => ?_⟩, fun Y hY => ?_⟩
  · rw [hc Y hY]
    exact le_add_of_nonneg_right (mul_nonneg (by norm_num) (Finset.sum_nonneg fun j _ => hnn Y j))
  · have h1 := hY.2 _ hs
    rw [hc Y hY.1] at h1
    have h2 := Finset.sum_nonneg fun j (_ : j ∈ Finset.univ) => hnn Y j
    have h3 := (Finset.sum_eq_zero_iff_of_nonneg fun j _ => hnn Y j).1 (by linarith)
    ext i j
    have h4 := (mul_eq_zero.1 (h3 j (Finset.mem_univ j))).resolve_left (hpos j).ne'
    have h5 := (Finset.sum_eq_zero_iff_of_nonneg fun i _ => sq_nonneg _).1 h4 i (Finset.mem_univ i)
    exact sub_eq_zero.1 (pow_eq_zero_iff two_ne_zero |>.1 h5)

/-- **C130** (multiple_linear_regression.py) The pseudoinverse gives a minimiser; it is the only one if
the columns of the samples are independent. -/
theorem C130_regression [Fintype m] [Fintype n] {samples : Matrix m n ℝ} {pinv : Matrix n m ℝ}
    (h : IsPinv samples pinv) (targets : m → ℝ) :
    IsMinimiser (fun _ => True) (regCost samples targets) (regSolution pinv targets) ∧
    ((∀ u, samples *ᵥ u = 0 → u = 0) → ∀ y, IsMinimiser (fun _ => True) (regCost samples targets) y →
      y = regSolution pinv targets) := by
  have hc : ∀ y, regCost samples targets y = regCost samples targets (regSolution pinv targets) +
      tensordot (samples *ᵥ (y - regSolution pinv targets))
        (samples *ᵥ (y - regSolution pinv targets)) := by
    intro y
    obtain ⟨d, hd⟩ : ∃ d, y - regSolution pinv targets = d := ⟨_, rfl⟩
    have hy : y = regSolution pinv targets + d := by rw [← hd, add_sub_cancel]
    rw [hd, hy]
    have e : targets - samples *ᵥ (regSolution pinv targets + d) =
        (targets - samples *ᵥ regSolution pinv targets) - samples *ᵥ d := by
      rw [mulVec_add, sub_add_eq_sub_sub]
    have ho : tensordot (targets - samples *ᵥ regSolution pinv targets) (samples *ᵥ d) = 0 := by
      have h1 : samplesᵀ * (samples * pinv) = samplesᵀ := by
        rw [← h.symm, ← transpose_mul, h.mul_mul]
      change (targets - samples *ᵥ (pinv *ᵥ targets)) ⬝ᵥ (samples *ᵥ d) = 0
      rw [dotProduct_mulVec, ← mulVec_transpose, mulVec_sub, mulVec_mulVec, mulVec_mulVec, Matrix.mul_assoc, h1,
        sub_self, zero_dotProduct]
    have hn : ∀ v : m → ℝ, npNorm v ^ 2 = tensordot v v := fun v => by
      rw [npNorm, Real.sq_sqrt (Finset.sum_nonneg fun i _ => sq_nonneg _), tensordot]
      refine Finset.sum_congr rfl fun i _ => ?_
      rw [Real.norm_eq_abs, sq_abs, sq]
    rw [regCost, regCost, e, hn, hn]
    obtain ⟨r, hr⟩ : ∃ r, targets - samples *ᵥ regSolution pinv targets = r := ⟨_, rfl⟩
    rw [hr] at ho ⊢
    rw [tensordot_inner.sub_left, tensordot_inner.sub_right, tensordot_inner.sub_right,
      tensordot_inner.symm (samples *ᵥ d), ho]
    ring
  refine ⟨⟨trivial, fun y _ => ?_⟩, fun hi y hy => ?_⟩
  · rw [hc y]
    exact le_add_of_nonneg_right (tensordot_inner.nonneg _)
  · have h1 := hy.2 (regSolution pinv targets) trivial
    rw [hc y] at h1
    have h2 := tensordot_inner.nonneg (samples *ᵥ (y - regSolution pinv targets))
    exact sub_eq_zero.1 (hi _ (tensordot_inner.definite _ (by linarith)))

/-- **C130** (low_rank_matrix_approximation.py) The factors of the largest singular values minimise the
cost over all factors `u`, `s`, `vt` with orthonormal columns of `u`, whatever `s` and `vt`; they are a
point of the manifold of the example if these singular values are positive. -/
theorem C130_low_rank [Fintype m] [Fintype n] [DecidableEq n] {k N : ℕ} (hk : k ≤ N)
    {matrix : Matrix m n ℝ} {u : Matrix m (Fin N) ℝ} {s : Fin N → ℝ} {vt : Matrix (Fin N) n ℝ}
    (h : IsSVD matrix u s vt) {σ : Equiv.Perm (Fin N)} (hσ : IsArgsort s σ) :
    (∀ (u' : Matrix m (Fin k) ℝ) (s' : Fin k → ℝ) (vt' : Matrix (Fin k) n ℝ), u'ᴴ * u' = 1 →
      lowRankCost matrix (lowRankSolution hk u s vt σ).1 (lowRankSolution hk u s vt σ).2.1
        (lowRankSolution hk u s vt σ).2.2 ≤ lowRankCost matrix u' s' vt') ∧
    (lowRankSolution hk u s vt σ).1ᴴ * (lowRankSolution hk u s vt σ).1 = 1 ∧
    (lowRankSolution hk u s vt σ).2.2 * (lowRankSolution hk u s vt σ).2.2ᴴ = 1 ∧
    ((∀ i, s (lastIndices hk σ i) ≠ 0) → ∀ i, 0 < (lowRankSolution hk u s vt σ).2.1 i) := by
  have hT : IsTop s (lastIndices hk σ) := by
    have h1 := isTop_last hk hσ
    exact ⟨h1.1, fun j hj i => h1.2 j hj i⟩
  have hsolU : (lowRankSolution hk u s vt σ).1ᴴ * (lowRankSolution hk u s vt σ).1 = 1 := by
    have e : (lowRankSolution hk u s vt σ).1ᴴ * (lowRankSolution hk u s vt σ).1 =
        (uᴴ * u).submatrix (lastIndices hk σ) (lastIndices hk σ) := rfl
    rw [e, h.orthU, submatrix_one _ hT.1]
  have hsolV : (lowRankSolution hk u s vt σ).2.2 * (lowRankSolution hk u s vt σ).2.2ᴴ = 1 := by
    have e : (lowRankSolution hk u s vt σ).2.2 * (lowRankSolution hk u s vt σ).2.2ᴴ =
        (vt * vtᴴ).submatrix (lastIndices hk σ) (lastIndices hk σ) := rfl
    rw [e, h.orthV, submatrix_one _ hT.1]
  refine ⟨fun u' s' vt' hu' => ?_, hsolU, hsolV, fun h0 i => lt_of_le_of_ne (h.nonneg _) (h0 i).symm⟩
  obtain ⟨idx, hidx⟩ : ∃ idx, lastIndices hk σ = idx := ⟨_, rfl⟩
  rw [hidx] at hT
  have hprod : matrix = u * diagonal s * vt := h.prod
  -- lower bound
  have hlow : trDot matrix matrix - trDot (u'ᴴ * matrix) (u'ᴴ * matrix) ≤
      lowRankCost matrix u' s' vt' := by
    rw [lowRankCost, matNorm_sq, Matrix.mul_assoc]
    obtain ⟨C, hC⟩ : ∃ C, diagonal s' * vt' = C := ⟨_, rfl⟩
    rw [hC]
    have h1 : trDot (u' * C) (u' * C) = trDot C C := by
      rw [trDot_mul_left, ← Matrix.mul_assoc, hu', Matrix.one_mul]
    have h2 : trDot (u' * C) matrix = trDot C (u'ᴴ * matrix) := trDot_mul_left _ _ _
    have h3 := trDot_self_nonneg (C - u'ᴴ * matrix)
    rw [trDot_inner.sub_left, trDot_inner.sub_right, trDot_inner.sub_right,
      trDot_inner.symm (u'ᴴ * matrix) C] at h3
    rw [trDot_inner.sub_left, trDot_inner.sub_right, trDot_inner.sub_right,
      trDot_inner.symm matrix (u' * C), h1, h2]
    linarith
  -- the part captured by `u'`
  have hcap : trDot (u'ᴴ * matrix) (u'ᴴ * matrix) ≤ ∑ i, s (idx i) ^ 2 := by
    obtain ⟨θ, h1, h2, h3⟩ := exists_threshold (w := fun j => s j ^ 2) (idx := idx)
      ⟨hT.1, fun j hj i => pow_le_pow_left₀ (h.nonneg j) (hT.2 j hj i) 2⟩
    have h4 := trace_le_threshold (𝕜 := ℝ) h.orthU (fun j => s j ^ 2) hu' (h3 fun j => sq_nonneg _)
    rw [threshold_sum hT.1 h1 h2] at h4
    refine le_of_eq_of_le ?_ h4
    have e : matrix * matrixᴴ = u * diagonal (fun i => ((s i ^ 2 : ℝ) : ℝ)) * uᴴ := by
      conv_lhs => rw [hprod]
      rw [conjTranspose_mul, conjTranspose_mul, diagonal_conjTranspose, star_trivial,
        show u * diagonal s * vt * (vtᴴ * (diagonal s * uᴴ)) =
          u * diagonal s * (vt * vtᴴ) * (diagonal s * uᴴ) by simp only [Matrix.mul_assoc], h.orthV,
        Matrix.mul_one, Matrix.mul_assoc u, ← Matrix.mul_assoc (diagonal s), diagonal_mul_diagonal,
        ← Matrix.mul_assoc]
      simp only [sq]
    rw [trDot, trace_mul_comm, conjTranspose_mul, conjTranspose_conjTranspose,
      show u'ᴴ * matrix * (matrixᴴ * u') = u'ᴴ * (matrix * matrixᴴ) * u' by
        simp only [Matrix.mul_assoc], e]
    rfl
  -- the solution
  have hdiag : ∀ d : Fin N → ℝ, trDot (u * diagonal d * vt) (u * diagonal d * vt) = ∑ j, d j ^ 2 := by
    intro d
    rw [Matrix.mul_assoc, trDot_mul_left, ← Matrix.mul_assoc uᴴ, h.orthU, Matrix.one_mul,
      trDot_mul_right, Matrix.mul_assoc, h.orthV, Matrix.mul_one, trDot_self_eq]
    refine Finset.sum_congr rfl fun i _ => ?_
    rw [Finset.sum_eq_single i]
    · simp
    · intro j _ hj
      simp [diagonal_apply_ne _ hj.symm]
    · simp
  have hsol : lowRankCost matrix (lowRankSolution hk u s vt σ).1 (lowRankSolution hk u s vt σ).2.1
      (lowRankSolution hk u s vt σ).2.2 = ∑ j, s j ^ 2 - ∑ i, s (idx i) ^ 2 := by
    have e1 : u.submatrix id idx * diagonal (s ∘ idx) * vt.submatrix idx id =
        u * diagonal (fun j => if j ∈ Finset.univ.image idx then s j else 0) * vt := by
      ext a b
      rw [Matrix.mul_apply, Matrix.mul_apply]
      simp only [mul_diagonal, submatrix_apply, id, Function.comp]
      simp only [mul_ite, mul_zero, ite_mul, zero_mul]
      rw [Finset.sum_ite_mem, Finset.univ_inter, Finset.sum_image fun x _ y _ hxy => hT.1 hxy]
    have e2 : u.submatrix id idx * diagonal (s ∘ idx) * vt.submatrix idx id - matrix =
        u * diagonal (fun j => if j ∈ Finset.univ.image idx then 0 else -s j) * vt := by
      rw [e1]
      conv_lhs => rw [hprod]
      rw [← Matrix.sub_mul, ← Matrix.mul_sub, diagonal_sub]
      congr 3
      funext j
      split_ifs <;> simp
    rw [lowRankCost, matNorm_sq]
    change trDot (u.submatrix id (lastIndices hk σ) * diagonal (s ∘ lastIndices hk σ) *
      vt.submatrix (lastIndices hk σ) id - matrix) (u.submatrix id (lastIndices hk σ) *
      diagonal (s ∘ lastIndices hk σ) * vt.submatrix (lastIndices hk σ) id - matrix) = _
    rw [hidx, e2, hdiag, eq_sub_iff_add_eq,
      ← Finset.sum_image (f := fun j => s j ^ 2) fun x _ y _ hxy => hT.1 hxy,
      ← Finset.sum_ite_mem_eq (Finset.univ.image idx) fun j => s j ^ 2,
      ← Finset.sum_add_distrib]
    refine Finset.sum_congr rfl fun j _ => ?_
    split_ifs <;> simp
  have hA : trDot matrix matrix = ∑ j, s j ^ 2 := by
    conv_lhs => rw [hprod]
    exact hdiag s
  rw [hsol]
  linarith

/-! ## Rotations -/

theorem orth_diag_le {k : ℕ} {W : Matrix (Fin k) (Fin k) ℝ} (h : Wᵀ * W = 1) (i : Fin k) :
    W i i ≤ 1 := by
  have h1 := congrFun (congrFun h i) i
  rw [Matrix.mul_apply, one_apply_eq] at h1
  have h2 : W i i ^ 2 ≤ 1 := by
    rw [← h1]
    refine le_trans (le_of_eq ?_) (Finset.single_le_sum (f := fun j => Wᵀ i j * W j i)
      (fun j _ => mul_self_nonneg _) (Finset.mem_univ i))
    exact sq _
  nlinarith

theorem orth_trace_le {k : ℕ} {W : Matrix (Fin k) (Fin k) ℝ} (h : Wᵀ * W = 1) : W.trace ≤ k := by
  rw [trace]
  refine (Finset.sum_le_sum fun i _ => orth_diag_le h i).trans_eq ?_
  simp

/-- A rotoreflection has `-1` as an eigenvalue, and so a smaller trace. -/
theorem reflection_trace_le {k : ℕ} {W : Matrix (Fin k) (Fin k) ℝ} (h : Wᵀ * W = 1)
    (hd : W.det = -1) : W.trace ≤ k - 2 := by
  have h0 : (1 + W).det = 0 := by
    have h1 : (1 + W).det = -(1 + W).det := by
      calc (1 + W).det = (Wᵀ * W + W).det := by rw [h]
        _ = ((Wᵀ + 1) * W).det := by rw [Matrix.add_mul, Matrix.one_mul]
        _ = ((1 + W)ᵀ).det * W.det := by
          rw [det_mul, transpose_add, transpose_one, add_comm]
        _ = _ := by rw [det_transpose, hd, mul_neg_one]
    linarith
  obtain ⟨v, hv, hWv⟩ := exists_mulVec_eq_zero_iff.2 h0
  have hWv' : W *ᵥ v = -v := by
    rw [add_mulVec, one_mulVec] at hWv
    exact eq_neg_of_add_eq_zero_right hWv
  obtain ⟨q, hq⟩ : ∃ q, v ⬝ᵥ v = q := ⟨_, rfl⟩
  have hq0 : q ≠ 0 := fun hc => hv (dotProduct_self_eq_zero.1 (hq.trans hc))
  have h2 : vecMulVec v v * vecMulVec v v = q • vecMulVec v v := by
    rw [vecMulVec_mul_vecMulVec, hq]
    ext i j
    simp [vecMulVec_apply]
    ring
  have h3 : W * vecMulVec v v = -vecMulVec v v := by
    rw [mul_vecMulVec, hWv', neg_vecMulVec]
  have h4 : (vecMulVec v v)ᵀ = vecMulVec v v := transpose_vecMulVec _ _
  have h5 : (vecMulVec v v) * Wᵀ = -vecMulVec v v := by
    have h6 := congrArg transpose h3
    rwa [transpose_mul, transpose_neg, h4] at h6
  have h6 : Wᵀ * vecMulVec v v = -vecMulVec v v := by
    have h7 := congrArg (fun Z => Wᵀ * Z) h3
    simp only [← Matrix.mul_assoc, h, Matrix.one_mul, Matrix.mul_neg] at h7
    exact (neg_eq_iff_eq_neg.2 h7).symm
  have h7 : vecMulVec v v * W = -vecMulVec v v := by
    have h8 := congrArg transpose h6
    rwa [transpose_mul, transpose_neg, h4, transpose_transpose] at h8
  have h8 : (W + (2 / q) • vecMulVec v v)ᵀ * (W + (2 / q) • vecMulVec v v) = 1 := by
    rw [transpose_add, transpose_smul, h4, Matrix.add_mul, Matrix.mul_add, Matrix.mul_add, h,
      Matrix.mul_smul, Matrix.smul_mul, Matrix.smul_mul, Matrix.mul_smul, h6, h7, h2, smul_smul,
      smul_smul, smul_neg]
    have e : 2 / q * (2 / q) * q = 2 / q + 2 / q := by field_simp; norm_num
    rw [e, add_smul]
    abel
  have h9 := orth_trace_le h8
  rw [trace_add, trace_smul, trace_vecMulVec, hq, smul_eq_mul, div_mul_cancel₀ _ hq0] at h9
  linarith

/-- **C130** (optimal_rotations.py) `compute_optimal_solution` returns rotations, and no rotations have
a smaller cost. -/
theorem C130_rotations [Fintype κ] {k : ℕ} {ABt U Vt : κ → Matrix (Fin (k + 1)) (Fin (k + 1)) ℝ}
    {s : κ → Fin (k + 1) → ℝ} (h : ∀ l, IsSVD (ABt l) (U l) (s l) (Vt l)) :
    IsMinimiser (fun X : κ → Matrix (Fin (k + 1)) (Fin (k + 1)) ℝ =>
      ∀ l, (X l)ᵀ * X l = 1 ∧ (X l).det = 1) (rotCost ABt) (fun l => rotSolution (U l) (Vt l)) := by
  have main : ∀ l, ((rotSolution (U l) (Vt l))ᵀ * rotSolution (U l) (Vt l) = 1 ∧
      (rotSolution (U l) (Vt l)).det = 1) ∧ ∀ X : Matrix (Fin (k + 1)) (Fin (k + 1)) ℝ,
      Xᵀ * X = 1 → X.det = 1 → matTensordot X (ABt l) ≤
        matTensordot (rotSolution (U l) (Vt l)) (ABt l) := by
    intro l
    have hl := h l
    obtain ⟨A, hA⟩ : ∃ A, ABt l = A := ⟨_, rfl⟩
    obtain ⟨u, hu⟩ : ∃ A, U l = A := ⟨_, rfl⟩
    obtain ⟨v, hv⟩ : ∃ A, Vt l = A := ⟨_, rfl⟩
    obtain ⟨t, ht⟩ : ∃ A, s l = A := ⟨_, rfl⟩
    rw [hA, hu, hv, ht] at hl
    rw [hA, hu, hv]
    have oU : uᵀ * u = 1 := hl.orthU
    have oV : v * vᵀ = 1 := hl.orthV
    have oV' : vᵀ * v = 1 := mul_eq_one_comm.1 oV
    have hprod : A = u * diagonal t * v := hl.prod
    have htd : ∀ X : Matrix (Fin (k + 1)) (Fin (k + 1)) ℝ,
        matTensordot X A = ∑ i, t i * (v * Xᵀ * u) i i := by
      intro X
      have e1 : matTensordot X A = (Xᵀ * A).trace := by
        rw [matTensordot, trace, Finset.sum_comm]
        rfl
      rw [e1, hprod, show Xᵀ * (u * diagonal t * v) = Xᵀ * u * diagonal t * v by
        simp only [Matrix.mul_assoc], trace_mul_comm, ← Matrix.mul_assoc, ← Matrix.mul_assoc, trace]
      refine Finset.sum_congr rfl fun i _ => ?_
      rw [diag_apply, mul_diagonal, mul_comm]
    have horth : ∀ X : Matrix (Fin (k + 1)) (Fin (k + 1)) ℝ, Xᵀ * X = 1 →
        (v * Xᵀ * u)ᵀ * (v * Xᵀ * u) = 1 := by
      intro X hX
      have hX' : X * Xᵀ = 1 := mul_eq_one_comm.1 hX
      rw [transpose_mul, transpose_mul, transpose_transpose,
        show uᵀ * (X * vᵀ) * (v * Xᵀ * u) = uᵀ * (X * (vᵀ * v) * Xᵀ) * u by
          simp only [Matrix.mul_assoc], oV', Matrix.mul_one, hX', Matrix.mul_one, oU]
    have hdetu : u.det * u.det = 1 := by
      have h1 := congrArg det oU
      rwa [det_mul, det_transpose, det_one] at h1
    have hdetv : v.det * v.det = 1 := by
      have h1 := congrArg det oV
      rwa [det_mul, det_transpose, det_one] at h1
    have hcases : (u * v).det = 1 ∨ (u * v).det = -1 := by
      rw [det_mul]
      refine mul_self_eq_one_iff.1 ?_
      linear_combination v.det * v.det * hdetu + hdetv
    rcases hcases with hd | hd
    · have e : rotSolution u v = u * v := by
        rw [rotSolution]
        simp only
        rw [if_pos]
        rw [hd]
        norm_num
      rw [e]
      have ho : (u * v)ᵀ * (u * v) = 1 := by
        rw [transpose_mul, Matrix.mul_assoc, ← Matrix.mul_assoc uᵀ, oU, Matrix.one_mul, oV']
      refine ⟨⟨ho, hd⟩, fun X hX _ => ?_⟩
      rw [htd, htd]
      have e1 : v * (u * v)ᵀ * u = 1 := by
        rw [transpose_mul, ← Matrix.mul_assoc, oV, Matrix.one_mul, oU]
      rw [e1]
      refine Finset.sum_le_sum fun i _ => mul_le_mul_of_nonneg_left ?_ (hl.nonneg i)
      rw [one_apply_eq]
      exact orth_diag_le (horth X hX) i
    · obtain ⟨J, hJ⟩ : ∃ J : Fin (k + 1) → ℝ, (fun i => if i = Fin.last k then -1 else 1) = J :=
        ⟨_, rfl⟩
      have e : rotSolution u v = u * diagonal J * v := by
        rw [rotSolution]
        simp only
        rw [if_neg]
        · refine congrArg (· * v) ?_
          ext i j
          rw [mul_diagonal, ← hJ]
          rfl
        · rw [hd]
          norm_num
      have hJ2 : diagonal J * diagonal J = 1 := by
        rw [diagonal_mul_diagonal, ← diagonal_one]
        congr 1
        funext i
        rw [← hJ]
        by_cases hi : i = Fin.last k <;> simp [hi]
      have hJd : (diagonal J).det = -1 := by
        rw [det_diagonal, ← hJ, Finset.prod_ite_eq']
        simp
      rw [e]
      have ho : (u * diagonal J * v)ᵀ * (u * diagonal J * v) = 1 := by
        rw [transpose_mul, transpose_mul, diagonal_transpose,
          show vᵀ * (diagonal J * uᵀ) * (u * diagonal J * v) =
            vᵀ * (diagonal J * (uᵀ * u) * diagonal J) * v by simp only [Matrix.mul_assoc], oU,
          Matrix.mul_one, hJ2, Matrix.mul_one, oV']
      refine ⟨⟨ho, ?_⟩, fun X hX hXd => ?_⟩
      · rw [det_mul, det_mul, hJd]
        rw [det_mul] at hd
        linear_combination -hd
      · rw [htd, htd]
        have e1 : v * (u * diagonal J * v)ᵀ * u = diagonal J := by
          rw [transpose_mul, transpose_mul, diagonal_transpose,
            show v * (vᵀ * (diagonal J * uᵀ)) * u = v * vᵀ * diagonal J * (uᵀ * u) by
              simp only [Matrix.mul_assoc], oU, oV, Matrix.mul_one, Matrix.one_mul]
        rw [e1]
        obtain ⟨Z, hZ⟩ : ∃ Z, v * Xᵀ * u = Z := ⟨_, rfl⟩
        have oZ : Zᵀ * Z = 1 := by
          rw [← hZ]
          exact horth X hX
        have dZ : Z.det = -1 := by
          rw [← hZ, det_mul, det_mul, det_transpose, hXd, mul_one, mul_comm, ← det_mul, hd]
        have tZ := reflection_trace_le oZ dZ
        rw [hZ]
        have e2 : ∑ i, t i * Z i i =
            ∑ i, (t i - t (Fin.last k)) * Z i i + t (Fin.last k) * Z.trace := by
          rw [trace, Finset.mul_sum, ← Finset.sum_add_distrib]
          exact Finset.sum_congr rfl fun i _ => by rw [diag_apply]; ring
        have e3 : ∑ i, t i * diagonal J i i = ∑ i, (t i - t (Fin.last k)) +
            t (Fin.last k) * ((k + 1 : ℕ) - 2 : ℝ) := by
          rw [Fin.sum_univ_castSucc, Fin.sum_univ_castSucc (f := fun i => t i - t (Fin.last k)),
            Finset.sum_sub_distrib]
          simp only [diagonal_apply_eq, ← hJ]
          simp [Fin.castSucc_ne_last]
          ring
        rw [e2, e3]
        refine add_le_add (Finset.sum_le_sum fun i _ => ?_)
          (mul_le_mul_of_nonneg_left tZ (hl.nonneg _))
        exact mul_le_of_le_one_right (sub_nonneg.2 (hl.sorted (Fin.le_last i))) (orth_diag_le oZ i)
  refine ⟨fun l => (main l).1, fun Y hY => ?_⟩
  rw [rotCost, rotCost]
  exact neg_le_neg (Finset.sum_le_sum fun l _ => (main l).2 (Y l) (hY l).1 (hY l).2)

/-! ## The hypotheses can be met -/

/-- Every Hermitian matrix has an eigenvalue decomposition as specified, and every array can be
sorted. -/
example {N : ℕ} {a : Matrix (Fin N) (Fin N) 𝕜} (ha : aᴴ = a) :
    ∃ w v, IsEig a w v ∧ ∃ σ, IsArgsort w σ := by
  have hA : a.IsHermitian := ha
  refine ⟨fun i => (hA.eigenvalues i : 𝕜), (hA.eigenvectorUnitary : Matrix (Fin N) (Fin N) 𝕜),
    ⟨fun j => ?_, ?_, hA.charpoly_eq⟩, Tuple.sort hA.eigenvalues, fun i j hij => ?_⟩
  · have hU : (hA.eigenvectorUnitary : Matrix (Fin N) (Fin N) 𝕜)ᴴ *
        (hA.eigenvectorUnitary : Matrix (Fin N) (Fin N) 𝕜) = 1 := Unitary.coe_star_mul_self _
    have h1 := congrArg RCLike.re (congrFun (congrFun hU j) j)
    rw [Matrix.mul_apply, one_apply_eq, map_sum, RCLike.one_re] at h1
    rw [← h1]
    refine Finset.sum_congr rfl fun i _ => ?_
    rw [conjTranspose_apply, RCLike.star_def, RCLike.conj_mul, ← RCLike.ofReal_pow,
      RCLike.ofReal_re]
  · have hU : (hA.eigenvectorUnitary : Matrix (Fin N) (Fin N) 𝕜)ᴴ *
        (hA.eigenvectorUnitary : Matrix (Fin N) (Fin N) 𝕜) = 1 := Unitary.coe_star_mul_self _
    have h1 : a = (hA.eigenvectorUnitary : Matrix (Fin N) (Fin N) 𝕜) *
        diagonal (fun i => (hA.eigenvalues i : 𝕜)) *
        (hA.eigenvectorUnitary : Matrix (Fin N) (Fin N) 𝕜)ᴴ := hA.spectral_theorem
    obtain ⟨U, hUe⟩ : ∃ U : Matrix (Fin N) (Fin N) 𝕜, (hA.eigenvectorUnitary :
      Matrix (Fin N) (Fin N) 𝕜) = U := ⟨_, rfl⟩
    rw [hUe] at hU h1 ⊢
    conv_lhs => rw [h1]
    rw [Matrix.mul_assoc, hU, Matrix.mul_one]
  · have h1 := Tuple.monotone_sort hA.eigenvalues hij
    simp only [Function.comp] at h1
    rcases h1.lt_or_eq with h2 | h2
    · left
      simpa using h2
    · right
      simpa using h2

/-- A reflection: its solution is a rotation different from `U @ Vt`. -/
example : IsSVD (diagonal ![2, -1] : Matrix (Fin 2) (Fin 2) ℝ) (diagonal ![1, -1]) ![2, 1] 1 ∧
    rotSolution (diagonal ![1, -1]) 1 = 1 := by
  refine ⟨⟨?_, by simp, ?_, ?_, ?_⟩, ?_⟩
  · ext i j
    fin_cases i <;> fin_cases j <;> simp [Matrix.mul_apply]
  · intro i
    fin_cases i <;> simp
  · intro i j hij
    fin_cases i <;> fin_cases j <;> simp_all
  · ext i j
    fin_cases i <;> fin_cases j <;> simp [Matrix.mul_apply]
  · rw [rotSolution]
    simp only
    rw [if_neg]
    · ext i j
      fin_cases i <;> fin_cases j <;> simp [Matrix.mul_apply, Fin.last]
    · simp [det_fin_two]
      norm_num

/-- A pseudoinverse of samples with independent columns. -/
example : IsPinv (!![1; 1] : Matrix (Fin 2) (Fin 1) ℝ) !![1 / 2, 1 / 2] ∧
    ∀ u, (!![1; 1] : Matrix (Fin 2) (Fin 1) ℝ) *ᵥ u = 0 → u = 0 := by
  refine ⟨⟨?_, ?_, ?_, ?_⟩, fun u hu => ?_⟩
  · ext i j
    fin_cases i <;> fin_cases j <;> norm_num [Matrix.mul_apply]
  · ext i j
    fin_cases i <;> fin_cases j <;> norm_num [Matrix.mul_apply]
  · ext i j
    fin_cases i <;> fin_cases j <;> norm_num [Matrix.mul_apply]
  · ext i j
    fin_cases i <;> fin_cases j <;> norm_num [Matrix.mul_apply]
  · have h1 := congrFun hu 0
    funext i
    fin_cases i
    simpa [mulVec, dotProduct] using h1

end Verif.Geo.Examples
