/-
Logarithm, distance and pair mean of the special orthogonal and unitary groups (C97);
`manifolds/group.py`.
-/
import Verif.Geo.Props.Group
import Verif.Geo.Lemmas.LogUnique

namespace Verif.Geo
open scoped BigOperators
open Matrix

variable {κ n : Type*} [Fintype κ] [Fintype n] [DecidableEq n]

/-! ### Lemmas -/

theorem isLogm_unitary_diag {v : Matrix n n ℂ} (hv : vᴴ * v = 1) {w : n → ℝ}
    (hw : ∀ i, -Real.pi < w i ∧ w i ≤ Real.pi) :
    IsLogm (v * diagonal (fun i => Complex.exp (w i * Complex.I)) * vᴴ)
      (v * diagonal (fun i => (w i : ℂ) * Complex.I) * vᴴ) := by
  refine ⟨exp_unitary_diag hv _, ?_⟩
  intro μ x hx h
  obtain ⟨i, rfl⟩ := unitary_diag_eigen hv _ hx h
  simpa using hw i

theorem trDot_unitary_diag {v : Matrix n n ℂ} (hv : vᴴ * v = 1) (w : n → ℝ) :
    trDot (v * diagonal (fun i => (w i : ℂ) * Complex.I) * vᴴ)
      (v * diagonal (fun i => (w i : ℂ) * Complex.I) * vᴴ) = ∑ i, w i ^ 2 := by
  rw [trDot_mul_right, conjTranspose_conjTranspose, Matrix.mul_assoc _ _ v, hv, Matrix.mul_one,
    trDot_mul_left, ← Matrix.mul_assoc, hv, Matrix.one_mul, trDot_eq_sum]
  refine Finset.sum_congr rfl fun i _ => ?_
  rw [Finset.sum_eq_single i]
  · rw [diagonal_apply_eq, star_mul']
    have h1 : star ((w i : ℝ) : ℂ) = (w i : ℂ) := Complex.conj_ofReal _
    have h2 : star Complex.I = -Complex.I := Complex.conj_I
    rw [h1, h2]
    have : (w i : ℂ) * -Complex.I * ((w i : ℂ) * Complex.I) = ((w i ^ 2 : ℝ) : ℂ) := by
      push_cast
      linear_combination -(w i : ℂ) ^ 2 * Complex.I_mul_I
    rw [this]
    exact Complex.ofReal_re _
  · intro j _ hj
    rw [diagonal_apply_ne _ hj.symm, mul_zero, map_zero]
  · intro h; exact absurd (Finset.mem_univ i) h

/-- Skew-Hermitian matrices are unitarily diagonalisable with imaginary eigenvalues. -/
theorem exists_skew_diag {V : Matrix n n ℂ} (hV : Vᴴ = -V) :
    ∃ (w : n → ℝ) (v : Matrix n n ℂ), vᴴ * v = 1 ∧
      V = v * diagonal (fun i => (w i : ℂ) * Complex.I) * vᴴ := by
  have hH : (-Complex.I • V).IsHermitian := by
    unfold Matrix.IsHermitian
    rw [conjTranspose_smul, hV, smul_neg, ← neg_smul]
    congr 1
    have h2 : star Complex.I = -Complex.I := Complex.conj_I
    rw [star_neg, h2, neg_neg]
  obtain ⟨w, v, h⟩ := exists_isEigh hH
  refine ⟨w, v, h.orth, ?_⟩
  have h1 : V = Complex.I • (-Complex.I • V) := by
    rw [smul_smul]
    simp
  have h2 : (diagonal fun i => (w i : ℂ) * Complex.I) =
      Complex.I • diagonal fun i => ((w i : ℝ) : ℂ) := by
    rw [← diagonal_smul]
    congr 1
    funext i
    simp [mul_comm]
  rw [h1, h.prod, h2, Matrix.mul_smul, Matrix.smul_mul]
  rfl

omit [Fintype κ] in
theorem quotient_unitary {A B : Stack κ n n ℂ} (hA : OnUnitary A) (hB : OnUnitary B) (k : κ) :
    (multiprod (multihconj A) B k)ᴴ * multiprod (multihconj A) B k = 1 := by
  change ((A k)ᴴ * B k)ᴴ * ((A k)ᴴ * B k) = 1
  rw [conjTranspose_mul, conjTranspose_conjTranspose, Matrix.mul_assoc, ← Matrix.mul_assoc (A k),
    hA.right, Matrix.one_mul, hB k]

omit [Fintype κ] in
theorem isGLog_iff {A B V : Stack κ n n ℂ} (hA : OnUnitary A) (hB : OnUnitary B) :
    IsGLog A B V ↔ ∀ k, IsLogm ((A k)ᴴ * B k) (V k) := by
  constructor
  · rintro ⟨L, hL, rfl⟩ k
    have := (hL k).skew (quotient_unitary hA hB k)
    rw [multiskewh_apply, skewPart_of_skew this]
    exact hL k
  · intro h
    refine ⟨V, h, funext fun k => ?_⟩
    rw [multiskewh_apply, skewPart_of_skew ((h k).skew (quotient_unitary hA hB k))]

theorem IsLogm.half {a l : Matrix n n ℂ} (h : IsLogm a l) :
    IsLogm (NormedSpace.exp ((1 / 2 : ℝ) • l)) ((1 / 2 : ℝ) • l) := by
  refine ⟨rfl, fun μ v hv he => ?_⟩
  have h2 : l *ᵥ v = (2 * μ) • v := by
    have : l *ᵥ v = (2 : ℝ) • ((1 / 2 : ℝ) • l) *ᵥ v := by
      rw [Matrix.smul_mulVec, smul_smul]; norm_num
    rw [this, he]
    ext i
    simp [mul_assoc]
  have := h.strip _ v hv h2
  have him : (2 * μ).im = 2 * μ.im := by simp
  rw [him] at this
  constructor <;> linarith [this.1, this.2, Real.pi_pos]

omit [DecidableEq n] in
/-- The inner product of complex stacks is what `np.linalg.norm` squares. -/
theorem gNorm_sq (X V : Stack κ n n ℂ) : gNorm X V ^ 2 = ∑ k, trDot (V k) (V k) := by
  rw [gNorm, stackNorm_sq, stackDot_eq]

/-! ### C97 -/

omit [Fintype κ] in
/-- C97: `log` is defined for all pairs of points, and its result is unique. -/
theorem C97_total {A B : Stack κ n n ℂ} (hA : OnUnitary A) (hB : OnUnitary B) :
    ∃! V, IsGLog A B V := by
  have h := fun k => exists_isLogm (quotient_unitary hA hB k)
  choose L hL using h
  refine ⟨L, (isGLog_iff hA hB).mpr hL, fun W hW => ?_⟩
  exact funext fun k => ((isGLog_iff hA hB).mp hW k).unique (hL k)

omit [Fintype κ] in
/-- C97: `log` returns a Lie algebra element, and `exp` inverts it, for all pairs of points. -/
theorem C97_log {A B V : Stack κ n n ℂ} (hA : OnUnitary A) (hB : OnUnitary B)
    (h : IsGLog A B V) : InLie V ∧ gExp A V = B := by
  have hL := (isGLog_iff hA hB).mp h
  refine ⟨fun k => (hL k).skew (quotient_unitary hA hB k), funext fun k => ?_⟩
  change A k * NormedSpace.exp (V k) = B k
  rw [(hL k).exp, ← Matrix.mul_assoc, hA.right, Matrix.one_mul]

omit [Fintype κ] in
/-- C97: `log` inverts `exp` exactly on the Lie algebra elements with eigenvalues of imaginary part
in `(-π, π]`. -/
theorem C97_log_exp {A V : Stack κ n n ℂ} (hA : OnUnitary A) (hV : InLie V) :
    IsGLog A (gExp A V) V ↔ ∀ k (μ : ℂ) (x : n → ℂ), x ≠ 0 → V k *ᵥ x = μ • x →
      -Real.pi < μ.im ∧ μ.im ≤ Real.pi := by
  have he : ∀ k, (A k)ᴴ * gExp A V k = NormedSpace.exp (V k) := by
    intro k
    change (A k)ᴴ * (A k * NormedSpace.exp (V k)) = _
    rw [← Matrix.mul_assoc, hA k, Matrix.one_mul]
  rw [isGLog_iff hA (C96_exp hA hV)]
  constructor
  · exact fun h k => (h k).strip
  · intro h k
    rw [he]
    exact ⟨rfl, h k⟩

/-- C97: `log` inverts `exp` on all tangent vectors shorter than `π`. -/
theorem C97_radius {A V : Stack κ n n ℂ} (hA : OnUnitary A) (hV : InLie V)
    (hlt : gNorm A V < Real.pi) : ∀ W, IsGLog A (gExp A V) W ↔ W = V := by
  have hlog : IsGLog A (gExp A V) V := by
    rw [C97_log_exp hA hV]
    intro k μ x hx he
    obtain ⟨w, v, hv, hd⟩ := exists_skew_diag (hV k)
    rw [hd] at he
    obtain ⟨i, rfl⟩ := unitary_diag_eigen hv _ hx he
    have h1 : w i ^ 2 ≤ trDot (V k) (V k) := by
      rw [hd, trDot_unitary_diag hv]
      exact Finset.single_le_sum (f := fun i => w i ^ 2) (fun i _ => sq_nonneg _)
        (Finset.mem_univ i)
    have h2 : trDot (V k) (V k) ≤ gNorm A V ^ 2 := by
      rw [gNorm_sq]
      exact Finset.single_le_sum (f := fun k => trDot (V k) (V k))
        (fun k _ => trDot_inner.nonneg _) (Finset.mem_univ k)
    have h3 : |w i| < Real.pi := by
      refine lt_of_le_of_lt ?_ hlt
      exact abs_le_of_sq_le_sq (h1.trans h2) (stackNorm_nonneg _)
    have h4 := abs_lt.mp h3
    simpa using ⟨h4.1, h4.2.le⟩
  intro W
  constructor
  · intro hW
    exact (C97_total hA (C96_exp hA hV)).unique hW hlog
  · rintro rfl; exact hlog

/-- C97: `log` returns the shortest tangent vector that `exp` maps to the target, so that `dist` is
the length of the shortest geodesic. -/
theorem C97_shortest {A V : Stack κ n n ℂ} (hA : OnUnitary A) (hV : InLie V) {d : ℝ}
    (hd : IsGDist A (gExp A V) d) : d ≤ gNorm A V := by
  obtain ⟨W, hW, rfl⟩ := hd
  have hL := (isGLog_iff hA (C96_exp hA hV)).mp hW
  refine abs_le_of_sq_le_sq ?_ (stackNorm_nonneg _) |> le_of_abs_le
  rw [gNorm_sq, gNorm_sq]
  refine Finset.sum_le_sum fun k _ => ?_
  obtain ⟨w, v, hv, he⟩ := exists_skew_diag (hV k)
  have hlk := hL k
  have hq : (A k)ᴴ * gExp A V k = NormedSpace.exp (V k) := by
    change (A k)ᴴ * (A k * NormedSpace.exp (V k)) = _
    rw [← Matrix.mul_assoc, hA k, Matrix.one_mul]
  have harg : ∀ i, Complex.exp ((Complex.exp (w i * Complex.I)).arg * Complex.I) =
      Complex.exp (w i * Complex.I) := by
    intro i
    have := Complex.norm_mul_exp_arg_mul_I (Complex.exp (w i * Complex.I))
    rwa [Complex.norm_exp_ofReal_mul_I, Complex.ofReal_one, one_mul] at this
  have hlog := isLogm_unitary_diag hv (w := fun i => (Complex.exp (w i * Complex.I)).arg)
    fun i => ⟨Complex.neg_pi_lt_arg _, Complex.arg_le_pi _⟩
  simp only [harg] at hlog
  rw [hq, he, exp_unitary_diag hv] at hlk
  rw [hlk.unique hlog, he, trDot_unitary_diag hv, trDot_unitary_diag hv]
  refine Finset.sum_le_sum fun i _ => ?_
  rw [← sq_abs, ← sq_abs (w i)]
  refine pow_le_pow_left₀ (abs_nonneg _) ?_ 2
  by_cases hpi : |w i| < Real.pi
  · have h4 := abs_lt.mp hpi
    rw [Complex.arg_exp_mul_I, (toIocMod_eq_self Real.two_pi_pos).mpr]
    exact ⟨h4.1, by linarith [h4.2]⟩
  · exact (Complex.abs_arg_le_pi _).trans (not_lt.mp hpi)

/-- C97: `dist` has one value, is not negative, and is zero exactly for equal points. -/
theorem C97_dist {A B : Stack κ n n ℂ} (hA : OnUnitary A) (hB : OnUnitary B) :
    (∃! d, IsGDist A B d) ∧ ∀ d, IsGDist A B d → 0 ≤ d ∧ (d = 0 ↔ A = B) := by
  obtain ⟨V, hV, hu⟩ := C97_total hA hB
  refine ⟨⟨gNorm A V, ⟨V, hV, rfl⟩, ?_⟩, ?_⟩
  · rintro d ⟨W, hW, rfl⟩
    rw [hu W hW]
  · rintro d ⟨W, hW, rfl⟩
    refine ⟨stackNorm_nonneg _, ?_⟩
    rw [gNorm, stackNorm_eq_zero]
    have h := C97_log hA hB hW
    constructor
    · rintro rfl
      rw [← h.2]
      exact ((C96_exp_geodesic A 0 hA inLie_subspace.zero).1).symm
    · rintro rfl
      refine (C97_total hA hB).unique hW ((isGLog_iff hA hB).mpr fun k => ⟨?_, ?_⟩)
      · rw [hA k]; exact NormedSpace.exp_zero
      · intro μ v hv he
        have h0 : μ • v = 0 := by rw [← he]; exact Matrix.zero_mulVec v
        have : μ = 0 := (smul_eq_zero.mp h0).resolve_right hv
        rw [this]
        simpa using ⟨Real.pi_pos, Real.pi_pos.le⟩

/-- C97: `dist` is symmetric. -/
theorem C97_dist_symm {A B : Stack κ n n ℂ} (hA : OnUnitary A) (hB : OnUnitary B) {d : ℝ}
    (h : IsGDist A B d) : IsGDist B A d := by
  obtain ⟨V, hV, rfl⟩ := h
  obtain ⟨W, hW, -⟩ := C97_total hB hA
  refine ⟨W, hW, ?_⟩
  have h1 := (isGLog_iff hA hB).mp hV
  have h2 := (isGLog_iff hB hA).mp hW
  have : gNorm A V ^ 2 = gNorm B W ^ 2 := by
    rw [gNorm_sq, gNorm_sq]
    refine Finset.sum_congr rfl fun k _ => ?_
    obtain ⟨w, v, hw, hv, he⟩ := exists_unitary_diag (quotient_unitary hA hB k)
    change (A k)ᴴ * B k = _ at he
    have hVk := h1 k
    have hWk := h2 k
    rw [he] at hVk
    have hadj : (B k)ᴴ * A k = v * diagonal (fun i => Complex.exp
        (((if w i = Real.pi then Real.pi else -w i : ℝ) : ℂ) * Complex.I)) * vᴴ := by
      have : (B k)ᴴ * A k = ((A k)ᴴ * B k)ᴴ := by
        rw [conjTranspose_mul, conjTranspose_conjTranspose]
      rw [this, he, conjTranspose_mul, conjTranspose_mul, conjTranspose_conjTranspose,
        diagonal_conjTranspose, ← Matrix.mul_assoc]
      congr 3
      funext i
      rw [Pi.star_apply]
      change (starRingEnd ℂ) (Complex.exp _) = _
      rw [← Complex.exp_conj, map_mul, Complex.conj_I, Complex.conj_ofReal]
      by_cases hi : w i = Real.pi
      · rw [if_pos hi, hi, mul_neg, Complex.exp_neg, Complex.exp_pi_mul_I]
        norm_num
      · rw [if_neg hi]
        push_cast
        rw [neg_mul, mul_neg]
    rw [hadj] at hWk
    have hb : ∀ i, -Real.pi < (if w i = Real.pi then Real.pi else -w i) ∧
        (if w i = Real.pi then Real.pi else -w i) ≤ Real.pi := by
      intro i
      have := hw i
      split_ifs with hi
      · exact ⟨by linarith [Real.pi_pos], le_rfl⟩
      · exact ⟨by linarith [lt_of_le_of_ne this.2 hi], by linarith [this.1]⟩
    rw [hVk.unique (isLogm_unitary_diag hv hw), hWk.unique (isLogm_unitary_diag hv hb),
      trDot_unitary_diag hv, trDot_unitary_diag hv]
    refine Finset.sum_congr rfl fun i _ => ?_
    split_ifs with hi
    · rw [hi]
    · ring
  exact (sq_eq_sq₀ (stackNorm_nonneg _) (stackNorm_nonneg _)).mp this

/-- C97: `dist` is invariant under multiplication of both points by the same group element from the
left or from the right. -/
theorem C97_dist_invariant {A B C : Stack κ n n ℂ} (hA : OnUnitary A) (hB : OnUnitary B)
    (hC : OnUnitary C) {d : ℝ} (h : IsGDist A B d) :
    IsGDist (fun k => C k * A k) (fun k => C k * B k) d ∧
      IsGDist (fun k => A k * C k) (fun k => B k * C k) d := by
  have hprod : ∀ {P Q : Stack κ n n ℂ}, OnUnitary P → OnUnitary Q →
      OnUnitary fun k => P k * Q k := by
    intro P Q hP hQ k
    change (P k * Q k)ᴴ * (P k * Q k) = 1
    rw [conjTranspose_mul, Matrix.mul_assoc, ← Matrix.mul_assoc _ (P k), hP k, Matrix.one_mul, hQ k]
  obtain ⟨V, hV, rfl⟩ := h
  have h1 := (isGLog_iff hA hB).mp hV
  constructor
  · refine ⟨V, (isGLog_iff (hprod hC hA) (hprod hC hB)).mpr fun k => ?_, rfl⟩
    rw [conjTranspose_mul, Matrix.mul_assoc, ← Matrix.mul_assoc _ (C k), hC k, Matrix.one_mul]
    exact h1 k
  · refine ⟨fun k => (C k)ᴴ * V k * C k,
      (isGLog_iff (hprod hA hC) (hprod hB hC)).mpr fun k => ⟨?_, ?_⟩, ?_⟩
    · have hi : (C k)⁻¹ = (C k)ᴴ := Matrix.inv_eq_left_inv (hC k)
      rw [← hi, Matrix.exp_conj' (C k) _ (IsUnit.of_mul_eq_one _ (hC.right k)), (h1 k).exp, hi,
        conjTranspose_mul]
      simp only [Matrix.mul_assoc]
    · intro μ x hx he
      refine (h1 k).strip μ (C k *ᵥ x) (fun h0 => hx ?_) ?_
      · have := congrArg (fun y => (C k)ᴴ *ᵥ y) h0
        change (C k)ᴴ *ᵥ (C k *ᵥ x) = (C k)ᴴ *ᵥ 0 at this
        rwa [mulVec_mulVec, hC k, one_mulVec, mulVec_zero] at this
      · have := congrArg (fun y => C k *ᵥ y) he
        change C k *ᵥ (((C k)ᴴ * V k * C k) *ᵥ x) = C k *ᵥ (μ • x) at this
        rw [mulVec_mulVec, ← Matrix.mul_assoc, ← Matrix.mul_assoc, hC.right, Matrix.one_mul,
          mulVec_smul] at this
        rw [mulVec_mulVec, this]
    · have : gNorm A V ^ 2 = gNorm (fun k => A k * C k) (fun k => (C k)ᴴ * V k * C k) ^ 2 := by
        rw [gNorm_sq, gNorm_sq]
        refine Finset.sum_congr rfl fun k _ => ?_
        rw [trDot_mul_right, Matrix.mul_assoc _ (C k), hC.right, Matrix.mul_one, trDot_mul_left,
          conjTranspose_conjTranspose, ← Matrix.mul_assoc, hC.right, Matrix.one_mul]
      exact (sq_eq_sq₀ (stackNorm_nonneg _) (stackNorm_nonneg _)).mp this

/-- C97: `pair_mean` is defined, is in the group, and its distance to either point is half their
distance. -/
theorem C97_pair_mean {A B : Stack κ n n ℂ} (hA : OnUnitary A) (hB : OnUnitary B) :
    (∃! M, IsGPairMean A B M) ∧ ∀ M d, IsGPairMean A B M → IsGDist A B d →
      OnUnitary M ∧ IsGDist A M (d / 2) ∧ IsGDist M B (d / 2) := by
  obtain ⟨V, hV, hu⟩ := C97_total hA hB
  refine ⟨⟨_, ⟨V, hV, rfl⟩, ?_⟩, ?_⟩
  · rintro M ⟨W, hW, rfl⟩
    rw [hu W hW]
  · rintro M d ⟨W, hW, rfl⟩ ⟨W', hW', rfl⟩
    rw [hu W hW, hu W' hW']
    have hlie := (C97_log hA hB hV).1
    have hM : OnUnitary (gExp A ((1 / 2 : ℝ) • V)) := C96_exp hA (inLie_subspace.smul _ hlie)
    have h1 := (isGLog_iff hA hB).mp hV
    have hnorm : ∀ X, gNorm A V / 2 = gNorm X ((1 / 2 : ℝ) • V) := by
      intro X
      rw [gNorm, gNorm, stackNorm_smul, abs_of_pos (by norm_num : (0 : ℝ) < 1 / 2)]
      ring
    refine ⟨hM, ⟨(1 / 2 : ℝ) • V, (isGLog_iff hA hM).mpr fun k => ?_, hnorm _⟩,
      ⟨(1 / 2 : ℝ) • V, (isGLog_iff hM hB).mpr fun k => ?_, hnorm _⟩⟩
    · have : (A k)ᴴ * gExp A ((1 / 2 : ℝ) • V) k = NormedSpace.exp ((1 / 2 : ℝ) • V k) := by
        change (A k)ᴴ * (A k * NormedSpace.exp ((1 / 2 : ℝ) • V k)) = _
        rw [← Matrix.mul_assoc, hA k, Matrix.one_mul]
      rw [this]
      exact (h1 k).half
    · have : (gExp A ((1 / 2 : ℝ) • V) k)ᴴ * B k = NormedSpace.exp ((1 / 2 : ℝ) • V k) := by
        change (A k * NormedSpace.exp ((1 / 2 : ℝ) • V k))ᴴ * B k = _
        rw [conjTranspose_mul, Matrix.mul_assoc, ← (h1 k).exp, ← exp_conjTranspose,
          conjTranspose_smul, hlie k, star_trivial]
        have e : NormedSpace.exp (V k) =
            NormedSpace.exp ((1 / 2 : ℝ) • V k) * NormedSpace.exp ((1 / 2 : ℝ) • V k) := by
          rw [← exp_add_of_commute _ _ (Commute.refl _), ← add_smul]
          norm_num
        have e2 : NormedSpace.exp ((1 / 2 : ℝ) • -V k) * NormedSpace.exp ((1 / 2 : ℝ) • V k) = 1 := by
          rw [smul_neg, ← exp_add_of_commute _ _ (Commute.neg_left (Commute.refl ((1 / 2 : ℝ) • V k))),
            neg_add_cancel, NormedSpace.exp_zero]
        rw [e, ← Matrix.mul_assoc, e2, Matrix.one_mul]
      rw [this]
      exact (h1 k).half

/-! ### The special orthogonal group -/

/-- A real stack as a complex one. -/
def cplx (X : Stack κ n n ℝ) : Stack κ n n ℂ := fun k => (X k).map Complex.ofReal

omit [Fintype n] [DecidableEq n] in
theorem map_conjTranspose_real (A : Matrix n n ℝ) :
    (A.map Complex.ofReal)ᴴ = (Aᴴ).map Complex.ofReal := by
  ext i j
  exact Complex.conj_ofReal _

omit [DecidableEq n] in
theorem map_mul_real (A B : Matrix n n ℝ) :
    (A * B).map Complex.ofReal = A.map Complex.ofReal * B.map Complex.ofReal := by
  have := Matrix.map_mul (f := Complex.ofRealHom) (L := A) (M := B)
  exact this

omit [Fintype n] [DecidableEq n] in
theorem map_injective_real {A B : Matrix n n ℝ}
    (h : A.map Complex.ofReal = B.map Complex.ofReal) : A = B := by
  ext i j
  exact Complex.ofReal_injective (congrFun (congrFun h i) j)

theorem exp_map_real (A : Matrix n n ℝ) :
    NormedSpace.exp (A.map Complex.ofReal) = (NormedSpace.exp A).map Complex.ofReal := by
  have h : Continuous (Complex.ofRealHom.mapMatrix : Matrix n n ℝ →+* Matrix n n ℂ) :=
    continuous_id.matrix_map Complex.continuous_ofReal
  open scoped Norms.Operator in
  exact (NormedSpace.map_exp (Complex.ofRealHom.mapMatrix : Matrix n n ℝ →+* Matrix n n ℂ) h A).symm

/-- Entrywise conjugation commutes with the exponential. -/
theorem exp_map_conj (A : Matrix n n ℂ) :
    NormedSpace.exp (A.map star) = (NormedSpace.exp A).map star := by
  have h1 : ∀ M : Matrix n n ℂ, M.map star = (Mᴴ)ᵀ := fun M => rfl
  rw [h1, h1, exp_transpose, exp_conjTranspose]

omit [Fintype κ] in
theorem onUnitary_cplx {X : Stack κ n n ℝ} (hX : OnUnitary X) : OnUnitary (cplx X) := by
  intro k
  change ((X k).map Complex.ofReal)ᴴ * (X k).map Complex.ofReal = 1
  rw [map_conjTranspose_real, ← map_mul_real, hX k]
  exact Matrix.map_one _ Complex.ofReal_zero Complex.ofReal_one

theorem exp_mulVec_eigen {L : Matrix n n ℂ} {μ : ℂ} {x : n → ℂ} (h : L *ᵥ x = μ • x) :
    NormedSpace.exp L *ᵥ x = Complex.exp μ • x := by
  have h1 : L * replicateCol Unit x = replicateCol Unit x * (μ • (1 : Matrix Unit Unit ℂ)) := by
    rw [Matrix.mul_smul, Matrix.mul_one]
    ext i j
    exact congrFun h i
  have h2 := exp_intertwine h1
  rw [exp_smul_one, Matrix.mul_smul, Matrix.mul_one] at h2
  ext i
  exact congrFun (congrFun h2 i) ()

omit [DecidableEq n] in
/-- A complex fixed direction of a real matrix gives a real one. -/
theorem real_eigenvector {Q : Matrix n n ℝ} {x : n → ℂ} (hx : x ≠ 0)
    (h : Q.map Complex.ofReal *ᵥ x = -x) : ∃ v : n → ℝ, v ≠ 0 ∧ Q *ᵥ v = -v := by
  have hre : Q *ᵥ (fun i => (x i).re) = -fun i => (x i).re := by
    ext i
    have := congrArg Complex.re (congrFun h i)
    simpa [mulVec, dotProduct] using this
  have him : Q *ᵥ (fun i => (x i).im) = -fun i => (x i).im := by
    ext i
    have := congrArg Complex.im (congrFun h i)
    simpa [mulVec, dotProduct] using this
  by_cases hr : (fun i => (x i).re) = 0
  · refine ⟨_, fun hi => hx ?_, him⟩
    ext i
    exact Complex.ext (congrFun hr i) (congrFun hi i)
  · exact ⟨_, hr, hre⟩

/-- The principal logarithm of a real orthogonal matrix is real exactly when `-1` is not an
eigenvalue. -/
theorem logm_real_iff {Q : Matrix n n ℝ} (hQ : Qᴴ * Q = 1) {L : Matrix n n ℂ}
    (hL : IsLogm (Q.map Complex.ofReal) L) :
    (∃ W : Matrix n n ℝ, L = W.map Complex.ofReal) ↔ ∀ v : n → ℝ, Q *ᵥ v = -v → v = 0 := by
  have hstar : ∀ (M : Matrix n n ℂ) (x : n → ℂ), M.map star *ᵥ x = star (M *ᵥ star x) := by
    intro M x
    ext i
    simp [mulVec, dotProduct]
  constructor
  · rintro ⟨W, rfl⟩ v hv
    by_contra hne
    have hQc : (Q.map Complex.ofReal)ᴴ * Q.map Complex.ofReal = 1 := by
      rw [map_conjTranspose_real, ← map_mul_real, hQ]
      exact Matrix.map_one _ Complex.ofReal_zero Complex.ofReal_one
    obtain ⟨w, u, hw, hu, he⟩ := hL.diag hQc
    have huu : u * uᴴ = 1 := mul_eq_one_comm.mp hu
    -- some eigenvalue of `L` is `iπ`
    obtain ⟨i, hi⟩ : ∃ i, w i = Real.pi := by
      by_contra hno
      push Not at hno
      obtain ⟨y, hy⟩ : ∃ y, y = uᴴ *ᵥ (fun j => (v j : ℂ)) := ⟨_, rfl⟩
      have hexp := hL.exp
      rw [he, exp_unitary_diag hu] at hexp
      have hQv : Q.map Complex.ofReal *ᵥ (fun j => (v j : ℂ)) = -fun j => (v j : ℂ) := by
        ext j
        have := congrArg Complex.ofReal (congrFun hv j)
        simpa [mulVec, dotProduct] using this
      have h1 : diagonal (fun i => Complex.exp (w i * Complex.I)) *ᵥ y = -y := by
        have := congrArg (fun z => uᴴ *ᵥ z) hQv
        rw [← hexp] at this
        change uᴴ *ᵥ (_ *ᵥ _) = uᴴ *ᵥ (-_) at this
        rw [mulVec_mulVec, ← Matrix.mul_assoc, ← Matrix.mul_assoc, hu, Matrix.one_mul,
          ← mulVec_mulVec, ← hy, mulVec_neg, ← hy] at this
        exact this
      have hy0 : y = 0 := by
        ext i
        have := congrFun h1 i
        rw [mulVec_diagonal, Pi.neg_apply] at this
        by_contra hyi
        have h2 : Complex.exp (w i * Complex.I) = -1 := by
          have h3 : (Complex.exp (w i * Complex.I) + 1) * y i = 0 := by
            rw [add_mul, this, one_mul, neg_add_cancel]
          exact eq_neg_of_add_eq_zero_left ((mul_eq_zero.mp h3).resolve_right hyi)
        have h4 : (Complex.exp (w i * Complex.I)).arg = Real.pi := by
          rw [h2]; exact Complex.arg_neg_one
        rw [Complex.arg_exp_mul_I, (toIocMod_eq_self Real.two_pi_pos).mpr
          ⟨(hw i).1, by linarith [(hw i).2]⟩] at h4
        exact hno i h4
      apply hne
      ext j
      have : u *ᵥ y = fun j => (v j : ℂ) := by
        rw [hy, mulVec_mulVec, huu, one_mulVec]
      have h5 := congrFun this j
      rw [hy0, mulVec_zero] at h5
      exact (Complex.ofReal_eq_zero.mp h5.symm)
    -- its conjugate is an eigenvalue as well
    obtain ⟨x, hx⟩ : ∃ x, x = u *ᵥ Pi.single i (1 : ℂ) := ⟨_, rfl⟩
    have hx0 : x ≠ 0 := by
      intro h0
      have := congrArg (fun z => uᴴ *ᵥ z) (hx.symm.trans h0)
      change uᴴ *ᵥ (u *ᵥ _) = uᴴ *ᵥ 0 at this
      rw [mulVec_mulVec, hu, one_mulVec, mulVec_zero] at this
      have := congrFun this i
      simp at this
    have hLx : W.map Complex.ofReal *ᵥ x = ((w i : ℂ) * Complex.I) • x := by
      rw [he, hx, mulVec_mulVec, Matrix.mul_assoc _ _ u, hu, Matrix.mul_one, ← mulVec_mulVec,
        ← mulVec_smul]
      congr 1
      ext j
      rw [mulVec_diagonal]
      by_cases hj : j = i
      · subst hj; simp
      · simp [Pi.single_eq_of_ne hj]
    have hconj : W.map Complex.ofReal *ᵥ star x = star ((w i : ℂ) * Complex.I) • star x := by
      have h6 : (W.map Complex.ofReal).map star = W.map Complex.ofReal := by
        ext a b
        exact Complex.conj_ofReal _
      have := hstar (W.map Complex.ofReal) (star x)
      rw [h6, star_star, hLx, star_smul] at this
      exact this
    have := hL.strip _ _ (star_ne_zero.mpr hx0) hconj
    have h7 : (star ((w i : ℂ) * Complex.I)).im = -Real.pi := by
      rw [hi]
      simp
    rw [h7] at this
    exact lt_irrefl _ this.1
  · intro hno
    have hlog : IsLogm (Q.map Complex.ofReal) (L.map star) := by
      refine ⟨?_, fun μ x hx he => ?_⟩
      · rw [exp_map_conj, hL.exp]
        ext a b
        exact Complex.conj_ofReal _
      · have h1 : L *ᵥ star x = star μ • star x := by
          have := congrArg star (hstar L x)
          rw [he, star_star, star_smul] at this
          exact this.symm
        have h2 := hL.strip _ _ (star_ne_zero.mpr hx) h1
        have him : (star μ).im = -μ.im := Complex.conj_im μ
        rw [him] at h2
        refine ⟨?_, by linarith [h2.1]⟩
        refine lt_of_le_of_ne (by linarith [h2.2]) fun heq => ?_
        -- then `-1` is an eigenvalue
        have h3 := exp_mulVec_eigen h1
        rw [hL.exp] at h3
        obtain ⟨w, u, hw, hu, hLd⟩ := hL.diag (A := Q.map Complex.ofReal) (by
          rw [map_conjTranspose_real, ← map_mul_real, hQ]
          exact Matrix.map_one _ Complex.ofReal_zero Complex.ofReal_one)
        rw [hLd] at h1
        obtain ⟨i, hi⟩ := unitary_diag_eigen hu _ (star_ne_zero.mpr hx) h1
        have hwi : w i = Real.pi := by
          have := congrArg Complex.im hi
          rw [him] at this
          simp at this
          linarith
        rw [hi, hwi, Complex.exp_pi_mul_I, neg_one_smul] at h3
        obtain ⟨v, hv, hqv⟩ := real_eigenvector (star_ne_zero.mpr hx) h3
        exact hv (hno v hqv)
    have heq := hlog.unique hL
    refine ⟨L.map Complex.re, ?_⟩
    ext a b
    have := congrFun (congrFun heq a) b
    exact (Complex.conj_eq_iff_re.mp this).symm

omit [Fintype κ] in
/-- C97 for the special orthogonal group: the logarithm is real exactly for the pairs of points
whose quotient has no eigenvalue `-1`; then it is skew-symmetric and `exp` maps it to the second
point. -/
theorem C97_so_partial {A B : Stack κ n n ℝ} (hA : OnUnitary A) (hB : OnUnitary B)
    {V : Stack κ n n ℂ} (h : IsGLog (cplx A) (cplx B) V) :
    ((∃ W : Stack κ n n ℝ, V = cplx W) ↔
      ∀ k (v : n → ℝ), ((A k)ᴴ * B k) *ᵥ v = -v → v = 0) ∧
    ∀ W : Stack κ n n ℝ, V = cplx W → InLie W ∧ gExp A W = B := by
  have hAc := onUnitary_cplx hA
  have hBc := onUnitary_cplx hB
  have hlog := (isGLog_iff hAc hBc).mp h
  have hq : ∀ k, (cplx A k)ᴴ * cplx B k = ((A k)ᴴ * B k).map Complex.ofReal := by
    intro k
    rw [map_mul_real, ← map_conjTranspose_real]
    rfl
  have hQ : ∀ k, ((A k)ᴴ * B k)ᴴ * ((A k)ᴴ * B k) = 1 := by
    intro k
    rw [conjTranspose_mul, conjTranspose_conjTranspose, Matrix.mul_assoc,
      ← Matrix.mul_assoc (A k), hA.right, Matrix.one_mul, hB k]
  simp only [hq] at hlog
  constructor
  · constructor
    · rintro ⟨W, rfl⟩ k
      exact (logm_real_iff (hQ k) (hlog k)).mp ⟨W k, rfl⟩
    · intro hno
      have := fun k => (logm_real_iff (hQ k) (hlog k)).mpr (hno k)
      choose W hW using this
      exact ⟨W, funext hW⟩
  · rintro W rfl
    have h1 := C97_log hAc hBc h
    refine ⟨fun k => map_injective_real ?_, funext fun k => map_injective_real ?_⟩
    · rw [← map_conjTranspose_real]
      refine (h1.1 k).trans ?_
      ext i j
      change -((W k i j : ℝ) : ℂ) = ((-W k i j : ℝ) : ℂ)
      push_cast
      rfl
    · have := congrFun h1.2 k
      change (A k).map Complex.ofReal * NormedSpace.exp ((W k).map Complex.ofReal) =
        (B k).map Complex.ofReal at this
      rwa [exp_map_real, ← map_mul_real] at this

/-- C97 fails for the special orthogonal group: the logarithm of the half turn of the plane is
`iπ` times the identity, neither real nor skew-symmetric. -/
theorem C97_so_negation :
    OnSO (κ := Unit) (fun _ => (1 : Matrix (Fin 2) (Fin 2) ℝ)) ∧
      OnSO (κ := Unit) (fun _ => (-1 : Matrix (Fin 2) (Fin 2) ℝ)) ∧
      ∀ V, IsGLog (cplx fun _ : Unit => (1 : Matrix (Fin 2) (Fin 2) ℝ)) (cplx fun _ => -1) V →
        V = (fun _ => ((Real.pi : ℂ) * Complex.I) • 1) ∧ ¬ ∃ W : Stack Unit (Fin 2) (Fin 2) ℝ,
          V = cplx W := by
  have h1 : OnSO (κ := Unit) (fun _ => (1 : Matrix (Fin 2) (Fin 2) ℝ)) :=
    ⟨fun k => by rw [conjTranspose_one, Matrix.one_mul], fun k => det_one⟩
  have h2 : OnSO (κ := Unit) (fun _ => (-1 : Matrix (Fin 2) (Fin 2) ℝ)) :=
    ⟨fun k => by rw [conjTranspose_neg, conjTranspose_one, Matrix.neg_mul, Matrix.mul_neg,
      Matrix.one_mul, neg_neg], fun k => by simp [det_neg]⟩
  refine ⟨h1, h2, fun V hV => ?_⟩
  have hA := onUnitary_cplx h1.1
  have hB := onUnitary_cplx h2.1
  have hVe : V = fun _ => ((Real.pi : ℂ) * Complex.I) • 1 := by
    refine (C97_total hA hB).unique hV ((isGLog_iff hA hB).mpr fun k => ⟨?_, ?_⟩)
    · rw [exp_smul_one, Complex.exp_pi_mul_I]
      have e1 : cplx (fun _ : Unit => (1 : Matrix (Fin 2) (Fin 2) ℝ)) k = 1 :=
        Matrix.map_one _ Complex.ofReal_zero Complex.ofReal_one
      have e2 : cplx (fun _ : Unit => (-1 : Matrix (Fin 2) (Fin 2) ℝ)) k = -1 := by
        ext i j
        fin_cases i <;> fin_cases j <;> simp [cplx]
      rw [e1, e2, conjTranspose_one, Matrix.one_mul, neg_one_smul]
    · intro μ v hv he
      rw [Matrix.smul_mulVec, one_mulVec] at he
      have h3 : ((Real.pi : ℂ) * Complex.I - μ) • v = 0 := by rw [sub_smul, he, sub_self]
      have h4 := sub_eq_zero.mp ((smul_eq_zero.mp h3).resolve_right hv)
      rw [← h4]
      simp
      linarith [Real.pi_pos]
  refine ⟨hVe, ?_⟩
  rintro ⟨W, hW⟩
  have := congrArg Complex.im (congrFun (congrFun (congrFun (hVe.symm.trans hW) ()) 0) 0)
  simp [cplx] at this

/-! ### Examples -/

/-- The quarter turn of the plane has no eigenvalue `-1`: its logarithm is real. -/
example : OnUnitary (κ := Unit) (fun _ => !![(0 : ℝ), -1; 1, 0]) ∧
    ∀ v : Fin 2 → ℝ, ((1 : Matrix (Fin 2) (Fin 2) ℝ)ᴴ * !![(0 : ℝ), -1; 1, 0]) *ᵥ v = -v →
      v = 0 := by
  refine ⟨fun k => ?_, fun v hv => ?_⟩
  · ext i j; fin_cases i <;> fin_cases j <;> simp [mul_apply, Fin.sum_univ_two]
  · rw [conjTranspose_one, Matrix.one_mul] at hv
    have h0 := congrFun hv 0
    have h1 := congrFun hv 1
    simp [mulVec, dotProduct, Fin.sum_univ_two] at h0 h1
    ext i
    fin_cases i
    · change v 0 = 0; linarith
    · change v 1 = 0; linarith

/-- A non-zero tangent vector of `U(1)` shorter than `π`. -/
example : InLie (κ := Unit) (fun _ => !![Complex.I]) ∧
    gNorm (κ := Unit) (fun _ => !![(1 : ℂ)]) (fun _ => !![Complex.I]) < Real.pi := by
  refine ⟨fun k => ?_, ?_⟩
  · ext i j; fin_cases i; fin_cases j; simp
  · have h : gNorm (κ := Unit) (fun _ => !![(1 : ℂ)]) (fun _ => !![Complex.I]) ^ 2 = 1 := by
      rw [gNorm_sq]
      simp [trDot_eq_sum]
    nlinarith [Real.pi_gt_three]

end Verif.Geo
