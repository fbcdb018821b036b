/-
C97, C166: on the unitary and special orthogonal groups `pair_mean` is the only intrinsic mean of two
points without quotient with eigenvalue `-1`.
-/
import Verif.Geo.Props.Midpoint
import Verif.Geo.Lemmas.UnitaryMidpoint

namespace Verif.Geo
open scoped BigOperators
open Matrix

variable {κ n : Type*} [Fintype κ] [Fintype n] [DecidableEq n]

/-! ### The two halves of a shortest geodesic -/

/-- The logarithms from one end to a point half way and from there to the other end agree. -/
private theorem halves {A B X V W : Stack κ n n ℂ} (hA : OnUnitary A) (hB : OnUnitary B)
    (hX : OnUnitary X) {d : ℝ} (hd : IsGDist A B d) (hV : IsGLog A X V) (hW : IsGLog X B W)
    (hVd : gNorm A V = d / 2) (hWd : gNorm X W = d / 2) : W = V := by
  obtain ⟨hlV, hXV⟩ := C97_log hA hX hV
  obtain ⟨hlW, hBW⟩ := C97_log hX hB hW
  have hd0 : 0 ≤ d := ((C97_dist hA hB).2 d hd).1
  have hq := fun k => quotient_unitary hA hX k
  have hlog := (isGLog_iff hA hX).1 hV
  choose C hC using fun k => unitary_step (P := (A k)ᴴ * X k) (H := W k) (hq k) (hlW k) (hlog k)
  have hsV : ∑ k, trDot (V k) (V k) = (d / 2) ^ 2 := by rw [← gNorm_sq A, hVd]
  have hsW : ∑ k, trDot (W k) (W k) = (d / 2) ^ 2 := by rw [← gNorm_sq X, hWd]
  -- going on beyond the point half way
  have hkey : ∀ t : ℝ, 0 < t → t ≤ 1 →
      (d / 2) ^ 2 ≤ ∑ k, trDot (V k) (W k) + ((∑ k, C k) / 2) * t := by
    intro t ht ht1
    have htW : InLie (t • W) := inLie_subspace.smul _ hlW
    have hY : OnUnitary (gExp X (t • W)) := C96_exp hX htW
    have hend : gExp (gExp X (t • W)) ((1 - t) • W) = B := by
      rw [← hBW]
      funext k
      change X k * NormedSpace.exp (t • W k) * NormedSpace.exp ((1 - t) • W k) =
        X k * NormedSpace.exp (W k)
      rw [Matrix.mul_assoc, ← exp_add_of_commute _ _
        ((Commute.smul_right (Commute.smul_left (Commute.refl (W k)) _) _)), ← add_smul]
      congr 2
      rw [add_sub_cancel, one_smul]
    obtain ⟨U, hU, -⟩ := C97_total hA hY
    obtain ⟨r, hr, -⟩ := (C97_dist hY hB).1
    have hr1 : r ≤ (1 - t) * (d / 2) := by
      have h1 := C97_shortest hY (V := (1 - t) • W) (inLie_subspace.smul _ hlW) (d := r)
        (by rw [hend]; exact hr)
      refine h1.trans (le_of_eq ?_)
      refine (pow_left_inj₀ (stackNorm_nonneg _)
        (mul_nonneg (by linarith) (by linarith)) two_ne_zero).1 ?_
      change gNorm (gExp X (t • W)) ((1 - t) • W) ^ 2 = _
      rw [gNorm_sq, mul_pow, ← hsW, Finset.mul_sum]
      refine Finset.sum_congr rfl fun k _ => ?_
      change trDot ((1 - t) • W k) ((1 - t) • W k) = _
      rw [trDot_inner.smul_left, trDot_inner.smul_right]
      ring
    have h2 := (C119_unitary (κ := κ) (n := n)).triangle A _ B _ r d hA hY hB ⟨U, hU, rfl⟩ hr hd
    have h3 : (1 + t) * (d / 2) ≤ gNorm A U := by linarith
    have h4 := pow_le_pow_left₀ (mul_nonneg (by linarith) (by linarith)) h3 2
    have h5 : gNorm A U ^ 2 ≤ (d / 2) ^ 2 + 2 * t * ∑ k, trDot (V k) (W k) +
        (∑ k, C k) * t ^ 2 := by
      rw [gNorm_sq, ← hsV, Finset.mul_sum, Finset.sum_mul, ← Finset.sum_add_distrib,
        ← Finset.sum_add_distrib]
      refine Finset.sum_le_sum fun k _ => hC k t ht ht1 (U k) ?_
      have h6 := (isGLog_iff hA hY).1 hU k
      have h7 : (A k)ᴴ * gExp X (t • W) k = (A k)ᴴ * X k * NormedSpace.exp (t • W k) := by
        rw [Matrix.mul_assoc]; rfl
      rwa [h7] at h6
    have h8 := h4.trans h5
    have h9 : 0 ≤ t ^ 2 * (d / 2) ^ 2 := by positivity
    have h10 : 2 * t * (d / 2) ^ 2 ≤
        2 * t * (∑ k, trDot (V k) (W k) + ((∑ k, C k) / 2) * t) := by nlinarith
    exact le_of_mul_le_mul_left h10 (by linarith)
  have hin : (d / 2) ^ 2 ≤ ∑ k, trDot (V k) (W k) := by
    refine le_of_forall_pos_le_add fun ε hε => ?_
    set S := (∑ k, C k) / 2 with hS
    have hpos : 0 < |S| + 1 := by positivity
    have h1 := hkey (min 1 (ε / (|S| + 1))) (lt_min one_pos (div_pos hε hpos)) (min_le_left _ _)
    refine h1.trans (by
      have h2 : S * min 1 (ε / (|S| + 1)) ≤ ε := by
        have h0 : (0 : ℝ) ≤ min 1 (ε / (|S| + 1)) := (lt_min one_pos (div_pos hε hpos)).le
        calc S * min 1 (ε / (|S| + 1)) ≤ (|S| + 1) * min 1 (ε / (|S| + 1)) :=
              mul_le_mul_of_nonneg_right (by linarith [le_abs_self S]) h0
          _ ≤ (|S| + 1) * (ε / (|S| + 1)) :=
              mul_le_mul_of_nonneg_left (min_le_right _ _) hpos.le
          _ = ε := by field_simp
      linarith)
  have hz : gNorm A (W - V) ^ 2 ≤ 0 := by
    have e : gNorm A (W - V) ^ 2 = ∑ k, trDot (W k) (W k) + ∑ k, trDot (V k) (V k) -
        2 * ∑ k, trDot (V k) (W k) := by
      rw [gNorm_sq, Finset.mul_sum, ← Finset.sum_add_distrib, ← Finset.sum_sub_distrib]
      refine Finset.sum_congr rfl fun k _ => ?_
      change trDot (W k - V k) (W k - V k) = _
      rw [sub_eq_add_neg, ← neg_one_smul ℝ (V k), trDot_inner.add_left, trDot_inner.add_right,
        trDot_inner.add_right, trDot_inner.smul_left, trDot_inner.smul_right,
        trDot_inner.smul_left, trDot_inner.smul_right, trDot_inner.symm (W k) (V k)]
      ring
    rw [e, hsV, hsW]
    linarith
  have h0 : gNorm A (W - V) = 0 := by
    have := sq_nonneg (gNorm A (W - V))
    exact pow_eq_zero_iff two_ne_zero |>.1 (le_antisymm hz this)
  rw [gNorm, stackNorm_eq_zero] at h0
  exact sub_eq_zero.1 h0

/-- **C97**: where `-1` is no eigenvalue of the quotients, `log` returns the only shortest tangent
vector that `exp` maps to the target. -/
theorem C97_shortest_unique {A B Z : Stack κ n n ℂ} (hA : OnUnitary A) (hZ : InLie Z)
    (hB : gExp A Z = B) {d : ℝ} (hd : IsGDist A B d) (hZd : gNorm A Z = d)
    (hne : ∀ k (x : n → ℂ), ((A k)ᴴ * B k) *ᵥ x = -x → x = 0) : IsGLog A B Z := by
  have hBo : OnUnitary B := hB ▸ C96_exp hA hZ
  have hQ : ∀ k, (A k)ᴴ * B k = NormedSpace.exp (Z k) := by
    intro k
    rw [← hB]
    change (A k)ᴴ * (A k * NormedSpace.exp (Z k)) = _
    rw [← Matrix.mul_assoc, hA k, Matrix.one_mul]
  obtain ⟨L, hL, hLd⟩ := hd
  have hLk := (isGLog_iff hA hBo).1 hL
  choose w v hv he using fun k => exists_skew_diag (hZ k)
  have hs : ∀ k, trDot (L k) (L k) = ∑ i, (Complex.exp (w k i * Complex.I)).arg ^ 2 := by
    intro k
    refine (IsLogm.sq_norm (hv k) (fun i => Complex.norm_exp_ofReal_mul_I (w k i)) ?_).2
    rw [← exp_unitary_diag (hv k), ← he k, ← hQ k]
    exact hLk k
  have hle : ∀ k i, (Complex.exp (w k i * Complex.I)).arg ^ 2 ≤ w k i ^ 2 := by
    intro k i
    rw [← sq_abs, ← sq_abs (w k i)]
    exact pow_le_pow_left₀ (abs_nonneg _) (abs_arg_exp_le _) 2
  have hsum : ∑ k, ∑ i, (Complex.exp (w k i * Complex.I)).arg ^ 2 = ∑ k, ∑ i, w k i ^ 2 := by
    have h1 : gNorm A L ^ 2 = gNorm A Z ^ 2 := by rw [hZd, hLd]
    rw [gNorm_sq, gNorm_sq] at h1
    have h2 : ∀ k, trDot (Z k) (Z k) = ∑ i, w k i ^ 2 := fun k => by
      conv_lhs => rw [he k]
      exact trDot_unitary_diag (hv k) _
    simpa only [hs, h2] using h1
  have heq : ∀ k i, (Complex.exp (w k i * Complex.I)).arg ^ 2 = w k i ^ 2 := by
    intro k i
    have h1 := (Finset.sum_eq_sum_iff_of_le fun k _ =>
      Finset.sum_le_sum fun i _ => hle k i).1 hsum k (Finset.mem_univ k)
    exact (Finset.sum_eq_sum_iff_of_le fun i _ => hle k i).1 h1 i (Finset.mem_univ i)
  rw [← hB]
  refine (C97_log_exp hA hZ).2 fun k μ x hx hμ => ?_
  have h1 := hμ
  rw [he k] at h1
  obtain ⟨i, rfl⟩ := unitary_diag_eigen (hv k) _ hx h1
  have h2 : |w k i| ≤ Real.pi := by
    have h3 := heq k i
    rw [sq_eq_sq_iff_abs_eq_abs] at h3
    rw [← h3]
    exact Complex.abs_arg_le_pi _
  obtain ⟨h4, h5⟩ := abs_le.1 h2
  have him : ((w k i : ℂ) * Complex.I).im = w k i := by simp
  rw [him]
  refine ⟨lt_of_le_of_ne h4 fun h6 => hx (hne k x ?_), h5⟩
  rw [hQ, exp_mulVec_eigen hμ, ← h6]
  have h7 : Complex.exp (((-Real.pi : ℝ) : ℂ) * Complex.I) = -1 := by
    push_cast
    rw [neg_mul, Complex.exp_neg, Complex.exp_pi_mul_I]
    norm_num
  rw [h7, neg_one_smul]

/-- The only point half way. -/
private theorem only_midpoint {A B X M : Stack κ n n ℂ} (hA : OnUnitary A) (hB : OnUnitary B)
    (hX : OnUnitary X) (hM : IsGPairMean A B M)
    (hne : ∀ k (x : n → ℂ), ((A k)ᴴ * B k) *ᵥ x = -x → x = 0) {d : ℝ} (hd : IsGDist A B d)
    (h1 : IsGDist A X (d / 2)) (h2 : IsGDist X B (d / 2)) : X = M := by
  obtain ⟨V, hV, hVd⟩ := h1
  obtain ⟨W, hW, hWd⟩ := h2
  have hVW := halves hA hB hX hd hV hW hVd.symm hWd.symm
  subst hVW
  obtain ⟨hlW, hXW⟩ := C97_log hA hX hV
  obtain ⟨-, hBW⟩ := C97_log hX hB hW
  have hd0 : 0 ≤ d := ((C97_dist hA hB).2 d hd).1
  have hZ : IsGLog A B ((2 : ℝ) • W) := by
    refine C97_shortest_unique hA (inLie_subspace.smul _ hlW) ?_ hd ?_ hne
    · rw [← hBW, ← hXW]
      funext k
      change A k * NormedSpace.exp ((2 : ℝ) • W k) =
        A k * NormedSpace.exp (W k) * NormedSpace.exp (W k)
      rw [Matrix.mul_assoc, ← exp_add_of_commute _ _ (Commute.refl (W k)), two_smul]
    · refine (pow_left_inj₀ (stackNorm_nonneg _) hd0 two_ne_zero).1 ?_
      change gNorm A ((2 : ℝ) • W) ^ 2 = _
      have h3 : gNorm A W ^ 2 = (d / 2) ^ 2 := by rw [hVd]
      rw [gNorm_sq] at h3 ⊢
      have h4 : ∀ k, trDot (((2 : ℝ) • W) k) (((2 : ℝ) • W) k) = 4 * trDot (W k) (W k) := by
        intro k
        change trDot ((2 : ℝ) • W k) ((2 : ℝ) • W k) = _
        rw [trDot_inner.smul_left, trDot_inner.smul_right]
        ring
      simp only [h4]
      rw [← Finset.mul_sum, h3]
      ring
  obtain ⟨L, hL, rfl⟩ := hM
  rw [(C97_total hA hB).unique hL hZ, ← hXW]
  funext k
  change A k * NormedSpace.exp (W k) = A k * NormedSpace.exp ((1 / 2 : ℝ) • (2 : ℝ) • W k)
  rw [smul_smul]
  norm_num

/-! ### C166 -/

/-- **C166**, unitary groups: the mean of two points without quotient with eigenvalue `-1` is the only
one. -/
theorem C166_unitary_unique {A B M : Stack κ n n ℂ} (hA : OnUnitary A) (hB : OnUnitary B)
    (hM : IsGPairMean A B M) (hne : ∀ k (x : n → ℂ), ((A k)ᴴ * B k) *ᵥ x = -x → x = 0) :
    UniqueMean OnUnitary Eq IsGDist A B M := by
  have h := (C166_unitary hA hB hM).1
  exact (C166_midpoint C119_unitary hA hB h.on h.half).2
    fun X hX d hd h1 h2 => only_midpoint hA hB hX hM hne hd h1 h2

/-- **C166**, special orthogonal groups: likewise. -/
theorem C166_special_orthogonal_unique {A B : Stack κ n n ℝ} {M : Stack κ n n ℂ} (hA : OnSO A)
    (hB : OnSO B) (hM : IsGPairMean (cplx A) (cplx B) M)
    (hne : ∀ k (x : n → ℝ), ((A k)ᴴ * B k) *ᵥ x = -x → x = 0) :
    ∃ N : Stack κ n n ℝ, M = cplx N ∧
      UniqueMean OnSO Eq (fun X Y => IsGDist (cplx X) (cplx Y)) A B N := by
  obtain ⟨N, rfl, h, -, -⟩ := C166_special_orthogonal hA hB hM hne
  refine ⟨N, rfl, (C166_midpoint C119_special_orthogonal hA hB h.on h.half).2
    fun X hX d hd h1 h2 => ?_⟩
  have := only_midpoint (onUnitary_cplx hA.1) (onUnitary_cplx hB.1) (onUnitary_cplx hX.1) hM
    (fun k x hx => by
      by_contra hx0
      have hq : (cplx A k)ᴴ * cplx B k = ((A k)ᴴ * B k).map Complex.ofReal := by
        rw [map_mul_real, ← map_conjTranspose_real]
        rfl
      rw [hq] at hx
      obtain ⟨v, hv, hv'⟩ := real_eigenvector hx0 hx
      exact hv (hne k v hv')) hd h1 h2
  exact funext fun k => map_injective_real (congrFun this k)

/-- **C166**: the exception is needed here, too.  A point and its negative have two different points
half way, the means taken in both orders. -/
theorem C166_negation_unique [Nonempty κ] [Nonempty n] {A : Stack κ n n ℂ}
    (hA : OnUnitary A) : ∃ M N, M ≠ N ∧ IsGPairMean A (-A) M ∧
      ∀ d, IsGDist A (-A) d → IsGDist A M (d / 2) ∧ IsGDist M (-A) (d / 2) ∧
        IsGDist A N (d / 2) ∧ IsGDist N (-A) (d / 2) := by
  have hA' : OnUnitary (-A) := fun k => by
    change (-A k)ᴴ * -A k = 1
    rw [conjTranspose_neg, Matrix.neg_mul, Matrix.mul_neg, neg_neg, hA k]
  obtain ⟨M, hM, -⟩ := (C97_pair_mean hA hA').1
  obtain ⟨N, hN, -⟩ := (C97_pair_mean hA' hA).1
  refine ⟨M, N, (C166_negation_opposite hA hM hN).2.1.symm, hM, fun d hd => ?_⟩
  obtain ⟨-, h1, h2⟩ := (C97_pair_mean hA hA').2 M d hM hd
  obtain ⟨ho, h3, h4⟩ := (C97_pair_mean hA' hA).2 N d hN (C97_dist_symm hA hA' hd)
  exact ⟨h1, h2, C97_dist_symm ho hA h4, C97_dist_symm hA' ho h3⟩

/-! ### Examples -/

/-- The identity and its multiple by `i` have no quotient with eigenvalue `-1`, and the mean exists. -/
example : OnUnitary (κ := Unit) (fun _ => (1 : Matrix (Fin 2) (Fin 2) ℂ)) ∧
    OnUnitary (κ := Unit) (fun _ => Complex.I • (1 : Matrix (Fin 2) (Fin 2) ℂ)) ∧
    (∀ x : Fin 2 → ℂ, ((1 : Matrix (Fin 2) (Fin 2) ℂ)ᴴ * (Complex.I • 1)) *ᵥ x = -x → x = 0) ∧
    ∃ M, IsGPairMean (κ := Unit) (fun _ => (1 : Matrix (Fin 2) (Fin 2) ℂ))
      (fun _ => Complex.I • 1) M := by
  have h1 : OnUnitary (κ := Unit) (fun _ => (1 : Matrix (Fin 2) (Fin 2) ℂ)) := fun k => by simp
  have h2 : OnUnitary (κ := Unit) (fun _ => Complex.I • (1 : Matrix (Fin 2) (Fin 2) ℂ)) := fun k => by
    simp [conjTranspose_smul, smul_smul]
  refine ⟨h1, h2, fun x hx => ?_, (C97_pair_mean h1 h2).1.exists⟩
  rw [conjTranspose_one, Matrix.one_mul, Matrix.smul_mulVec, one_mulVec] at hx
  have h3 : (Complex.I + 1) • x = 0 := by rw [add_smul, hx, one_smul, neg_add_cancel]
  refine (smul_eq_zero.1 h3).resolve_left fun h => ?_
  have := congrArg Complex.re h
  simp at this

/-- A quarter turn and the identity, on the special orthogonal group. -/
example : OnSO (κ := Unit) (fun _ => (1 : Matrix (Fin 2) (Fin 2) ℝ)) ∧
    OnSO (κ := Unit) (fun _ => !![(0 : ℝ), -1; 1, 0]) ∧
    (∀ v : Fin 2 → ℝ, ((1 : Matrix (Fin 2) (Fin 2) ℝ)ᴴ * !![(0 : ℝ), -1; 1, 0]) *ᵥ v = -v →
      v = 0) ∧
    ∃ M, IsGPairMean (cplx (κ := Unit) (fun _ => (1 : Matrix (Fin 2) (Fin 2) ℝ)))
      (cplx fun _ => !![(0 : ℝ), -1; 1, 0]) M := by
  have h1 : OnSO (κ := Unit) (fun _ => (1 : Matrix (Fin 2) (Fin 2) ℝ)) :=
    ⟨fun k => by simp, fun k => by simp⟩
  have h2 : OnSO (κ := Unit) (fun _ => !![(0 : ℝ), -1; 1, 0]) := by
    refine ⟨fun k => ?_, fun k => by simp⟩
    ext i j; fin_cases i <;> fin_cases j <;> simp [mul_apply, Fin.sum_univ_two]
  refine ⟨h1, h2, fun v hv => ?_,
    (C97_pair_mean (onUnitary_cplx h1.1) (onUnitary_cplx h2.1)).1.exists⟩
  rw [conjTranspose_one, Matrix.one_mul] at hv
  have h0 := congrFun hv 0
  have h1 := congrFun hv 1
  simp [mulVec, dotProduct, Fin.sum_univ_two] at h0 h1
  ext i
  fin_cases i
  · change v 0 = 0; linarith
  · change v 1 = 0; linarith

end Verif.Geo
