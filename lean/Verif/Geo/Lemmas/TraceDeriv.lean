/-
Derivatives of sums of a function over the eigenvalues of a curve of normal matrices.  No choice of
differentiable eigenvalues is needed: the sums are compared by means of the overlaps of the
eigenvectors.
-/
import Verif.Geo.Lemmas.StepTriangle
import Verif.Geo.Lemmas.MatrixCalc
import Mathlib.Analysis.Calculus.MeanValue

namespace Verif.Geo
open scoped BigOperators Topology
open Matrix Filter

/-! ### Remainders of second order -/

/-- A function that differs from a differentiable one by at most a multiple of a function of second
order has the same derivative. -/
theorem hasDerivAt_of_sq_bound {F l q : ℝ → ℝ} {l' C : ℝ} (hl : HasDerivAt l l' 0)
    (hq : HasDerivAt q 0 0) (hq0 : q 0 = 0)
    (h : ∀ᶠ t in 𝓝 0, |F t - F 0 - (l t - l 0)| ≤ C * q t) : HasDerivAt F l' 0 := by
  have hr : HasDerivAt (fun t => F t - F 0 - (l t - l 0)) 0 0 := by
    rw [hasDerivAt_iff_isLittleO] at hq ⊢
    simp only [sub_zero, smul_zero, sub_self, hq0] at hq ⊢
    refine Asymptotics.IsBigO.trans_isLittleO ?_ hq
    refine Asymptotics.IsBigO.of_bound |C| ?_
    filter_upwards [h] with t ht
    rw [Real.norm_eq_abs, Real.norm_eq_abs, ← abs_mul]
    exact ht.trans (le_abs_self _)
  have h1 := (hr.add hl).add_const (F 0 - l 0)
  rw [zero_add] at h1
  refine h1.congr_of_eventuallyEq (Eventually.of_forall fun t => ?_)
  simp only [Pi.add_apply]
  ring

/-- A function with a derivative that is itself differentiable at `a` agrees with its linear model
to second order. -/
theorem local_quad {f f' : ℝ → ℝ} {a f'' : ℝ} (h1 : ∀ᶠ b in 𝓝 a, HasDerivAt f (f' b) b)
    (h2 : HasDerivAt f' f'' a) : ∃ C, ∀ᶠ b in 𝓝 a, |f b - f a - f' a * (b - a)| ≤ C * (b - a) ^ 2 := by
  have h3 := h2.differentiableAt.isBigO_sub
  obtain ⟨C, hC⟩ := h3.bound
  obtain ⟨ε, hε, hb⟩ := Metric.eventually_nhds_iff.1 (h1.and hC)
  refine ⟨C, Metric.eventually_nhds_iff.2 ⟨ε, hε, fun b hbε => ?_⟩⟩
  have hC0 : ∀ y, |y - a| ≤ |b - a| → |f' y - f' a| ≤ C * |y - a| := by
    intro y hy
    have := (hb (y := y) (lt_of_le_of_lt (by simpa [Real.dist_eq] using hy) hbε)).2
    simpa [Real.norm_eq_abs] using this
  have hC1 : |b - a| * C ≥ 0 ∨ b = a := by
    by_cases h : b = a
    · exact Or.inr h
    · left
      have h4 := (abs_nonneg _).trans (hC0 b le_rfl)
      linarith
  rcases hC1 with hC1 | rfl
  · have h5 : ∀ y ∈ Metric.closedBall a |b - a|, HasDerivWithinAt
        (fun y => f y - f' a * y) (f' y - f' a) (Metric.closedBall a |b - a|) y := by
      intro y hy
      have hy' : |y - a| ≤ |b - a| := by simpa [Real.dist_eq] using hy
      have h6 := (hb (y := y) (lt_of_le_of_lt (by simpa [Real.dist_eq] using hy') hbε)).1
      have h7 := h6.sub ((hasDerivAt_id y).const_mul (f' a))
      simp only [id, mul_one] at h7
      exact h7.hasDerivWithinAt
    have h8 := (convex_closedBall a |b - a|).norm_image_sub_le_of_norm_hasDerivWithin_le
      (C := C * |b - a|) h5 (fun y hy => by
        have hy' : |y - a| ≤ |b - a| := by simpa [Real.dist_eq] using hy
        rw [Real.norm_eq_abs]
        refine (hC0 y hy').trans ?_
        by_cases hCn : 0 ≤ C
        · exact mul_le_mul_of_nonneg_left hy' hCn
        · push Not at hCn
          have : |b - a| ≤ 0 := by nlinarith
          have h9 : |b - a| = 0 := le_antisymm this (abs_nonneg _)
          have h10 : |y - a| = 0 := le_antisymm (h9 ▸ hy') (abs_nonneg _)
          rw [h9, h10])
      (Metric.mem_closedBall_self (abs_nonneg _)) (y := b) (by simp [Real.dist_eq])
    rw [Real.norm_eq_abs, Real.norm_eq_abs] at h8
    have h11 : f b - f a - f' a * (b - a) = f b - f' a * b - (f a - f' a * a) := by ring
    rw [h11]
    refine h8.trans (le_of_eq ?_)
    rw [mul_assoc, abs_mul_abs_self, sq]
  · simp

section
variable {𝕜 : Type*} [RCLike 𝕜]

/-- A second order bound at each of finitely many points gives a common one near all of them. -/
theorem spectrum_quad {ι : Type*} [Fintype ι] {F : 𝕜 → ℝ} {g : 𝕜 → 𝕜} {a : ι → 𝕜} {S : Set 𝕜}
    (h : ∀ i, ∃ C, ∀ᶠ b in 𝓝[S] (a i),
      |F b - F (a i) - RCLike.re (star (g (a i)) * (b - a i))| ≤ C * ‖b - a i‖ ^ 2) :
    ∃ C, ∃ ε > 0, ∀ b ∈ S, (∃ k, ‖b - a k‖ < ε) → ∀ i,
      |F b - F (a i) - RCLike.re (star (g (a i)) * (b - a i))| ≤ C * ‖b - a i‖ ^ 2 := by
  have hpair : ∀ k i, ∃ C, ∀ᶠ b in 𝓝[S] (a k),
      |F b - F (a i) - RCLike.re (star (g (a i)) * (b - a i))| ≤ C * ‖b - a i‖ ^ 2 := by
    intro k i
    by_cases hki : a k = a i
    · rw [hki]; exact h i
    · obtain ⟨C, hC⟩ := h k
      have hd : 0 < ‖a k - a i‖ := norm_pos_iff.2 (sub_ne_zero.2 hki)
      set d := ‖a k - a i‖ with hdd
      set K := |F (a k)| + |F (a i)| + ‖g (a k)‖ + |C| + ‖g (a i)‖ * (d + 1) with hK
      refine ⟨K / (d / 2) ^ 2, ?_⟩
      have hnear : ∀ᶠ b in 𝓝[S] (a k), ‖b - a k‖ < min 1 (d / 2) := by
        have : ∀ᶠ b in 𝓝 (a k), ‖b - a k‖ < min 1 (d / 2) := by
          refine Metric.eventually_nhds_iff.2 ⟨min 1 (d / 2), by positivity, fun b hb => ?_⟩
          rwa [dist_eq_norm] at hb
        exact this.filter_mono nhdsWithin_le_nhds
      filter_upwards [hC, hnear] with b hb hn
      have hn1 : ‖b - a k‖ ≤ 1 := (hn.le).trans (min_le_left _ _)
      have hn2 : ‖b - a k‖ ≤ d / 2 := (hn.le).trans (min_le_right _ _)
      have hlow : d / 2 ≤ ‖b - a i‖ := by
        have h1 : ‖a k - a i‖ ≤ ‖b - a k‖ + ‖b - a i‖ := by
          have : a k - a i = -(b - a k) + (b - a i) := by ring
          rw [this]
          exact (norm_add_le _ _).trans (by rw [norm_neg])
        linarith
      have hup : ‖b - a i‖ ≤ d + 1 := by
        have : b - a i = (b - a k) + (a k - a i) := by ring
        rw [this]
        exact (norm_add_le _ _).trans (by linarith)
      have re_le : ∀ x y : 𝕜, |RCLike.re (star x * y)| ≤ ‖x‖ * ‖y‖ := fun x y =>
        (RCLike.abs_re_le_norm _).trans (by rw [norm_mul, norm_star])
      have hFb : |F b| ≤ |F (a k)| + ‖g (a k)‖ + |C| := by
        have h1 := re_le (g (a k)) (b - a k)
        have h2 : ‖g (a k)‖ * ‖b - a k‖ ≤ ‖g (a k)‖ := by
          have := mul_le_mul_of_nonneg_left hn1 (norm_nonneg (g (a k)))
          linarith
        have h3 : C * ‖b - a k‖ ^ 2 ≤ |C| := by
          have h4 : ‖b - a k‖ ^ 2 ≤ 1 := pow_le_one₀ (norm_nonneg _) hn1
          have h5 := mul_le_mul_of_nonneg_left h4 (abs_nonneg C)
          have h6 := mul_le_mul_of_nonneg_right (le_abs_self C) (sq_nonneg ‖b - a k‖)
          linarith
        have h7 : F b = (F b - F (a k) - RCLike.re (star (g (a k)) * (b - a k))) +
            F (a k) + RCLike.re (star (g (a k)) * (b - a k)) := by ring
        rw [h7]
        refine (abs_add_le _ _).trans ?_
        have h8 := abs_add_le (F b - F (a k) - RCLike.re (star (g (a k)) * (b - a k))) (F (a k))
        linarith
      have hall : |F b - F (a i) - RCLike.re (star (g (a i)) * (b - a i))| ≤ K := by
        have h1 := re_le (g (a i)) (b - a i)
        have h2 := mul_le_mul_of_nonneg_left hup (norm_nonneg (g (a i)))
        have h3 := abs_sub (F b - F (a i)) (RCLike.re (star (g (a i)) * (b - a i)))
        have h4 := abs_sub (F b) (F (a i))
        rw [hK]; linarith
      have hK0 : 0 ≤ K := (abs_nonneg _).trans hall
      refine hall.trans ?_
      rw [div_mul_eq_mul_div, le_div_iff₀ (by positivity)]
      exact mul_le_mul_of_nonneg_left (pow_le_pow_left₀ (by positivity) hlow 2) hK0
  choose C hC using hpair
  refine ⟨∑ k, ∑ i, |C k i|, ?_⟩
  have hev : ∀ᶠ ε in 𝓝[>] (0 : ℝ), ∀ k, ∀ b ∈ S, ‖b - a k‖ < ε → ∀ i,
      |F b - F (a i) - RCLike.re (star (g (a i)) * (b - a i))| ≤ C k i * ‖b - a i‖ ^ 2 := by
    refine eventually_all.2 fun k => ?_
    have h1 : ∀ᶠ b in 𝓝[S] (a k), ∀ i,
        |F b - F (a i) - RCLike.re (star (g (a i)) * (b - a i))| ≤ C k i * ‖b - a i‖ ^ 2 :=
      eventually_all.2 fun i => hC k i
    obtain ⟨ε, hε, hb⟩ := Metric.eventually_nhds_iff.1 (eventually_nhdsWithin_iff.1 h1)
    have h2 : ∀ᶠ e in 𝓝[>] (0 : ℝ), e < ε :=
      (eventually_lt_nhds hε).filter_mono nhdsWithin_le_nhds
    filter_upwards [h2] with e he b hbS hbe
    exact hb (by rw [dist_eq_norm]; exact hbe.trans he) hbS
  obtain ⟨ε, hε, hpos⟩ := (hev.and self_mem_nhdsWithin).exists
  refine ⟨ε, hpos, fun b hbS ⟨k, hk⟩ i => (hε k b hbS hk i).trans ?_⟩
  refine mul_le_mul_of_nonneg_right ?_ (sq_nonneg _)
  refine (le_abs_self _).trans ?_
  refine (Finset.single_le_sum (f := fun i => |C k i|) (fun _ _ => abs_nonneg _)
    (Finset.mem_univ i)).trans ?_
  exact Finset.single_le_sum (f := fun k => ∑ i, |C k i|)
    (fun _ _ => Finset.sum_nonneg fun _ _ => abs_nonneg _) (Finset.mem_univ k)

/-! ### Eigenvalues of nearby matrices -/

variable {n : Type*} [Fintype n] [DecidableEq n]

/-- Every eigenvalue of a normal matrix is within the Frobenius distance of an eigenvalue of any
other. -/
theorem exists_near_eigenvalue {U W : Matrix n n 𝕜} (hU : Uᴴ * U = 1) (hW : Wᴴ * W = 1)
    (a b : n → 𝕜) (i : n) : ∃ j, ‖a i - b j‖ ^ 2 ≤
      trDot (U * diagonal a * Uᴴ - W * diagonal b * Wᴴ)
        (U * diagonal a * Uᴴ - W * diagonal b * Wᴴ) := by
  by_contra hcon
  push Not at hcon
  set D := trDot (U * diagonal a * Uᴴ - W * diagonal b * Wᴴ)
        (U * diagonal a * Uᴴ - W * diagonal b * Wᴴ) with hD
  -- all eigenvalues of the second matrix are farther away from `a i`; use indicator weights
  set O := Uᴴ * W with hO
  have hOO : Oᴴ * O = 1 := by
    rw [hO, conjTranspose_mul, conjTranspose_conjTranspose, Matrix.mul_assoc, ← Matrix.mul_assoc U,
      mul_eq_one_comm.mp hU, Matrix.one_mul, hW]
  have hOO' : O * Oᴴ = 1 := mul_eq_one_comm.mp hOO
  have e2 : Uᴴ * (U * diagonal a * Uᴴ - W * diagonal b * Wᴴ) * W =
      diagonal a * O - O * diagonal b := by
    rw [hO, Matrix.mul_sub, Matrix.sub_mul]
    congr 1
    · calc Uᴴ * (U * diagonal a * Uᴴ) * W = (Uᴴ * U) * diagonal a * (Uᴴ * W) := by
            simp only [Matrix.mul_assoc]
        _ = _ := by rw [hU, Matrix.one_mul]
    · calc Uᴴ * (W * diagonal b * Wᴴ) * W = Uᴴ * W * diagonal b * (Wᴴ * W) := by
            simp only [Matrix.mul_assoc]
        _ = _ := by rw [hW, Matrix.mul_one]
  have e3 : ∀ i j, (diagonal a * O - O * diagonal b) i j = (a i - b j) * O i j := by
    intro i j
    rw [Matrix.sub_apply, diagonal_mul, mul_diagonal]; ring
  have row : ∑ j, ‖O i j‖ ^ 2 = 1 := by
    have h1 := congrFun (congrFun hOO' i) i
    rw [mul_apply, one_apply_eq] at h1
    have h2 : ∀ j, O i j * Oᴴ j i = ((‖O i j‖ ^ 2 : ℝ) : 𝕜) := by
      intro j
      rw [conjTranspose_apply, RCLike.star_def, RCLike.mul_conj]
      push_cast; rfl
    simp only [h2] at h1
    exact_mod_cast h1
  have hDe : ∑ j, ‖a i - b j‖ ^ 2 * ‖O i j‖ ^ 2 ≤ D := by
    rw [hD, ← trDot_unitary hU hW, e2, trDot_self_eq]
    simp only [e3, norm_mul, mul_pow]
    exact Finset.single_le_sum (f := fun i => ∑ j, ‖a i - b j‖ ^ 2 * ‖O i j‖ ^ 2)
      (fun _ _ => Finset.sum_nonneg fun _ _ => by positivity) (Finset.mem_univ i)
  have hex : ∃ j, 0 < ‖O i j‖ ^ 2 := by
    by_contra hn
    push Not at hn
    have : ∑ j, ‖O i j‖ ^ 2 ≤ 0 := Finset.sum_nonpos fun j _ => hn j
    linarith
  obtain ⟨j, hj⟩ := hex
  have hlt : ∑ j, D * ‖O i j‖ ^ 2 < ∑ j, ‖a i - b j‖ ^ 2 * ‖O i j‖ ^ 2 :=
    Finset.sum_lt_sum (fun j _ => mul_le_mul_of_nonneg_right (hcon j).le (sq_nonneg _))
      ⟨j, Finset.mem_univ j, mul_lt_mul_of_pos_right (hcon j) hj⟩
  rw [← Finset.mul_sum, row, mul_one] at hlt
  linarith

/-! ### The derivative of a sum over the spectrum -/

omit [DecidableEq n] in
theorem hasDerivAt_sq_diff {m : Type*} [Fintype m] {M : ℝ → Matrix m n 𝕜} {M' : Matrix m n 𝕜}
    (hM : MatDeriv M M' 0) :
    HasDerivAt (fun t => trDot (M t - M 0) (M t - M 0)) 0 0 := by
  simp only [trDot_self_eq]
  have h0 : (0 : ℝ) = ∑ i : m, ∑ j : n, (0 : ℝ) := by simp
  rw [h0]
  refine HasDerivAt.fun_sum fun i _ => HasDerivAt.fun_sum fun j _ => ?_
  rw [← h0]
  simp only [Matrix.sub_apply]
  have h1 := (hM i j).sub_const (M 0 i j)
  have hO := h1.differentiableAt.isBigO_sub
  rw [hasDerivAt_iff_isLittleO]
  simp only [sub_self, norm_zero, smul_zero, sub_zero, ne_eq, OfNat.ofNat_ne_zero,
    not_false_eq_true, zero_pow] at hO ⊢
  have h2 := hO.norm_left.pow 2
  refine h2.trans_isLittleO ?_
  have h3 : (fun x : ℝ => x ^ 2) =o[𝓝 0] fun x => x ^ 1 :=
    Asymptotics.isLittleO_pow_pow (by norm_num)
  simpa using h3

/-- **The derivative of a sum over the spectrum.**  Along a differentiable curve of normal matrices
the sum of `F` over the eigenvalues changes at the rate `⟨g(M(0)), M'(0)⟩`, if `g` is the gradient
of `F` on the set `S` of the eigenvalues, to second order. -/
theorem hasDerivAt_spectrum_sum {M : ℝ → Matrix n n 𝕜} {M' : Matrix n n 𝕜} (hM : MatDeriv M M' 0)
    {w : ℝ → n → 𝕜} {v : ℝ → Matrix n n 𝕜} (hv : ∀ t, (v t)ᴴ * v t = 1)
    (hw : ∀ t, M t = v t * diagonal (w t) * (v t)ᴴ) {F : 𝕜 → ℝ} {g : 𝕜 → 𝕜} {S : Set 𝕜}
    (hS : ∀ᶠ t in 𝓝 0, ∀ i, w t i ∈ S)
    (h : ∀ i, ∃ C, ∀ᶠ b in 𝓝[S] (w 0 i),
      |F b - F (w 0 i) - RCLike.re (star (g (w 0 i)) * (b - w 0 i))| ≤ C * ‖b - w 0 i‖ ^ 2) :
    HasDerivAt (fun t => ∑ i, F (w t i))
      (trDot (v 0 * diagonal (fun i => g (w 0 i)) * (v 0)ᴴ) M') 0 := by
  obtain ⟨C, ε, hε, hC⟩ := spectrum_quad h
  set G := v 0 * diagonal (fun i => g (w 0 i)) * (v 0)ᴴ with hG
  have hl : HasDerivAt (fun t => trDot G (M t)) (trDot G M') 0 := by
    simp only [trDot_eq_sum]
    refine HasDerivAt.fun_sum fun i _ => HasDerivAt.fun_sum fun j _ => ?_
    have h1 := (hM i j).const_mul (star (G i j))
    exact (RCLike.reCLM (K := 𝕜)).hasFDerivAt.comp_hasDerivAt (0 : ℝ) h1
  have hq := hasDerivAt_sq_diff hM
  refine hasDerivAt_of_sq_bound (C := C) hl hq (by simp [trDot]) ?_
  have hq0 : ∀ᶠ t in 𝓝 (0 : ℝ), trDot (M t - M 0) (M t - M 0) < ε ^ 2 := by
    have := hq.continuousAt.eventually_lt (continuousAt_const (y := ε ^ 2))
      (by simp only [sub_self, trDot]; simpa using pow_pos hε 2)
    exact this
  filter_upwards [hS, hq0] with t ht hqt
  have hb : ∀ i, ∃ k, ‖w t i - w 0 k‖ < ε := by
    intro i
    obtain ⟨k, hk⟩ := exists_near_eigenvalue (hv t) (hv 0) (w t) (w 0) i
    rw [← hw t, ← hw 0] at hk
    refine ⟨k, ?_⟩
    have := lt_of_le_of_lt hk hqt
    exact lt_of_pow_lt_pow_left₀ 2 hε.le this
  have hpt := fun i j => hC (w t i) (ht i) (hb i) j
  have hup := sum_le_of_pointwise (hv t) (hv 0) (a := w t) (b := w 0) (g := fun j => g (w 0 j))
    (fa := fun i => F (w t i)) (fb := fun j => F (w 0 j)) (C := C) fun i j => by
      have := (abs_le.1 (hpt i j)).2
      linarith
  have hdn := sum_le_of_pointwise (hv t) (hv 0) (a := w t) (b := w 0) (g := fun j => -g (w 0 j))
    (fa := fun i => -F (w t i)) (fb := fun j => -F (w 0 j)) (C := C) fun i j => by
      have := (abs_le.1 (hpt i j)).1
      rw [star_neg, neg_mul, map_neg]
      linarith
  rw [← hw t, ← hw 0, ← hG] at hup
  have hneg : v 0 * diagonal (fun j => -g (w 0 j)) * (v 0)ᴴ = -G := by
    rw [hG, ← Matrix.neg_mul, ← Matrix.mul_neg, diagonal_neg]
  rw [← hw t, ← hw 0, hneg, Finset.sum_neg_distrib, Finset.sum_neg_distrib] at hdn
  have e1 : trDot (-G) (M t - M 0) = -trDot G (M t - M 0) := by
    rw [trDot, trDot, conjTranspose_neg, Matrix.neg_mul, trace_neg, map_neg]
  have e2 : trDot G (M t - M 0) = trDot G (M t) - trDot G (M 0) := by
    rw [trDot, trDot, trDot, Matrix.mul_sub, trace_sub, map_sub]
  rw [e1, e2] at hdn
  rw [e2] at hup
  rw [abs_le]
  constructor <;> linarith

/-- The case of Hermitian matrices. -/
theorem hasDerivAt_eigh_sum {M : ℝ → Matrix n n 𝕜} {M' : Matrix n n 𝕜} (hM : MatDeriv M M' 0)
    {w : ℝ → n → ℝ} {v : ℝ → Matrix n n 𝕜} (h : ∀ t, IsEigh (M t) (w t) (v t)) {f f' : ℝ → ℝ}
    {S : Set ℝ} (hS : ∀ᶠ t in 𝓝 0, ∀ i, w t i ∈ S)
    (hf : ∀ i, ∃ C, ∀ᶠ b in 𝓝[S] (w 0 i),
      |f b - f (w 0 i) - f' (w 0 i) * (b - w 0 i)| ≤ C * (b - w 0 i) ^ 2) :
    HasDerivAt (fun t => ∑ i, f (w t i)) (trDot (spectral f' (w 0) (v 0)) M') 0 := by
  have key := hasDerivAt_spectrum_sum (𝕜 := 𝕜) hM (w := fun t i => ((w t i : ℝ) : 𝕜)) (v := v)
    (fun t => (h t).orth) (fun t => (h t).prod) (F := fun z => f (RCLike.re z))
    (g := fun z => ((f' (RCLike.re z) : ℝ) : 𝕜)) (S := (fun x : ℝ => (x : 𝕜)) '' S)
    (by filter_upwards [hS] with t ht i using ⟨_, ht i, rfl⟩)
    (fun i => by
      obtain ⟨C, hC⟩ := hf i
      refine ⟨C, ?_⟩
      rw [eventually_nhdsWithin_iff, Metric.eventually_nhds_iff] at hC ⊢
      obtain ⟨ε, hε, hb⟩ := hC
      refine ⟨ε, hε, ?_⟩
      rintro _ hz ⟨b, hbS, rfl⟩
      simp only [RCLike.ofReal_re, RCLike.star_def, RCLike.conj_ofReal]
      rw [dist_eq_norm, ← RCLike.ofReal_sub, RCLike.norm_ofReal] at hz
      rw [← RCLike.ofReal_sub, ← RCLike.ofReal_mul, RCLike.ofReal_re, RCLike.norm_ofReal, sq_abs]
      exact hb (by rwa [Real.dist_eq]) hbS)
  simp only [RCLike.ofReal_re] at key
  exact key

end

end Verif.Geo
