/-
The triangle inequality behind the distance of subspaces.  The reflection in a subspace is a unitary
matrix, and the logarithm of the product of two reflections has `2 √2` times the length of the
vector of principal angles; so the inequality follows from the one for unitary matrices.
-/
import Verif.Geo.Lemmas.UnitaryTriangle

namespace Verif.Geo
open scoped BigOperators
open Matrix

section
variable {n : Type*} [Fintype n] [DecidableEq n] {p : ℕ}

/-- Reflection in the column space of a matrix with orthonormal columns. -/
noncomputable def reflection (X : Matrix n (Fin p) ℂ) : Matrix n n ℂ := (2 : ℝ) • (X * Xᴴ) - 1

omit [Fintype n] in
theorem reflection_herm (X : Matrix n (Fin p) ℂ) : (reflection X)ᴴ = reflection X := by
  rw [reflection, conjTranspose_sub, conjTranspose_smul, conjTranspose_mul,
    conjTranspose_conjTranspose, conjTranspose_one, star_trivial]

theorem reflection_mul_self {X : Matrix n (Fin p) ℂ} (hX : Xᴴ * X = 1) :
    reflection X * reflection X = 1 := by
  have h1 : X * Xᴴ * (X * Xᴴ) = X * Xᴴ := by
    rw [Matrix.mul_assoc, ← Matrix.mul_assoc Xᴴ, hX, Matrix.one_mul]
  rw [reflection, Matrix.sub_mul, Matrix.mul_sub, Matrix.smul_mul, Matrix.mul_smul, h1,
    Matrix.mul_one, Matrix.one_mul]
  module

theorem reflection_apply {X : Matrix n (Fin p) ℂ} (hX : Xᴴ * X = 1) : reflection X * X = X := by
  rw [reflection, Matrix.sub_mul, Matrix.smul_mul, Matrix.mul_assoc, hX, Matrix.mul_one,
    Matrix.one_mul]
  module

theorem reflection_orth {X q : Matrix n (Fin p) ℂ} (hq : Xᴴ * q = 0) : reflection X * q = -q := by
  rw [reflection, Matrix.sub_mul, Matrix.smul_mul, Matrix.mul_assoc, hq, Matrix.mul_zero,
    Matrix.one_mul]
  module

/-- Rotation by given angles: the logarithm of the product of the reflections in two subspaces with
principal vectors `X` and `X cos θ + q sin θ`. -/
theorem rotation_log {X Y q : Matrix n (Fin p) ℂ} {θ : Fin p → ℝ} {D : Matrix (Fin p) (Fin p) ℂ}
    (hD : D = diagonal fun i => ((θ i : ℝ) : ℂ)) (hXX : Xᴴ * X = 1) (hXq : Xᴴ * q = 0)
    (hqqθ : qᴴ * q * D = D) (hθ0 : ∀ i, 0 ≤ θ i) (hθ1 : ∀ i, θ i ≤ Real.pi / 2)
    (hYdec : Y = X * diagonal (fun i => ((Real.cos (θ i) : ℝ) : ℂ)) +
      q * diagonal (fun i => ((Real.sin (θ i) : ℝ) : ℂ)))
    {L : Matrix n n ℂ} (hL : IsLogm (reflection X * reflection Y) L) :
    trDot L L = 8 * ∑ i, θ i ^ 2 := by
  have hpi := Real.pi_pos
  have hDH : Dᴴ = D := by
    rw [hD, diagonal_conjTranspose]; congr 1; funext i
    exact Complex.conj_ofReal _
  have hθqq : D * (qᴴ * q) = D := by
    have := congrArg conjTranspose hqqθ
    rwa [conjTranspose_mul, conjTranspose_mul, conjTranspose_conjTranspose, hDH] at this
  have hqX : qᴴ * X = 0 := by
    have := congrArg conjTranspose hXq
    rwa [conjTranspose_mul, conjTranspose_conjTranspose, conjTranspose_zero] at this
  -- the generator
  obtain ⟨A, hA⟩ : ∃ A, A = q * D * Xᴴ - X * D * qᴴ := ⟨_, rfl⟩
  have hAskew : Aᴴ = -A := by
    rw [hA, conjTranspose_sub, conjTranspose_mul, conjTranspose_mul, conjTranspose_mul,
      conjTranspose_mul, conjTranspose_conjTranspose, conjTranspose_conjTranspose, hDH]
    simp only [Matrix.mul_assoc, neg_sub]
  have hAX : A * X = q * D := by
    rw [hA, Matrix.sub_mul, Matrix.mul_assoc, hXX, Matrix.mul_one, Matrix.mul_assoc _ qᴴ, hqX,
      Matrix.mul_zero, sub_zero]
  have hAq : A * q = -(X * D) := by
    rw [hA, Matrix.sub_mul, Matrix.mul_assoc _ Xᴴ, hXq, Matrix.mul_zero, zero_sub,
      Matrix.mul_assoc _ qᴴ, Matrix.mul_assoc X, hθqq]
  have hexpX : NormedSpace.exp A * X = Y := by
    have hdiag : ∀ z : ℂ, NormedSpace.exp (z • D) =
        diagonal fun i => Complex.exp (z * (θ i : ℝ)) := by
      intro z
      rw [hD, ← diagonal_smul, Matrix.exp_diagonal]
      congr 1
      funext i
      rw [Pi.coe_exp, ← Complex.exp_eq_exp_ℂ]; rfl
    have h1 : A * (X + Complex.I • q) = (X + Complex.I • q) * (-Complex.I • D) := by
      rw [Matrix.mul_add, Matrix.mul_smul, hAX, hAq, Matrix.add_mul, Matrix.mul_smul,
        Matrix.smul_mul, Matrix.mul_smul, smul_smul]
      have : Complex.I * -Complex.I = 1 := by rw [mul_neg, Complex.I_mul_I, neg_neg]
      rw [this]
      module
    have h2 : A * (X - Complex.I • q) = (X - Complex.I • q) * (Complex.I • D) := by
      rw [Matrix.mul_sub, Matrix.mul_smul, hAX, hAq, Matrix.sub_mul, Matrix.mul_smul,
        Matrix.smul_mul, Matrix.mul_smul, smul_smul]
      have : Complex.I * Complex.I = -1 := Complex.I_mul_I
      rw [this]
      module
    have e1 := exp_intertwine h1
    have e2 := exp_intertwine h2
    rw [hdiag] at e1 e2
    have e3 : (2 : ℂ) • (NormedSpace.exp A * X) = NormedSpace.exp A * (X + Complex.I • q) +
        NormedSpace.exp A * (X - Complex.I • q) := by
      rw [← Matrix.mul_add, ← Matrix.mul_smul]
      congr 1; module
    have e4 : (2 : ℂ) • (NormedSpace.exp A * X) = (2 : ℂ) • Y := by
      rw [e3, e1, e2, hYdec]
      ext a i
      simp only [Matrix.add_apply, Matrix.sub_apply, Matrix.smul_apply, mul_diagonal, smul_eq_mul]
      have c1 : Complex.exp (-Complex.I * (θ i : ℝ)) = Real.cos (θ i) - Real.sin (θ i) * Complex.I := by
        rw [show -Complex.I * (θ i : ℂ) = ((-θ i : ℝ) : ℂ) * Complex.I by push_cast; ring,
          Complex.exp_mul_I, ← Complex.ofReal_cos, ← Complex.ofReal_sin, Real.cos_neg, Real.sin_neg]
        push_cast; ring
      have c2 : Complex.exp (Complex.I * (θ i : ℝ)) = Real.cos (θ i) + Real.sin (θ i) * Complex.I := by
        rw [mul_comm, Complex.exp_mul_I, ← Complex.ofReal_cos, ← Complex.ofReal_sin]
      rw [c1, c2]
      linear_combination (-2 * q a i * Real.sin (θ i)) * Complex.I_mul_I
    exact smul_right_injective _ (two_ne_zero (α := ℂ)) e4
  -- the product of the reflections is an exponential
  have hexpH : (NormedSpace.exp A)ᴴ = NormedSpace.exp (-A) := by
    rw [← Matrix.exp_conjTranspose, hAskew]
  have hinv : NormedSpace.exp A * NormedSpace.exp (-A) = 1 := exp_unit A
  have hRY' : reflection Y = NormedSpace.exp A * reflection X * NormedSpace.exp (-A) := by
    rw [reflection, reflection, ← hexpX, conjTranspose_mul, hexpH, Matrix.mul_sub, Matrix.sub_mul,
      Matrix.mul_one, hinv, Matrix.mul_smul, Matrix.smul_mul]
    simp only [Matrix.mul_assoc]
  have hSA : -A * reflection X = reflection X * A := by
    have h1 := reflection_apply hXX
    have h2 := reflection_orth hXq
    have h3 : Xᴴ * reflection X = Xᴴ := by
      have := congrArg conjTranspose h1
      rwa [conjTranspose_mul, reflection_herm] at this
    have h4 : qᴴ * reflection X = -qᴴ := by
      have := congrArg conjTranspose h2
      rwa [conjTranspose_mul, reflection_herm, conjTranspose_neg] at this
    have h5 : A * reflection X = q * D * Xᴴ + X * D * qᴴ := by
      rw [hA, Matrix.sub_mul, Matrix.mul_assoc _ Xᴴ, h3, Matrix.mul_assoc _ qᴴ, h4, Matrix.mul_neg,
        sub_neg_eq_add]
    have h6 : reflection X * A = -(q * D * Xᴴ + X * D * qᴴ) := by
      rw [hA, Matrix.mul_sub]
      calc reflection X * (q * D * Xᴴ) - reflection X * (X * D * qᴴ) =
          reflection X * q * D * Xᴴ - reflection X * X * D * qᴴ := by simp only [Matrix.mul_assoc]
        _ = _ := by rw [h1, h2]; simp only [Matrix.neg_mul]; abel
    rw [h6, Matrix.neg_mul, h5]
  have hprod : reflection X * reflection Y = NormedSpace.exp ((-2 : ℝ) • A) := by
    have h1 := exp_intertwine hSA
    rw [hRY', ← Matrix.mul_assoc, ← Matrix.mul_assoc, ← h1,
      Matrix.mul_assoc _ (reflection X) (reflection X), reflection_mul_self hXX, Matrix.mul_one, ← Matrix.exp_add_of_commute _ _ (Commute.refl _)]
    congr 1
    module
  -- its eigenvalues
  obtain ⟨w, v, hv, hAd⟩ := exists_skew_diag hAskew
  have hv' : v * vᴴ = 1 := mul_eq_one_comm.mp hv
  have hsq : A * A = -(X * (D * D) * Xᴴ + q * (D * D) * qᴴ) := by
    calc A * A = A * (q * D * Xᴴ - X * D * qᴴ) := by rw [← hA]
      _ = A * q * D * Xᴴ - A * X * D * qᴴ := by rw [Matrix.mul_sub]; simp only [Matrix.mul_assoc]
      _ = _ := by rw [hAX, hAq]; simp only [Matrix.neg_mul, Matrix.mul_assoc]; abel
  have hsqv : (X * (D * D) * Xᴴ + q * (D * D) * qᴴ) * v =
      v * diagonal fun i => ((w i ^ 2 : ℝ) : ℂ) := by
    have h1 : A * A = -(v * diagonal (fun i => ((w i ^ 2 : ℝ) : ℂ)) * vᴴ) := by
      rw [hAd]
      calc v * diagonal (fun i => (w i : ℂ) * Complex.I) * vᴴ *
            (v * diagonal (fun i => (w i : ℂ) * Complex.I) * vᴴ) =
          v * diagonal (fun i => (w i : ℂ) * Complex.I) * (vᴴ * v) *
            diagonal (fun i => (w i : ℂ) * Complex.I) * vᴴ := by simp only [Matrix.mul_assoc]
        _ = v * (diagonal (fun i => -((w i ^ 2 : ℝ) : ℂ))) * vᴴ := by
            rw [hv, Matrix.mul_one, Matrix.mul_assoc v, diagonal_mul_diagonal]
            congr 3
            funext i
            push_cast
            linear_combination (w i : ℂ) ^ 2 * Complex.I_mul_I
        _ = _ := by
            rw [← diagonal_neg, Matrix.mul_neg, Matrix.neg_mul]
    have h2 : X * (D * D) * Xᴴ + q * (D * D) * qᴴ =
        v * diagonal (fun i => ((w i ^ 2 : ℝ) : ℂ)) * vᴴ := by
      have := hsq.symm.trans h1
      exact neg_injective this
    rw [h2, Matrix.mul_assoc, hv, Matrix.mul_one]
  have hXv : ∀ a i, ((θ a ^ 2 : ℝ) : ℂ) * (Xᴴ * v) a i = (Xᴴ * v) a i * ((w i ^ 2 : ℝ) : ℂ) := by
    intro a i
    have h1 := congrArg (fun M => Xᴴ * M) hsqv
    have h2 : Xᴴ * ((X * (D * D) * Xᴴ + q * (D * D) * qᴴ) * v) =
        D * D * (Xᴴ * v) := by
      calc _ = Xᴴ * X * (D * D) * (Xᴴ * v) + Xᴴ * q * (D * D) * (qᴴ * v) := by
            rw [Matrix.add_mul, Matrix.mul_add]; simp only [Matrix.mul_assoc]
        _ = _ := by rw [hXX, hXq, Matrix.one_mul, Matrix.zero_mul, Matrix.zero_mul, add_zero]
    have h3 : D * D * (Xᴴ * v) = Xᴴ * v * diagonal fun i => ((w i ^ 2 : ℝ) : ℂ) := by
      exact h2.symm.trans (h1.trans (Matrix.mul_assoc _ _ _).symm)
    have h4 := congrFun (congrFun h3 a) i
    rw [hD, diagonal_mul_diagonal, diagonal_mul, mul_diagonal] at h4
    rw [← h4]; push_cast; ring
  have hqv : ∀ a i, ((θ a ^ 2 : ℝ) : ℂ) * (qᴴ * v) a i = (qᴴ * v) a i * ((w i ^ 2 : ℝ) : ℂ) := by
    intro a i
    have h1 := congrArg (fun M => qᴴ * M) hsqv
    have h2 : qᴴ * ((X * (D * D) * Xᴴ + q * (D * D) * qᴴ) * v) =
        D * D * (qᴴ * v) := by
      calc _ = qᴴ * X * (D * D) * (Xᴴ * v) + qᴴ * q * D * D * (qᴴ * v) := by
            rw [Matrix.add_mul, Matrix.mul_add]; simp only [Matrix.mul_assoc]
        _ = _ := by rw [hqX, hqqθ, Matrix.zero_mul, Matrix.zero_mul, zero_add]
    have h3 : D * D * (qᴴ * v) = qᴴ * v * diagonal fun i => ((w i ^ 2 : ℝ) : ℂ) := by
      exact h2.symm.trans (h1.trans (Matrix.mul_assoc _ _ _).symm)
    have h4 := congrFun (congrFun h3 a) i
    rw [hD, diagonal_mul_diagonal, diagonal_mul, mul_diagonal] at h4
    rw [← h4]; push_cast; ring
  have hwbound : ∀ i, |w i| ≤ Real.pi / 2 := by
    intro i
    have hof : ∀ a, θ a ^ 2 = w i ^ 2 → |w i| ≤ Real.pi / 2 := by
      intro a ha
      have h1 := (sq_eq_sq_iff_abs_eq_abs _ _).mp ha
      rw [abs_of_nonneg (hθ0 a)] at h1
      rw [← h1]; exact hθ1 a
    have hcanc : ∀ (a : Fin p) (z : ℂ), ((θ a ^ 2 : ℝ) : ℂ) * z = z * ((w i ^ 2 : ℝ) : ℂ) → z ≠ 0 →
        |w i| ≤ Real.pi / 2 := by
      intro a z hz hne
      rw [mul_comm] at hz
      exact hof a (by exact_mod_cast mul_left_cancel₀ hne hz)
    by_cases h1 : ∃ a, (Xᴴ * v) a i ≠ 0
    · obtain ⟨a, ha⟩ := h1
      exact hcanc a _ (hXv a i) ha
    by_cases h2 : ∃ a, (qᴴ * v) a i ≠ 0
    · obtain ⟨a, ha⟩ := h2
      exact hcanc a _ (hqv a i) ha
    push Not at h1 h2
    have h3 : ∀ j, v j i * ((w i ^ 2 : ℝ) : ℂ) = 0 := by
      intro j
      have h4 := congrFun (congrFun hsqv j) i
      rw [mul_diagonal] at h4
      rw [← h4, Matrix.add_mul, Matrix.mul_assoc _ Xᴴ, Matrix.mul_assoc _ qᴴ, Matrix.add_apply,
        mul_apply, mul_apply]
      simp [h1, h2]
    have h5 : w i = 0 := by
      by_contra hne
      have h6 : ∀ j, v j i = 0 := by
        intro j
        refine (mul_eq_zero.mp (h3 j)).resolve_right ?_
        exact_mod_cast pow_ne_zero 2 hne
      have h7 := congrFun (congrFun hv i) i
      rw [mul_apply, one_apply_eq] at h7
      simp [h6] at h7
    rw [h5, abs_zero]; positivity
  -- conclusion
  have hK : NormedSpace.exp ((-2 : ℝ) • A) =
      v * diagonal (fun i => Complex.exp (((-2 * w i : ℝ) : ℂ) * Complex.I)) * vᴴ := by
    have : (-2 : ℝ) • A = v * diagonal (fun i => ((-2 * w i : ℝ) : ℂ) * Complex.I) * vᴴ := by
      rw [hAd, ← Matrix.smul_mul, ← Matrix.mul_smul, ← diagonal_smul]
      congr 3
      funext i
      rw [Pi.smul_apply, Complex.real_smul]
      push_cast; ring
    rw [this, exp_unitary_diag hv]
  rw [hprod, hK] at hL
  have hnorm := (IsLogm.sq_norm hv (fun i => Complex.norm_exp_ofReal_mul_I _) hL).2
  rw [hnorm]
  have harg : ∀ i, (Complex.exp (((-2 * w i : ℝ) : ℂ) * Complex.I)).arg ^ 2 = 4 * w i ^ 2 := by
    intro i
    have h1 := hwbound i
    by_cases h2 : -2 * w i = -Real.pi
    · have h3 : Complex.exp (((-2 * w i : ℝ) : ℂ) * Complex.I) = -1 := by
        rw [h2, Complex.ofReal_neg, neg_mul, Complex.exp_neg, Complex.exp_pi_mul_I]; norm_num
      rw [h3, Complex.arg_neg_one]
      nlinarith
    · rw [Complex.arg_exp_mul_I, (toIocMod_eq_self Real.two_pi_pos).mpr]
      · ring
      · have h3 := abs_le.mp h1
        refine ⟨lt_of_le_of_ne (by linarith) (Ne.symm h2), by linarith⟩
  simp only [harg]
  rw [← Finset.mul_sum]
  have hAA : trDot A A = ∑ i, w i ^ 2 := by rw [hAd, trDot_unitary_diag hv]
  have hθθ : trDot (q * D) (q * D) = ∑ i, θ i ^ 2 := by
    rw [trDot_mul_left, ← Matrix.mul_assoc, hqqθ, trDot_self_eq]
    refine Finset.sum_congr rfl fun i _ => ?_
    rw [Finset.sum_eq_single i]
    · rw [hD, diagonal_apply_eq, Complex.norm_real, Real.norm_eq_abs, sq_abs]
    · intro j _ hj
      rw [hD, diagonal_apply_ne _ hj.symm, norm_zero, sq, mul_zero]
    · intro h; exact absurd (Finset.mem_univ i) h
  have hA2 : trDot A A = 2 * ∑ i, θ i ^ 2 := by
    have h1 : trDot (q * D * Xᴴ) (q * D * Xᴴ) = ∑ i, θ i ^ 2 := by
      rw [trDot_mul_right (q * D) Xᴴ, conjTranspose_conjTranspose, Matrix.mul_assoc _ Xᴴ, hXX,
        Matrix.mul_one, hθθ]
    have h2 : X * D * qᴴ = (q * D * Xᴴ)ᴴ := by
      rw [conjTranspose_mul, conjTranspose_mul, conjTranspose_conjTranspose, hDH, Matrix.mul_assoc]
    have h3 : trDot (X * D * qᴴ) (X * D * qᴴ) = ∑ i, θ i ^ 2 := by
      rw [h2, trDot_conjTranspose, h1]
    have h4 : trDot (q * D * Xᴴ) (X * D * qᴴ) = 0 := by
      rw [trDot_mul_right (q * D) Xᴴ, conjTranspose_conjTranspose, Matrix.mul_assoc _ qᴴ, hqX,
        Matrix.mul_zero, trDot_inner.zero_right]
    rw [hA, trDot_inner.sub_left, trDot_inner.sub_right, trDot_inner.sub_right, h1, h3, h4,
      trDot_inner.symm (X * D * qᴴ), h4]
    ring
  rw [← hAA, hA2]; ring

/-- Principal angles as a logarithm of the product of the reflections. -/
theorem grassmann_embed {X Y : Matrix n (Fin p) ℂ} (hX : Xᴴ * X = 1) (hY : Yᴴ * Y = 1)
    {u vt : Matrix (Fin p) (Fin p) ℂ} {s : Fin p → ℝ} (h : IsSVDAny (Xᴴ * Y) u s vt)
    {L : Matrix n n ℂ} (hL : IsLogm (reflection X * reflection Y) L) :
    trDot L L = 8 * ∑ i, svdAngle (s i) ^ 2 := by
  have hs1 := cosines_le_one hX hY h
  have hs0 := h.nonneg
  set θ : Fin p → ℝ := fun i => svdAngle (s i) with hθ
  have hangle : ∀ i, θ i = Real.arccos (s i) := by
    intro i
    simp only [hθ, svdAngle]
    rw [if_neg (not_lt.mpr (hs1 i))]
  have hcos : ∀ i, Real.cos (θ i) = s i := by
    intro i
    rw [hangle, Real.cos_arccos (by linarith [hs0 i]) (hs1 i)]
  have hθ0 : ∀ i, 0 ≤ θ i := fun i => by rw [hangle]; exact Real.arccos_nonneg _
  have hθ1 : ∀ i, θ i ≤ Real.pi / 2 := fun i => by
    rw [hangle]; exact Real.arccos_le_pi_div_two.mpr (hs0 i)
  have hpi := Real.pi_pos
  have hsin0 : ∀ i, Real.sin (θ i) = 0 → θ i = 0 := by
    intro i hi
    by_contra hne
    have hpos : 0 < θ i := lt_of_le_of_ne (hθ0 i) (Ne.symm hne)
    exact (Real.sin_pos_of_pos_of_lt_pi hpos (by linarith [hθ1 i])).ne' hi
  -- principal vectors
  have hu' : u * uᴴ = 1 := mul_eq_one_comm.mp h.orthU
  have hvt' : vtᴴ * vt = 1 := mul_eq_one_comm.mp h.orthV
  set X' := X * u with hX'
  set Y' := Y * vtᴴ with hY'
  have hXX : X'ᴴ * X' = 1 := by
    rw [hX', conjTranspose_mul, Matrix.mul_assoc, ← Matrix.mul_assoc Xᴴ, hX, Matrix.one_mul, h.orthU]
  have hYY : Y'ᴴ * Y' = 1 := by
    rw [hY', conjTranspose_mul, conjTranspose_conjTranspose, Matrix.mul_assoc, ← Matrix.mul_assoc Yᴴ,
      hY, Matrix.one_mul, h.orthV]
  have hRX : reflection X = reflection X' := by
    rw [reflection, reflection, hX', conjTranspose_mul, Matrix.mul_assoc, ← Matrix.mul_assoc u, hu',
      Matrix.one_mul]
  have hRY : reflection Y = reflection Y' := by
    rw [reflection, reflection, hY', conjTranspose_mul, conjTranspose_conjTranspose,
      Matrix.mul_assoc, ← Matrix.mul_assoc vtᴴ, hvt', Matrix.one_mul]
  set dc : Matrix (Fin p) (Fin p) ℂ := diagonal fun i => (s i : ℂ) with hdc
  have hXY : X'ᴴ * Y' = dc := by
    rw [hX', hY', conjTranspose_mul]
    calc uᴴ * Xᴴ * (Y * vtᴴ) = uᴴ * (Xᴴ * Y) * vtᴴ := by simp only [Matrix.mul_assoc]
      _ = (uᴴ * u) * dc * (vt * vtᴴ) := by
          rw [h.prod]; simp only [Matrix.mul_assoc]; rfl
      _ = dc := by rw [h.orthU, h.orthV, Matrix.one_mul, Matrix.mul_one]
  have hrdiag : ∀ f : Fin p → ℝ, (diagonal fun i => ((f i : ℝ) : ℂ))ᴴ =
      (diagonal fun i => ((f i : ℝ) : ℂ) : Matrix (Fin p) (Fin p) ℂ) := by
    intro f
    rw [diagonal_conjTranspose]; congr 1; funext i
    exact Complex.conj_ofReal _
  set r := Y' - X' * dc with hr
  have hXr : X'ᴴ * r = 0 := by
    rw [hr, Matrix.mul_sub, hXY, ← Matrix.mul_assoc, hXX, Matrix.one_mul, sub_self]
  have hrr : rᴴ * r = diagonal fun i => ((Real.sin (θ i) ^ 2 : ℝ) : ℂ) := by
    have h1 := residual_gram hXX hYY
    rw [hXY] at h1
    rw [hr, h1, hdc, hrdiag, diagonal_mul_diagonal, ← diagonal_one, diagonal_sub]
    congr 1; funext i
    rw [Real.sin_sq, hcos]; push_cast; ring
  set ds : Matrix (Fin p) (Fin p) ℂ := diagonal fun i => ((Real.sin (θ i) : ℝ) : ℂ) with hds
  set di : Matrix (Fin p) (Fin p) ℂ := diagonal fun i => (((Real.sin (θ i))⁻¹ : ℝ) : ℂ) with hdi
  set dθ : Matrix (Fin p) (Fin p) ℂ := diagonal fun i => ((θ i : ℝ) : ℂ) with hdθ
  set q := r * di with hq
  have hXq : X'ᴴ * q = 0 := by rw [hq, ← Matrix.mul_assoc, hXr, Matrix.zero_mul]
  have hqq : qᴴ * q = diagonal fun i => ((if Real.sin (θ i) = 0 then 0 else 1 : ℝ) : ℂ) := by
    rw [hq, conjTranspose_mul, Matrix.mul_assoc, ← Matrix.mul_assoc rᴴ, hrr, hdi, hrdiag,
      diagonal_mul_diagonal, diagonal_mul_diagonal]
    congr 1; funext i
    rw [← Complex.ofReal_mul, ← Complex.ofReal_mul]
    congr 1
    split_ifs with h0
    · rw [h0]; simp
    · field_simp
  have hqqθ : qᴴ * q * dθ = dθ := by
    rw [hqq, hdθ, diagonal_mul_diagonal]
    congr 1; funext i
    split_ifs with h0
    · rw [hsin0 i h0]; simp
    · simp
  have hYdec : Y' = X' * dc + q * ds := by
    have h1 : r - q * ds = 0 := by
      -- columns with zero sine vanish
      ext a i
      have h2 : (q * ds) a i = r a i * (((Real.sin (θ i))⁻¹ * Real.sin (θ i) : ℝ) : ℂ) := by
        rw [hq, hds, hdi, Matrix.mul_assoc, diagonal_mul_diagonal, mul_diagonal]
        push_cast; rfl
      rw [Matrix.sub_apply, h2, Matrix.zero_apply]
      by_cases h0 : Real.sin (θ i) = 0
      · have h3 := congrFun (congrFun hrr i) i
        rw [gram_apply_self, diagonal_apply_eq, h0] at h3
        have h4 : ∑ l, ‖r l i‖ ^ 2 = 0 := by
          have : ((∑ l, ‖r l i‖ ^ 2 : ℝ) : ℂ) = ((0 ^ 2 : ℝ) : ℂ) := h3
          have := Complex.ofReal_injective this
          simpa using this
        have h5 := (Finset.sum_eq_zero_iff_of_nonneg fun l _ => sq_nonneg ‖r l i‖).mp h4 a
          (Finset.mem_univ a)
        have h6 : r a i = 0 := by simpa using h5
        rw [h6]; simp
      · rw [inv_mul_cancel₀ h0]; simp
    rw [← sub_eq_zero.mp h1, hr]; abel
  rw [hRX, hRY] at hL
  refine rotation_log (D := dθ) hdθ hXX hXq hqqθ hθ0 hθ1 ?_ hL
  simp only [hcos]
  exact hYdec

/-- Triangle inequality of the vectors of principal angles, over the complex numbers. -/
theorem grassmann_triangle {X Y Z : Matrix n (Fin p) ℂ} (hX : Xᴴ * X = 1) (hY : Yᴴ * Y = 1)
    (hZ : Zᴴ * Z = 1) {u₁ vt₁ u₂ vt₂ u₃ vt₃ : Matrix (Fin p) (Fin p) ℂ} {s₁ s₂ s₃ : Fin p → ℝ}
    (h₁ : IsSVDAny (Xᴴ * Y) u₁ s₁ vt₁) (h₂ : IsSVDAny (Yᴴ * Z) u₂ s₂ vt₂)
    (h₃ : IsSVDAny (Xᴴ * Z) u₃ s₃ vt₃) :
    Real.sqrt (∑ i, svdAngle (s₃ i) ^ 2) ≤
      Real.sqrt (∑ i, svdAngle (s₁ i) ^ 2) + Real.sqrt (∑ i, svdAngle (s₂ i) ^ 2) := by
  have huni : ∀ {A B : Matrix n (Fin p) ℂ}, Aᴴ * A = 1 → Bᴴ * B = 1 →
      (reflection A * reflection B)ᴴ * (reflection A * reflection B) = 1 := by
    intro A B hA hB
    rw [conjTranspose_mul, reflection_herm, reflection_herm, Matrix.mul_assoc,
      ← Matrix.mul_assoc (reflection A), reflection_mul_self hA, Matrix.one_mul,
      reflection_mul_self hB]
  obtain ⟨L₁, hL₁⟩ := exists_isLogm (huni hX hY)
  obtain ⟨L₂, hL₂⟩ := exists_isLogm (huni hY hZ)
  obtain ⟨L₃, hL₃⟩ := exists_isLogm (huni hX hZ)
  have e : reflection X * reflection Z = reflection X * reflection Y * NormedSpace.exp L₂ := by
    rw [hL₂.exp, Matrix.mul_assoc, ← Matrix.mul_assoc (reflection Y), reflection_mul_self hY,
      Matrix.one_mul]
  have hL₃' := hL₃
  rw [e] at hL₃'
  have h := unitary_triangle (huni hX hY) (hL₂.skew (huni hY hZ)) hL₁ hL₃'
  rw [grassmann_embed hX hY h₁ hL₁, grassmann_embed hY hZ h₂ hL₂, grassmann_embed hX hZ h₃ hL₃,
    Real.sqrt_mul (by norm_num), Real.sqrt_mul (by norm_num), Real.sqrt_mul (by norm_num),
    ← mul_add] at h
  exact le_of_mul_le_mul_left h (Real.sqrt_pos.mpr (by norm_num))

end

end Verif.Geo
