/-
C87–C90, C55 and C101 for the Poincaré ball.
-/
import Verif.Geo.Model.Hyperbolic
import Verif.Geo.Props.Euclidean
import Mathlib.Analysis.SpecialFunctions.Trigonometric.DerivHyp
import Mathlib.Tactic.FieldSimp
import Mathlib.Tactic.LinearCombination

namespace Verif.Geo
open scoped BigOperators

variable {κ ι : Type*} [Fintype κ] [Fintype ι]

/-- Points of one open unit ball. -/
def InBall (x : ι → ℝ) : Prop := ∑ i, x i ^ 2 < 1

theorem InBall.dot {x : ι → ℝ} (h : InBall x) : tensordot x x < 1 := by
  simpa [tensordot, InBall, sq] using h

theorem inBall_iff (x : ι → ℝ) : InBall x ↔ tensordot x x < 1 := by
  simp [tensordot, InBall, sq]

theorem inBall_neg {x : ι → ℝ} (h : InBall x) : InBall (-x) := by simpa [InBall] using h

theorem inBall_norm (x : ι → ℝ) : InBall x ↔ npNorm x < 1 := by
  rw [inBall_iff, ← npNorm_sq_real, sq_lt_one_iff₀ (npNorm_nonneg x)]

theorem factor_pos {x : ι → ℝ} (h : InBall x) : 0 < pbFactor x :=
  div_pos two_pos (by linarith [h.dot])

theorem tensordot_neg_left (a b : ι → ℝ) : tensordot (-a) b = -tensordot a b :=
  tensordot_inner.neg_left a b

theorem tensordot_neg_neg (a b : ι → ℝ) : tensordot (-a) (-b) = tensordot a b := by
  rw [tensordot_inner.neg_left, tensordot_inner.neg_right, neg_neg]

/-! ### Möbius addition -/

/-- Denominator of the Möbius sum. -/
def mobDen (a b : ι → ℝ) : ℝ := 1 + 2 * tensordot a b + tensordot a a * tensordot b b

theorem mobius_eq (a b : ι → ℝ) : pbMobius a b =
    ((1 + 2 * tensordot a b + tensordot b b) / mobDen a b) • a +
      ((1 - tensordot a a) / mobDen a b) • b := by
  funext i
  simp only [pbMobius, Pi.add_apply, Pi.smul_apply, smul_eq_mul, mobDen]
  ring

theorem mobDen_pos {a b : ι → ℝ} (ha : InBall a) (hb : InBall b) : 0 < mobDen a b := by
  have h1 := tensordot_inner.cauchy a b
  have h2 := ha.dot
  have h3 := hb.dot
  have h4 := tensordot_inner.nonneg a
  have h5 := tensordot_inner.nonneg b
  -- `D ≥ (1 - |a| |b|)²`
  set p := Real.sqrt (tensordot a a * tensordot b b) with hp
  have hp0 : 0 ≤ p := Real.sqrt_nonneg _
  have hp2 : p ^ 2 = tensordot a a * tensordot b b := Real.sq_sqrt (mul_nonneg h4 h5)
  have hp1 : p < 1 := by
    rw [← sq_lt_one_iff₀ hp0, hp2]
    nlinarith
  have hz : -p ≤ tensordot a b := by
    have : |tensordot a b| ≤ p := by
      rw [hp]; exact Real.abs_le_sqrt h1
    exact (abs_le.mp this).1
  rw [mobDen, ← hp2]
  nlinarith [sq_nonneg (1 - p), mul_pos (sub_pos.mpr hp1) (sub_pos.mpr hp1)]

theorem mobius_dot {a b : ι → ℝ} (h : mobDen a b ≠ 0) :
    tensordot (pbMobius a b) (pbMobius a b) =
      (tensordot a a + 2 * tensordot a b + tensordot b b) / mobDen a b := by
  rw [mobius_eq]
  simp only [tensordot_inner.add_left, tensordot_inner.add_right, tensordot_inner.smul_left,
    tensordot_inner.smul_right, tensordot_inner.symm b a]
  rw [eq_div_iff h]
  field_simp
  rw [mobDen]
  ring

/-- Gap to the boundary of a Möbius sum. -/
theorem mobius_gap {a b : ι → ℝ} (h : mobDen a b ≠ 0) :
    1 - tensordot (pbMobius a b) (pbMobius a b) =
      (1 - tensordot a a) * (1 - tensordot b b) / mobDen a b := by
  rw [mobius_dot h, eq_div_iff h, sub_mul, div_mul_cancel₀ _ h, mobDen]
  ring

/-- C87: the sum of two points of the ball is computed without division by zero and stays in it. -/
theorem C87_mobius {a b : ι → ℝ} (ha : InBall a) (hb : InBall b) :
    0 < 1 + 2 * (∑ i, a i * b i) + (∑ i, a i * a i) * (∑ i, b i * b i) ∧ InBall (pbMobius a b) := by
  have h := mobDen_pos ha hb
  refine ⟨h, ?_⟩
  rw [inBall_iff]
  have h1 := mobius_gap h.ne'
  have h2 := div_pos (mul_pos (sub_pos.mpr ha.dot) (sub_pos.mpr hb.dot)) h
  linarith

/-- C87: zero is neutral, `-a` is inverse, and sums cancel on the left. -/
theorem C87_gyrogroup {a b : ι → ℝ} (ha : InBall a) (hb : InBall b) :
    pbMobius 0 a = a ∧ pbMobius a 0 = a ∧ pbMobius (-a) a = 0 ∧
      pbMobius (-a) (pbMobius a b) = b := by
  have hx : 1 - tensordot a a ≠ 0 := (sub_pos.mpr ha.dot).ne'
  refine ⟨?_, ?_, ?_, ?_⟩
  · funext i; simp [pbMobius, tensordot_inner.zero_left]
  · funext i; simp [pbMobius, tensordot_inner.zero_right]
  · funext i
    simp only [pbMobius, tensordot_neg_neg, tensordot_neg_left a a, Pi.neg_apply, Pi.zero_apply]
    ring
  · have hD := (mobDen_pos ha hb).ne'
    have h1 : tensordot a (pbMobius a b) = ((1 + 2 * tensordot a b + tensordot b b) * tensordot a a +
        (1 - tensordot a a) * tensordot a b) / mobDen a b := by
      rw [mobius_eq, tensordot_inner.add_right, tensordot_inner.smul_right,
        tensordot_inner.smul_right]
      ring
    have h2 := mobius_dot hD
    have hD' : mobDen (-a) (pbMobius a b) = (1 - tensordot a a) ^ 2 / mobDen a b := by
      rw [mobDen, tensordot_neg_left, tensordot_neg_neg, h1, h2, eq_div_iff hD]
      field_simp
      rw [mobDen]
      ring
    have hx2 : (1 - tensordot a a) ^ 2 ≠ 0 := pow_ne_zero 2 hx
    rw [mobius_eq (-a), hD', tensordot_neg_left, tensordot_neg_neg, h1, h2]
    funext i
    rw [mobius_eq]
    simp only [Pi.add_apply, Pi.smul_apply, Pi.neg_apply, smul_eq_mul]
    field_simp
    rw [mobDen]
    ring

/-- Möbius translations preserve `|b - c|² / ((1 - |b|²) (1 - |c|²))`. -/
theorem mobius_diff {a b c : ι → ℝ} (hb : mobDen a b ≠ 0) (hc : mobDen a c ≠ 0) :
    tensordot (pbMobius a b - pbMobius a c) (pbMobius a b - pbMobius a c) =
      (1 - tensordot a a) ^ 2 * tensordot (b - c) (b - c) / (mobDen a b * mobDen a c) := by
  rw [eq_div_iff (mul_ne_zero hb hc)]
  have h1 : tensordot (pbMobius a b) (pbMobius a c) * (mobDen a b * mobDen a c) =
      (1 + 2 * tensordot a b + tensordot b b) * (1 + 2 * tensordot a c + tensordot c c) *
        tensordot a a +
      (1 + 2 * tensordot a b + tensordot b b) * (1 - tensordot a a) * tensordot a c +
      (1 + 2 * tensordot a c + tensordot c c) * (1 - tensordot a a) * tensordot a b +
      (1 - tensordot a a) ^ 2 * tensordot b c := by
    rw [mobius_eq a b, mobius_eq a c]
    simp only [tensordot_inner.add_left, tensordot_inner.add_right, tensordot_inner.smul_left,
      tensordot_inner.smul_right, tensordot_inner.symm b a]
    field_simp
    ring
  have h2 := mobius_dot hb
  have h3 := mobius_dot hc
  rw [eq_div_iff hb] at h2
  rw [eq_div_iff hc] at h3
  rw [tensordot_inner.sub_left, tensordot_inner.sub_right, tensordot_inner.sub_right,
    tensordot_inner.symm (pbMobius a c), tensordot_inner.sub_left, tensordot_inner.sub_right,
    tensordot_inner.sub_right, tensordot_inner.symm c b]
  have e : (tensordot (pbMobius a b) (pbMobius a b) - tensordot (pbMobius a b) (pbMobius a c) -
      (tensordot (pbMobius a b) (pbMobius a c) - tensordot (pbMobius a c) (pbMobius a c))) *
      (mobDen a b * mobDen a c) =
      tensordot (pbMobius a b) (pbMobius a b) * mobDen a b * mobDen a c -
      2 * (tensordot (pbMobius a b) (pbMobius a c) * (mobDen a b * mobDen a c)) +
      tensordot (pbMobius a c) (pbMobius a c) * mobDen a c * mobDen a b := by ring
  rw [e, h1, h2, h3, mobDen, mobDen]
  ring

/-! ### C87: operations stay in the ball -/

theorem npNorm_expArg (x v : ι → ℝ) (hx : InBall x) :
    npNorm (fun i => v i * (Real.tanh (npNorm v * pbFactor x / 2) /
      (npNorm v + if npNorm v = 0 then 1 else 0))) = Real.tanh (npNorm v * pbFactor x / 2) := by
  have h0 := npNorm_nonneg v
  have ht : 0 ≤ Real.tanh (npNorm v * pbFactor x / 2) := by
    rw [Real.tanh_eq_sinh_div_cosh]
    exact div_nonneg (Real.sinh_nonneg_iff.mpr (by have := factor_pos hx; positivity))
      (Real.cosh_pos _).le
  have e : (fun i => v i * (Real.tanh (npNorm v * pbFactor x / 2) /
      (npNorm v + if npNorm v = 0 then 1 else 0))) = (Real.tanh (npNorm v * pbFactor x / 2) /
      (npNorm v + if npNorm v = 0 then 1 else 0)) • v := by
    funext i; simp [mul_comm]
  rw [e, npNorm_smul]
  by_cases h : npNorm v = 0
  · simp [h]
  · rw [if_neg h, add_zero, abs_div, abs_of_nonneg ht, abs_of_nonneg h0, div_mul_cancel₀ _ h]

theorem expArg_inBall (x v : ι → ℝ) (hx : InBall x) :
    InBall (fun i => v i * (Real.tanh (npNorm v * pbFactor x / 2) /
      (npNorm v + if npNorm v = 0 then 1 else 0))) := by
  rw [inBall_norm, npNorm_expArg x v hx]
  exact Real.tanh_lt_one _

theorem exp1_inBall {x : ι → ℝ} (v : ι → ℝ) (hx : InBall x) : InBall (pbExp1 x v) :=
  (C87_mobius hx (expArg_inBall x v hx)).2

/-- Points of the product of balls. -/
def InBalls (X : κ → ι → ℝ) : Prop := ∀ k, InBall (X k)

omit [Fintype κ] in
/-- C87: `exp` of any vector, midpoints and random points stay in the ball; `exp` returns the point
at zero. -/
theorem C87_stays (X V : κ → ι → ℝ) (hX : InBalls X) :
    InBalls (pbExp X V) ∧ pbExp X (pbZero X) = X ∧
      (∀ (B : κ → ι → ℝ) k m, pbPairMean X B k = some m → InBall m) ∧
      ∀ (n : ℕ) (array : κ → ι → ℝ) (u : κ → ℝ), 1 ≤ n → (∀ k, array k ≠ 0) →
        (∀ k, 0 ≤ u k ∧ u k < 1) → InBalls (pbRandomPoint n array u) := by
  refine ⟨fun k => exp1_inBall _ (hX k), ?_, ?_, ?_⟩
  · funext k
    have : pbExp1 (X k) 0 = pbMobius (X k) 0 := by
      rw [pbExp1]; congr 1; funext i; simp
    rw [pbExp, pbZero, Pi.zero_apply, this]
    exact (C87_gyrogroup (hX k) (hX k)).2.1
  · intro B k m hm
    rw [pbPairMean, Option.map_eq_some_iff] at hm
    obtain ⟨v, -, rfl⟩ := hm
    exact exp1_inBall _ (hX k)
  · intro n array u hn ha hu k
    have h1 : npNorm (array k) ≠ 0 := fun h => ha k ((npNorm_eq_zero _).mp h)
    rw [inBall_norm]
    have e : pbRandomPoint n array u k =
        (u k ^ ((1 : ℝ) / n)) • ((npNorm (array k))⁻¹ • array k) := by
      funext i
      simp only [pbRandomPoint, Pi.smul_apply, smul_eq_mul]
      ring
    rw [e, npNorm_smul, npNorm_inv_smul (ha k), mul_one, abs_of_nonneg (Real.rpow_nonneg (hu k).1 _)]
    refine Real.rpow_lt_one (hu k).1 (hu k).2 ?_
    have : (0 : ℝ) < n := by exact_mod_cast hn
    positivity

/-! ### C88 -/

theorem cosh_two_artanh {r : ℝ} (h0 : 0 ≤ r) (h1 : r < 1) :
    Real.cosh (2 * Real.artanh r) = 1 + 2 * (r ^ 2 / (1 - r ^ 2)) := by
  have hm : r ∈ Set.Ioo (-1 : ℝ) 1 := ⟨by linarith, h1⟩
  have hp : 0 < 1 - r ^ 2 := by nlinarith
  rw [Real.cosh_two_mul, Real.cosh_sq, Real.sinh_artanh hm, div_pow, Real.sq_sqrt hp.le]
  ring

theorem dist1_eq {a b : ι → ℝ} (ha : InBall a) (hb : InBall b) :
    pbDist1 a b = 2 * Real.artanh (npNorm (pbMobius (-a) b)) := by
  have ha' := inBall_neg ha
  have hD := mobDen_pos ha' hb
  have hr0 := npNorm_nonneg (pbMobius (-a) b)
  have hr1 := (inBall_norm _).mp (C87_mobius ha' hb).2
  have h1 : 1 + 2 * npNorm (a - b) ^ 2 / ((1 - npNorm a ^ 2) * (1 - npNorm b ^ 2)) =
      Real.cosh (2 * Real.artanh (npNorm (pbMobius (-a) b))) := by
    rw [cosh_two_artanh hr0 hr1, npNorm_sq_real, npNorm_sq_real, npNorm_sq_real, npNorm_sq_real,
      mobius_gap hD.ne', mobius_dot hD.ne', tensordot_neg_neg, tensordot_neg_left,
      tensordot_inner.sub_left, tensordot_inner.sub_right, tensordot_inner.sub_right,
      tensordot_inner.symm b a]
    have e1 := (sub_pos.mpr ha.dot).ne'
    have e2 := (sub_pos.mpr hb.dot).ne'
    have e3 := hD.ne'
    field_simp
    ring
  have h2 : 0 ≤ 2 * Real.artanh (npNorm (pbMobius (-a) b)) := by
    have := Real.artanh_nonneg hr0; linarith
  rw [pbDist1]
  rw [h1, Real.arcosh_cosh h2]

theorem mobius_eq_zero {a b : ι → ℝ} (ha : InBall a) (hb : InBall b) :
    npNorm (pbMobius (-a) b) = 0 ↔ a = b := by
  rw [npNorm_eq_zero]
  constructor
  · intro h
    have h1 := (C87_gyrogroup (inBall_neg ha) hb).2.2.2
    rw [h, neg_neg, (C87_gyrogroup ha hb).2.1] at h1
    exact h1
  · rintro rfl
    exact (C87_gyrogroup ha hb).2.2.1

theorem log1_eq {a b : ι → ℝ} (ha : InBall a) (hb : InBall b) (hab : a ≠ b) :
    pbLog1 a b = some ((Real.artanh (npNorm (pbMobius (-a) b)) / npNorm (pbMobius (-a) b) /
      (pbFactor a / 2)) • pbMobius (-a) b) := by
  have h : npNorm (pbMobius (-a) b) ≠ 0 := fun h => hab ((mobius_eq_zero ha hb).mp h)
  rw [pbLog1]
  simp only [if_neg h]
  congr 1
  funext i
  simp only [Pi.smul_apply, smul_eq_mul]
  ring

theorem norm_log1 {a b v : ι → ℝ} (ha : InBall a) (hb : InBall b) (h : pbLog1 a b = some v) :
    npNorm v * pbFactor a = pbDist1 a b := by
  have hab : a ≠ b := by
    rintro rfl
    have := (mobius_eq_zero ha ha).mpr rfl
    rw [pbLog1] at h
    simp [this] at h
  rw [log1_eq ha hb hab] at h
  obtain rfl := Option.some.inj h
  have hn : npNorm (pbMobius (-a) b) ≠ 0 := fun h => hab ((mobius_eq_zero ha hb).mp h)
  have h0 := npNorm_nonneg (pbMobius (-a) b)
  have hf := factor_pos ha
  rw [npNorm_smul, dist1_eq ha hb, abs_of_nonneg]
  · field_simp
  · have := Real.artanh_nonneg h0
    positivity

theorem exp1_log1 {a b v : ι → ℝ} (ha : InBall a) (hb : InBall b) (h : pbLog1 a b = some v) :
    pbExp1 a v = b := by
  have hab : a ≠ b := by
    rintro rfl
    have := (mobius_eq_zero ha ha).mpr rfl
    rw [pbLog1] at h
    simp [this] at h
  have hn : npNorm (pbMobius (-a) b) ≠ 0 := fun h => hab ((mobius_eq_zero ha hb).mp h)
  have h0 := npNorm_nonneg (pbMobius (-a) b)
  have h1 := (inBall_norm _).mp (C87_mobius (inBall_neg ha) hb).2
  have hf := factor_pos ha
  have hnv := norm_log1 ha hb h
  rw [dist1_eq ha hb] at hnv
  have hA : Real.artanh (npNorm (pbMobius (-a) b)) ≠ 0 :=
    (Real.artanh_pos ⟨lt_of_le_of_ne h0 hn.symm, h1⟩).ne'
  have hnv0 : npNorm v ≠ 0 := by
    intro h; rw [h, zero_mul] at hnv; exact hA (by linarith)
  have h2 : Real.tanh (npNorm v * pbFactor a / 2) = npNorm (pbMobius (-a) b) := by
    rw [hnv, mul_div_cancel_left₀ _ two_ne_zero, Real.tanh_artanh ⟨by linarith, h1⟩]
  have h3 : npNorm v = 2 * Real.artanh (npNorm (pbMobius (-a) b)) / pbFactor a := by
    rw [← hnv]; field_simp
  have h4 : (fun i => v i * (Real.tanh (npNorm v * pbFactor a / 2) /
      (npNorm v + if npNorm v = 0 then 1 else 0))) = pbMobius (-a) b := by
    funext i
    rw [h2, if_neg hnv0, add_zero, h3]
    rw [log1_eq ha hb hab] at h
    obtain rfl := Option.some.inj h
    simp only [Pi.smul_apply, smul_eq_mul]
    field_simp
  have h5 := (C87_gyrogroup (inBall_neg ha) hb).2.2.2
  rw [neg_neg] at h5
  rw [pbExp1]
  rw [h4, h5]

theorem log1_exp1 {a v : ι → ℝ} (ha : InBall a) (hv : v ≠ 0) : pbLog1 a (pbExp1 a v) = some v := by
  have hn : npNorm v ≠ 0 := fun h => hv ((npNorm_eq_zero v).mp h)
  have hf := factor_pos ha
  set w : ι → ℝ := fun i => v i * (Real.tanh (npNorm v * pbFactor a / 2) /
      (npNorm v + if npNorm v = 0 then 1 else 0)) with hw
  have hwB : InBall w := expArg_inBall a v ha
  have h1 : pbMobius (-a) (pbExp1 a v) = w := (C87_gyrogroup ha hwB).2.2.2
  have h2 : npNorm w = Real.tanh (npNorm v * pbFactor a / 2) := npNorm_expArg a v ha
  have ht : Real.tanh (npNorm v * pbFactor a / 2) ≠ 0 := by
    intro h0
    have h3 : Real.tanh (npNorm v * pbFactor a / 2) = Real.tanh 0 := by rw [h0, Real.tanh_zero]
    have := Real.tanh_injective h3
    have h4 : npNorm v * pbFactor a ≠ 0 := mul_ne_zero hn hf.ne'
    apply h4; linarith
  rw [pbLog1]
  rw [h1, h2, if_neg ht, Real.artanh_tanh]
  congr 1
  funext i
  rw [hw]
  simp only [if_neg hn, add_zero]
  field_simp

/-- The metric is a weighted sum over the balls. -/
theorem pbInner_eq (X A B : κ → ι → ℝ) :
    pbInner X A B = ∑ k, pbFactor (X k) ^ 2 * tensordot (A k) (B k) := by
  rw [pbInner, tensordot, Fintype.sum_prod_type]
  refine Finset.sum_congr rfl fun k _ => ?_
  rw [tensordot, Finset.mul_sum]
  refine Finset.sum_congr rfl fun i _ => ?_
  ring

/-- C88: for points that differ in every ball `log` is defined, `exp` takes it to the target, and its
norm is the distance. -/
theorem C88_exp_log (A B : κ → ι → ℝ) (hA : InBalls A) (hB : InBalls B) (hne : ∀ k, A k ≠ B k) :
    ∃ L : κ → ι → ℝ, (∀ k, pbLog A B k = some (L k)) ∧ pbExp A L = B ∧ pbNorm A L = pbDist A B := by
  refine ⟨fun k => _, fun k => log1_eq (hA k) (hB k) (hne k), ?_, ?_⟩
  · funext k
    exact exp1_log1 (hA k) (hB k) (log1_eq (hA k) (hB k) (hne k))
  · rw [pbNorm, pbInner_eq, pbDist, npNorm]
    congr 1
    refine Finset.sum_congr rfl fun k _ => ?_
    rw [← norm_log1 (hA k) (hB k) (log1_eq (hA k) (hB k) (hne k)), Real.norm_eq_abs, sq_abs, mul_pow,
      npNorm_sq_real]
    ring

theorem dist1_exp1 {a : ι → ℝ} (v : ι → ℝ) (ha : InBall a) :
    pbDist1 a (pbExp1 a v) = npNorm v * pbFactor a := by
  have h1 : pbMobius (-a) (pbExp1 a v) = _ := (C87_gyrogroup ha (expArg_inBall a v ha)).2.2.2
  rw [dist1_eq ha (exp1_inBall v ha), h1, npNorm_expArg a v ha, Real.artanh_tanh]
  ring

/-- C88: the distance to `exp(A, V)` is the norm of `V`; `log` returns `V` where it is not zero. -/
theorem C88_log_exp (A V : κ → ι → ℝ) (hA : InBalls A) :
    pbDist A (pbExp A V) = pbNorm A V ∧ ∀ k, V k ≠ 0 → pbLog A (pbExp A V) k = some (V k) := by
  refine ⟨?_, fun k hk => log1_exp1 (hA k) hk⟩
  rw [pbNorm, pbInner_eq, pbDist, npNorm]
  congr 1
  refine Finset.sum_congr rfl fun k _ => ?_
  have : pbDist1 (A k) (pbExp A V k) = _ := dist1_exp1 (V k) (hA k)
  rw [this, Real.norm_eq_abs, sq_abs, mul_pow, npNorm_sq_real]
  ring

theorem cosh_dist1 {a b : ι → ℝ} (ha : InBall a) (hb : InBall b) :
    Real.cosh (pbDist1 a b) = 1 + 2 * (tensordot (a - b) (a - b) /
      ((1 - tensordot a a) * (1 - tensordot b b))) := by
  have e1 := sub_pos.mpr ha.dot
  have e2 := sub_pos.mpr hb.dot
  have h := tensordot_inner.nonneg (a - b)
  rw [pbDist1]
  rw [Real.cosh_arcosh, npNorm_sq_real, npNorm_sq_real, npNorm_sq_real]
  · ring
  · rw [npNorm_sq_real, npNorm_sq_real, npNorm_sq_real]
    have : 0 ≤ 2 * tensordot (a - b) (a - b) / ((1 - tensordot a a) * (1 - tensordot b b)) := by
      positivity
    linarith

theorem dist1_nonneg {a b : ι → ℝ} (ha : InBall a) (hb : InBall b) : 0 ≤ pbDist1 a b := by
  rw [dist1_eq ha hb]
  have := Real.artanh_nonneg (npNorm_nonneg (pbMobius (-a) b))
  linarith

theorem dist1_of_cosh {a b : ι → ℝ} (ha : InBall a) (hb : InBall b) {d : ℝ} (hd : 0 ≤ d)
    (h : Real.cosh (pbDist1 a b) ≤ Real.cosh d) : pbDist1 a b ≤ d := by
  rw [Real.cosh_le_cosh, abs_of_nonneg (dist1_nonneg ha hb), abs_of_nonneg hd] at h
  exact h

/-- Möbius translations are isometries. -/
theorem dist1_translate {a b c : ι → ℝ} (ha : InBall a) (hb : InBall b) (hc : InBall c) :
    pbDist1 (pbMobius a b) (pbMobius a c) = pbDist1 b c := by
  have h1 := mobDen_pos ha hb
  have h2 := mobDen_pos ha hc
  have hB := (C87_mobius ha hb).2
  have hC := (C87_mobius ha hc).2
  have h : Real.cosh (pbDist1 (pbMobius a b) (pbMobius a c)) = Real.cosh (pbDist1 b c) := by
    rw [cosh_dist1 hB hC, cosh_dist1 hb hc, mobius_gap h1.ne', mobius_gap h2.ne',
      mobius_diff h1.ne' h2.ne']
    have e0 := (sub_pos.mpr ha.dot).ne'
    have e1 := (sub_pos.mpr hb.dot).ne'
    have e2 := (sub_pos.mpr hc.dot).ne'
    have := h1.ne'
    have := h2.ne'
    field_simp
  exact le_antisymm (dist1_of_cosh hB hC (dist1_nonneg hb hc) h.le)
    (dist1_of_cosh hb hc (dist1_nonneg hB hC) h.ge)

theorem dist1_zero {b : ι → ℝ} (hb : InBall b) : pbDist1 0 b = 2 * Real.artanh (npNorm b) := by
  have h0 : InBall (0 : ι → ℝ) := by simp [InBall]
  rw [dist1_eq h0 hb, neg_zero, (C87_gyrogroup hb h0).1]

theorem dist1_symm (a b : ι → ℝ) : pbDist1 a b = pbDist1 b a := by
  rw [pbDist1, pbDist1]
  rw [← npNorm_neg (a - b), neg_sub, mul_comm (1 - npNorm a ^ 2)]

theorem dist1_triangle {a b c : ι → ℝ} (ha : InBall a) (hb : InBall b) (hc : InBall c) :
    pbDist1 a c ≤ pbDist1 a b + pbDist1 b c := by
  have hb' := inBall_neg hb
  have h0 : InBall (0 : ι → ℝ) := by simp [InBall]
  set u := pbMobius (-b) a
  set v := pbMobius (-b) c
  have hu : InBall u := (C87_mobius hb' ha).2
  have hv : InBall v := (C87_mobius hb' hc).2
  have e1 : pbDist1 a c = pbDist1 u v := (dist1_translate hb' ha hc).symm
  have ez : pbMobius (-b) b = 0 := (C87_gyrogroup hb hb).2.2.1
  have e2 : pbDist1 a b = 2 * Real.artanh (npNorm u) := by
    rw [← dist1_translate hb' ha hb, ez, dist1_symm, dist1_zero hu]
  have e3 : pbDist1 b c = 2 * Real.artanh (npNorm v) := by
    rw [← dist1_translate hb' hb hc, ez, dist1_zero hv]
  have nu := npNorm_nonneg u
  have nv := npNorm_nonneg v
  have mu : npNorm u ∈ Set.Ioo (-1 : ℝ) 1 := ⟨by linarith, (inBall_norm u).mp hu⟩
  have mv : npNorm v ∈ Set.Ioo (-1 : ℝ) 1 := ⟨by linarith, (inBall_norm v).mp hv⟩
  rw [e1, e2, e3]
  refine dist1_of_cosh hu hv ?_ ?_
  · have := Real.artanh_nonneg nu
    have := Real.artanh_nonneg nv
    linarith
  · rw [cosh_dist1 hu hv, ← mul_add, Real.cosh_two_mul, Real.cosh_sq, Real.sinh_add,
      Real.sinh_artanh mu, Real.sinh_artanh mv, Real.cosh_artanh mu, Real.cosh_artanh mv]
    have g1 : 0 < 1 - npNorm u ^ 2 := by
      rw [npNorm_sq_real]; exact sub_pos.mpr hu.dot
    have g2 : 0 < 1 - npNorm v ^ 2 := by
      rw [npNorm_sq_real]; exact sub_pos.mpr hv.dot
    have h1 : npNorm u / √(1 - npNorm u ^ 2) * (1 / √(1 - npNorm v ^ 2)) +
        1 / √(1 - npNorm u ^ 2) * (npNorm v / √(1 - npNorm v ^ 2)) =
        (npNorm u + npNorm v) / (√(1 - npNorm u ^ 2) * √(1 - npNorm v ^ 2)) := by
      field_simp
    rw [h1, div_pow, mul_pow, Real.sq_sqrt g1.le, Real.sq_sqrt g2.le, ← npNorm_sq_real u,
      ← npNorm_sq_real v, ← npNorm_sq_real (u - v)]
    have h2 : npNorm (u - v) ≤ npNorm u + npNorm v := by
      have := npNorm_add_le u (-v)
      rwa [npNorm_neg, ← sub_eq_add_neg] at this
    have h3 : npNorm (u - v) ^ 2 ≤ (npNorm u + npNorm v) ^ 2 :=
      pow_le_pow_left₀ (npNorm_nonneg _) h2 2
    have h4 := div_le_div_of_nonneg_right h3 (mul_pos g1 g2).le
    linarith

/-- C88: the distance is a metric, and Möbius translations are isometries. -/
theorem C88_metric (A B C : κ → ι → ℝ) (hA : InBalls A) (hB : InBalls B) (hC : InBalls C) :
    0 ≤ pbDist A B ∧ pbDist A B = pbDist B A ∧ (pbDist A B = 0 ↔ A = B) ∧
      pbDist A C ≤ pbDist A B + pbDist B C ∧
      pbDist (fun k => pbMobius (C k) (A k)) (fun k => pbMobius (C k) (B k)) = pbDist A B := by
  refine ⟨npNorm_nonneg _, ?_, ?_, ?_, ?_⟩
  · simp only [pbDist, dist1_symm]
  · rw [pbDist, npNorm_eq_zero]
    constructor
    · intro h
      funext k
      have hk : pbDist1 (A k) (B k) = 0 := congrFun h k
      rw [dist1_eq (hA k) (hB k)] at hk
      have hr1 := (inBall_norm _).mp (C87_mobius (inBall_neg (hA k)) (hB k)).2
      have hr0 := npNorm_nonneg (pbMobius (-A k) (B k))
      have h2 : Real.artanh (npNorm (pbMobius (-A k) (B k))) = 0 := by linarith
      rcases Real.artanh_eq_zero_iff.mp h2 with h3 | h3 | h3
      · linarith
      · exact (mobius_eq_zero (hA k) (hB k)).mp h3
      · linarith
    · rintro rfl
      funext k
      change pbDist1 (A k) (A k) = 0
      rw [dist1_eq (hA k) (hA k), (mobius_eq_zero (hA k) (hA k)).mpr rfl, Real.artanh_zero, mul_zero]
  · rw [pbDist, pbDist, pbDist]
    refine le_trans ?_ (npNorm_add_le _ _)
    rw [npNorm, npNorm]
    refine Real.sqrt_le_sqrt (Finset.sum_le_sum fun k _ => ?_)
    have h := dist1_triangle (hA k) (hB k) (hC k)
    have h0 := dist1_nonneg (hA k) (hC k)
    rw [Real.norm_eq_abs, Real.norm_eq_abs, sq_abs, sq_abs]
    exact pow_le_pow_left₀ h0 h 2
  · rw [pbDist, pbDist]
    congr 1
    funext k
    exact dist1_translate (hC k) (hA k) (hB k)

/-- Along a ray from a point, `exp` moves at constant speed. -/
theorem dist1_ray {a : ι → ℝ} (v : ι → ℝ) (ha : InBall a) {s t : ℝ} (hs : 0 ≤ s) (hst : s ≤ t) :
    pbDist1 (pbExp1 a (s • v)) (pbExp1 a (t • v)) = (t - s) * (npNorm v * pbFactor a) := by
  have ht : 0 ≤ t := hs.trans hst
  have h0 := npNorm_nonneg v
  have hf := factor_pos ha
  by_cases hv : npNorm v = 0
  · have hv' : v = 0 := (npNorm_eq_zero v).mp hv
    subst hv'
    rw [hv, zero_mul, mul_zero, smul_zero, smul_zero, dist1_eq (exp1_inBall 0 ha) (exp1_inBall 0 ha),
      (mobius_eq_zero (exp1_inBall 0 ha) (exp1_inBall 0 ha)).mpr rfl, Real.artanh_zero, mul_zero]
  · set c := npNorm v * pbFactor a / 2 with hc
    have key : ∀ r : ℝ, 0 ≤ r → pbExp1 a (r • v) =
        pbMobius a ((Real.tanh (r * c) / npNorm v) • v) := by
      intro r hr
      rw [pbExp1]
      congr 1
      funext i
      have e : npNorm (r • v) = r * npNorm v := by rw [npNorm_smul, abs_of_nonneg hr]
      by_cases hr0 : r = 0
      · subst hr0
        simp
      · have hne : r * npNorm v ≠ 0 := mul_ne_zero hr0 hv
        rw [e, if_neg hne, add_zero]
        simp only [Pi.smul_apply, smul_eq_mul]
        have e2 : r * npNorm v * pbFactor a / 2 = r * c := by rw [hc]; ring
        rw [e2]
        field_simp
    have hb : ∀ r : ℝ, 0 ≤ r → npNorm ((Real.tanh (r * c) / npNorm v) • v) = Real.tanh (r * c) := by
      intro r hr
      have hc0 : 0 ≤ r * c := by rw [hc]; positivity
      have htn : 0 ≤ Real.tanh (r * c) := by
        rw [Real.tanh_eq_sinh_div_cosh]
        exact div_nonneg (Real.sinh_nonneg_iff.mpr hc0) (Real.cosh_pos _).le
      rw [npNorm_smul, abs_div, abs_of_nonneg htn, abs_of_nonneg h0, div_mul_cancel₀ _ hv]
    have hB : ∀ r : ℝ, 0 ≤ r → InBall ((Real.tanh (r * c) / npNorm v) • v) := by
      intro r hr
      rw [inBall_norm, hb r hr]
      exact Real.tanh_lt_one _
    rw [key s hs, key t ht, dist1_translate ha (hB s hs) (hB t ht)]
    have hd : 0 ≤ (t - s) * (npNorm v * pbFactor a) := mul_nonneg (by linarith) (by positivity)
    have hcosh : Real.cosh (pbDist1 ((Real.tanh (s * c) / npNorm v) • v)
        ((Real.tanh (t * c) / npNorm v) • v)) = Real.cosh ((t - s) * (npNorm v * pbFactor a)) := by
      rw [cosh_dist1 (hB s hs) (hB t ht), ← sub_smul, ← npNorm_sq_real, ← npNorm_sq_real,
        ← npNorm_sq_real, hb s hs, hb t ht, npNorm_smul, mul_pow, sq_abs, ← sub_div, div_pow,
        div_mul_cancel₀ _ (pow_ne_zero 2 hv)]
      have e : (t - s) * (npNorm v * pbFactor a) = 2 * (t * c - s * c) := by rw [hc]; ring
      rw [e, Real.cosh_two_mul, Real.cosh_sq, Real.sinh_sub, Real.tanh_eq_sinh_div_cosh,
        Real.tanh_eq_sinh_div_cosh]
      have p1 := (Real.cosh_pos (s * c)).ne'
      have p2 := (Real.cosh_pos (t * c)).ne'
      have q1 := Real.cosh_sq (s * c)
      have q2 := Real.cosh_sq (t * c)
      have r1 : 1 - (Real.sinh (s * c) / Real.cosh (s * c)) ^ 2 = 1 / Real.cosh (s * c) ^ 2 := by
        field_simp; linarith
      have r2 : 1 - (Real.sinh (t * c) / Real.cosh (t * c)) ^ 2 = 1 / Real.cosh (t * c) ^ 2 := by
        field_simp; linarith
      rw [r1, r2]
      field_simp
      ring
    exact le_antisymm (dist1_of_cosh (hB s hs) (hB t ht) hd hcosh.le) (by
      have := Real.cosh_le_cosh.mp hcosh.ge
      rwa [abs_of_nonneg (dist1_nonneg (hB s hs) (hB t ht)), abs_of_nonneg hd] at this)

/-- C88: `pair_mean` is defined for points that differ in every ball, and half way between them. -/
theorem C88_pair_mean (A B : κ → ι → ℝ) (hA : InBalls A) (hB : InBalls B) (hne : ∀ k, A k ≠ B k) :
    ∃ M : κ → ι → ℝ, (∀ k, pbPairMean A B k = some (M k)) ∧ InBalls M ∧
      pbDist A M = pbDist A B / 2 ∧ pbDist M B = pbDist A B / 2 := by
  obtain ⟨L, hL, hE, hN⟩ := C88_exp_log A B hA hB hne
  have hM : ∀ k, pbPairMean A B k = some (pbExp1 (A k) ((1 / 2 : ℝ) • L k)) := by
    intro k
    rw [pbPairMean, hL k, Option.map_some]
    congr 2
    funext i
    simp only [Pi.smul_apply, smul_eq_mul]
    ring
  have half : ∀ f : κ → ℝ, npNorm (fun k => f k / 2) = npNorm f / 2 := by
    intro f
    have : (fun k => f k / 2) = (1 / 2 : ℝ) • f := by
      funext k; simp only [Pi.smul_apply, smul_eq_mul]; ring
    rw [this, npNorm_smul, abs_of_pos (by norm_num)]; ring
  have hd : ∀ k, pbDist1 (A k) (B k) = npNorm (L k) * pbFactor (A k) := fun k =>
    (norm_log1 (hA k) (hB k) (hL k)).symm
  refine ⟨_, hM, fun k => exp1_inBall _ (hA k), ?_, ?_⟩
  · rw [pbDist, pbDist, ← half]
    congr 1
    funext k
    rw [dist1_exp1 _ (hA k), hd, npNorm_smul, abs_of_pos (by norm_num)]; ring
  · rw [pbDist, pbDist, ← half]
    congr 1
    funext k
    have h1 : pbExp1 (A k) ((1 : ℝ) • L k) = B k := by
      rw [one_smul]; exact congrFun hE k
    have h2 := dist1_ray (L k) (hA k) (s := 1 / 2) (t := 1) (by norm_num) (by norm_num)
    rw [h1] at h2
    rw [h2, hd]; ring

/-! ### C89 -/

/-- The full claim of C89. -/
def C89_claim (A : κ → ι → ℝ) : Prop :=
  (∀ k, pbLog A A k = some 0) ∧ ∀ k, pbPairMean A A k = some (A k)

omit [Fintype κ] in
/-- C89 fails at every point: `log(A, A)` and `pair_mean(A, A)` are NaN in every ball. -/
theorem C89_negation [Nonempty κ] (A : κ → ι → ℝ) (hA : InBalls A) :
    (∀ k, pbLog A A k = none ∧ pbPairMean A A k = none) ∧ ¬C89_claim A := by
  have h : ∀ k, pbLog A A k = none ∧ pbPairMean A A k = none := by
    intro k
    have h1 : pbLog A A k = none := by
      rw [pbLog, pbLog1]
      rw [if_pos ((mobius_eq_zero (hA k) (hA k)).mpr rfl)]
    exact ⟨h1, by rw [pbPairMean, h1]; rfl⟩
  refine ⟨h, fun hc => ?_⟩
  obtain ⟨k⟩ := ‹Nonempty κ›
  have := hc.1 k
  rw [(h k).1] at this
  cases this

omit [Fintype κ] in
/-- C89, what holds: the results are NaN exactly in the balls where the points agree. -/
theorem C89_partial (A B : κ → ι → ℝ) (hA : InBalls A) (hB : InBalls B) (k : κ) :
    (pbLog A B k = none ↔ A k = B k) ∧ (pbPairMean A B k = none ↔ A k = B k) := by
  have h : pbLog A B k = none ↔ A k = B k := by
    rw [pbLog, pbLog1]
    rw [← mobius_eq_zero (hA k) (hB k)]
    split <;> simp_all
  exact ⟨h, by rw [pbPairMean, Option.map_eq_none_iff, h]⟩

/-! ### C90 -/

/-- The metric is an inner product. -/
theorem pbInner_inner (X : κ → ι → ℝ) (hX : InBalls X) : IsInner (pbInner X) := by
  have hf := fun k => factor_pos (hX k)
  refine ⟨?_, ?_, ?_, ?_, ?_⟩
  · intro u v w
    rw [pbInner_eq, pbInner_eq, pbInner_eq, ← Finset.sum_add_distrib]
    refine Finset.sum_congr rfl fun k _ => ?_
    rw [Pi.add_apply, tensordot_inner.add_left, mul_add]
  · intro c u v
    rw [pbInner_eq, pbInner_eq, Finset.mul_sum]
    refine Finset.sum_congr rfl fun k _ => ?_
    rw [Pi.smul_apply, tensordot_inner.smul_left]; ring
  · intro u v
    rw [pbInner_eq, pbInner_eq]
    refine Finset.sum_congr rfl fun k _ => ?_
    rw [tensordot_inner.symm]
  · intro u
    rw [pbInner_eq]
    exact Finset.sum_nonneg fun k _ => mul_nonneg (sq_nonneg _) (tensordot_inner.nonneg _)
  · intro u h
    rw [pbInner_eq, Finset.sum_eq_zero_iff_of_nonneg
      fun k _ => mul_nonneg (sq_nonneg _) (tensordot_inner.nonneg _)] at h
    funext k
    have hk := h k (Finset.mem_univ k)
    exact tensordot_inner.definite _
      ((mul_eq_zero.mp hk).resolve_left (pow_ne_zero 2 (hf k).ne'))

/-- C90: the converted gradient represents the differential in the conformal metric. -/
theorem C90_gradient (X G V : κ → ι → ℝ) (hX : InBalls X) :
    pbInner X (pbE2rg X G) V = ∑ k, ∑ i, G k i * V k i := by
  rw [pbInner_eq]
  refine Finset.sum_congr rfl fun k _ => ?_
  have hf := (factor_pos (hX k)).ne'
  have e : pbE2rg X G k = (1 / pbFactor (X k) ^ 2) • G k := by
    funext i; simp [pbE2rg, pbE2rg1, mul_comm]
  rw [e, tensordot_inner.smul_left, ← mul_assoc, mul_one_div_cancel (pow_ne_zero 2 hf), one_mul]
  rfl

/-- C90: the converted Hessian is symmetric for the metric when the Euclidean one is. -/
theorem C90_symmetric (X G : κ → ι → ℝ) (hX : InBalls X) (H : (κ → ι → ℝ) → κ → ι → ℝ)
    (hH : ∀ U V : κ → ι → ℝ, ∑ k, ∑ i, U k i * H V k i = ∑ k, ∑ i, H U k i * V k i) :
    IsSymmOn (pbInner X) (fun _ => True) fun V => pbE2rh X G (H V) V := by
  refine ⟨fun _ => trivial, fun {U V} _ _ => ?_⟩
  have e : ∀ U V : κ → ι → ℝ, pbInner X U (pbE2rh X G (H V) V) = (∑ k, ∑ i, U k i * H V k i) +
      ∑ k, pbFactor (X k) * (tensordot (G k) (X k) * tensordot (U k) (V k) -
        tensordot (X k) (V k) * tensordot (U k) (G k) -
        tensordot (G k) (V k) * tensordot (U k) (X k)) := by
    intro U V
    rw [pbInner_eq, ← Finset.sum_add_distrib]
    refine Finset.sum_congr rfl fun k _ => ?_
    have hf := (factor_pos (hX k)).ne'
    have e1 : pbE2rh X G (H V) V k = (1 / pbFactor (X k)) • (tensordot (G k) (X k) • V k -
        tensordot (X k) (V k) • G k - tensordot (G k) (V k) • X k +
        (1 / pbFactor (X k)) • H V k) := by
      funext i
      simp only [pbE2rh, pbE2rh1, Pi.smul_apply, Pi.add_apply, Pi.sub_apply, smul_eq_mul]
      ring
    rw [e1, tensordot_inner.smul_right, tensordot_inner.add_right, tensordot_inner.sub_right,
      tensordot_inner.sub_right, tensordot_inner.smul_right, tensordot_inner.smul_right,
      tensordot_inner.smul_right, tensordot_inner.smul_right]
    change _ = tensordot (U k) (H V k) + _
    field_simp
    ring
  rw [e U V, (pbInner_inner X hX).symm, e V U, hH U V]
  have e2 : ∑ k, ∑ i, V k i * H U k i = ∑ k, ∑ i, H U k i * V k i :=
    Finset.sum_congr rfl fun k _ => Finset.sum_congr rfl fun i _ => mul_comm _ _
  rw [e2]
  congr 1
  refine Finset.sum_congr rfl fun k _ => ?_
  rw [tensordot_inner.symm (U k) (V k), tensordot_inner.symm (X k) (V k),
    tensordot_inner.symm (G k) (V k), tensordot_inner.symm (U k) (G k),
    tensordot_inner.symm (U k) (X k)]
  ring

/-- Covariant derivative of a vector field `W` along a curve with velocity `c'` in one ball, `W'`
being its ordinary derivative. -/
noncomputable def ballCov (x c' W W' : ι → ℝ) : ι → ℝ :=
  W' + pbFactor x • (tensordot x c' • W + tensordot x W • c' - tensordot c' W • x)

theorem hasDerivAt_dot {a b : ℝ → ι → ℝ} {a' b' : ι → ℝ} {t : ℝ} (ha : HasDerivAt a a' t)
    (hb : HasDerivAt b b' t) :
    HasDerivAt (fun s => tensordot (a s) (b s)) (tensordot a' (b t) + tensordot (a t) b') t := by
  rw [hasDerivAt_pi] at ha hb
  have := HasDerivAt.fun_sum (u := Finset.univ) fun i _ => (ha i).mul (hb i)
  refine this.congr_deriv ?_
  rw [tensordot, tensordot, ← Finset.sum_add_distrib]

theorem hasDerivAt_factor {c : ℝ → ι → ℝ} {c' : ι → ℝ} {t : ℝ} (hc : HasDerivAt c c' t)
    (hB : InBall (c t)) :
    HasDerivAt (fun s => pbFactor (c s)) (pbFactor (c t) ^ 2 * tensordot (c t) c') t := by
  have h := ((hasDerivAt_dot hc hc).const_sub 1)
  have h0 : 1 - tensordot (c t) (c t) ≠ 0 := (sub_pos.mpr hB.dot).ne'
  have := (hasDerivAt_const t (2 : ℝ)).div h h0
  refine this.congr_deriv ?_
  rw [pbFactor, tensordot_inner.symm c' (c t)]
  field_simp
  ring

/-- `ballCov` is the Levi-Civita connection: symmetric in the direction and the field, and compatible
with the metric. -/
theorem ballCov_leviCivita {c A B : ℝ → ι → ℝ} {c' A' B' : ι → ℝ} {t : ℝ} (hc : HasDerivAt c c' t)
    (hA : HasDerivAt A A' t) (hB : HasDerivAt B B' t) (hx : InBall (c t)) :
    (∀ u v : ι → ℝ, ballCov (c t) u v 0 = ballCov (c t) v u 0) ∧
    HasDerivAt (fun s => pbFactor (c s) ^ 2 * tensordot (A s) (B s))
      (pbFactor (c t) ^ 2 * (tensordot (ballCov (c t) c' (A t) A') (B t) +
        tensordot (A t) (ballCov (c t) c' (B t) B'))) t := by
  constructor
  · intro u v
    rw [ballCov, ballCov, tensordot_inner.symm u v, add_comm (tensordot (c t) u • v)]
  · refine ((hasDerivAt_factor hc hx).pow 2 |>.mul (hasDerivAt_dot hA hB)).congr_deriv ?_
    simp only [ballCov, tensordot_inner.add_left, tensordot_inner.add_right,
      tensordot_inner.smul_left, tensordot_inner.smul_right, tensordot_inner.sub_left,
      tensordot_inner.sub_right, tensordot_inner.symm (A t) (c t), tensordot_inner.symm (A t) c',
      Pi.pow_apply]
    push_cast
    ring

/-- C90: the converted Hessian is the covariant derivative of the converted gradient field along any
curve, for the Levi-Civita connection of the metric. -/
theorem C90_covariant {c g : ℝ → ι → ℝ} {V H : ι → ℝ} {t : ℝ} (hc : HasDerivAt c V t)
    (hg : HasDerivAt g H t) (hx : InBall (c t)) :
    ∃ W', HasDerivAt (fun s => pbE2rg1 (c s) (g s)) W' t ∧
      pbE2rh1 (c t) (g t) H V = ballCov (c t) V (pbE2rg1 (c t) (g t)) W' := by
  have hf := (factor_pos hx).ne'
  have h1 := (hasDerivAt_factor hc hx).pow 2
  have h2 := (hasDerivAt_const t (1 : ℝ)).div h1 (pow_ne_zero 2 hf)
  rw [hasDerivAt_pi] at hg
  refine ⟨_, hasDerivAt_pi.mpr fun i => (hg i).mul h2, ?_⟩
  have e : pbE2rg1 (c t) (g t) = (1 / pbFactor (c t) ^ 2) • g t := by
    funext i; simp [pbE2rg1, mul_comm]
  funext i
  rw [ballCov, e]
  simp only [pbE2rh1, Pi.add_apply, Pi.smul_apply, Pi.sub_apply, smul_eq_mul,
    tensordot_inner.smul_right, tensordot_inner.symm (g t), Pi.pow_apply]
  push_cast
  field_simp
  ring

/-! ### The exponential map follows geodesics -/

theorem hasDerivAt_tanh (x : ℝ) : HasDerivAt Real.tanh (1 - Real.tanh x ^ 2) x := by
  have h := (Real.hasDerivAt_sinh x).div (Real.hasDerivAt_cosh x) (Real.cosh_pos x).ne'
  have e : (fun y => Real.sinh y / Real.cosh y) = Real.tanh := by
    funext y; exact (Real.tanh_eq_sinh_div_cosh y).symm
  change HasDerivAt (fun y => Real.sinh y / Real.cosh y) _ x at h
  rw [e] at h
  refine h.congr_deriv ?_
  rw [Real.tanh_eq_sinh_div_cosh]
  have := (Real.cosh_pos x).ne'
  field_simp

/-- The geodesic in closed form: `exp(x, t v)` is the Möbius sum of `x` and a multiple of the unit
vector `u` along `v`. -/
theorem exp1_ray {x : ι → ℝ} (v : ι → ℝ) (hv : v ≠ 0) (t : ℝ) :
    pbExp1 x (t • v) = pbMobius x
      (Real.tanh (t * (npNorm v * pbFactor x / 2)) • ((npNorm v)⁻¹ • v)) := by
  have hn : npNorm v ≠ 0 := fun h => hv ((npNorm_eq_zero v).mp h)
  have h0 := npNorm_nonneg v
  rw [pbExp1]
  congr 1
  funext i
  rw [npNorm_smul]
  by_cases ht : t = 0
  · subst ht; simp
  · have hne : |t| * npNorm v ≠ 0 := mul_ne_zero (abs_ne_zero.mpr ht) hn
    rw [if_neg hne, add_zero]
    simp only [Pi.smul_apply, smul_eq_mul]
    rcases abs_choice t with h | h <;> rw [h]
    · have e : t * npNorm v * pbFactor x / 2 = t * (npNorm v * pbFactor x / 2) := by ring
      rw [e]; field_simp
    · have e : -t * npNorm v * pbFactor x / 2 = -(t * (npNorm v * pbFactor x / 2)) := by ring
      rw [e, Real.tanh_neg]; field_simp

/-- C88, C90: `t ↦ exp(x, t v)` starts at `x` with velocity `v` and is a geodesic of the metric: its
velocity has covariant derivative zero at all times. -/
theorem C90_geodesic {x : ι → ℝ} (v : ι → ℝ) (hx : InBall x) :
    ∃ w : ℝ → ι → ℝ, (∀ t, HasDerivAt (fun s : ℝ => pbExp1 x (s • v)) (w t) t) ∧ w 0 = v ∧
      ∀ t, ∃ w', HasDerivAt w w' t ∧ ballCov (pbExp1 x (t • v)) (w t) (w t) w' = 0 := by
  by_cases hv : v = 0
  · subst hv
    refine ⟨fun _ => 0, fun t => ?_, rfl, fun t => ⟨0, hasDerivAt_const _ _, ?_⟩⟩
    · simp only [smul_zero]; exact hasDerivAt_const _ _
    · simp [ballCov, tensordot_inner.zero_left, tensordot_inner.zero_right]
  have hn : npNorm v ≠ 0 := fun h => hv ((npNorm_eq_zero v).mp h)
  obtain ⟨u, hu⟩ : ∃ u, u = (npNorm v)⁻¹ • v := ⟨_, rfl⟩
  have huu : tensordot u u = 1 := by
    rw [← npNorm_sq_real, hu, npNorm_inv_smul hv, one_pow]
  set p := tensordot x u with hp
  set q := tensordot x x with hq
  have hq1 : q < 1 := hx.dot
  have hq0 : 1 - q ≠ 0 := (sub_pos.mpr hq1).ne'
  set cc := npNorm v * pbFactor x / 2 with hcc
  -- denominator and numerator as functions of `τ`
  let D : ℝ → ℝ := fun τ => 1 + 2 * p * τ + q * τ ^ 2
  let N : ℝ → ι → ℝ := fun τ => (1 + 2 * p * τ + τ ^ 2) • x + ((1 - q) * τ) • u
  let N' : ℝ → ι → ℝ := fun τ => (2 * p + 2 * τ) • x + (1 - q) • u
  let D' : ℝ → ℝ := fun τ => 2 * p + 2 * q * τ
  let γ : ℝ → ι → ℝ := fun τ => (D τ)⁻¹ • N τ
  let γ' : ℝ → ι → ℝ := fun τ => (D τ)⁻¹ • (N' τ - D' τ • γ τ)
  let γ'' : ℝ → ι → ℝ := fun τ =>
    (D τ)⁻¹ • ((2 : ℝ) • x - (2 * q) • γ τ - (2 * D' τ) • γ' τ)
  have hDm : ∀ τ, mobDen x (τ • u) = D τ := by
    intro τ
    simp only [mobDen, tensordot_inner.smul_left, tensordot_inner.smul_right, huu, ← hp, ← hq, D]
    ring
  have hexp : ∀ t : ℝ, pbExp1 x (t • v) = γ (Real.tanh (t * cc)) := by
    intro t
    rw [exp1_ray v hv t, ← hu, ← hcc, mobius_eq, hDm]
    simp only [tensordot_inner.smul_left, tensordot_inner.smul_right, huu, ← hp, ← hq, γ, N, D]
    funext i
    simp only [Pi.add_apply, Pi.smul_apply, smul_eq_mul]
    ring
  have hτ : ∀ t : ℝ, Real.tanh (t * cc) ^ 2 < 1 := by
    intro t
    rw [sq_lt_one_iff_abs_lt_one, abs_lt]
    exact ⟨Real.neg_one_lt_tanh _, Real.tanh_lt_one _⟩
  have hDpos : ∀ τ : ℝ, τ ^ 2 < 1 → 0 < D τ := by
    intro τ h
    rw [← hDm]
    refine mobDen_pos hx ?_
    rw [inBall_iff, tensordot_inner.smul_left, tensordot_inner.smul_right, huu]
    linarith [sq τ]
  -- derivatives in `τ`
  have dD : ∀ τ, HasDerivAt D (D' τ) τ := by
    intro τ
    have := (((hasDerivAt_id τ).const_mul (2 * p)).const_add 1).add
      (((hasDerivAt_id τ).pow 2).const_mul q)
    refine this.congr_deriv ?_
    simp only [id, D']; push_cast; ring
  have dN : ∀ τ, HasDerivAt N (N' τ) τ := by
    intro τ
    have h1 : HasDerivAt (fun τ : ℝ => 1 + 2 * p * τ + τ ^ 2) (2 * p + 2 * τ) τ := by
      have := (((hasDerivAt_id τ).const_mul (2 * p)).const_add 1).add ((hasDerivAt_id τ).pow 2)
      refine this.congr_deriv ?_
      simp only [id]; push_cast; ring
    have h2 : HasDerivAt (fun τ : ℝ => (1 - q) * τ) (1 - q) τ := by
      simpa using (hasDerivAt_id τ).const_mul (1 - q)
    exact (h1.smul_const x).add (h2.smul_const u)
  have dγ : ∀ τ, D τ ≠ 0 → HasDerivAt γ (γ' τ) τ := by
    intro τ h
    refine (((dD τ).inv h).smul (dN τ)).congr_deriv ?_
    funext i
    simp only [γ', γ, Pi.add_apply, Pi.smul_apply, Pi.sub_apply, Pi.inv_apply, smul_eq_mul]
    field_simp
    ring
  have dN' : ∀ τ, HasDerivAt N' ((2 : ℝ) • x) τ := by
    intro τ
    have h1 : HasDerivAt (fun τ : ℝ => 2 * p + 2 * τ) 2 τ := by
      simpa using ((hasDerivAt_id τ).const_mul 2).const_add (2 * p)
    exact (h1.smul_const x).add_const ((1 - q) • u)
  have dD' : ∀ τ, HasDerivAt D' (2 * q) τ := by
    intro τ
    refine (((hasDerivAt_id τ).const_mul (2 * q)).const_add (2 * p)).congr_deriv (mul_one _)
  have dγ' : ∀ τ, D τ ≠ 0 → HasDerivAt γ' (γ'' τ) τ := by
    intro τ h
    have h1 := (dN' τ).sub ((dD' τ).smul (dγ τ h))
    refine (((dD τ).inv h).smul h1).congr_deriv ?_
    funext i
    simp only [γ'', γ', Pi.add_apply, Pi.smul_apply, Pi.smul_apply', Pi.sub_apply, Pi.inv_apply,
      smul_eq_mul]
    field_simp
    ring
  have dτ : ∀ t : ℝ, HasDerivAt (fun s : ℝ => Real.tanh (s * cc))
      (cc * (1 - Real.tanh (t * cc) ^ 2)) t := by
    intro t
    have h1 : HasDerivAt (fun s : ℝ => s * cc) cc t := by
      simpa using (hasDerivAt_id t).mul_const cc
    refine ((hasDerivAt_tanh (t * cc)).comp t h1).congr_deriv ?_
    ring
  let w : ℝ → ι → ℝ := fun t => (cc * (1 - Real.tanh (t * cc) ^ 2)) • γ' (Real.tanh (t * cc))
  have hfun : (fun s : ℝ => pbExp1 x (s • v)) = fun s => γ (Real.tanh (s * cc)) := funext hexp
  refine ⟨w, fun t => ?_, ?_, fun t => ?_⟩
  · rw [hfun]
    exact (dγ _ (hDpos _ (hτ t)).ne').scomp t (dτ t)
  · simp only [w, zero_mul, Real.tanh_zero]
    funext i
    simp only [γ', γ, N, N', D, D', Pi.smul_apply, Pi.sub_apply, Pi.add_apply, smul_eq_mul, hu, hcc,
      pbFactor, ← hq]
    field_simp
    ring
  · set τ := Real.tanh (t * cc) with hτt
    have hD0 := (hDpos τ (hτ t)).ne'
    have h1 : HasDerivAt (fun s : ℝ => cc * (1 - Real.tanh (s * cc) ^ 2))
        (cc * (-(2 * τ * (cc * (1 - τ ^ 2))))) t := by
      refine ((((dτ t).pow 2).const_sub 1).const_mul cc).congr_deriv ?_
      simp only [← hτt]; push_cast; ring
    have h2 := h1.smul ((dγ' τ hD0).scomp t (dτ t))
    refine ⟨_, h2, ?_⟩
    rw [hexp t, ← hτt]
    -- inner products in closed form
    have hxu : tensordot u x = p := tensordot_inner.symm u x
    have gap : 1 - tensordot (γ τ) (γ τ) = (1 - q) * (1 - τ ^ 2) / D τ := by
      have h3 : γ τ = pbMobius x (τ • u) := by
        have := exp1_ray (x := x) v hv t
        rw [← hcc, ← hu, ← hτt, hexp t, ← hτt] at this
        exact this
      rw [h3, mobius_gap (by rw [hDm]; exact hD0), hDm, tensordot_inner.smul_left,
        tensordot_inner.smul_right, huu, ← hq]
      ring
    have hfac : pbFactor (γ τ) = 2 * D τ / ((1 - q) * (1 - τ ^ 2)) := by
      rw [pbFactor, gap, div_div_eq_mul_div]
    have gg : tensordot (γ τ) (γ τ) = (q + 2 * p * τ + τ ^ 2) / D τ := by
      rw [eq_div_iff hD0]
      have := gap
      rw [eq_div_iff hD0] at this
      simp only [D] at this ⊢
      linarith
    have expand : ∀ a b a' b' : ℝ, tensordot (a • x + b • u) (a' • x + b' • u) =
        a * a' * q + (a * b' + b * a') * p + b * b' := by
      intro a b a' b'
      simp only [tensordot_inner.add_left, tensordot_inner.add_right, tensordot_inner.smul_left,
        tensordot_inner.smul_right, huu, hxu, ← hp, ← hq]
      ring
    have eγ : γ τ = ((D τ)⁻¹ * (1 + 2 * p * τ + τ ^ 2)) • x + ((D τ)⁻¹ * ((1 - q) * τ)) • u := by
      simp only [γ, N, smul_add, smul_smul]
    have eγ' : γ' τ = ((D τ)⁻¹ * (2 * p + 2 * τ - D' τ * ((D τ)⁻¹ * (1 + 2 * p * τ + τ ^ 2)))) • x +
        ((D τ)⁻¹ * (1 - q - D' τ * ((D τ)⁻¹ * ((1 - q) * τ)))) • u := by
      simp only [γ']
      rw [eγ]
      funext i
      simp only [N', Pi.add_apply, Pi.smul_apply, Pi.sub_apply, smul_eq_mul]
      ring
    have g1 : tensordot (γ τ) (γ' τ) = (1 - q) * (2 * τ * D τ + (1 - τ ^ 2) * D' τ) /
        (2 * D τ ^ 2) := by
      rw [eγ, eγ', expand, eq_div_iff (by positivity)]
      field_simp
      simp only [D, D']
      ring
    have g2 : tensordot (γ' τ) (γ' τ) = (1 - q) ^ 2 / D τ ^ 2 := by
      rw [eγ', expand, eq_div_iff (by positivity)]
      field_simp
      simp only [D, D']
      ring
    have hτ1 : 1 - τ ^ 2 ≠ 0 := (sub_pos.mpr (hτ t)).ne'
    have hw : w t = (cc * (1 - τ ^ 2)) • γ' τ := rfl
    have s1 : ∀ r : ℝ, tensordot (γ τ) (r • γ' τ) = r * tensordot (γ τ) (γ' τ) := fun r =>
      tensordot_inner.smul_right _ _ _
    have s2 : ∀ r : ℝ, tensordot (r • γ' τ) (r • γ' τ) = r * (r * tensordot (γ' τ) (γ' τ)) :=
      fun r => by rw [tensordot_inner.smul_left, tensordot_inner.smul_right]
    rw [ballCov, hw, hfac, s1, s2, g1, g2]
    funext i
    have eN : N τ i = D τ * γ τ i := by
      simp only [γ, Pi.smul_apply, smul_eq_mul]; field_simp
    have eN' : N' τ i = D τ * γ' τ i + D' τ * γ τ i := by
      simp only [γ', Pi.smul_apply, Pi.sub_apply, smul_eq_mul]; field_simp; ring
    simp only [Pi.add_apply, Pi.smul_apply, Pi.sub_apply, Pi.zero_apply, smul_eq_mul,
      Function.comp_apply, γ'']
    have key : (1 - τ ^ 2) * (2 * x i - 2 * q * γ τ i) + 2 * τ * (D τ * γ' τ i) -
        2 * (1 - q) * γ τ i = 0 := by
      have k1 : D τ * γ' τ i = N' τ i - D' τ * γ τ i := by linarith
      rw [k1]
      simp only [N', D', Pi.add_apply, Pi.smul_apply, smul_eq_mul]
      simp only [N, D, Pi.add_apply, Pi.smul_apply, smul_eq_mul] at eN
      linear_combination 2 * eN
    simp only [← hτt]
    have fin : ∀ τ d d' g g' xi : ℝ, d ≠ 0 → 1 - τ ^ 2 ≠ 0 →
        (1 - τ ^ 2) * (2 * xi - 2 * q * g) + 2 * τ * (d * g') - 2 * (1 - q) * g = 0 →
        cc * (1 - τ ^ 2) * (cc * (1 - τ ^ 2) * (d⁻¹ * (2 * xi - 2 * q * g - 2 * d' * g'))) +
          cc * -(2 * τ * (cc * (1 - τ ^ 2))) * g' + 2 * d / ((1 - q) * (1 - τ ^ 2)) *
          (cc * (1 - τ ^ 2) * ((1 - q) * (2 * τ * d + (1 - τ ^ 2) * d') / (2 * d ^ 2)) *
              (cc * (1 - τ ^ 2) * g') +
            cc * (1 - τ ^ 2) * ((1 - q) * (2 * τ * d + (1 - τ ^ 2) * d') / (2 * d ^ 2)) *
              (cc * (1 - τ ^ 2) * g') -
            cc * (1 - τ ^ 2) * (cc * (1 - τ ^ 2) * ((1 - q) ^ 2 / d ^ 2)) * g) = 0 := by
      intro τ d d' g g' xi hd ht hk
      have e : cc * (1 - τ ^ 2) * (cc * (1 - τ ^ 2) * (d⁻¹ * (2 * xi - 2 * q * g - 2 * d' * g'))) +
          cc * -(2 * τ * (cc * (1 - τ ^ 2))) * g' + 2 * d / ((1 - q) * (1 - τ ^ 2)) *
          (cc * (1 - τ ^ 2) * ((1 - q) * (2 * τ * d + (1 - τ ^ 2) * d') / (2 * d ^ 2)) *
              (cc * (1 - τ ^ 2) * g') +
            cc * (1 - τ ^ 2) * ((1 - q) * (2 * τ * d + (1 - τ ^ 2) * d') / (2 * d ^ 2)) *
              (cc * (1 - τ ^ 2) * g') -
            cc * (1 - τ ^ 2) * (cc * (1 - τ ^ 2) * ((1 - q) ^ 2 / d ^ 2)) * g) =
          cc ^ 2 * (1 - τ ^ 2) / d *
          ((1 - τ ^ 2) * (2 * xi - 2 * q * g) + 2 * τ * (d * g') - 2 * (1 - q) * g) := by
        field_simp
        ring
      rw [e, hk, mul_zero]
    exact fin τ (D τ) (D' τ) (γ τ i) (γ' τ i) (x i) hD0 hτ1 key

/-! ### C55 and C101 -/

omit [Fintype κ] [Fintype ι] in
/-- C55: `to_tangent_space` is the identity, every vector is tangent. -/
theorem C55_hyperbolic (X V : κ → ι → ℝ) : pbProj X V = V := rfl

/-- C101 on the Poincaré ball. -/
theorem C101_hyperbolic (X draw : κ → ι → ℝ) (hX : InBalls X) (hd : draw ≠ 0) :
    pbNorm X (pbRandomTangent X draw) = 1 := by
  have hI := pbInner_inner X hX
  have hs : pbInner X draw draw ≠ 0 := fun h => hd (hI.definite _ h)
  have h1 : pbNorm X draw ^ 2 = pbInner X draw draw := Real.sq_sqrt (hI.nonneg _)
  rw [pbNorm, pbRandomTangent, hI.smul_left, hI.smul_right, ← mul_assoc, ← sq, inv_pow, h1,
    inv_mul_cancel₀ hs, Real.sqrt_one]

/-! ### Examples -/

/-- Two different points of a product of two balls. -/
example : InBalls ![![(1 : ℝ) / 2, 0], ![1 / 2, 1 / 2]] ∧
    InBalls ![![(0 : ℝ), 1 / 2], ![1 / 3, 0]] ∧
    ∀ k, (![![(1 : ℝ) / 2, 0], ![1 / 2, 1 / 2]] : Fin 2 → Fin 2 → ℝ) k ≠
      ![![(0 : ℝ), 1 / 2], ![1 / 3, 0]] k := by
  refine ⟨fun k => ?_, fun k => ?_, fun k h => ?_⟩
  · fin_cases k <;> norm_num [InBall, Fin.sum_univ_two]
  · fin_cases k <;> norm_num [InBall, Fin.sum_univ_two]
  · have := congrFun h 0
    fin_cases k <;> norm_num at this

end Verif.Geo
