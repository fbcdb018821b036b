/-
C147: steepest descent converges linearly, with either line searcher, where the gradient dominates the
distance of the cost to its minimum.
-/
import Mathlib.Analysis.SpecialFunctions.Log.Basic
import Verif.Opt.Props.SDRate

namespace Verif.Opt
open PyNum

variable {P E : Type*}

/-! ## Specification -/

/-- Gradient domination (Polyak, Łojasiewicz): at the points of `On` with cost at most `f0` the square
of the gradient norm is at least `2 mu` times the distance of the cost to `fmin`. -/
def GradDominated (pb : Prob ℝ P E) (On : P → Prop) (f0 fmin mu : ℝ) : Prop :=
  ∀ y, On y → pb.cost y ≤ f0 → 2 * mu * (pb.cost y - fmin) ≤ pb.M.norm y (pb.grad y) ^ 2

/-! ## Lemmas -/

theorem linear_count {q e0 N ε : ℝ} (hq : 0 < q) (hε : 0 < ε) (hN : 0 ≤ N) {k : ℕ}
    (h : ε ^ 2 ≤ N * ((1 - q) ^ k * e0)) (he0 : 0 < e0) (hq1 : q ≤ 1) :
    (k : ℝ) ≤ Real.log (N * e0 / ε ^ 2) / q := by
  rw [le_div_iff₀ hq]
  have h1 : 1 - q ≤ Real.exp (-q) := by linarith [Real.add_one_le_exp (-q)]
  have h2 : (1 - q) ^ k ≤ Real.exp (-q) ^ k := pow_le_pow_left₀ (by linarith) h1 k
  have h3 : ε ^ 2 ≤ Real.exp (-q) ^ k * (N * e0) := by
    calc ε ^ 2 ≤ (1 - q) ^ k * (N * e0) := by linarith
      _ ≤ _ := mul_le_mul_of_nonneg_right h2 (by positivity)
  rw [← Real.exp_nat_mul] at h3
  have hε2 : 0 < ε ^ 2 := by positivity
  have hpos : 0 < N * e0 := by
    by_contra hc
    have := mul_nonneg (Real.exp_pos (k * -q)).le (sub_nonneg.2 (not_lt.1 hc))
    linarith
  rw [Real.le_log_iff_exp_le (by positivity), le_div_iff₀ hε2]
  have h4 := mul_le_mul_of_nonneg_left h3 (Real.exp_pos (k * q)).le
  rw [← mul_assoc, ← Real.exp_add] at h4
  have h5 : (k : ℝ) * q + k * -q = 0 := by ring
  rw [h5, Real.exp_zero, one_mul] at h4
  exact h4

/-- Steepest descent converges linearly if each search from a gradient norm of at least `ε`, in a
state where `Mem` holds, reduces the distance to the minimum by the factor `1 - q`. -/
theorem sd_linear {S : Type*} {cfg : Cfg ℝ} {ls : LineSearcher ℝ P E S} {pb : Prob ℝ P E}
    {clk : Clock ℝ} {x : P} {mem : S} {On : P → Prop} {Mem : P → S → Prop} {fmin ε q σ L mu : ℝ}
    (hmu : 0 < mu) (hx : On x) (hmem : Mem x mem) (hq : 0 < q)
    (hq1 : q ≤ 1) (hL : 0 < L) (hε : 0 < ε) (hcfg : cfg.minGradientNorm = ε)
    (hgL : ∀ y, On y → pb.M.norm y (pb.grad y) ^ 2 ≤ 2 * L * (pb.cost y - fmin))
    (hpl : GradDominated pb On (pb.cost x) fmin mu)
    (hn0 : ∀ y, On y → 0 ≤ pb.M.norm y (pb.grad y)) (hx0 : ε ≤ pb.M.norm x (pb.grad x))
    (hstep : ∀ y m o, On y → pb.cost y ≤ pb.cost x → Mem y m → ε ≤ pb.M.norm y (pb.grad y) →
      ls.search m pb.cost pb.M y (pb.M.neg (pb.grad y)) (pb.cost y)
        (-pb.M.norm y (pb.grad y) ^ 2) = .ok o →
      On o.newx ∧ pb.cost o.newx - fmin ≤ (1 - q) * (pb.cost y - fmin) ∧ Mem o.newx o.mem ∧
        σ ≤ o.stepSize)
    (hmono : ∀ y m o, ls.search m pb.cost pb.M y (pb.M.neg (pb.grad y)) (pb.cost y)
      (-pb.M.norm y (pb.grad y) ^ 2) = .ok o → pb.cost o.newx ≤ pb.cost y)
    {res : Result ℝ P} {m : S} (h : SDRuns cfg ls pb clk x mem (.ok (res, m))) :
    (∃ k : ℕ, res.iterations = k + 1 ∧
      pb.cost res.point - fmin ≤ (1 - q) ^ k * (pb.cost x - fmin)) ∧
    (res.iterations : ℝ) ≤ Real.log (2 * L * (pb.cost x - fmin) / ε ^ 2) / q + 2 ∧
    (Real.log (2 * L * (pb.cost x - fmin) / ε ^ 2) / q + 2 < cfg.maxIterations →
      (∀ i, clk.check2 i 0 < clk.start + cfg.maxTime) → 0 ≤ cfg.maxCostEvaluations →
      cfg.minStepSize ≤ σ → pb.cost res.point - fmin < ε ^ 2 / (2 * mu)) := by
  unfold SDRuns at h
  split at h
  · cases h
  have hε2 : 0 < ε ^ 2 := by positivity
  have hge : ∀ y, On y → ε ≤ pb.M.norm y (pb.grad y) → ε ^ 2 ≤ 2 * L * (pb.cost y - fmin) :=
    fun y hy hg => (pow_le_pow_left₀ hε.le hg 2).trans (hgL y hy)
  have he0 : 0 < pb.cost x - fmin := by
    have := hge x hx hx0
    by_contra hc
    have := mul_nonneg (by positivity : 0 ≤ 2 * L) (sub_nonneg.2 (not_lt.1 hc))
    linarith
  have hpos : ∀ y, On y → 0 ≤ pb.cost y - fmin := fun y hy => by
    have h1 := (sq_nonneg _).trans (hgL y hy)
    exact nonneg_of_mul_nonneg_right h1 (by positivity)
  have hle1 : ∀ k : ℕ, (1 - q) ^ k * (pb.cost x - fmin) ≤ pb.cost x - fmin := fun k =>
    mul_le_of_le_one_left he0.le (pow_le_one₀ (by linarith) (by linarith))
  have hlog : 0 ≤ Real.log (2 * L * (pb.cost x - fmin) / ε ^ 2) / q := by
    refine div_nonneg (Real.log_nonneg ?_) hq.le
    rw [le_div_iff₀ hε2, one_mul]
    exact hge x hx hx0
  let Inv : SDState ℝ P S → Prop := fun s => On s.x ∧ Mem s.x s.mem ∧ ∃ k : ℕ, s.iteration = k ∧
    pb.cost s.x - fmin ≤ (1 - q) ^ k * (pb.cost x - fmin) ∧
    (k : ℝ) ≤ Real.log (2 * L * (pb.cost x - fmin) / ε ^ 2) / q + 1
  refine h.invariant (Inv := Inv)
    (Post := fun p : Result ℝ P × S => (∃ k : ℕ, p.1.iterations = k + 1 ∧
      pb.cost p.1.point - fmin ≤ (1 - q) ^ k * (pb.cost x - fmin)) ∧
    (p.1.iterations : ℝ) ≤ Real.log (2 * L * (pb.cost x - fmin) / ε ^ 2) / q + 2 ∧
    (Real.log (2 * L * (pb.cost x - fmin) / ε ^ 2) / q + 2 < cfg.maxIterations →
      (∀ i, clk.check2 i 0 < clk.start + cfg.maxTime) → 0 ≤ cfg.maxCostEvaluations →
      cfg.minStepSize ≤ σ → pb.cost p.1.point - fmin < ε ^ 2 / (2 * mu))) ?_ ?_ ?_
  · rintro s s' ⟨h1, h3, k, h4, h5, h6⟩ hs
    obtain ⟨o, ho, hck, rfl⟩ := sdStep_next hs
    rw [pow_lit_two] at ho
    have hg : ε ≤ pb.M.norm s.x (pb.grad s.x) := by
      unfold checkStop at hck
      simp only at hck
      split at hck
      · cases hck
      split at hck
      · cases hck
      split at hck
      · cases hck
      · rename_i hlt
        rw [← hcfg]
        simpa [PyNum.lt] using hlt
    obtain ⟨i1, i2, i3, -⟩ := hstep s.x s.mem o h1 (by linarith [hle1 k]) h3 hg ho
    refine ⟨i1, i3, k + 1, by simp only; push_cast; omega, ?_, ?_⟩
    · refine i2.trans ?_
      rw [pow_succ, mul_comm ((1 - q) ^ k), mul_assoc]
      exact mul_le_mul_of_nonneg_left h5 (by linarith)
    · push_cast
      have h7 : ε ^ 2 ≤ 2 * L * ((1 - q) ^ k * (pb.cost x - fmin)) :=
        (hge _ h1 hg).trans (mul_le_mul_of_nonneg_left h5 (by positivity))
      linarith [linear_count hq hε (by positivity : 0 ≤ 2 * L) h7 he0 hq1]
  · rintro s p ⟨h1, h3, k, h4, h5, h6⟩ hs
    obtain ⟨o, reason, ho, hck, rfl⟩ := sdStep_brk hs
    rw [pow_lit_two] at ho
    have hm := hmono _ _ _ ho
    have hcx : pb.cost s.x ≤ pb.cost x := by linarith [hle1 k]
    have hk : ((s.iteration : ℤ) : ℝ) = k := by rw [h4]; simp
    refine ⟨⟨k, by simp only; omega, by simp only; linarith⟩, by push_cast; linarith,
      fun hmax htime hce hss => ?_⟩
    have hlt : pb.M.norm s.x (pb.grad s.x) < ε := by
      by_contra hlt
      have hg := not_lt.1 hlt
      obtain ⟨-, -, -, i4⟩ := hstep s.x s.mem o h1 hcx h3 hg ho
      unfold checkStop at hck
      simp only at hck
      rw [if_neg (by
        have := htime (s.iteration + 1)
        simp only [PyNum.le, PyNum.add, decide_eq_true_eq, not_le]
        exact this), if_neg (by
        have : ((s.iteration + 1 : ℤ) : ℝ) < cfg.maxIterations := by push_cast; linarith
        have : s.iteration + 1 < cfg.maxIterations := by exact_mod_cast this
        omega), if_neg (by rw [hcfg]; simpa [PyNum.lt] using hg),
        if_neg (by simpa [PyNum.lt] using hss.trans i4), if_neg (by omega)] at hck
      cases hck
    rw [lt_div_iff₀ (by positivity)]
    have h7 := hpl s.x h1 hcx
    have h8 : pb.M.norm s.x (pb.grad s.x) ^ 2 < ε ^ 2 := pow_lt_pow_left₀ hlt (hn0 _ h1) two_ne_zero
    have h9 := mul_le_mul_of_nonneg_left hm (by positivity : 0 ≤ 2 * mu)
    simp only
    nlinarith
  · refine ⟨hx, hmem, 0, by simp [sdInit], by simp [sdInit], ?_⟩
    push_cast
    linarith

/-- `2 mu c min(a, r T) ≤ 1`. -/
theorem linear_factor_le {L mu c r T a q : ℝ} (hL : 0 < L) (hmu : 0 < mu) (hmuL : mu ≤ L)
    (hc0 : 0 < c) (hr1 : r < 1) (hT : T = 2 * (1 - c) / L) (hT0 : 0 < T)
    (hq : q = 2 * mu * c * a) (ha : a ≤ r * T) : q ≤ 1 := by
  have h1 : a ≤ T := ha.trans (mul_le_of_le_one_left hT0.le hr1.le)
  have h2 : 2 * mu * c * a ≤ 2 * mu * c * T := mul_le_mul_of_nonneg_left h1 (by positivity)
  have h3 : T * L = 2 * (1 - c) := by rw [hT, div_mul_cancel₀ _ hL.ne']
  have h4 : mu * T ≤ L * T := mul_le_mul_of_nonneg_right hmuL hT0.le
  have h5 : 2 * c * (mu * T) ≤ 2 * c * (L * T) := mul_le_mul_of_nonneg_left h4 (by positivity)
  nlinarith [sq_nonneg (2 * c - 1)]

section
variable {pb : Prob ℝ P E} {On : P → Prop} {L fmin ε A T s q σ mu : ℝ}

/-- **C147** (`SteepestDescent` with the `BackTrackingLineSearcher`, its default).  The cost has the
quadratic upper bound `L` and the gradient dominates it with `mu` where the cost is at most that of
the starting point.  Then every iteration reduces the distance of the cost to the minimum by the
factor `1 - q`, a run with minimal gradient norm `ε` makes at most
`log (2 L (f0 - fmin) / ε ^ 2) / q + 2` iterations, and unless another limit ends it earlier the cost
of the result is within `ε ^ 2 / (2 mu)` of the minimum. -/
theorem C147_backTracking (hS : SmoothDescent pb On L) (hL : 0 < L)
    (hf : ∀ y, On y → fmin ≤ pb.cost y)
    (hneg : ∀ y, On y → pb.M.norm y (pb.M.neg (pb.grad y)) = pb.M.norm y (pb.grad y))
    (hn0 : ∀ y, On y → 0 ≤ pb.M.norm y (pb.grad y))
    {ls : BackTrackingCfg ℝ} (hc0 : 0 < ls.sufficientDecrease) (hc : ls.sufficientDecrease < 1)
    (hr : 0 < ls.contractionFactor) (hr1 : ls.contractionFactor < 1) (hm : 0 ≤ ls.maxIterations)
    (hi : 0 < ls.initialStepSize) (ho1 : 1 / 2 < ls.optimism) {x : P} (hx : On x) (hmu : 0 < mu)
    (hpl : GradDominated pb On (pb.cost x) fmin mu) (hε : 0 < ε)
    (hx0 : ε ≤ pb.M.norm x (pb.grad x))
    (hA : A = ls.initialStepSize / pb.M.norm x (pb.grad x))
    (hT : T = 2 * (1 - ls.sufficientDecrease) / L)
    (hs : s = 2 * (1 - 1 / (2 * ls.optimism)) / L)
    (hq : q = 2 * mu * ls.sufficientDecrease * min A (min s (ls.contractionFactor * T)))
    (hσ : σ = min (min ls.initialStepSize (2 * ls.optimism * q * ε / (2 * L)))
      (ls.contractionFactor * T * ε))
    (hbudget : ls.contractionFactor ^ ls.maxIterations.toNat *
      max A (2 * ls.optimism * (pb.cost x - fmin) / ε ^ 2) ≤ T)
    {cfg : Cfg ℝ} (hcfg : cfg.minGradientNorm = ε) {clk : Clock ℝ} {res : Result ℝ P} {m : Option ℝ}
    (h : SDRuns cfg (backTracking P E ls) pb clk x none (.ok (res, m))) :
    (∃ k : ℕ, res.iterations = k + 1 ∧
      pb.cost res.point - fmin ≤ (1 - q) ^ k * (pb.cost x - fmin)) ∧
    (res.iterations : ℝ) ≤ Real.log (2 * L * (pb.cost x - fmin) / ε ^ 2) / q + 2 ∧
    (Real.log (2 * L * (pb.cost x - fmin) / ε ^ 2) / q + 2 < cfg.maxIterations →
      (∀ i, clk.check2 i 0 < clk.start + cfg.maxTime) → 0 ≤ cfg.maxCostEvaluations →
      cfg.minStepSize ≤ σ → pb.cost res.point - fmin < ε ^ 2 / (2 * mu)) := by
  obtain ⟨c, hcdef⟩ : ∃ c, ls.sufficientDecrease = c := ⟨_, rfl⟩
  obtain ⟨r, hrdef⟩ : ∃ r, ls.contractionFactor = r := ⟨_, rfl⟩
  obtain ⟨b, hbdef⟩ : ∃ b, 2 * ls.optimism = b := ⟨_, rfl⟩
  rw [hcdef] at hc0 hc hT hq
  rw [hrdef] at hr hr1 hq hbudget hσ
  rw [hbdef] at hs hbudget hσ
  have hb1 : 1 < b := by linarith
  have hg0 : 0 < pb.M.norm x (pb.grad x) := hε.trans_le hx0
  have hApos : 0 < A := by rw [hA]; positivity
  have hTpos : 0 < T := by rw [hT]; exact div_pos (by linarith) hL
  have hspos : 0 < s := by
    rw [hs]
    have : 1 / b < 1 := (div_lt_one (by linarith)).2 hb1
    exact div_pos (by linarith) hL
  obtain ⟨w, hw⟩ : ∃ w, w = min A (min s (r * T)) := ⟨_, rfl⟩
  have hwpos : 0 < w := by rw [hw]; exact lt_min hApos (lt_min hspos (by positivity))
  have hwA : w ≤ A := by rw [hw]; exact min_le_left _ _
  have hws : w ≤ s := by rw [hw]; exact (min_le_right _ _).trans (min_le_left _ _)
  have hwT : w ≤ r * T := by rw [hw]; exact (min_le_right _ _).trans (min_le_right _ _)
  rw [← hw] at hq
  have hqpos : 0 < q := by rw [hq]; positivity
  have hgL : ∀ y, On y → pb.M.norm y (pb.grad y) ^ 2 ≤ 2 * L * (pb.cost y - fmin) :=
    fun y hy => smooth_grad_le hS hL hf hy
  have hlt : ∀ y, On y → ε ≤ pb.M.norm y (pb.grad y) → 0 < pb.cost y - fmin := fun y hy hg => by
    have h1 : 0 < 2 * L * (pb.cost y - fmin) :=
      lt_of_lt_of_le (by have := hε.trans_le hg; positivity) (hgL y hy)
    exact pos_of_mul_pos_right h1 (by positivity)
  have hmuL : mu ≤ L := by
    have h1 := (hpl x hx le_rfl).trans (hgL x hx)
    have h2 := le_of_mul_le_mul_right h1 (hlt x hx hx0)
    linarith
  have hq1 : q ≤ 1 := linear_factor_le hL hmu hmuL hc0 hr1 hT hTpos hq hwT
  have hq2 : ∀ a y, w ≤ a → On y → pb.cost y ≤ pb.cost x →
      q * (pb.cost y - fmin) ≤ c * a * pb.M.norm y (pb.grad y) ^ 2 := fun a y ha hy hyx => by
    have h1 : c * w * (2 * mu * (pb.cost y - fmin)) ≤ c * w * pb.M.norm y (pb.grad y) ^ 2 :=
      mul_le_mul_of_nonneg_left (hpl y hy hyx) (by positivity)
    have h2 : c * w * pb.M.norm y (pb.grad y) ^ 2 ≤ c * a * pb.M.norm y (pb.grad y) ^ 2 :=
      mul_le_mul_of_nonneg_right (mul_le_mul_of_nonneg_left ha hc0.le) (sq_nonneg _)
    calc q * (pb.cost y - fmin) = c * w * (2 * mu * (pb.cost y - fmin)) := by rw [hq]; ring
      _ ≤ _ := h1.trans h2
  refine sd_linear (On := On) (Mem := fun y mem => (mem = none ∧ y = x) ∨
    ∃ old, mem = some old ∧ fmin < old ∧ q * (old - fmin) ≤ old - pb.cost y ∧ old ≤ pb.cost x)
    hmu hx (Or.inl ⟨rfl, rfl⟩) hqpos hq1 hL hε
    hcfg hgL hpl hn0 hx0 ?_ (fun y m o ho => not_lt.1 (of_decide_eq_false
      (C04_backTracking (decide_eq_false (lt_irrefl _)) ho).1)) h
  intro y mem o hy hyx hmem hg ho
  have hgpos : 0 < pb.M.norm y (pb.grad y) := hε.trans_le hg
  obtain ⟨a0, n, hinit, hbt, hom, hout⟩ := backTracking_trace ho
  rw [hneg y hy] at hinit
  obtain ⟨ha0, hbud, hcase⟩ : 0 < a0 ∧ r ^ ls.maxIterations.toNat * a0 ≤ T ∧
      ((y = x ∧ a0 = A) ∨ ∃ D, q * (pb.cost y - fmin) ≤ D ∧
        a0 * pb.M.norm y (pb.grad y) ^ 2 = b * D) := by
    rcases hmem with ⟨rfl, rfl⟩ | ⟨old, rfl, h0, h1, h2⟩
    · have e : a0 = A := by
        simp only [backTrackingInit, PyNum.div, if_neg hgpos.ne', PyNum.toFloat] at hinit
        cases hinit
        rw [hA]
      refine ⟨e ▸ hApos, ?_, Or.inl ⟨rfl, e⟩⟩
      rw [e]
      exact (mul_le_mul_of_nonneg_left (le_max_left _ _) (by positivity)).trans hbudget
    · have hne : -pb.M.norm y (pb.grad y) ^ 2 ≠ 0 := by
        have : 0 < pb.M.norm y (pb.grad y) ^ 2 := by positivity
        linarith
      have e : a0 = b * (old - pb.cost y) / pb.M.norm y (pb.grad y) ^ 2 := by
        simp only [backTrackingInit, PyNum.div, if_neg hne, PyNum.toFloat, PyNum.mul, PyNum.sub] at hinit
        cases hinit
        rw [← hbdef]
        simp only [PyNum.lit]
        push_cast
        field_simp
        ring
      have hD : 0 < old - pb.cost y := (mul_pos hqpos (sub_pos.2 h0)).trans_le h1
      refine ⟨by rw [e]; positivity, ?_, Or.inr ⟨old - pb.cost y, ?_, ?_⟩⟩
      · refine (mul_le_mul_of_nonneg_left (le_trans ?_ (le_max_right _ _)) (by positivity)).trans
          hbudget
        rw [e]
        have h3 := hf y hy
        refine div_le_div₀ ?_ ?_ (by positivity) (pow_le_pow_left₀ hε.le hg 2)
        · exact mul_nonneg (by linarith) (by linarith)
        · exact mul_le_mul_of_nonneg_left (by linarith) (by linarith)
      · exact (mul_le_mul_of_nonneg_left (by linarith) hqpos.le).trans h1
      · rw [e]
        field_simp
  rw [hcdef] at hbt
  obtain ⟨h1, h2, h3, h4⟩ := backTracks_smooth hS hL hr hr1 hT hm hy ha0 hbud
    (next := fun a => mul ls.contractionFactor a) (by rw [hrdef]; exact iterate_left r a0) hbt
  simp only [iterate_left, hrdef] at hout
  obtain ⟨a, ha⟩ : ∃ a, r ^ (n - 1) * a0 = a := ⟨_, rfl⟩
  rw [ha] at h1 h2 h3 h4 hout
  have hle : pb.cost (trialPoint pb.M y (pb.M.neg (pb.grad y)) a) ≤ pb.cost y := by
    have : 0 ≤ c * a * pb.M.norm y (pb.grad y) ^ 2 := by positivity
    linarith
  rcases hout with ⟨h5, -⟩ | ⟨-, h5, h6⟩
  · simp only [PyNum.lt, decide_eq_true_eq] at h5
    exact absurd h5 hle.not_gt
  have hdec : pb.cost (trialPoint pb.M y (pb.M.neg (pb.grad y)) a) ≤
      pb.cost y - q * (pb.cost y - fmin) := by
    rcases h3 with h3 | h3
    · rcases hcase with ⟨-, h7⟩ | ⟨D, h7, h8⟩
      · have h10 := hq2 a y (by rw [h3, h7]; exact hwA) hy hyx
        linarith
      · rcases le_or_gt a s with h9 | h9
        · have h10 := hS.upper y hy a h1
          have h11 : 1 / b ≤ 1 - L / 2 * a := by
            have h12 : L / 2 * a ≤ L / 2 * s := mul_le_mul_of_nonneg_left h9 (by positivity)
            have h13 : L / 2 * s = 1 - 1 / b := by rw [hs]; field_simp
            linarith
          have h12 : D ≤ a * pb.M.norm y (pb.grad y) ^ 2 * (1 - L / 2 * a) := by
            have h13 : D = a * pb.M.norm y (pb.grad y) ^ 2 * (1 / b) := by
              rw [h3, h8]
              field_simp
            conv_lhs => rw [h13]
            exact mul_le_mul_of_nonneg_left h11 (by positivity)
          nlinarith
        · have h10 := hq2 a y (hws.trans h9.le) hy hyx
          linarith
    · have h10 := hq2 a y (hwT.trans h3) hy hyx
      linarith
  refine ⟨by rw [h5]; exact hS.stays y hy a h1, by rw [h5]; linarith,
    Or.inr ⟨_, hom, by linarith [hlt y hy hg], by rw [h5]; linarith, hyx⟩, ?_⟩
  rw [h6, hneg y hy]
  change σ ≤ a * pb.M.norm y (pb.grad y)
  rw [hσ]
  rcases h3 with h3 | h3
  · refine (min_le_left _ _).trans ?_
    rcases hcase with ⟨rfl, h7⟩ | ⟨D, h7, h8⟩
    · refine (min_le_left _ _).trans ?_
      rw [h3, h7, hA, div_mul_cancel₀ _ hgpos.ne']
    · refine (min_le_right _ _).trans ?_
      have h9 := hgL y hy
      rw [div_le_iff₀ (by positivity)]
      have h10 : b * q * pb.M.norm y (pb.grad y) ^ 2 ≤ 2 * L * (a * pb.M.norm y (pb.grad y) ^ 2) := by
        rw [h3, h8]
        have h11 : b * (q * pb.M.norm y (pb.grad y) ^ 2) ≤ b * (q * (2 * L * (pb.cost y - fmin))) :=
          mul_le_mul_of_nonneg_left (mul_le_mul_of_nonneg_left h9 hqpos.le) (by linarith)
        have h12 : 2 * L * b * (q * (pb.cost y - fmin)) ≤ 2 * L * b * D :=
          mul_le_mul_of_nonneg_left h7 (by have := hL.le; have : 0 ≤ b := by linarith
                                           positivity)
        linarith
      have h11 : b * q * pb.M.norm y (pb.grad y) ≤ 2 * L * (a * pb.M.norm y (pb.grad y)) := by
        refine le_of_mul_le_mul_right ?_ hgpos
        linarith
      have h12 : b * q * ε ≤ b * q * pb.M.norm y (pb.grad y) :=
        mul_le_mul_of_nonneg_left hg (mul_nonneg (by linarith) hqpos.le)
      linarith
  · refine (min_le_right _ _).trans ?_
    exact mul_le_mul h3 hg hε.le h1.le

/-- **C147** (`SteepestDescent` with the `AdaptiveLineSearcher`): the same; here the line searcher need
only be able to contract a step of `max(A, 1 / (mu c))` to `T`. -/
theorem C147_adaptive (hS : SmoothDescent pb On L) (hL : 0 < L)
    (hf : ∀ y, On y → fmin ≤ pb.cost y)
    (hneg : ∀ y, On y → pb.M.norm y (pb.M.neg (pb.grad y)) = pb.M.norm y (pb.grad y))
    (hn0 : ∀ y, On y → 0 ≤ pb.M.norm y (pb.grad y))
    {ls : AdaptiveCfg ℝ} (hc0 : 0 < ls.sufficientDecrease) (hc : ls.sufficientDecrease < 1)
    (hr : 0 < ls.contractionFactor) (hr1 : ls.contractionFactor < 1) (hm : 0 ≤ ls.maxIterations)
    (hi : 0 < ls.initialStepSize) {x : P} (hx : On x) (hmu : 0 < mu)
    (hpl : GradDominated pb On (pb.cost x) fmin mu) (hε : 0 < ε)
    (hx0 : ε ≤ pb.M.norm x (pb.grad x))
    (hA : A = ls.initialStepSize / pb.M.norm x (pb.grad x))
    (hT : T = 2 * (1 - ls.sufficientDecrease) / L)
    (hq : q = 2 * mu * ls.sufficientDecrease * min A (ls.contractionFactor * T))
    (hσ : σ = min A (ls.contractionFactor * T) * ε)
    (hbudget : ls.contractionFactor ^ ls.maxIterations.toNat *
      max A (1 / (mu * ls.sufficientDecrease)) ≤ T)
    {cfg : Cfg ℝ} (hcfg : cfg.minGradientNorm = ε) {clk : Clock ℝ} {res : Result ℝ P} {m : Option ℝ}
    (h : SDRuns cfg (adaptive P E ls) pb clk x none (.ok (res, m))) :
    (∃ k : ℕ, res.iterations = k + 1 ∧
      pb.cost res.point - fmin ≤ (1 - q) ^ k * (pb.cost x - fmin)) ∧
    (res.iterations : ℝ) ≤ Real.log (2 * L * (pb.cost x - fmin) / ε ^ 2) / q + 2 ∧
    (Real.log (2 * L * (pb.cost x - fmin) / ε ^ 2) / q + 2 < cfg.maxIterations →
      (∀ i, clk.check2 i 0 < clk.start + cfg.maxTime) → 0 ≤ cfg.maxCostEvaluations →
      cfg.minStepSize ≤ σ → pb.cost res.point - fmin < ε ^ 2 / (2 * mu)) := by
  obtain ⟨c, hcdef⟩ : ∃ c, ls.sufficientDecrease = c := ⟨_, rfl⟩
  obtain ⟨r, hrdef⟩ : ∃ r, ls.contractionFactor = r := ⟨_, rfl⟩
  rw [hcdef] at hc0 hc hT hq hbudget
  rw [hrdef] at hr hr1 hq hbudget hσ
  have hg0 : 0 < pb.M.norm x (pb.grad x) := hε.trans_le hx0
  have hApos : 0 < A := by rw [hA]; positivity
  have hTpos : 0 < T := by rw [hT]; exact div_pos (by linarith) hL
  obtain ⟨w, hw⟩ : ∃ w, w = min A (r * T) := ⟨_, rfl⟩
  have hwpos : 0 < w := by rw [hw]; exact lt_min hApos (by positivity)
  have hwA : w ≤ A := by rw [hw]; exact min_le_left _ _
  have hwT : w ≤ r * T := by rw [hw]; exact min_le_right _ _
  rw [← hw] at hq hσ
  have hqpos : 0 < q := by rw [hq]; positivity
  have hgL : ∀ y, On y → pb.M.norm y (pb.grad y) ^ 2 ≤ 2 * L * (pb.cost y - fmin) :=
    fun y hy => smooth_grad_le hS hL hf hy
  have hlt : ∀ y, On y → ε ≤ pb.M.norm y (pb.grad y) → 0 < pb.cost y - fmin := fun y hy hg => by
    have h1 : 0 < 2 * L * (pb.cost y - fmin) :=
      lt_of_lt_of_le (by have := hε.trans_le hg; positivity) (hgL y hy)
    exact pos_of_mul_pos_right h1 (by positivity)
  have hmuL : mu ≤ L := by
    have h1 := (hpl x hx le_rfl).trans (hgL x hx)
    have h2 := le_of_mul_le_mul_right h1 (hlt x hx hx0)
    linarith
  have hq1 : q ≤ 1 := linear_factor_le hL hmu hmuL hc0 hr1 hT hTpos hq hwT
  refine sd_linear (On := On) (Mem := fun y mem => (mem = none ∧ y = x) ∨
    ∃ a, mem = some a ∧ w ≤ a ∧ a ≤ max A (1 / (mu * c))) hmu hx (Or.inl ⟨rfl, rfl⟩) hqpos hq1 hL hε
    hcfg hgL hpl hn0 hx0 ?_ (fun y m o ho => not_lt.1 (of_decide_eq_false
      (C04_adaptive (decide_eq_false (lt_irrefl _)) ho).1)) h
  intro y mem o hy hyx hmem hg ho
  have hgpos : 0 < pb.M.norm y (pb.grad y) := hε.trans_le hg
  obtain ⟨a0, n, hinit, hbt, hout⟩ := adaptive_trace ho
  rw [hneg y hy] at hinit
  obtain ⟨ha1, ha2⟩ : w ≤ a0 ∧ a0 ≤ max A (1 / (mu * c)) := by
    rcases hmem with ⟨rfl, rfl⟩ | ⟨old, rfl, h1, h2⟩
    · simp only [adaptiveInit, PyNum.div, if_neg hgpos.ne', PyNum.toFloat] at hinit
      cases hinit
      rw [← hA]
      exact ⟨hwA, le_max_left _ _⟩
    · simp only [adaptiveInit, PyNum.toFloat] at hinit
      cases hinit
      exact ⟨h1, h2⟩
  have ha0 : 0 < a0 := hwpos.trans_le ha1
  have hbud : r ^ ls.maxIterations.toNat * a0 ≤ T :=
    (mul_le_mul_of_nonneg_left ha2 (by positivity)).trans hbudget
  rw [hcdef] at hbt
  obtain ⟨h1, h2, h3, h4⟩ := backTracks_smooth hS hL hr hr1 hT hm hy ha0 hbud
    (next := fun a => mul a ls.contractionFactor) (by rw [hrdef]; exact iterate_right r a0) hbt
  simp only [iterate_right, hrdef] at hout
  obtain ⟨a, ha⟩ : ∃ a, r ^ (n - 1) * a0 = a := ⟨_, rfl⟩
  rw [ha] at h1 h2 h3 h4 hout
  have hal : w ≤ a := by
    rcases h3 with h3 | h3
    · rw [h3]
      exact ha1
    · exact hwT.trans h3
  have hle : pb.cost (trialPoint pb.M y (pb.M.neg (pb.grad y)) a) ≤ pb.cost y := by
    have : 0 ≤ c * a * pb.M.norm y (pb.grad y) ^ 2 := by positivity
    linarith
  have hon := hS.stays y hy a h1
  have hau : 2 * a ≤ max A (1 / (mu * c)) := by
    refine le_trans ?_ (le_max_right _ _)
    rw [le_div_iff₀ (by positivity)]
    have h5 := hf _ hon
    have h6 := hpl y hy hyx
    have h7 : c * a * pb.M.norm y (pb.grad y) ^ 2 ≤ pb.cost y - fmin := by linarith
    have h8 : 2 * mu * (c * a * pb.M.norm y (pb.grad y) ^ 2) ≤ pb.M.norm y (pb.grad y) ^ 2 :=
      (mul_le_mul_of_nonneg_left h7 (by positivity)).trans h6
    have h9 : 0 < pb.M.norm y (pb.grad y) ^ 2 := by positivity
    refine le_of_mul_le_mul_right ?_ h9
    linarith
  rcases hout with ⟨h5, -⟩ | ⟨-, h5, h6, h7⟩
  · simp only [PyNum.lt, decide_eq_true_eq] at h5
    exact absurd h5 hle.not_gt
  refine ⟨by rw [h5]; exact hon, ?_, Or.inr ⟨_, h7, ?_, ?_⟩, ?_⟩
  · rw [h5]
    have h8 : c * w * (2 * mu * (pb.cost y - fmin)) ≤ c * w * pb.M.norm y (pb.grad y) ^ 2 :=
      mul_le_mul_of_nonneg_left (hpl y hy hyx) (by positivity)
    have h9 : c * w * pb.M.norm y (pb.grad y) ^ 2 ≤ c * a * pb.M.norm y (pb.grad y) ^ 2 :=
      mul_le_mul_of_nonneg_right (mul_le_mul_of_nonneg_left hal hc0.le) (sq_nonneg _)
    have h10 : q * (pb.cost y - fmin) = c * w * (2 * mu * (pb.cost y - fmin)) := by rw [hq]; ring
    linarith
  · split
    · exact hal
    · simp only [PyNum.mul, PyNum.lit]
      push_cast
      linarith
  · split
    · linarith
    · simpa [PyNum.mul, PyNum.lit] using hau
  · rw [h6, hneg y hy]
    change σ ≤ a * pb.M.norm y (pb.grad y)
    rw [hσ]
    exact mul_le_mul hal hg hε.le h1.le

end

/-- Non-vacuity: minimising `x ^ 2` from `1` with the default parameters of the `AdaptiveLineSearcher`
and a minimal gradient norm of `1e-6`; the factor is `1 / 2`. -/
example {ls : AdaptiveCfg ℝ} (hls : ls = ⟨1 / 2, 1 / 2, 10, 1⟩) {cfg : Cfg ℝ}
    (hcfg : cfg.minGradientNorm = 1 / 10 ^ 6) {clk : Clock ℝ} {res : Result ℝ ℝ} {m : Option ℝ}
    (h : SDRuns cfg (adaptive ℝ ℝ ls) realSquare clk 1 none (.ok (res, m))) :
    ∃ k : ℕ, res.iterations = k + 1 ∧ res.point ^ 2 ≤ (1 - 1 / 2) ^ k := by
  subst hls
  obtain ⟨k, h1, h2⟩ := (C147_adaptive (L := 2) (fmin := 0) (mu := 2) (q := 1 / 2)
    (On := fun _ => True)
    ⟨fun _ _ _ _ => trivial, fun x _ t _ => by
      simp only [realSquare, realMfd, trialPoint]
      rw [sq_abs]
      nlinarith⟩ two_pos (fun y _ => sq_nonneg y) (fun y _ => by simp [realSquare, realMfd])
    (fun y _ => by simp [realSquare, realMfd])
    (by norm_num) (by norm_num) (by norm_num) (by norm_num) (by norm_num) (by norm_num) trivial two_pos
    (fun y _ _ => by
      simp only [realSquare, realMfd]
      rw [sq_abs]
      nlinarith) (by norm_num : (0 : ℝ) < 1 / 10 ^ 6) (by norm_num [realSquare, realMfd]) rfl rfl
    (by norm_num [realSquare, realMfd]) rfl (by
      have e : (10 : ℤ).toNat = 10 := rfl
      rw [e]
      norm_num [realSquare, realMfd]) hcfg h).1
  refine ⟨k, h1, ?_⟩
  simpa [realSquare] using h2

end Verif.Opt
