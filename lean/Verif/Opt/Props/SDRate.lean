/-
C131: steepest descent reaches a small gradient within a bounded number of iterations, with either
line searcher.
-/
import Verif.Opt.Props.Progress

namespace Verif.Opt
open PyNum

variable {P E : Type*}

/-- One search along the negative gradient whose budget suffices. -/
theorem backTracks_smooth {pb : Prob ℝ P E} {On : P → Prop} {L : ℝ} (hS : SmoothDescent pb On L)
    (hL : 0 < L) {c r T a0 : ℝ} (hr : 0 < r) (hr1 : r < 1)
    (hT : T = 2 * (1 - c) / L) {max : ℤ} (hm : 0 ≤ max) {x : P} (hx : On x) (ha : 0 < a0)
    (hbudget : r ^ max.toNat * a0 ≤ T) {next : ℝ → ℝ} (hnext : ∀ k, next^[k] a0 = r ^ k * a0)
    {n : ℕ} {evals : List P}
    (hb : BackTracks pb.cost pb.M x (pb.M.neg (pb.grad x)) (pb.cost x)
      (-pb.M.norm x (pb.grad x) ^ 2) c next max a0 n evals) :
    0 < r ^ (n - 1) * a0 ∧ r ^ (n - 1) * a0 ≤ a0 ∧
      (r ^ (n - 1) * a0 = a0 ∨ r * T ≤ r ^ (n - 1) * a0) ∧
      pb.cost (trialPoint pb.M x (pb.M.neg (pb.grad x)) (r ^ (n - 1) * a0)) ≤
        pb.cost x - c * (r ^ (n - 1) * a0) * pb.M.norm x (pb.grad x) ^ 2 := by
  have hok : ∀ t, 0 < t → t ≤ T → ¬ Violates pb.cost pb.M x (pb.M.neg (pb.grad x)) (pb.cost x)
      (-pb.M.norm x (pb.grad x) ^ 2) c t := by
    intro t ht htT
    rw [violates_iff, not_lt]
    refine (hS.upper x hx t ht).trans ?_
    have h1 : L / 2 * t ≤ 1 - c := by
      rw [hT, le_div_iff₀ hL] at htT
      linarith
    have h2 : 0 ≤ t * pb.M.norm x (pb.grad x) ^ 2 := by positivity
    nlinarith [mul_le_mul_of_nonneg_right h1 h2]
  have hN := backTracks_succeeds (r := r) (N := max.toNat) hnext hb
    (hok _ (by positivity) hbudget) (by omega)
  have h2 := hN.2
  rw [violates_iff, not_lt] at h2
  refine ⟨by positivity, mul_le_of_le_one_left ha.le (pow_le_one₀ hr.le hr1.le), ?_, by linarith⟩
  obtain hn | hn : n = 1 ∨ 2 ≤ n := by have := hb.1; omega
  · left
    subst hn
    simp
  · right
    have hv := hb.2.2.2.1 (n - 2) (by omega)
    rw [hnext] at hv
    have hlt : T < r ^ (n - 2) * a0 := by
      by_contra hcon
      exact hok _ (by positivity) (not_lt.1 hcon) hv
    have e : n - 1 = n - 2 + 1 := by omega
    rw [e, pow_succ]
    nlinarith

/-- A lower bound of the cost bounds the gradient. -/
theorem smooth_grad_le {pb : Prob ℝ P E} {On : P → Prop} {L fmin : ℝ} (hS : SmoothDescent pb On L)
    (hL : 0 < L) (hf : ∀ y, On y → fmin ≤ pb.cost y) {x : P} (hx : On x) :
    pb.M.norm x (pb.grad x) ^ 2 ≤ 2 * L * (pb.cost x - fmin) := by
  have h1 := hS.upper x hx (1 / L) (by positivity)
  have h2 := hf _ (hS.stays x hx (1 / L) (by positivity))
  have h3 : L / 2 * (1 / L) ^ 2 = 1 / L / 2 := by field_simp
  rw [h3] at h1
  have h4 : 1 / L / 2 * pb.M.norm x (pb.grad x) ^ 2 ≤ pb.cost x - fmin := by linarith
  have h5 := mul_le_mul_of_nonneg_left h4 (by positivity : (0 : ℝ) ≤ 2 * L)
  have h6 : 2 * L * (1 / L / 2 * pb.M.norm x (pb.grad x) ^ 2) = pb.M.norm x (pb.grad x) ^ 2 := by
    field_simp
  linarith

/-- Steepest descent ends within `(f0 - fmin) / δ + 1` iterations if each search started from a
gradient norm of at least `ε`, in a state where `Mem` holds, lowers the cost by `δ`. -/
theorem sd_terminates {S : Type*} {cfg : Cfg ℝ} {ls : LineSearcher ℝ P E S} {pb : Prob ℝ P E}
    {clk : Clock ℝ} {x : P} {mem : S} {On : P → Prop} {Mem : P → S → Prop} {fmin ε δ σ : ℝ}
    (hf : ∀ y, On y → fmin ≤ pb.cost y) (hx : On x) (hmem : Mem x mem) (hδ : 0 < δ)
    (hcfg : cfg.minGradientNorm = ε)
    (hstep : ∀ y m o, On y → pb.cost y ≤ pb.cost x → Mem y m → ε ≤ pb.M.norm y (pb.grad y) →
      ls.search m pb.cost pb.M y (pb.M.neg (pb.grad y)) (pb.cost y)
        (-pb.M.norm y (pb.grad y) ^ 2) = .ok o →
      On o.newx ∧ pb.cost o.newx ≤ pb.cost y - δ ∧ Mem o.newx o.mem ∧ σ ≤ o.stepSize)
    (hmono : ∀ y m o, ls.search m pb.cost pb.M y (pb.M.neg (pb.grad y)) (pb.cost y)
      (-pb.M.norm y (pb.grad y) ^ 2) = .ok o → pb.cost o.newx ≤ pb.cost y)
    {res : Result ℝ P} {m : S} (h : SDRuns cfg ls pb clk x mem (.ok (res, m))) :
    (res.iterations : ℝ) ≤ (pb.cost x - fmin) / δ + 1 ∧
    ((pb.cost x - fmin) / δ + 1 < cfg.maxIterations →
      (∀ i, clk.check2 i 0 < clk.start + cfg.maxTime) → 0 ≤ cfg.maxCostEvaluations →
      cfg.minStepSize ≤ σ → ∃ y, On y ∧ res.gradientNorm = some (pb.M.norm y (pb.grad y)) ∧
        pb.M.norm y (pb.grad y) < ε ∧ pb.cost res.point ≤ pb.cost y) := by
  unfold SDRuns at h
  split at h
  · cases h
  have hcount : ∀ s : SDState ℝ P S, On s.x →
      (s.iteration : ℝ) * δ ≤ pb.cost x - pb.cost s.x →
      (s.iteration : ℝ) ≤ (pb.cost x - fmin) / δ := fun s h1 h2 => by
    rw [le_div_iff₀ hδ]
    have := hf _ h1
    linarith
  refine h.invariant (Inv := fun s : SDState ℝ P S => On s.x ∧ 0 ≤ s.iteration ∧ Mem s.x s.mem ∧
      (s.iteration : ℝ) * δ ≤ pb.cost x - pb.cost s.x)
    (Post := fun q : Result ℝ P × S => (q.1.iterations : ℝ) ≤ (pb.cost x - fmin) / δ + 1 ∧
      ((pb.cost x - fmin) / δ + 1 < cfg.maxIterations →
        (∀ i, clk.check2 i 0 < clk.start + cfg.maxTime) → 0 ≤ cfg.maxCostEvaluations →
        cfg.minStepSize ≤ σ → ∃ y, On y ∧ q.1.gradientNorm = some (pb.M.norm y (pb.grad y)) ∧
          pb.M.norm y (pb.grad y) < ε ∧ pb.cost q.1.point ≤ pb.cost y)) ?_ ?_ ?_
  · rintro s s' ⟨h1, h2, h3, h4⟩ hs
    obtain ⟨o, ho, hck, rfl⟩ := sdStep_next hs
    rw [pow_lit_two] at ho
    have hg : ε ≤ pb.M.norm s.x (pb.grad s.x) := by
      unfold checkStop at hck
      simp only at hck
      split at hck
      · cases hck
      split at hck
      · cases hck
      split at hck
      · cases hck
      · rename_i hlt
        rw [← hcfg]
        simpa [PyNum.lt] using hlt
    have h0 : (0 : ℝ) ≤ s.iteration := by exact_mod_cast h2
    have hle : pb.cost s.x ≤ pb.cost x := by
      have := mul_nonneg h0 hδ.le
      linarith
    obtain ⟨i1, i2, i3, -⟩ := hstep s.x s.mem o h1 hle h3 hg ho
    refine ⟨i1, by simp only; omega, i3, ?_⟩
    push_cast
    linarith
  · rintro s q ⟨h1, h2, h3, h4⟩ hs
    obtain ⟨o, reason, ho, hck, rfl⟩ := sdStep_brk hs
    rw [pow_lit_two] at ho
    have hit := hcount s h1 h4
    refine ⟨by push_cast; linarith, fun hmax htime hce hss => ⟨_, h1, rfl, ?_, hmono _ _ _ ho⟩⟩
    by_contra hlt
    have hg := not_lt.1 hlt
    have h0 : (0 : ℝ) ≤ s.iteration := by exact_mod_cast h2
    have hle : pb.cost s.x ≤ pb.cost x := by
      have := mul_nonneg h0 hδ.le
      linarith
    obtain ⟨-, -, -, i4⟩ := hstep s.x s.mem o h1 hle h3 hg ho
    unfold checkStop at hck
    simp only at hck
    rw [if_neg (by
      have := htime (s.iteration + 1)
      simp only [PyNum.le, PyNum.add, decide_eq_true_eq, not_le]
      exact this), if_neg (by
      have : ((s.iteration + 1 : ℤ) : ℝ) < cfg.maxIterations := by push_cast; linarith
      have : s.iteration + 1 < cfg.maxIterations := by exact_mod_cast this
      omega), if_neg (by rw [hcfg]; simpa [PyNum.lt] using hg),
      if_neg (by simpa [PyNum.lt] using hss.trans i4), if_neg (by omega)] at hck
    cases hck
  · refine ⟨hx, le_rfl, hmem, ?_⟩
    simp [sdInit]

/-- **C131** From a point whose gradient norm is below the threshold steepest descent makes one
iteration, with either line searcher. -/
theorem C131_start {cfg : Cfg ℝ} {pb : Prob ℝ P E} {clk : Clock ℝ} {x : P} {mem : Option ℝ}
    {ls : LineSearcher ℝ P E (Option ℝ)}
    (hls : (∃ c, ls = backTracking P E c) ∨ ∃ c, ls = adaptive P E c)
    (hx : pb.M.norm x (pb.grad x) < cfg.minGradientNorm) {res : Result ℝ P} {m : Option ℝ}
    (h : SDRuns cfg ls pb clk x mem (.ok (res, m))) :
    res.iterations = 1 ∧ res.gradientNorm = some (pb.M.norm x (pb.grad x)) ∧
      pb.cost res.point ≤ pb.cost x := by
  unfold SDRuns at h
  split at h
  · cases h
  refine h.invariant (Inv := fun s : SDState ℝ P (Option ℝ) => s.x = x ∧ s.iteration = 0)
    (Post := fun q : Result ℝ P × Option ℝ => q.1.iterations = 1 ∧
      q.1.gradientNorm = some (pb.M.norm x (pb.grad x)) ∧ pb.cost q.1.point ≤ pb.cost x)
    ?_ ?_ ⟨rfl, rfl⟩
  · rintro s s' ⟨h1, h2⟩ hs
    obtain ⟨o, ho, hck, rfl⟩ := sdStep_next hs
    unfold checkStop at hck
    simp only at hck
    split at hck
    · cases hck
    split at hck
    · cases hck
    split at hck
    · cases hck
    · rename_i hlt
      rw [h1] at hlt
      exact absurd (by simpa [PyNum.lt] using hx) hlt
  · rintro s q ⟨h1, h2⟩ hs
    obtain ⟨o, reason, ho, hck, rfl⟩ := sdStep_brk hs
    refine ⟨by simp [h2], by rw [h1], ?_⟩
    rw [h1] at ho
    rcases hls with ⟨c, rfl⟩ | ⟨c, rfl⟩
    · exact not_lt.1 (of_decide_eq_false (C04_backTracking (decide_eq_false (lt_irrefl _)) ho).1)
    · exact not_lt.1 (of_decide_eq_false (C04_adaptive (decide_eq_false (lt_irrefl _)) ho).1)

/-- **C131** (`SteepestDescent` with the `BackTrackingLineSearcher`, its default): the cost is bounded
below by `fmin` and has the quadratic upper bound `L`; the first step tried is `A`; the line searcher
may contract a step of `max(A, 2 optimism (f0 - fmin) / ε ^ 2)` to `T`.  Then a run with minimal
gradient norm `ε` makes at most `(f0 - fmin) / δ + 1` iterations, and unless another limit ends it
earlier the last point searched from has a gradient norm below `ε`, which is the one reported, and
the point returned costs no more than it. -/
theorem C131_backTracking {pb : Prob ℝ P E} {On : P → Prop} {L fmin ε A T s δ σ : ℝ}
    (hS : SmoothDescent pb On L) (hL : 0 < L) (hf : ∀ y, On y → fmin ≤ pb.cost y)
    (hneg : ∀ y, On y → pb.M.norm y (pb.M.neg (pb.grad y)) = pb.M.norm y (pb.grad y))
    {ls : BackTrackingCfg ℝ} (hc0 : 0 < ls.sufficientDecrease) (hc : ls.sufficientDecrease < 1)
    (hr : 0 < ls.contractionFactor) (hr1 : ls.contractionFactor < 1) (hm : 0 ≤ ls.maxIterations)
    (hi : 0 < ls.initialStepSize) (ho1 : 1 / 2 < ls.optimism) {x : P} (hx : On x) (hε : 0 < ε)
    (hx0 : ε ≤ pb.M.norm x (pb.grad x))
    (hA : A = ls.initialStepSize / pb.M.norm x (pb.grad x))
    (hT : T = 2 * (1 - ls.sufficientDecrease) / L)
    (hs : s = 2 * (1 - 1 / (2 * ls.optimism)) / L)
    (hδ : δ = ls.sufficientDecrease * min (A * pb.M.norm x (pb.grad x) ^ 2)
      (min s (ls.contractionFactor * T) * ε ^ 2))
    (hσ : σ = min (min ls.initialStepSize
      (2 * ls.optimism * δ / Real.sqrt (2 * L * (pb.cost x - fmin)))) (ls.contractionFactor * T * ε))
    (hbudget : ls.contractionFactor ^ ls.maxIterations.toNat *
      max A (2 * ls.optimism * (pb.cost x - fmin) / ε ^ 2) ≤ T)
    {cfg : Cfg ℝ} (hcfg : cfg.minGradientNorm = ε) {clk : Clock ℝ} {res : Result ℝ P} {m : Option ℝ}
    (h : SDRuns cfg (backTracking P E ls) pb clk x none (.ok (res, m))) :
    (res.iterations : ℝ) ≤ (pb.cost x - fmin) / δ + 1 ∧
    ((pb.cost x - fmin) / δ + 1 < cfg.maxIterations →
      (∀ i, clk.check2 i 0 < clk.start + cfg.maxTime) → 0 ≤ cfg.maxCostEvaluations →
      cfg.minStepSize ≤ σ → ∃ y, On y ∧ res.gradientNorm = some (pb.M.norm y (pb.grad y)) ∧
        pb.M.norm y (pb.grad y) < ε ∧ pb.cost res.point ≤ pb.cost y) := by
  obtain ⟨c, hcdef⟩ : ∃ c, ls.sufficientDecrease = c := ⟨_, rfl⟩
  obtain ⟨r, hrdef⟩ : ∃ r, ls.contractionFactor = r := ⟨_, rfl⟩
  obtain ⟨b, hbdef⟩ : ∃ b, 2 * ls.optimism = b := ⟨_, rfl⟩
  rw [hcdef] at hc0 hc hT hδ
  rw [hrdef] at hr hr1 hδ hbudget hσ
  rw [hbdef] at hs hbudget hσ
  have hb1 : 1 < b := by linarith
  have hg0 : 0 < pb.M.norm x (pb.grad x) := hε.trans_le hx0
  have hApos : 0 < A := by rw [hA]; positivity
  have hTpos : 0 < T := by rw [hT]; exact div_pos (by linarith) hL
  have hspos : 0 < s := by
    rw [hs]
    have : 1 / b < 1 := (div_lt_one (by linarith)).2 hb1
    exact div_pos (by linarith) hL
  have hδpos : 0 < δ := by
    rw [hδ]
    exact mul_pos hc0 (lt_min (by positivity) (mul_pos (lt_min hspos (by positivity)) (by positivity)))
  have hδ1 : δ ≤ c * (A * pb.M.norm x (pb.grad x) ^ 2) := by
    rw [hδ]
    exact mul_le_mul_of_nonneg_left (min_le_left _ _) hc0.le
  have hδ2 : ∀ a g, min s (r * T) ≤ a → ε ≤ g → δ ≤ c * a * g ^ 2 := fun a g ha hg => by
    rw [hδ, mul_assoc]
    refine mul_le_mul_of_nonneg_left ((min_le_right _ _).trans ?_) hc0.le
    exact mul_le_mul ha (pow_le_pow_left₀ hε.le hg 2) (by positivity)
      ((lt_min hspos (by positivity : 0 < r * T)).le.trans ha)
  refine sd_terminates (On := On) (Mem := fun y mem => (mem = none ∧ y = x) ∨
    ∃ old, mem = some old ∧ δ ≤ old - pb.cost y ∧ old ≤ pb.cost x) hf hx (Or.inl ⟨rfl, rfl⟩) hδpos
    hcfg ?_ (fun y m o ho => not_lt.1 (of_decide_eq_false
      (C04_backTracking (decide_eq_false (lt_irrefl _)) ho).1)) h
  intro y mem o hy hyx hmem hg ho
  have hgpos : 0 < pb.M.norm y (pb.grad y) := hε.trans_le hg
  obtain ⟨a0, n, hinit, hbt, hom, hout⟩ := backTracking_trace ho
  rw [hneg y hy] at hinit
  obtain ⟨ha0, hbud, hcase⟩ : 0 < a0 ∧ r ^ ls.maxIterations.toNat * a0 ≤ T ∧
      ((y = x ∧ a0 = A) ∨ ∃ D, δ ≤ D ∧ a0 * pb.M.norm y (pb.grad y) ^ 2 = b * D) := by
    rcases hmem with ⟨rfl, rfl⟩ | ⟨old, rfl, h1, h2⟩
    · have e : a0 = A := by
        simp only [backTrackingInit, PyNum.div, if_neg hgpos.ne', PyNum.toFloat] at hinit
        cases hinit
        rw [hA]
      refine ⟨e ▸ hApos, ?_, Or.inl ⟨rfl, e⟩⟩
      rw [e]
      exact (mul_le_mul_of_nonneg_left (le_max_left _ _) (by positivity)).trans hbudget
    · have hne : -pb.M.norm y (pb.grad y) ^ 2 ≠ 0 := by
        have : 0 < pb.M.norm y (pb.grad y) ^ 2 := by positivity
        linarith
      have e : a0 = b * (old - pb.cost y) / pb.M.norm y (pb.grad y) ^ 2 := by
        simp only [backTrackingInit, PyNum.div, if_neg hne, PyNum.toFloat, PyNum.mul, PyNum.sub] at hinit
        cases hinit
        rw [← hbdef]
        simp only [PyNum.lit]
        push_cast
        field_simp
        ring
      have hD : 0 < old - pb.cost y := hδpos.trans_le h1
      refine ⟨by rw [e]; positivity, ?_, Or.inr ⟨_, h1, ?_⟩⟩
      · refine (mul_le_mul_of_nonneg_left (le_trans ?_ (le_max_right _ _)) (by positivity)).trans
          hbudget
        rw [e]
        have h3 := hf y hy
        refine div_le_div₀ ?_ ?_ (by positivity) (pow_le_pow_left₀ hε.le hg 2)
        · exact mul_nonneg (by linarith) (by linarith)
        · exact mul_le_mul_of_nonneg_left (by linarith) (by linarith)
      · rw [e]
        field_simp
  rw [hcdef] at hbt
  obtain ⟨h1, h2, h3, h4⟩ := backTracks_smooth hS hL hr hr1 hT hm hy ha0 hbud
    (next := fun a => mul ls.contractionFactor a) (by rw [hrdef]; exact iterate_left r a0) hbt
  simp only [iterate_left, hrdef] at hout
  obtain ⟨a, ha⟩ : ∃ a, r ^ (n - 1) * a0 = a := ⟨_, rfl⟩
  rw [ha] at h1 h2 h3 h4 hout
  have hle : pb.cost (trialPoint pb.M y (pb.M.neg (pb.grad y)) a) ≤ pb.cost y := by
    have : 0 ≤ c * a * pb.M.norm y (pb.grad y) ^ 2 := by positivity
    linarith
  rcases hout with ⟨h5, -⟩ | ⟨-, h5, h6⟩
  · simp only [PyNum.lt, decide_eq_true_eq] at h5
    exact absurd h5 hle.not_gt
  have hdec : pb.cost (trialPoint pb.M y (pb.M.neg (pb.grad y)) a) ≤ pb.cost y - δ := by
    rcases h3 with h3 | h3
    · rcases hcase with ⟨rfl, h7⟩ | ⟨D, h7, h8⟩
      · rw [h3, h7] at h4
        rw [h3, h7]
        linarith
      · rcases le_or_gt a s with h9 | h9
        · -- the step tried is short: the decrease is at least that of the step before
          have h10 := hS.upper y hy a h1
          have h11 : 1 / b ≤ 1 - L / 2 * a := by
            have h12 : L / 2 * a ≤ L / 2 * s := mul_le_mul_of_nonneg_left h9 (by positivity)
            have h13 : L / 2 * s = 1 - 1 / b := by rw [hs]; field_simp
            linarith
          have h12 : D ≤ a * pb.M.norm y (pb.grad y) ^ 2 * (1 - L / 2 * a) := by
            have h13 : D = a * pb.M.norm y (pb.grad y) ^ 2 * (1 / b) := by
              rw [h3, h8]
              field_simp
            conv_lhs => rw [h13]
            exact mul_le_mul_of_nonneg_left h11 (by positivity)
          nlinarith
        · have h10 := hδ2 a _ ((min_le_left _ _).trans h9.le) hg
          linarith
    · have h10 := hδ2 a _ ((min_le_right _ _).trans h3) hg
      linarith
  refine ⟨by rw [h5]; exact hS.stays y hy a h1, by rw [h5]; exact hdec,
    Or.inr ⟨_, hom, by rw [h5]; linarith, hyx⟩, ?_⟩
  rw [h6, hneg y hy]
  change σ ≤ a * pb.M.norm y (pb.grad y)
  rw [hσ]
  rcases h3 with h3 | h3
  · refine (min_le_left _ _).trans ?_
    rcases hcase with ⟨rfl, h7⟩ | ⟨D, h7, h8⟩
    · refine (min_le_left _ _).trans ?_
      rw [h3, h7, hA, div_mul_cancel₀ _ hgpos.ne']
    · refine (min_le_right _ _).trans ?_
      have h9 := smooth_grad_le hS hL hf hy
      have h10 : pb.M.norm y (pb.grad y) ≤ Real.sqrt (2 * L * (pb.cost x - fmin)) := by
        refine Real.le_sqrt_of_sq_le (h9.trans ?_)
        exact mul_le_mul_of_nonneg_left (by linarith) (by positivity)
      have h11 : a * pb.M.norm y (pb.grad y) = b * D / pb.M.norm y (pb.grad y) := by
        rw [eq_div_iff hgpos.ne', ← h8, h3]
        ring
      rw [h11]
      refine div_le_div₀ ?_ ?_ hgpos h10
      · exact mul_nonneg (by linarith) (by linarith)
      · exact mul_le_mul_of_nonneg_left h7 (by linarith)
  · refine (min_le_right _ _).trans ?_
    exact mul_le_mul h3 hg hε.le h1.le

/-- **C131** (`SteepestDescent` with the `AdaptiveLineSearcher`): the same, with a line searcher that
may contract a step of `max(A, 2 (f0 - fmin) / (c ε ^ 2))` to `T`. -/
theorem C131_adaptive {pb : Prob ℝ P E} {On : P → Prop} {L fmin ε A T δ σ : ℝ}
    (hS : SmoothDescent pb On L) (hL : 0 < L) (hf : ∀ y, On y → fmin ≤ pb.cost y)
    (hneg : ∀ y, On y → pb.M.norm y (pb.M.neg (pb.grad y)) = pb.M.norm y (pb.grad y))
    {ls : AdaptiveCfg ℝ} (hc0 : 0 < ls.sufficientDecrease) (hc : ls.sufficientDecrease < 1)
    (hr : 0 < ls.contractionFactor) (hr1 : ls.contractionFactor < 1) (hm : 0 ≤ ls.maxIterations)
    (hi : 0 < ls.initialStepSize) {x : P} (hx : On x) (hε : 0 < ε)
    (hx0 : ε ≤ pb.M.norm x (pb.grad x))
    (hA : A = ls.initialStepSize / pb.M.norm x (pb.grad x))
    (hT : T = 2 * (1 - ls.sufficientDecrease) / L)
    (hδ : δ = ls.sufficientDecrease * min A (ls.contractionFactor * T) * ε ^ 2)
    (hσ : σ = min A (ls.contractionFactor * T) * ε)
    (hbudget : ls.contractionFactor ^ ls.maxIterations.toNat *
      max A (2 * (pb.cost x - fmin) / (ls.sufficientDecrease * ε ^ 2)) ≤ T)
    {cfg : Cfg ℝ} (hcfg : cfg.minGradientNorm = ε) {clk : Clock ℝ} {res : Result ℝ P} {m : Option ℝ}
    (h : SDRuns cfg (adaptive P E ls) pb clk x none (.ok (res, m))) :
    (res.iterations : ℝ) ≤ (pb.cost x - fmin) / δ + 1 ∧
    ((pb.cost x - fmin) / δ + 1 < cfg.maxIterations →
      (∀ i, clk.check2 i 0 < clk.start + cfg.maxTime) → 0 ≤ cfg.maxCostEvaluations →
      cfg.minStepSize ≤ σ → ∃ y, On y ∧ res.gradientNorm = some (pb.M.norm y (pb.grad y)) ∧
        pb.M.norm y (pb.grad y) < ε ∧ pb.cost res.point ≤ pb.cost y) := by
  obtain ⟨c, hcdef⟩ : ∃ c, ls.sufficientDecrease = c := ⟨_, rfl⟩
  obtain ⟨r, hrdef⟩ : ∃ r, ls.contractionFactor = r := ⟨_, rfl⟩
  rw [hcdef] at hc0 hc hT hδ hbudget
  rw [hrdef] at hr hr1 hδ hbudget hσ
  have hg0 : 0 < pb.M.norm x (pb.grad x) := hε.trans_le hx0
  have hApos : 0 < A := by rw [hA]; positivity
  have hTpos : 0 < T := by rw [hT]; exact div_pos (by linarith) hL
  have hlow : 0 < min A (r * T) := lt_min hApos (by positivity)
  have hδpos : 0 < δ := by rw [hδ]; positivity
  refine sd_terminates (On := On) (Mem := fun y mem => (mem = none ∧ y = x) ∨
    ∃ a, mem = some a ∧ min A (r * T) ≤ a ∧
      a ≤ max A (2 * (pb.cost x - fmin) / (c * ε ^ 2))) hf hx (Or.inl ⟨rfl, rfl⟩) hδpos hcfg ?_
    (fun y m o ho => not_lt.1 (of_decide_eq_false
      (C04_adaptive (decide_eq_false (lt_irrefl _)) ho).1)) h
  intro y mem o hy hyx hmem hg ho
  have hgpos : 0 < pb.M.norm y (pb.grad y) := hε.trans_le hg
  obtain ⟨a0, n, hinit, hbt, hout⟩ := adaptive_trace ho
  rw [hneg y hy] at hinit
  obtain ⟨ha1, ha2⟩ : min A (r * T) ≤ a0 ∧ a0 ≤ max A (2 * (pb.cost x - fmin) / (c * ε ^ 2)) := by
    rcases hmem with ⟨rfl, rfl⟩ | ⟨old, rfl, h1, h2⟩
    · simp only [adaptiveInit, PyNum.div, if_neg hgpos.ne', PyNum.toFloat] at hinit
      cases hinit
      rw [← hA]
      exact ⟨min_le_left _ _, le_max_left _ _⟩
    · simp only [adaptiveInit, PyNum.toFloat] at hinit
      cases hinit
      exact ⟨h1, h2⟩
  have ha0 : 0 < a0 := hlow.trans_le ha1
  have hbud : r ^ ls.maxIterations.toNat * a0 ≤ T :=
    (mul_le_mul_of_nonneg_left ha2 (by positivity)).trans hbudget
  rw [hcdef] at hbt
  obtain ⟨h1, h2, h3, h4⟩ := backTracks_smooth hS hL hr hr1 hT hm hy ha0 hbud
    (next := fun a => mul a ls.contractionFactor) (by rw [hrdef]; exact iterate_right r a0) hbt
  simp only [iterate_right, hrdef] at hout
  obtain ⟨a, ha⟩ : ∃ a, r ^ (n - 1) * a0 = a := ⟨_, rfl⟩
  rw [ha] at h1 h2 h3 h4 hout
  have hal : min A (r * T) ≤ a := by
    rcases h3 with h3 | h3
    · rw [h3]
      exact ha1
    · exact (min_le_right _ _).trans h3
  have hle : pb.cost (trialPoint pb.M y (pb.M.neg (pb.grad y)) a) ≤ pb.cost y := by
    have : 0 ≤ c * a * pb.M.norm y (pb.grad y) ^ 2 := by positivity
    linarith
  have hon := hS.stays y hy a h1
  have hau : 2 * a ≤ max A (2 * (pb.cost x - fmin) / (c * ε ^ 2)) := by
    refine le_trans ?_ (le_max_right _ _)
    rw [le_div_iff₀ (by positivity)]
    have h5 := hf _ hon
    have h6 : c * a * ε ^ 2 ≤ c * a * pb.M.norm y (pb.grad y) ^ 2 :=
      mul_le_mul_of_nonneg_left (pow_le_pow_left₀ hε.le hg 2) (by positivity)
    nlinarith
  rcases hout with ⟨h5, -⟩ | ⟨-, h5, h6, h7⟩
  · simp only [PyNum.lt, decide_eq_true_eq] at h5
    exact absurd h5 hle.not_gt
  refine ⟨by rw [h5]; exact hon, ?_, Or.inr ⟨_, h7, ?_, ?_⟩, ?_⟩
  · rw [h5]
    have h8 : δ ≤ c * a * pb.M.norm y (pb.grad y) ^ 2 := by
      rw [hδ]
      exact mul_le_mul (mul_le_mul_of_nonneg_left hal hc0.le) (pow_le_pow_left₀ hε.le hg 2)
        (by positivity) (by positivity)
    linarith
  · split
    · exact hal
    · simp only [PyNum.mul, PyNum.lit]
      push_cast
      linarith
  · split
    · linarith
    · simpa [PyNum.mul, PyNum.lit] using hau
  · rw [h6, hneg y hy]
    change σ ≤ a * pb.M.norm y (pb.grad y)
    rw [hσ]
    exact mul_le_mul hal hg hε.le h1.le

/-! ## The hypotheses are met -/

/-- Minimising `x ^ 2` from `1` with the default parameters of the `BackTrackingLineSearcher` and the
threshold `1 / 100`. -/
example : SmoothDescent realSquare (fun _ => True) 2 ∧ (∀ y, (0 : ℝ) ≤ realSquare.cost y) ∧
    (∀ y, realSquare.M.norm y (realSquare.M.neg (realSquare.grad y)) =
      realSquare.M.norm y (realSquare.grad y)) ∧
    1 / 100 ≤ realSquare.M.norm 1 (realSquare.grad 1) ∧
    (1 / 2 : ℝ) ^ (25 : ℤ).toNat * max (1 / realSquare.M.norm 1 (realSquare.grad 1))
      (2 * 2 * (realSquare.cost 1 - 0) / (1 / 100) ^ 2) ≤ 2 * (1 - 1 / 10000) / 2 := by
  refine ⟨⟨fun _ _ _ _ => trivial, fun x _ t _ => ?_⟩, fun y => sq_nonneg y, fun y => ?_, ?_, ?_⟩
  · simp only [realSquare, realMfd, trialPoint]
    rw [sq_abs]
    nlinarith
  · simp [realSquare, realMfd]
  · norm_num [realSquare, realMfd]
  · have h1 : (25 : ℤ).toNat = 25 := rfl
    rw [h1]
    norm_num [realSquare, realMfd]

end Verif.Opt
