/-
C156: steepest descent on convex costs: the distance of the cost to its minimum decreases like `1 / k`,
and a small gradient is found within a number of iterations proportional to `1 / ε`.
-/
import Verif.Opt.Props.SDLinear

namespace Verif.Opt
open PyNum

variable {P E : Type*}

/-! ## Specification -/

/-- What convexity gives where the cost is at most `f0`: the distance of the cost to `fmin` is at most
`D` times the norm of the gradient, where `D` bounds the distance to a minimiser. -/
def GapDominated (pb : Prob ℝ P E) (On : P → Prop) (f0 fmin D : ℝ) : Prop :=
  ∀ y, On y → pb.cost y ≤ f0 → pb.cost y - fmin ≤ D * pb.M.norm y (pb.grad y)

/-! ## Lemmas -/

/-- One step of `1 / k` convergence. -/
theorem sublinear_step {η e0 g g' K : ℝ} (hη : 0 ≤ η) (he0 : 0 ≤ e0) (hg : 0 ≤ g) (hg' : 0 ≤ g')
    (h : g' ≤ g - η * g ^ 2) (hK : 0 ≤ K) (hk : g * (1 + K * e0) ≤ e0) :
    g' * (1 + K * e0 + η * e0) ≤ e0 := by
  rcases hg.eq_or_lt with rfl | hpos
  · have : g' = 0 := le_antisymm (by simpa using h) hg'
    rw [this]
    linarith
  have h1 : 0 ≤ 1 + K * e0 := by positivity
  have hgg : g' ≤ g := by nlinarith [mul_nonneg hη (sq_nonneg g)]
  have hge : g ≤ e0 := by nlinarith [mul_nonneg hK he0]
  -- g' (1 + K e0) ≤ (1 - η g) g (1 + K e0) ≤ (1 - η g) e0, and g' η e0 ≤ g η e0
  by_cases h2 : 1 - η * g ≤ 0
  · have h3 : g' ≤ 0 := h.trans (by nlinarith)
    have : g' = 0 := le_antisymm h3 hg'
    rw [this]
    linarith
  · have h2' : 0 < 1 - η * g := not_le.1 h2
    have h3 : g' * (1 + K * e0) ≤ (1 - η * g) * (g * (1 + K * e0)) := by
      have : g' ≤ (1 - η * g) * g := by linarith [h, (by ring : (1 - η * g) * g = g - η * g ^ 2)]
      calc g' * (1 + K * e0) ≤ (1 - η * g) * g * (1 + K * e0) := mul_le_mul_of_nonneg_right this h1
        _ = _ := by ring
    have h4 : (1 - η * g) * (g * (1 + K * e0)) ≤ (1 - η * g) * e0 :=
      mul_le_mul_of_nonneg_left hk h2'.le
    have h5 : g' * (η * e0) ≤ g * (η * e0) := mul_le_mul_of_nonneg_right hgg (by positivity)
    nlinarith

/-- Steepest descent converges like `1 / k` if each search from a gradient norm of at least `ε`, in a
state where `Mem` holds, reduces the distance to the minimum by at least `η` times its square and by
at least `η * (D * ε) ^ 2`. -/
theorem sd_sublinear {S : Type*} {cfg : Cfg ℝ} {ls : LineSearcher ℝ P E S} {pb : Prob ℝ P E}
    {clk : Clock ℝ} {x : P} {mem : S} {On : P → Prop} {Mem : P → S → Prop} {fmin ε η σ D : ℝ}
    (hD : 0 < D) (hx : On x) (hmem : Mem x mem) (hη : 0 < η) (hε : 0 < ε)
    (hcfg : cfg.minGradientNorm = ε) (hf : ∀ y, On y → fmin ≤ pb.cost y)
    (hgap : GapDominated pb On (pb.cost x) fmin D)
    (hstep : ∀ y m o, On y → pb.cost y ≤ pb.cost x → Mem y m → ε ≤ pb.M.norm y (pb.grad y) →
      ls.search m pb.cost pb.M y (pb.M.neg (pb.grad y)) (pb.cost y)
        (-pb.M.norm y (pb.grad y) ^ 2) = .ok o →
      On o.newx ∧ η * (pb.cost y - fmin) ^ 2 ≤ pb.cost y - pb.cost o.newx ∧
        η * (D * ε) ^ 2 ≤ pb.cost y - pb.cost o.newx ∧ Mem o.newx o.mem ∧ σ ≤ o.stepSize)
    (hmono : ∀ y m o, ls.search m pb.cost pb.M y (pb.M.neg (pb.grad y)) (pb.cost y)
      (-pb.M.norm y (pb.grad y) ^ 2) = .ok o → pb.cost o.newx ≤ pb.cost y)
    {res : Result ℝ P} {m : S} (h : SDRuns cfg ls pb clk x mem (.ok (res, m))) :
    (∃ k : ℕ, res.iterations = k + 1 ∧
      (pb.cost res.point - fmin) * (1 + k * η * (pb.cost x - fmin)) ≤ pb.cost x - fmin) ∧
    (res.iterations : ℝ) ≤ 2 / (η * D * ε) + 2 ∧
    (2 / (η * D * ε) + 2 < cfg.maxIterations →
      (∀ i, clk.check2 i 0 < clk.start + cfg.maxTime) → 0 ≤ cfg.maxCostEvaluations →
      cfg.minStepSize ≤ σ → pb.cost res.point - fmin ≤ D * ε) := by
  unfold SDRuns at h
  split at h
  · cases h
  have hm0 : 0 < η * (D * ε) ^ 2 := by positivity
  have hDε : 0 < D * ε := by positivity
  have he0 : 0 ≤ pb.cost x - fmin := by linarith [hf x hx]
  have hB : 0 ≤ 1 / (η * D * ε) := by positivity
  have hBe : D * ε / (η * (D * ε) ^ 2) = 1 / (η * D * ε) := by field_simp
  have hB2 : (2 : ℝ) / (η * D * ε) = 1 / (η * D * ε) + 1 / (η * D * ε) := by ring
  let Inv : SDState ℝ P S → Prop := fun s => On s.x ∧ Mem s.x s.mem ∧ pb.cost s.x ≤ pb.cost x ∧
    ∃ k : ℕ, s.iteration = k ∧
    (pb.cost s.x - fmin) * (1 + k * η * (pb.cost x - fmin)) ≤ pb.cost x - fmin ∧
    ((pb.cost s.x - fmin) * (k * η) ≤ 1 ∧ D * ε < pb.cost s.x - fmin ∨
      (k : ℝ) ≤ 1 / (η * D * ε) + 1 + (D * ε - (pb.cost s.x - fmin)) / (η * (D * ε) ^ 2))
  have hcount : ∀ s, Inv s → (s.iteration : ℝ) ≤ 2 / (η * D * ε) + 1 := by
    rintro s ⟨h1, -, -, k, h4, -, h6⟩
    have hk : ((s.iteration : ℤ) : ℝ) = k := by rw [h4]; simp
    rw [hk, hB2]
    rcases h6 with ⟨h6, h7⟩ | h6
    · have h8 : (k : ℝ) ≤ 1 / (η * D * ε) := by
        rw [le_div_iff₀ (by positivity)]
        have : (D * ε) * (k * η) ≤ (pb.cost s.x - fmin) * (k * η) :=
          mul_le_mul_of_nonneg_right h7.le (by positivity)
        linarith
      linarith
    · have h7 := hf _ h1
      have h8 : (D * ε - (pb.cost s.x - fmin)) / (η * (D * ε) ^ 2) ≤ D * ε / (η * (D * ε) ^ 2) :=
        div_le_div_of_nonneg_right (by linarith) hm0.le
      linarith
  refine h.invariant (Inv := Inv)
    (Post := fun p : Result ℝ P × S => (∃ k : ℕ, p.1.iterations = k + 1 ∧
      (pb.cost p.1.point - fmin) * (1 + k * η * (pb.cost x - fmin)) ≤ pb.cost x - fmin) ∧
    (p.1.iterations : ℝ) ≤ 2 / (η * D * ε) + 2 ∧
    (2 / (η * D * ε) + 2 < cfg.maxIterations →
      (∀ i, clk.check2 i 0 < clk.start + cfg.maxTime) → 0 ≤ cfg.maxCostEvaluations →
      cfg.minStepSize ≤ σ → pb.cost p.1.point - fmin ≤ D * ε)) ?_ ?_ ?_
  · rintro s s' ⟨h1, h3, hcx, k, h4, h5, h6⟩ hs
    obtain ⟨o, ho, hck, rfl⟩ := sdStep_next hs
    rw [pow_lit_two] at ho
    have hg : ε ≤ pb.M.norm s.x (pb.grad s.x) := by
      unfold checkStop at hck
      simp only at hck
      split at hck
      · cases hck
      split at hck
      · cases hck
      split at hck
      · cases hck
      · rename_i hlt
        rw [← hcfg]
        simpa [PyNum.lt] using hlt
    obtain ⟨i1, i2, i3, i4, -⟩ := hstep s.x s.mem o h1 hcx h3 hg ho
    have hg0 : 0 ≤ pb.cost s.x - fmin := by linarith [hf _ h1]
    have hg1 : 0 ≤ pb.cost o.newx - fmin := by linarith [hf _ i1]
    refine ⟨i1, i4, by simp only; linarith [hm0], k + 1, by simp only; push_cast; omega, ?_, ?_⟩
    · have := sublinear_step (K := k * η) hη.le he0 hg0 hg1 (by linarith) (by positivity) h5
      push_cast
      linarith
    · push_cast
      rcases le_or_gt (pb.cost o.newx - fmin) (D * ε) with h7 | h7
      · right
        rcases h6 with ⟨h6, h8⟩ | h6
        · have h9 : (k : ℝ) ≤ 1 / (η * D * ε) := by
            rw [le_div_iff₀ (by positivity)]
            have : (D * ε) * (k * η) ≤ (pb.cost s.x - fmin) * (k * η) :=
              mul_le_mul_of_nonneg_right h8.le (by positivity)
            linarith
          have h10 : 0 ≤ (D * ε - (pb.cost o.newx - fmin)) / (η * (D * ε) ^ 2) :=
            div_nonneg (by linarith) hm0.le
          linarith
        · have h8 : (D * ε - (pb.cost s.x - fmin)) / (η * (D * ε) ^ 2) + 1 ≤
              (D * ε - (pb.cost o.newx - fmin)) / (η * (D * ε) ^ 2) := by
            rw [div_add_one hm0.ne']
            exact div_le_div_of_nonneg_right (by linarith) hm0.le
          linarith
      · left
        refine ⟨?_, h7⟩
        have h8 : D * ε < pb.cost s.x - fmin := by linarith
        have h9 : (pb.cost s.x - fmin) * (k * η) ≤ 1 := by
          have h10 : 0 < pb.cost x - fmin := by linarith
          have h11 : (pb.cost s.x - fmin) * (k * η) * (pb.cost x - fmin) ≤
              1 * (pb.cost x - fmin) := by nlinarith
          exact le_of_mul_le_mul_right h11 h10
        have h12 := sublinear_step (K := k * η) (e0 := pb.cost x - fmin) hη.le he0 hg0 hg1 (by linarith)
          (by positivity) h5
        have h10 : 0 < pb.cost x - fmin := by linarith
        have h11 : (pb.cost o.newx - fmin) * ((k + 1) * η) * (pb.cost x - fmin) ≤
            1 * (pb.cost x - fmin) := by nlinarith
        exact le_of_mul_le_mul_right h11 h10
  · rintro s p hinv hs
    have hit := hcount s hinv
    obtain ⟨h1, h3, hcx, k, h4, h5, h6⟩ := hinv
    obtain ⟨o, reason, ho, hck, rfl⟩ := sdStep_brk hs
    rw [pow_lit_two] at ho
    have hm := hmono _ _ _ ho
    refine ⟨⟨k, by simp only; omega, ?_⟩, by push_cast; linarith, fun hmax htime hce hss => ?_⟩
    · refine le_trans (mul_le_mul_of_nonneg_right ?_ (by positivity)) h5
      simp only
      linarith
    have hlt : pb.M.norm s.x (pb.grad s.x) < ε := by
      by_contra hlt
      have hg := not_lt.1 hlt
      obtain ⟨-, -, -, -, i4⟩ := hstep s.x s.mem o h1 hcx h3 hg ho
      unfold checkStop at hck
      simp only at hck
      rw [if_neg (by
        have := htime (s.iteration + 1)
        simp only [PyNum.le, PyNum.add, decide_eq_true_eq, not_le]
        exact this), if_neg (by
        have : ((s.iteration + 1 : ℤ) : ℝ) < cfg.maxIterations := by push_cast; linarith
        have : s.iteration + 1 < cfg.maxIterations := by exact_mod_cast this
        omega), if_neg (by rw [hcfg]; simpa [PyNum.lt] using hg),
        if_neg (by simpa [PyNum.lt] using hss.trans i4), if_neg (by omega)] at hck
      cases hck
    have h7 := hgap s.x h1 hcx
    have h8 : D * pb.M.norm s.x (pb.grad s.x) ≤ D * ε := mul_le_mul_of_nonneg_left hlt.le hD.le
    simp only
    linarith
  · refine ⟨hx, hmem, le_rfl, 0, by simp [sdInit], by simp [sdInit], ?_⟩
    simp only [sdInit, Nat.cast_zero, zero_mul, mul_zero]
    rcases le_or_gt (pb.cost x - fmin) (D * ε) with h7 | h7
    · right
      have h10 : 0 ≤ (D * ε - (pb.cost x - fmin)) / (η * (D * ε) ^ 2) :=
        div_nonneg (by linarith) hm0.le
      linarith
    · exact Or.inl ⟨zero_le_one, h7⟩

theorem convex_decrease {c w D ε a g N : ℝ} (hc : 0 < c) (hw : 0 < w) (hD : 0 < D) (hε : 0 < ε)
    (ha : w ≤ a) (hg0 : 0 ≤ g) (hg : g ≤ D * N) (hN : ε ≤ N) :
    c * w / D ^ 2 * g ^ 2 ≤ c * a * N ^ 2 ∧ c * w / D ^ 2 * (D * ε) ^ 2 ≤ c * a * N ^ 2 := by
  have h0 : c * w * N ^ 2 ≤ c * a * N ^ 2 :=
    mul_le_mul_of_nonneg_right (mul_le_mul_of_nonneg_left ha hc.le) (sq_nonneg _)
  have h1 : c * w / D ^ 2 * (D * N) ^ 2 = c * w * N ^ 2 := by field_simp
  constructor
  · refine le_trans ?_ h0
    rw [← h1]
    exact mul_le_mul_of_nonneg_left (pow_le_pow_left₀ hg0 hg 2) (by positivity)
  · refine le_trans ?_ h0
    rw [← h1]
    exact mul_le_mul_of_nonneg_left (pow_le_pow_left₀ (by positivity)
      (mul_le_mul_of_nonneg_left hN hD.le) 2) (by positivity)

theorem sd_sublinear_of {g g0 u D ε q : ℝ} {it : ℤ} {Q : Prop}
    (h : (∃ k : ℕ, it = k + 1 ∧ g * (1 + k * (u / D ^ 2) * g0) ≤ g0) ∧
      (it : ℝ) ≤ 2 / (u / D ^ 2 * D * ε) + 2 ∧ (2 / (u / D ^ 2 * D * ε) + 2 < q → Q))
    (hD : 0 < D) (hε : 0 < ε) (hu : 0 < u) (hg0 : 0 ≤ g0) :
    (∃ k : ℕ, it = k + 1 ∧ u * k * g ≤ D ^ 2) ∧
      (it : ℝ) ≤ 2 * D / (u * ε) + 2 ∧ (2 * D / (u * ε) + 2 < q → Q) := by
  have e : 2 / (u / D ^ 2 * D * ε) = 2 * D / (u * ε) := by field_simp
  rw [e] at h
  obtain ⟨⟨k, hk, h1⟩, h2⟩ := h
  refine ⟨⟨k, hk, ?_⟩, h2⟩
  rcases le_or_gt g 0 with h0 | h0
  · have : u * k * g ≤ 0 := mul_nonpos_of_nonneg_of_nonpos (by positivity) h0
    exact this.trans (sq_nonneg D)
  · have hpos : 0 < g0 := by
      rcases hg0.eq_or_lt with h3 | h3
      · rw [← h3] at h1
        simp at h1
        linarith
      · exact h3
    have h3 : g * (k * (u / D ^ 2)) * g0 ≤ 1 * g0 := by nlinarith
    have h4 := le_of_mul_le_mul_right h3 hpos
    have h5 : g * (k * (u / D ^ 2)) = u * k * g / D ^ 2 := by field_simp
    rw [h5, div_le_one (by positivity)] at h4
    exact h4

section
variable {pb : Prob ℝ P E} {On : P → Prop} {L fmin ε A T s w σ D : ℝ}

/-- **C156** (`SteepestDescent` with the `BackTrackingLineSearcher`, its default).  The cost has the
quadratic upper bound `L`, and where it is at most that of the starting point its distance to the
minimum is at most `D` times the norm of the gradient, as it is for convex costs.  Then after `k`
iterations the distance to the minimum is at most `D ^ 2 / (c w k)`, a run with minimal gradient norm
`ε` makes at most `2 D / (c w ε) + 2` iterations, and unless another limit ends it earlier the cost of
the result is within `D ε` of the minimum. -/
theorem C156_backTracking (hS : SmoothDescent pb On L) (hL : 0 < L)
    (hf : ∀ y, On y → fmin ≤ pb.cost y)
    (hneg : ∀ y, On y → pb.M.norm y (pb.M.neg (pb.grad y)) = pb.M.norm y (pb.grad y))
    {ls : BackTrackingCfg ℝ} (hc0 : 0 < ls.sufficientDecrease) (hc : ls.sufficientDecrease < 1)
    (hr : 0 < ls.contractionFactor) (hr1 : ls.contractionFactor < 1) (hm : 0 ≤ ls.maxIterations)
    (hi : 0 < ls.initialStepSize) (ho1 : 1 / 2 < ls.optimism) {x : P} (hx : On x) (hD : 0 < D)
    (hgap : GapDominated pb On (pb.cost x) fmin D) (hε : 0 < ε)
    (hx0 : ε ≤ pb.M.norm x (pb.grad x))
    (hA : A = ls.initialStepSize / pb.M.norm x (pb.grad x))
    (hT : T = 2 * (1 - ls.sufficientDecrease) / L)
    (hs : s = 2 * (1 - 1 / (2 * ls.optimism)) / L)
    (hw : w = min A (min s (ls.contractionFactor * T)))
    (hσ : σ = min (min ls.initialStepSize (2 * ls.optimism * ls.sufficientDecrease * w * ε ^ 2 /
        Real.sqrt (2 * L * (pb.cost x - fmin)))) (ls.contractionFactor * T * ε))
    (hbudget : ls.contractionFactor ^ ls.maxIterations.toNat *
      max A (2 * ls.optimism * (pb.cost x - fmin) / ε ^ 2) ≤ T)
    {cfg : Cfg ℝ} (hcfg : cfg.minGradientNorm = ε) {clk : Clock ℝ} {res : Result ℝ P} {m : Option ℝ}
    (h : SDRuns cfg (backTracking P E ls) pb clk x none (.ok (res, m))) :
    (∃ k : ℕ, res.iterations = k + 1 ∧
      ls.sufficientDecrease * w * k * (pb.cost res.point - fmin) ≤ D ^ 2) ∧
    (res.iterations : ℝ) ≤ 2 * D / (ls.sufficientDecrease * w * ε) + 2 ∧
    (2 * D / (ls.sufficientDecrease * w * ε) + 2 < cfg.maxIterations →
      (∀ i, clk.check2 i 0 < clk.start + cfg.maxTime) → 0 ≤ cfg.maxCostEvaluations →
      cfg.minStepSize ≤ σ → pb.cost res.point - fmin ≤ D * ε) := by
  obtain ⟨c, hcdef⟩ : ∃ c, ls.sufficientDecrease = c := ⟨_, rfl⟩
  obtain ⟨r, hrdef⟩ : ∃ r, ls.contractionFactor = r := ⟨_, rfl⟩
  obtain ⟨b, hbdef⟩ : ∃ b, 2 * ls.optimism = b := ⟨_, rfl⟩
  rw [hcdef] at hc0 hc hT hσ ⊢
  rw [hrdef] at hr hr1 hw hbudget hσ
  rw [hbdef] at hs hbudget hσ
  have hb1 : 1 < b := by linarith
  have hg0 : 0 < pb.M.norm x (pb.grad x) := hε.trans_le hx0
  have hApos : 0 < A := by rw [hA]; positivity
  have hTpos : 0 < T := by rw [hT]; exact div_pos (by linarith) hL
  have hspos : 0 < s := by
    rw [hs]
    have : 1 / b < 1 := (div_lt_one (by linarith)).2 hb1
    exact div_pos (by linarith) hL
  have hwpos : 0 < w := by rw [hw]; exact lt_min hApos (lt_min hspos (by positivity))
  have hwA : w ≤ A := by rw [hw]; exact min_le_left _ _
  have hws : w ≤ s := by rw [hw]; exact (min_le_right _ _).trans (min_le_left _ _)
  have hwT : w ≤ r * T := by rw [hw]; exact (min_le_right _ _).trans (min_le_right _ _)
  have hgL : ∀ y, On y → pb.M.norm y (pb.grad y) ^ 2 ≤ 2 * L * (pb.cost y - fmin) :=
    fun y hy => smooth_grad_le hS hL hf hy
  have hq2 : ∀ a y, w ≤ a → On y → pb.cost y ≤ pb.cost x → ε ≤ pb.M.norm y (pb.grad y) →
      c * w / D ^ 2 * (pb.cost y - fmin) ^ 2 ≤ c * a * pb.M.norm y (pb.grad y) ^ 2 ∧
      c * w / D ^ 2 * (D * ε) ^ 2 ≤ c * a * pb.M.norm y (pb.grad y) ^ 2 :=
    fun a y ha hy hyx hg => convex_decrease hc0 hwpos hD hε ha (by linarith [hf y hy])
      (hgap y hy hyx) hg
  refine sd_sublinear_of (sd_sublinear (On := On) (η := c * w / D ^ 2) (Mem := fun y mem =>
    (mem = none ∧ y = x) ∨ ∃ old, mem = some old ∧ old ≤ pb.cost x ∧ pb.cost y ≤ old ∧
      c * w / D ^ 2 * (old - fmin) ^ 2 ≤ old - pb.cost y ∧
      c * w / D ^ 2 * (D * ε) ^ 2 ≤ old - pb.cost y)
    hD hx (Or.inl ⟨rfl, rfl⟩) (by positivity) hε
    hcfg hf hgap ?_ (fun y m o ho => not_lt.1 (of_decide_eq_false
      (C04_backTracking (decide_eq_false (lt_irrefl _)) ho).1)) h) hD hε (by positivity)
      (by linarith [hf x hx])
  intro y mem o hy hyx hmem hg ho
  have hgpos : 0 < pb.M.norm y (pb.grad y) := hε.trans_le hg
  have hm0 : 0 < c * w / D ^ 2 * (D * ε) ^ 2 := by positivity
  obtain ⟨a0, n, hinit, hbt, hom, hout⟩ := backTracking_trace ho
  rw [hneg y hy] at hinit
  obtain ⟨ha0, hbud, hcase⟩ : 0 < a0 ∧ r ^ ls.maxIterations.toNat * a0 ≤ T ∧
      ((y = x ∧ a0 = A) ∨ ∃ d, c * w / D ^ 2 * (pb.cost y - fmin) ^ 2 ≤ d ∧
        c * w / D ^ 2 * (D * ε) ^ 2 ≤ d ∧ a0 * pb.M.norm y (pb.grad y) ^ 2 = b * d) := by
    rcases hmem with ⟨rfl, rfl⟩ | ⟨old, rfl, h2, h0, h1, h1'⟩
    · have e : a0 = A := by
        simp only [backTrackingInit, PyNum.div, if_neg hgpos.ne', PyNum.toFloat] at hinit
        cases hinit
        rw [hA]
      refine ⟨e ▸ hApos, ?_, Or.inl ⟨rfl, e⟩⟩
      rw [e]
      exact (mul_le_mul_of_nonneg_left (le_max_left _ _) (by positivity)).trans hbudget
    · have hne : -pb.M.norm y (pb.grad y) ^ 2 ≠ 0 := by
        have : 0 < pb.M.norm y (pb.grad y) ^ 2 := by positivity
        linarith
      have e : a0 = b * (old - pb.cost y) / pb.M.norm y (pb.grad y) ^ 2 := by
        simp only [backTrackingInit, PyNum.div, if_neg hne, PyNum.toFloat, PyNum.mul, PyNum.sub] at hinit
        cases hinit
        rw [← hbdef]
        simp only [PyNum.lit]
        push_cast
        field_simp
        ring
      have hd : 0 < old - pb.cost y := hm0.trans_le h1'
      have h3 := hf y hy
      refine ⟨by rw [e]; positivity, ?_, Or.inr ⟨old - pb.cost y, ?_, h1', ?_⟩⟩
      · refine (mul_le_mul_of_nonneg_left (le_trans ?_ (le_max_right _ _)) (by positivity)).trans
          hbudget
        rw [e]
        refine div_le_div₀ ?_ ?_ (by positivity) (pow_le_pow_left₀ hε.le hg 2)
        · exact mul_nonneg (by linarith) (by linarith)
        · exact mul_le_mul_of_nonneg_left (by linarith) (by linarith)
      · refine (mul_le_mul_of_nonneg_left ?_ (by positivity)).trans h1
        exact pow_le_pow_left₀ (by linarith) (by linarith) 2
      · rw [e]
        field_simp
  rw [hcdef] at hbt
  obtain ⟨h1, h2, h3, h4⟩ := backTracks_smooth hS hL hr hr1 hT hm hy ha0 hbud
    (next := fun a => mul ls.contractionFactor a) (by rw [hrdef]; exact iterate_left r a0) hbt
  simp only [iterate_left, hrdef] at hout
  obtain ⟨a, ha⟩ : ∃ a, r ^ (n - 1) * a0 = a := ⟨_, rfl⟩
  rw [ha] at h1 h2 h3 h4 hout
  have hle : pb.cost (trialPoint pb.M y (pb.M.neg (pb.grad y)) a) ≤ pb.cost y := by
    have : 0 ≤ c * a * pb.M.norm y (pb.grad y) ^ 2 := by positivity
    linarith
  rcases hout with ⟨h5, -⟩ | ⟨-, h5, h6⟩
  · simp only [PyNum.lt, decide_eq_true_eq] at h5
    exact absurd h5 hle.not_gt
  have hdec : c * w / D ^ 2 * (pb.cost y - fmin) ^ 2 ≤
        pb.cost y - pb.cost (trialPoint pb.M y (pb.M.neg (pb.grad y)) a) ∧
      c * w / D ^ 2 * (D * ε) ^ 2 ≤
        pb.cost y - pb.cost (trialPoint pb.M y (pb.M.neg (pb.grad y)) a) := by
    rcases h3 with h3 | h3
    · rcases hcase with ⟨-, h7⟩ | ⟨d, h7, h7', h8⟩
      · obtain ⟨h10, h11⟩ := hq2 a y (by rw [h3, h7]; exact hwA) hy hyx hg
        exact ⟨by linarith, by linarith⟩
      · rcases le_or_gt a s with h9 | h9
        · have h10 := hS.upper y hy a h1
          have h11 : 1 / b ≤ 1 - L / 2 * a := by
            have h12 : L / 2 * a ≤ L / 2 * s := mul_le_mul_of_nonneg_left h9 (by positivity)
            have h13 : L / 2 * s = 1 - 1 / b := by rw [hs]; field_simp
            linarith
          have h12 : d ≤ a * pb.M.norm y (pb.grad y) ^ 2 * (1 - L / 2 * a) := by
            have h13 : d = a * pb.M.norm y (pb.grad y) ^ 2 * (1 / b) := by
              rw [h3, h8]
              field_simp
            conv_lhs => rw [h13]
            exact mul_le_mul_of_nonneg_left h11 (by positivity)
          have h13 : d ≤ pb.cost y - pb.cost (trialPoint pb.M y (pb.M.neg (pb.grad y)) a) := by
            nlinarith
          exact ⟨h7.trans h13, h7'.trans h13⟩
        · obtain ⟨h10, h11⟩ := hq2 a y (hws.trans h9.le) hy hyx hg
          exact ⟨by linarith, by linarith⟩
    · obtain ⟨h10, h11⟩ := hq2 a y (hwT.trans h3) hy hyx hg
      exact ⟨by linarith, by linarith⟩
  refine ⟨by rw [h5]; exact hS.stays y hy a h1, by rw [h5]; exact hdec.1, by rw [h5]; exact hdec.2,
    Or.inr ⟨_, hom, hyx, by rw [h5]; exact hle, by rw [h5]; exact hdec.1, by rw [h5]; exact hdec.2⟩,
    ?_⟩
  rw [h6, hneg y hy]
  change σ ≤ a * pb.M.norm y (pb.grad y)
  rw [hσ]
  rcases h3 with h3 | h3
  · refine (min_le_left _ _).trans ?_
    rcases hcase with ⟨rfl, h7⟩ | ⟨d, h7, h7', h8⟩
    · refine (min_le_left _ _).trans ?_
      rw [h3, h7, hA, div_mul_cancel₀ _ hgpos.ne']
    · refine (min_le_right _ _).trans ?_
      have h9 : pb.M.norm y (pb.grad y) ≤ Real.sqrt (2 * L * (pb.cost x - fmin)) := by
        refine Real.le_sqrt_of_sq_le ((hgL y hy).trans ?_)
        exact mul_le_mul_of_nonneg_left (by linarith) (by positivity)
      have h10 : c * w * ε ^ 2 ≤ d := by
        refine le_trans (le_of_eq ?_) h7'
        field_simp
      rw [div_le_iff₀ (hgpos.trans_le h9)]
      have h11 : a * pb.M.norm y (pb.grad y) * pb.M.norm y (pb.grad y) ≤
          a * pb.M.norm y (pb.grad y) * Real.sqrt (2 * L * (pb.cost x - fmin)) :=
        mul_le_mul_of_nonneg_left h9 (by positivity)
      have h12 : a * pb.M.norm y (pb.grad y) * pb.M.norm y (pb.grad y) = b * d := by
        rw [← h8, h3]; ring
      have h13 : b * (c * w * ε ^ 2) ≤ b * d := mul_le_mul_of_nonneg_left h10 (by linarith)
      linarith
  · refine (min_le_right _ _).trans ?_
    exact mul_le_mul h3 hg hε.le h1.le

/-- **C156** (`SteepestDescent` with the `AdaptiveLineSearcher`): the same; here the line searcher need
only be able to contract a step of `max(A, 2 D / (c ε))` to `T`. -/
theorem C156_adaptive (hS : SmoothDescent pb On L) (hL : 0 < L)
    (hf : ∀ y, On y → fmin ≤ pb.cost y)
    (hneg : ∀ y, On y → pb.M.norm y (pb.M.neg (pb.grad y)) = pb.M.norm y (pb.grad y))
    {ls : AdaptiveCfg ℝ} (hc0 : 0 < ls.sufficientDecrease) (hc : ls.sufficientDecrease < 1)
    (hr : 0 < ls.contractionFactor) (hr1 : ls.contractionFactor < 1) (hm : 0 ≤ ls.maxIterations)
    (hi : 0 < ls.initialStepSize) {x : P} (hx : On x) (hD : 0 < D)
    (hgap : GapDominated pb On (pb.cost x) fmin D) (hε : 0 < ε)
    (hx0 : ε ≤ pb.M.norm x (pb.grad x))
    (hA : A = ls.initialStepSize / pb.M.norm x (pb.grad x))
    (hT : T = 2 * (1 - ls.sufficientDecrease) / L)
    (hw : w = min A (ls.contractionFactor * T))
    (hbudget : ls.contractionFactor ^ ls.maxIterations.toNat *
      max A (2 * D / (ls.sufficientDecrease * ε)) ≤ T)
    {cfg : Cfg ℝ} (hcfg : cfg.minGradientNorm = ε) {clk : Clock ℝ} {res : Result ℝ P} {m : Option ℝ}
    (h : SDRuns cfg (adaptive P E ls) pb clk x none (.ok (res, m))) :
    (∃ k : ℕ, res.iterations = k + 1 ∧
      ls.sufficientDecrease * w * k * (pb.cost res.point - fmin) ≤ D ^ 2) ∧
    (res.iterations : ℝ) ≤ 2 * D / (ls.sufficientDecrease * w * ε) + 2 ∧
    (2 * D / (ls.sufficientDecrease * w * ε) + 2 < cfg.maxIterations →
      (∀ i, clk.check2 i 0 < clk.start + cfg.maxTime) → 0 ≤ cfg.maxCostEvaluations →
      cfg.minStepSize ≤ w * ε → pb.cost res.point - fmin ≤ D * ε) := by
  obtain ⟨c, hcdef⟩ : ∃ c, ls.sufficientDecrease = c := ⟨_, rfl⟩
  obtain ⟨r, hrdef⟩ : ∃ r, ls.contractionFactor = r := ⟨_, rfl⟩
  rw [hcdef] at hc0 hc hT hbudget ⊢
  rw [hrdef] at hr hr1 hw hbudget
  have hg0 : 0 < pb.M.norm x (pb.grad x) := hε.trans_le hx0
  have hApos : 0 < A := by rw [hA]; positivity
  have hTpos : 0 < T := by rw [hT]; exact div_pos (by linarith) hL
  have hwpos : 0 < w := by rw [hw]; exact lt_min hApos (by positivity)
  have hwA : w ≤ A := by rw [hw]; exact min_le_left _ _
  have hwT : w ≤ r * T := by rw [hw]; exact min_le_right _ _
  refine sd_sublinear_of (sd_sublinear (On := On) (η := c * w / D ^ 2) (Mem := fun y mem =>
    (mem = none ∧ y = x) ∨ ∃ a, mem = some a ∧ w ≤ a ∧ a ≤ max A (2 * D / (c * ε)))
    hD hx (Or.inl ⟨rfl, rfl⟩) (by positivity) hε
    hcfg hf hgap ?_ (fun y m o ho => not_lt.1 (of_decide_eq_false
      (C04_adaptive (decide_eq_false (lt_irrefl _)) ho).1)) h) hD hε (by positivity)
      (by linarith [hf x hx])
  intro y mem o hy hyx hmem hg ho
  have hgpos : 0 < pb.M.norm y (pb.grad y) := hε.trans_le hg
  obtain ⟨a0, n, hinit, hbt, hout⟩ := adaptive_trace ho
  rw [hneg y hy] at hinit
  obtain ⟨ha1, ha2⟩ : w ≤ a0 ∧ a0 ≤ max A (2 * D / (c * ε)) := by
    rcases hmem with ⟨rfl, rfl⟩ | ⟨old, rfl, h1, h2⟩
    · simp only [adaptiveInit, PyNum.div, if_neg hgpos.ne', PyNum.toFloat] at hinit
      cases hinit
      rw [← hA]
      exact ⟨hwA, le_max_left _ _⟩
    · simp only [adaptiveInit, PyNum.toFloat] at hinit
      cases hinit
      exact ⟨h1, h2⟩
  have ha0 : 0 < a0 := hwpos.trans_le ha1
  have hbud : r ^ ls.maxIterations.toNat * a0 ≤ T :=
    (mul_le_mul_of_nonneg_left ha2 (by positivity)).trans hbudget
  rw [hcdef] at hbt
  obtain ⟨h1, h2, h3, h4⟩ := backTracks_smooth hS hL hr hr1 hT hm hy ha0 hbud
    (next := fun a => mul a ls.contractionFactor) (by rw [hrdef]; exact iterate_right r a0) hbt
  simp only [iterate_right, hrdef] at hout
  obtain ⟨a, ha⟩ : ∃ a, r ^ (n - 1) * a0 = a := ⟨_, rfl⟩
  rw [ha] at h1 h2 h3 h4 hout
  have hal : w ≤ a := by
    rcases h3 with h3 | h3
    · rw [h3]
      exact ha1
    · exact hwT.trans h3
  have hle : pb.cost (trialPoint pb.M y (pb.M.neg (pb.grad y)) a) ≤ pb.cost y := by
    have : 0 ≤ c * a * pb.M.norm y (pb.grad y) ^ 2 := by positivity
    linarith
  have hon := hS.stays y hy a h1
  have hau : 2 * a ≤ max A (2 * D / (c * ε)) := by
    refine le_trans ?_ (le_max_right _ _)
    rw [le_div_iff₀ (by positivity)]
    have h5 := hf _ hon
    have h6 := hgap y hy hyx
    have h7 : c * a * pb.M.norm y (pb.grad y) ^ 2 ≤ D * pb.M.norm y (pb.grad y) := by linarith
    have h8 : c * a * pb.M.norm y (pb.grad y) ≤ D := by
      refine le_of_mul_le_mul_right ?_ hgpos
      linarith
    have h9 : c * a * ε ≤ c * a * pb.M.norm y (pb.grad y) :=
      mul_le_mul_of_nonneg_left hg (by positivity)
    linarith
  rcases hout with ⟨h5, -⟩ | ⟨-, h5, h6, h7⟩
  · simp only [PyNum.lt, decide_eq_true_eq] at h5
    exact absurd h5 hle.not_gt
  obtain ⟨d1, d2⟩ := convex_decrease hc0 hwpos hD hε hal (by linarith [hf y hy] :
    0 ≤ pb.cost y - fmin) (hgap y hy hyx) hg
  refine ⟨by rw [h5]; exact hon, by rw [h5]; linarith, by rw [h5]; linarith,
    Or.inr ⟨_, h7, ?_, ?_⟩, ?_⟩
  · split
    · exact hal
    · simp only [PyNum.mul, PyNum.lit]
      push_cast
      linarith
  · split
    · linarith
    · simpa [PyNum.mul, PyNum.lit] using hau
  · rw [h6, hneg y hy]
    exact mul_le_mul hal hg hε.le h1.le

end

/-- Non-vacuity: minimising `x ^ 2` from `1` with the default parameters of the `AdaptiveLineSearcher`
and a minimal gradient norm of `1 / 100`. -/
example {ls : AdaptiveCfg ℝ} (hls : ls = ⟨1 / 2, 1 / 2, 10, 1⟩) {cfg : Cfg ℝ}
    (hcfg : cfg.minGradientNorm = 1 / 100) {clk : Clock ℝ} {res : Result ℝ ℝ} {m : Option ℝ}
    (h : SDRuns cfg (adaptive ℝ ℝ ls) realSquare clk 1 none (.ok (res, m))) :
    (∃ k : ℕ, res.iterations = k + 1 ∧ k * res.point ^ 2 ≤ 2) ∧ (res.iterations : ℝ) ≤ 802 := by
  subst hls
  obtain ⟨⟨k, h1, h2⟩, h3, -⟩ := C156_adaptive (L := 2) (fmin := 0) (D := 1 / 2) (w := 1 / 4)
    (ε := 1 / 100) (On := fun _ => True)
    ⟨fun _ _ _ _ => trivial, fun x _ t _ => by
      simp only [realSquare, realMfd, trialPoint]
      rw [sq_abs]
      nlinarith⟩ two_pos (fun y _ => sq_nonneg y) (fun y _ => by simp [realSquare, realMfd])
    (by norm_num) (by norm_num) (by norm_num) (by norm_num) (by norm_num) (by norm_num) trivial
    (by norm_num)
    (fun y _ hy => by
      have hy' : |y| ≤ 1 := by
        rw [← sq_le_one_iff_abs_le_one]
        simpa [realSquare] using hy
      simp only [realSquare, realMfd]
      rw [abs_mul, ← sq_abs y, abs_two]
      nlinarith [abs_nonneg y]) (by norm_num) (by norm_num [realSquare, realMfd]) rfl rfl
    (by norm_num [realSquare, realMfd]) (by
      have e : (10 : ℤ).toNat = 10 := rfl
      rw [e]
      norm_num [realSquare, realMfd]) hcfg h
  refine ⟨⟨k, h1, ?_⟩, by norm_num at h3 ⊢; exact h3⟩
  simp only [realSquare, sub_zero] at h2
  linarith

end Verif.Opt
