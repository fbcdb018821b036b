/-
C157: conjugate gradient converges linearly, with either line searcher, if its directions are of
sufficient descent and the gradient dominates the distance of the cost to its minimum.
-/
import Verif.Opt.Lemmas
import Verif.Opt.Props.SDLinear

namespace Verif.Opt
open PyNum

variable {P E : Type*}

/-! ## Specification -/

/-- The directions in `Good` make an angle with the negative gradient bounded away from a right one and
are at most `K` times as long as the gradient; the cost has the quadratic upper bound `L` along them; the
first direction is in `Good`, and so is the next one after any step along one in `Good`. -/
structure DescentDirs (pb : Prob ℝ P E) (rule : BetaRule) (orth : ℝ) (On : P → Prop)
    (Good : P → E → Prop) (γ K L : ℝ) : Prop where
  stays (y : P) (d : E) (t : ℝ) : On y → Good y d → 0 < t → On (trialPoint pb.M y d t)
  upper (y : P) (d : E) (t : ℝ) : On y → Good y d → 0 < t →
    pb.cost (trialPoint pb.M y d t) ≤
      pb.cost y + t * pb.M.inner y (pb.grad y) d + L / 2 * t ^ 2 * pb.M.norm y d ^ 2
  slope (y : P) (d : E) : On y → Good y d →
    pb.M.inner y (pb.grad y) d ≤ -γ * pb.M.norm y (pb.grad y) ^ 2
  size (y : P) (d : E) : On y → Good y d → pb.M.norm y d ≤ K * pb.M.norm y (pb.grad y)
  cauchy (y : P) (d : E) : On y → Good y d →
    -pb.M.inner y (pb.grad y) d ≤ pb.M.norm y (pb.grad y) * pb.M.norm y d
  norm_nonneg (y : P) (v : E) : On y → 0 ≤ pb.M.norm y v
  first (y : P) : On y → Good y (pb.M.neg (pb.precon y (pb.grad y)))
  next (y : P) (d : E) (t : ℝ) (z : P) (nd : E) : On y → Good y d → 0 < t →
    z = trialPoint pb.M y d t →
    cgDirection pb.M rule orth
      { x := y, newx := z, grad := pb.grad y, newgrad := pb.grad z,
        Pnewgrad := pb.precon z (pb.grad z),
        newgradPnewgrad := pb.M.inner z (pb.grad z) (pb.precon z (pb.grad z)),
        Pgrad := pb.precon y (pb.grad y),
        gradPgrad := pb.M.inner y (pb.grad y) (pb.precon y (pb.grad y)),
        gradientNorm := pb.M.norm y (pb.grad y), oldgrad := pb.M.transport y z (pb.grad y),
        dir := d } d = .ok nd → Good z nd

/-! ## Lemmas -/

section
variable {pb : Prob ℝ P E} {rule : BetaRule} {orth : ℝ} {On : P → Prop} {Good : P → E → Prop}
  {γ K L fmin ε A T s q σ mu : ℝ}

/-- Conjugate gradient converges linearly if each search from a gradient norm of at least `ε`, in a
state where `Mem` holds, is a step along its direction that reduces the distance to the minimum by the
factor `1 - q`. -/
theorem cg_linear {S : Type*} {cfg : Cfg ℝ} {ls : LineSearcher ℝ P E S} {clk : Clock ℝ} {x : P}
    {mem : S} (hD : DescentDirs pb rule orth On Good γ K L) (hγ : 0 < γ)
    {Mem : P → E → S → Prop} (hmu : 0 < mu) (hx : On x)
    (hmem : Mem x (pb.M.neg (pb.precon x (pb.grad x))) mem) (hq : 0 < q)
    (hq1 : q ≤ 1) (hL : 0 < L) (hε : 0 < ε) (hcfg : cfg.minGradientNorm = ε)
    (hgL : ∀ y, On y → pb.M.norm y (pb.grad y) ^ 2 ≤ 2 * L * (pb.cost y - fmin))
    (hpl : GradDominated pb On (pb.cost x) fmin mu) (hx0 : ε ≤ pb.M.norm x (pb.grad x))
    (hstep : ∀ y d m o, On y → Good y d → pb.cost y ≤ pb.cost x → Mem y d m →
      ε ≤ pb.M.norm y (pb.grad y) →
      ls.search m pb.cost pb.M y d (pb.cost y) (pb.M.inner y (pb.grad y) d) = .ok o →
      (∃ t, 0 < t ∧ o.newx = trialPoint pb.M y d t) ∧
        pb.cost o.newx - fmin ≤ (1 - q) * (pb.cost y - fmin) ∧ (∀ nd, Mem o.newx nd o.mem) ∧
        σ ≤ o.stepSize)
    {res : Result ℝ P} {m : S} {calls : List (P × E × ℝ)}
    (h : CGRuns cfg rule orth ls pb clk x mem (.ok (res, m, calls))) :
    (∃ k : ℕ, res.iterations = k + 1 ∧
      pb.cost res.point - fmin ≤ (1 - q) ^ k * (pb.cost x - fmin)) ∧
    (res.iterations : ℝ) ≤ Real.log (2 * L * (pb.cost x - fmin) / ε ^ 2) / q + 2 ∧
    (Real.log (2 * L * (pb.cost x - fmin) / ε ^ 2) / q + 2 < cfg.maxIterations →
      (∀ i, clk.check2 i 0 < clk.start + cfg.maxTime) → 0 ≤ cfg.maxCostEvaluations →
      cfg.minStepSize ≤ σ → pb.M.norm res.point (pb.grad res.point) < ε ∧
        pb.cost res.point - fmin < ε ^ 2 / (2 * mu)) := by
  unfold CGRuns at h
  split at h
  · cases h
  have hε2 : 0 < ε ^ 2 := by positivity
  have hge : ∀ y, On y → ε ≤ pb.M.norm y (pb.grad y) → ε ^ 2 ≤ 2 * L * (pb.cost y - fmin) :=
    fun y hy hg => (pow_le_pow_left₀ hε.le hg 2).trans (hgL y hy)
  have he0 : 0 < pb.cost x - fmin := by
    have := hge x hx hx0
    by_contra hc
    have := mul_nonneg (by positivity : 0 ≤ 2 * L) (sub_nonneg.2 (not_lt.1 hc))
    linarith
  have hle1 : ∀ k : ℕ, (1 - q) ^ k * (pb.cost x - fmin) ≤ pb.cost x - fmin := fun k =>
    mul_le_of_le_one_left he0.le (pow_le_one₀ (by linarith) (by linarith))
  have hlog : 0 ≤ Real.log (2 * L * (pb.cost x - fmin) / ε ^ 2) / q := by
    refine div_nonneg (Real.log_nonneg ?_) hq.le
    rw [le_div_iff₀ hε2, one_mul]
    exact hge x hx hx0
  let Inv : CGState ℝ P E S → Prop := fun s => On s.x ∧ Good s.x s.dir ∧ Mem s.x s.dir s.mem ∧
    s.grad = pb.grad s.x ∧ s.cost = pb.cost s.x ∧ s.Pgrad = pb.precon s.x (pb.grad s.x) ∧
    s.gradPgrad = pb.M.inner s.x (pb.grad s.x) (pb.precon s.x (pb.grad s.x)) ∧
    s.gradientNorm = pb.M.norm s.x (pb.grad s.x) ∧ (∀ t, s.stepSize = some t → σ ≤ t) ∧
    ∃ k : ℕ, s.iteration = k ∧
    pb.cost s.x - fmin ≤ (1 - q) ^ k * (pb.cost x - fmin) ∧
    (k : ℝ) ≤ Real.log (2 * L * (pb.cost x - fmin) / ε ^ 2) / q + 1
  refine h.invariant (Inv := Inv)
    (Post := fun p : Result ℝ P × S × List (P × E × ℝ) => (∃ k : ℕ, p.1.iterations = k + 1 ∧
      pb.cost p.1.point - fmin ≤ (1 - q) ^ k * (pb.cost x - fmin)) ∧
    (p.1.iterations : ℝ) ≤ Real.log (2 * L * (pb.cost x - fmin) / ε ^ 2) / q + 2 ∧
    (Real.log (2 * L * (pb.cost x - fmin) / ε ^ 2) / q + 2 < cfg.maxIterations →
      (∀ i, clk.check2 i 0 < clk.start + cfg.maxTime) → 0 ≤ cfg.maxCostEvaluations →
      cfg.minStepSize ≤ σ → pb.M.norm p.1.point (pb.grad p.1.point) < ε ∧
        pb.cost p.1.point - fmin < ε ^ 2 / (2 * mu))) ?_ ?_ ?_
  · rintro s s' ⟨h0, h1, h2, h3, h4, h5, h6, h7, -, k, h8, h9, h10⟩ hs
    obtain ⟨o, nd, hck, ho, hnd, rfl⟩ := cgStep_next hs
    have hg : ε ≤ pb.M.norm s.x (pb.grad s.x) := by
      unfold checkStop at hck
      simp only at hck
      split at hck
      · cases hck
      split at hck
      · cases hck
      split at hck
      · cases hck
      · rename_i hlt
        rw [← hcfg, ← h7]
        simpa [PyNum.lt] using hlt
    have hsl := hD.slope _ _ h0 h1
    have hdir : cgSearchDir pb s = (s.dir, pb.M.inner s.x (pb.grad s.x) s.dir) := by
      unfold cgSearchDir
      rw [if_neg, h3]
      rw [h3]
      have : 0 < γ * pb.M.norm s.x (pb.grad s.x) ^ 2 := by
        have := hε.trans_le hg
        positivity
      simp only [PyNum.le, PyNum.lit, decide_eq_true_eq, not_le]
      push_cast
      linarith
    rw [hdir] at ho hnd
    simp only at ho hnd
    rw [h3, h5, h6, h7] at hnd
    rw [h4] at ho
    obtain ⟨⟨t, ht, htx⟩, i2, i3, i4⟩ := hstep s.x s.dir s.mem o h0 h1 (by linarith [hle1 k]) h2 hg ho
    have hon : On o.newx := by rw [htx]; exact hD.stays _ _ _ h0 h1 ht
    refine ⟨hon, hD.next _ _ _ _ _ h0 h1 ht htx hnd, i3 _, rfl, rfl, rfl, rfl, rfl, ?_, k + 1,
      by simp only; push_cast; omega, ?_, ?_⟩
    · rintro t ⟨rfl⟩
      exact i4
    · refine i2.trans ?_
      rw [pow_succ, mul_comm ((1 - q) ^ k), mul_assoc]
      exact mul_le_mul_of_nonneg_left h9 (by linarith)
    · push_cast
      have h11 : ε ^ 2 ≤ 2 * L * ((1 - q) ^ k * (pb.cost x - fmin)) :=
        (hge _ h0 hg).trans (mul_le_mul_of_nonneg_left h9 (by positivity))
      linarith [linear_count hq hε (by positivity : 0 ≤ 2 * L) h11 he0 hq1]
  · rintro s p ⟨h0, h1, h2, h3, h4, h5, h6, h7, h7', k, h8, h9, h10⟩ hs
    obtain ⟨reason, hck, rfl⟩ := cgStep_brk hs
    have hcx : pb.cost s.x ≤ pb.cost x := by linarith [hle1 k]
    have hk : ((s.iteration : ℤ) : ℝ) = k := by rw [h8]; simp
    refine ⟨⟨k, by simp only; omega, h9⟩, by push_cast; linarith,
      fun hmax htime hce hss => ?_⟩
    have hlt : pb.M.norm s.x (pb.grad s.x) < ε := by
      by_contra hlt
      have hg := not_lt.1 hlt
      unfold checkStop at hck
      simp only at hck
      rw [if_neg (by
        have := htime (s.iteration + 1)
        simp only [PyNum.le, PyNum.add, decide_eq_true_eq, not_le]
        exact this), if_neg (by
        have : ((s.iteration + 1 : ℤ) : ℝ) < cfg.maxIterations := by push_cast; linarith
        have : s.iteration + 1 < cfg.maxIterations := by exact_mod_cast this
        omega), if_neg (by rw [hcfg, h7]; simpa [PyNum.lt] using hg),
        if_neg (by
          cases hst : s.stepSize with
          | none => simp
          | some t => simpa [PyNum.lt] using hss.trans (h7' t hst)), if_neg (by omega)] at hck
      cases hck
    refine ⟨hlt, ?_⟩
    rw [lt_div_iff₀ (by positivity)]
    have h11 := hpl s.x h0 hcx
    have h12 : pb.M.norm s.x (pb.grad s.x) ^ 2 < ε ^ 2 :=
      pow_lt_pow_left₀ hlt (hD.norm_nonneg _ _ h0) two_ne_zero
    simp only
    linarith
  · refine ⟨hx, hD.first x hx, hmem, rfl, rfl, rfl, rfl, rfl, by simp [cgInit], 0, by simp [cgInit],
      by simp [cgInit], ?_⟩
    push_cast
    linarith

/-- Backtracking along a direction of sufficient descent: it succeeds, and the step is the first one
tried or at least `r T`. -/
theorem backTracks_dir (hD : DescentDirs pb rule orth On Good γ K L) (hK : 0 < K)
    (hL : 0 < L) {c r a0 : ℝ} (hc : c < 1) (hr : 0 < r) (hr1 : r < 1)
    (hT : T = 2 * (1 - c) * γ / (K ^ 2 * L)) {max : ℤ} (hm : 0 ≤ max) {y : P} {d : E} (hy : On y)
    (hd : Good y d) (ha : 0 < a0)
    (hbudget : r ^ max.toNat * a0 ≤ T) {next : ℝ → ℝ} (hnext : ∀ k, next^[k] a0 = r ^ k * a0)
    {n : ℕ} {evals : List P}
    (hb : BackTracks pb.cost pb.M y d (pb.cost y) (pb.M.inner y (pb.grad y) d) c next max a0 n evals) :
    0 < r ^ (n - 1) * a0 ∧ r ^ (n - 1) * a0 ≤ a0 ∧
      (r ^ (n - 1) * a0 = a0 ∨ r * T ≤ r ^ (n - 1) * a0) ∧
      pb.cost (trialPoint pb.M y d (r ^ (n - 1) * a0)) ≤
        pb.cost y + c * (r ^ (n - 1) * a0) * pb.M.inner y (pb.grad y) d := by
  have hok : ∀ t, 0 < t → t ≤ T → ¬ Violates pb.cost pb.M y d (pb.cost y)
      (pb.M.inner y (pb.grad y) d) c t := by
    intro t ht htT
    rw [violates_iff, not_lt]
    refine (hD.upper y d t hy hd ht).trans ?_
    have h1 : L / 2 * t * K ^ 2 ≤ (1 - c) * γ := by
      rw [hT, le_div_iff₀ (by positivity)] at htT
      linarith
    have h2 := hD.slope y d hy hd
    have h3 : pb.M.norm y d ^ 2 ≤ K ^ 2 * pb.M.norm y (pb.grad y) ^ 2 := by
      rw [← mul_pow]
      exact pow_le_pow_left₀ (hD.norm_nonneg _ _ hy) (hD.size y d hy hd) 2
    have h4 : L / 2 * t * pb.M.norm y d ^ 2 ≤ (1 - c) * γ * pb.M.norm y (pb.grad y) ^ 2 := by
      refine (mul_le_mul_of_nonneg_left h3 (by positivity)).trans ?_
      rw [← mul_assoc]
      exact mul_le_mul_of_nonneg_right h1 (sq_nonneg _)
    have h5 : (1 - c) * (γ * pb.M.norm y (pb.grad y) ^ 2) ≤
        (1 - c) * -pb.M.inner y (pb.grad y) d :=
      mul_le_mul_of_nonneg_left (by linarith) (by linarith)
    have h6 : L / 2 * t * pb.M.norm y d ^ 2 ≤ (1 - c) * -pb.M.inner y (pb.grad y) d := by linarith
    have h7 := mul_le_mul_of_nonneg_left h6 ht.le
    linarith
  have hN := backTracks_succeeds (r := r) (N := max.toNat) hnext hb
    (hok _ (by positivity) hbudget) (by omega)
  have h2 := hN.2
  rw [violates_iff, not_lt] at h2
  refine ⟨by positivity, mul_le_of_le_one_left ha.le (pow_le_one₀ hr.le hr1.le), ?_, h2⟩
  obtain hn | hn : n = 1 ∨ 2 ≤ n := by have := hb.1; omega
  · left
    subst hn
    simp
  · right
    have hv := hb.2.2.2.1 (n - 2) (by omega)
    rw [hnext] at hv
    have hlt : T < r ^ (n - 2) * a0 := by
      by_contra hcon
      exact hok _ (by positivity) (not_lt.1 hcon) hv
    have e : n - 1 = n - 2 + 1 := by omega
    rw [e, pow_succ]
    nlinarith

/-- `2 mu γ c min(a, r T) ≤ 1`. -/
theorem dir_factor_le {c r w : ℝ} (hL : 0 < L) (hmu : 0 < mu) (hmuL : mu ≤ L) (hγ : 0 < γ)
    (hγK : γ ≤ K) (hc0 : 0 < c) (hc : c < 1) (hr1 : r < 1) (hT : T = 2 * (1 - c) * γ / (K ^ 2 * L))
    (hq : q = 2 * mu * γ * c * w) (hw : w ≤ r * T) : q ≤ 1 := by
  have hK : 0 < K := hγ.trans_le hγK
  have h1 : γ * T = 2 * (1 - c) / (L * (K / γ) ^ 2) := by
    rw [hT]
    field_simp
  have h2 : 1 ≤ (K / γ) ^ 2 := one_le_pow₀ ((one_le_div hγ).2 hγK)
  refine linear_factor_le (L := L * (K / γ) ^ 2) (T := γ * T) (a := γ * w) (by positivity) hmu
    (hmuL.trans (le_mul_of_one_le_right hL.le h2)) hc0 hr1 h1 ?_ (by rw [hq]; ring) ?_
  · rw [h1]
    exact div_pos (by linarith) (by positivity)
  · have := mul_le_mul_of_nonneg_left hw hγ.le
    linarith

/-- **C157** (`ConjugateGradient` with the `AdaptiveLineSearcher`, its default): if the directions are of
sufficient descent, the cost has a quadratic upper bound along them, and the gradient dominates it, then
every iteration reduces the distance of the cost to the minimum by the factor `1 - q`, a run with minimal
gradient norm `ε` makes at most `log (2 L (f0 - fmin) / ε ^ 2) / q + 2` iterations, and unless another
limit ends it earlier the gradient norm of the result is below `ε` and its cost within
`ε ^ 2 / (2 mu)` of the minimum. -/
theorem C157_adaptive (hD : DescentDirs pb rule orth On Good γ K L) (hγ : 0 < γ) (hK : 0 < K)
    (hL : 0 < L) (hf : ∀ y, On y → fmin ≤ pb.cost y)
    (hgL : ∀ y, On y → pb.M.norm y (pb.grad y) ^ 2 ≤ 2 * L * (pb.cost y - fmin))
    {ls : AdaptiveCfg ℝ} (hc0 : 0 < ls.sufficientDecrease) (hc : ls.sufficientDecrease < 1)
    (hr : 0 < ls.contractionFactor) (hr1 : ls.contractionFactor < 1) (hm : 0 ≤ ls.maxIterations)
    (hi : 0 < ls.initialStepSize) {x : P} (hx : On x) (hmu : 0 < mu)
    (hpl : GradDominated pb On (pb.cost x) fmin mu) (hε : 0 < ε)
    (hx0 : ε ≤ pb.M.norm x (pb.grad x))
    (hA : A = ls.initialStepSize / pb.M.norm x (pb.M.neg (pb.precon x (pb.grad x))))
    (hT : T = 2 * (1 - ls.sufficientDecrease) * γ / (K ^ 2 * L))
    (hq : q = 2 * mu * γ * ls.sufficientDecrease * min A (ls.contractionFactor * T))
    (hσ : σ = min A (ls.contractionFactor * T) * (γ * ε))
    (hbudget : ls.contractionFactor ^ ls.maxIterations.toNat *
      max A (1 / (mu * γ * ls.sufficientDecrease)) ≤ T)
    {cfg : Cfg ℝ} (hcfg : cfg.minGradientNorm = ε) {clk : Clock ℝ} {res : Result ℝ P} {m : Option ℝ}
    {calls : List (P × E × ℝ)}
    (h : CGRuns cfg rule orth (adaptive P E ls) pb clk x none (.ok (res, m, calls))) :
    (∃ k : ℕ, res.iterations = k + 1 ∧
      pb.cost res.point - fmin ≤ (1 - q) ^ k * (pb.cost x - fmin)) ∧
    (res.iterations : ℝ) ≤ Real.log (2 * L * (pb.cost x - fmin) / ε ^ 2) / q + 2 ∧
    (Real.log (2 * L * (pb.cost x - fmin) / ε ^ 2) / q + 2 < cfg.maxIterations →
      (∀ i, clk.check2 i 0 < clk.start + cfg.maxTime) → 0 ≤ cfg.maxCostEvaluations →
      cfg.minStepSize ≤ σ → pb.M.norm res.point (pb.grad res.point) < ε ∧
        pb.cost res.point - fmin < ε ^ 2 / (2 * mu)) := by
  obtain ⟨c, hcdef⟩ : ∃ c, ls.sufficientDecrease = c := ⟨_, rfl⟩
  obtain ⟨r, hrdef⟩ : ∃ r, ls.contractionFactor = r := ⟨_, rfl⟩
  rw [hcdef] at hc0 hc hT hq hbudget
  rw [hrdef] at hr hr1 hq hbudget hσ
  have hnd : ∀ y d, On y → Good y d → ε ≤ pb.M.norm y (pb.grad y) →
      γ * pb.M.norm y (pb.grad y) ≤ pb.M.norm y d := fun y d hy hd hg => by
    have h1 := hD.slope y d hy hd
    have h2 := hD.cauchy y d hy hd
    have h3 := hε.trans_le hg
    refine le_of_mul_le_mul_left ?_ h3
    linarith
  have hg0 : 0 < pb.M.norm x (pb.grad x) := hε.trans_le hx0
  have hd0 : 0 < pb.M.norm x (pb.M.neg (pb.precon x (pb.grad x))) :=
    (mul_pos hγ hg0).trans_le (hnd _ _ hx (hD.first x hx) hx0)
  have hγK : γ ≤ K := by
    have h1 := (hnd _ _ hx (hD.first x hx) hx0).trans (hD.size _ _ hx (hD.first x hx))
    exact le_of_mul_le_mul_right h1 hg0
  have hApos : 0 < A := by rw [hA]; positivity
  have hTpos : 0 < T := by rw [hT]; exact div_pos (mul_pos (by linarith) hγ) (by positivity)
  obtain ⟨w, hw⟩ : ∃ w, w = min A (r * T) := ⟨_, rfl⟩
  have hwpos : 0 < w := by rw [hw]; exact lt_min hApos (by positivity)
  have hwA : w ≤ A := by rw [hw]; exact min_le_left _ _
  have hwT : w ≤ r * T := by rw [hw]; exact min_le_right _ _
  rw [← hw] at hq hσ
  have hqpos : 0 < q := by rw [hq]; positivity
  have hlt : ∀ y, On y → ε ≤ pb.M.norm y (pb.grad y) → 0 < pb.cost y - fmin := fun y hy hg => by
    have h1 : 0 < 2 * L * (pb.cost y - fmin) :=
      lt_of_lt_of_le (by have := hε.trans_le hg; positivity) (hgL y hy)
    exact pos_of_mul_pos_right h1 (by positivity)
  have hmuL : mu ≤ L := by
    have h1 := (hpl x hx le_rfl).trans (hgL x hx)
    have h2 := le_of_mul_le_mul_right h1 (hlt x hx hx0)
    linarith
  have hq1 : q ≤ 1 := dir_factor_le hL hmu hmuL hγ hγK hc0 hc hr1 hT hq hwT
  refine cg_linear (Mem := fun y d mem => (mem = none ∧ y = x ∧ d = pb.M.neg (pb.precon x (pb.grad x)))
    ∨ ∃ a, mem = some a ∧ w ≤ a ∧ a ≤ max A (1 / (mu * γ * c))) hD hγ hmu hx
    (Or.inl ⟨rfl, rfl, rfl⟩) hqpos hq1 hL hε hcfg hgL hpl hx0 ?_ h
  intro y d mem o hy hd hyx hmem hg ho
  have hgpos : 0 < pb.M.norm y (pb.grad y) := hε.trans_le hg
  have hdn := hnd y d hy hd hg
  have hdpos : 0 < pb.M.norm y d := (mul_pos hγ hgpos).trans_le hdn
  have hsl := hD.slope y d hy hd
  obtain ⟨a0, n, hinit, hbt, hout⟩ := adaptive_trace ho
  obtain ⟨ha1, ha2⟩ : w ≤ a0 ∧ a0 ≤ max A (1 / (mu * γ * c)) := by
    rcases hmem with ⟨rfl, rfl, rfl⟩ | ⟨old, rfl, h1, h2⟩
    · simp only [adaptiveInit, PyNum.div, if_neg hdpos.ne', PyNum.toFloat] at hinit
      cases hinit
      rw [← hA]
      exact ⟨hwA, le_max_left _ _⟩
    · simp only [adaptiveInit, PyNum.toFloat] at hinit
      cases hinit
      exact ⟨h1, h2⟩
  have ha0 : 0 < a0 := hwpos.trans_le ha1
  have hbud : r ^ ls.maxIterations.toNat * a0 ≤ T :=
    (mul_le_mul_of_nonneg_left ha2 (by positivity)).trans hbudget
  rw [hcdef] at hbt
  obtain ⟨h1, h2, h3, h4⟩ := backTracks_dir hD hK hL hc hr hr1 hT hm hy hd ha0 hbud
    (next := fun a => mul a ls.contractionFactor) (by rw [hrdef]; exact iterate_right r a0) hbt
  simp only [iterate_right, hrdef] at hout
  obtain ⟨a, ha⟩ : ∃ a, r ^ (n - 1) * a0 = a := ⟨_, rfl⟩
  rw [ha] at h1 h2 h3 h4 hout
  have hal : w ≤ a := by
    rcases h3 with h3 | h3
    · rw [h3]
      exact ha1
    · exact hwT.trans h3
  have hdec : pb.cost (trialPoint pb.M y d a) ≤
      pb.cost y - c * a * (γ * pb.M.norm y (pb.grad y) ^ 2) := by
    have := mul_le_mul_of_nonneg_left hsl (by positivity : 0 ≤ c * a)
    linarith
  have hle : pb.cost (trialPoint pb.M y d a) ≤ pb.cost y := by
    have : 0 ≤ c * a * (γ * pb.M.norm y (pb.grad y) ^ 2) := by positivity
    linarith
  have hon := hD.stays y d a hy hd h1
  have hau : 2 * a ≤ max A (1 / (mu * γ * c)) := by
    refine le_trans ?_ (le_max_right _ _)
    rw [le_div_iff₀ (by positivity)]
    have h5 := hf _ hon
    have h6 := hpl y hy hyx
    have h7 : c * a * (γ * pb.M.norm y (pb.grad y) ^ 2) ≤ pb.cost y - fmin := by linarith
    have h8 : 2 * mu * (c * a * (γ * pb.M.norm y (pb.grad y) ^ 2)) ≤ pb.M.norm y (pb.grad y) ^ 2 :=
      (mul_le_mul_of_nonneg_left h7 (by positivity)).trans h6
    have h9 : 0 < pb.M.norm y (pb.grad y) ^ 2 := by positivity
    refine le_of_mul_le_mul_right ?_ h9
    linarith
  rcases hout with ⟨h5, -⟩ | ⟨-, h5, h6, h7⟩
  · simp only [PyNum.lt, decide_eq_true_eq] at h5
    exact absurd h5 hle.not_gt
  refine ⟨⟨a, h1, h5⟩, ?_, fun nd => Or.inr ⟨_, h7, ?_, ?_⟩, ?_⟩
  · rw [h5]
    have h8 : c * w * γ * (2 * mu * (pb.cost y - fmin)) ≤ c * w * γ * pb.M.norm y (pb.grad y) ^ 2 :=
      mul_le_mul_of_nonneg_left (hpl y hy hyx) (by positivity)
    have h9 : c * w * (γ * pb.M.norm y (pb.grad y) ^ 2) ≤ c * a * (γ * pb.M.norm y (pb.grad y) ^ 2) :=
      mul_le_mul_of_nonneg_right (mul_le_mul_of_nonneg_left hal hc0.le) (by positivity)
    have h10 : q * (pb.cost y - fmin) = c * w * γ * (2 * mu * (pb.cost y - fmin)) := by rw [hq]; ring
    linarith
  · split
    · exact hal
    · simp only [PyNum.mul, PyNum.lit]
      push_cast
      linarith
  · split
    · linarith
    · simpa [PyNum.mul, PyNum.lit] using hau
  · rw [h6]
    change σ ≤ a * pb.M.norm y d
    rw [hσ]
    exact mul_le_mul hal ((mul_le_mul_of_nonneg_left hg hγ.le).trans hdn) (by positivity) h1.le

/-- **C157** (`ConjugateGradient` with the `BackTrackingLineSearcher`): the same with the factor given
by the parameters of that line searcher. -/
theorem C157_backTracking (hD : DescentDirs pb rule orth On Good γ K L) (hγ : 0 < γ) (hK : 0 < K)
    (hL : 0 < L) (hf : ∀ y, On y → fmin ≤ pb.cost y)
    (hgL : ∀ y, On y → pb.M.norm y (pb.grad y) ^ 2 ≤ 2 * L * (pb.cost y - fmin))
    {ls : BackTrackingCfg ℝ} (hc0 : 0 < ls.sufficientDecrease) (hc : ls.sufficientDecrease < 1)
    (hr : 0 < ls.contractionFactor) (hr1 : ls.contractionFactor < 1) (hm : 0 ≤ ls.maxIterations)
    (hi : 0 < ls.initialStepSize) (ho1 : 1 / 2 < ls.optimism) {x : P} (hx : On x) (hmu : 0 < mu)
    (hpl : GradDominated pb On (pb.cost x) fmin mu) (hε : 0 < ε)
    (hx0 : ε ≤ pb.M.norm x (pb.grad x))
    (hA : A = ls.initialStepSize / pb.M.norm x (pb.M.neg (pb.precon x (pb.grad x))))
    (hT : T = 2 * (1 - ls.sufficientDecrease) * γ / (K ^ 2 * L))
    (hs : s = 2 * (1 - 1 / (2 * ls.optimism)) * γ / (K ^ 2 * L))
    (hq : q = 2 * mu * γ * ls.sufficientDecrease * min A (min s (ls.contractionFactor * T)))
    (hσ : σ = min (min ls.initialStepSize (2 * ls.optimism * q * ε / (2 * L)))
      (ls.contractionFactor * T * (γ * ε)))
    (hbudget : ls.contractionFactor ^ ls.maxIterations.toNat *
      max A (2 * ls.optimism * (pb.cost x - fmin) / (γ * ε ^ 2)) ≤ T)
    {cfg : Cfg ℝ} (hcfg : cfg.minGradientNorm = ε) {clk : Clock ℝ} {res : Result ℝ P} {m : Option ℝ}
    {calls : List (P × E × ℝ)}
    (h : CGRuns cfg rule orth (backTracking P E ls) pb clk x none (.ok (res, m, calls))) :
    (∃ k : ℕ, res.iterations = k + 1 ∧
      pb.cost res.point - fmin ≤ (1 - q) ^ k * (pb.cost x - fmin)) ∧
    (res.iterations : ℝ) ≤ Real.log (2 * L * (pb.cost x - fmin) / ε ^ 2) / q + 2 ∧
    (Real.log (2 * L * (pb.cost x - fmin) / ε ^ 2) / q + 2 < cfg.maxIterations →
      (∀ i, clk.check2 i 0 < clk.start + cfg.maxTime) → 0 ≤ cfg.maxCostEvaluations →
      cfg.minStepSize ≤ σ → pb.M.norm res.point (pb.grad res.point) < ε ∧
        pb.cost res.point - fmin < ε ^ 2 / (2 * mu)) := by
  obtain ⟨c, hcdef⟩ : ∃ c, ls.sufficientDecrease = c := ⟨_, rfl⟩
  obtain ⟨r, hrdef⟩ : ∃ r, ls.contractionFactor = r := ⟨_, rfl⟩
  obtain ⟨b, hbdef⟩ : ∃ b, 2 * ls.optimism = b := ⟨_, rfl⟩
  rw [hcdef] at hc0 hc hT hq
  rw [hrdef] at hr hr1 hq hbudget hσ
  rw [hbdef] at hs hbudget hσ
  have hb1 : 1 < b := by linarith
  have hnd : ∀ y d, On y → Good y d → ε ≤ pb.M.norm y (pb.grad y) →
      γ * pb.M.norm y (pb.grad y) ≤ pb.M.norm y d := fun y d hy hd hg => by
    have h1 := hD.slope y d hy hd
    have h2 := hD.cauchy y d hy hd
    have h3 := hε.trans_le hg
    refine le_of_mul_le_mul_left ?_ h3
    linarith
  have hg0 : 0 < pb.M.norm x (pb.grad x) := hε.trans_le hx0
  have hd0 : 0 < pb.M.norm x (pb.M.neg (pb.precon x (pb.grad x))) :=
    (mul_pos hγ hg0).trans_le (hnd _ _ hx (hD.first x hx) hx0)
  have hγK : γ ≤ K := by
    have h1 := (hnd _ _ hx (hD.first x hx) hx0).trans (hD.size _ _ hx (hD.first x hx))
    exact le_of_mul_le_mul_right h1 hg0
  have hApos : 0 < A := by rw [hA]; positivity
  have hTpos : 0 < T := by rw [hT]; exact div_pos (mul_pos (by linarith) hγ) (by positivity)
  have hspos : 0 < s := by
    rw [hs]
    have : 1 / b < 1 := (div_lt_one (by linarith)).2 hb1
    exact div_pos (mul_pos (by linarith) hγ) (by positivity)
  obtain ⟨w, hw⟩ : ∃ w, w = min A (min s (r * T)) := ⟨_, rfl⟩
  have hwpos : 0 < w := by rw [hw]; exact lt_min hApos (lt_min hspos (by positivity))
  have hwA : w ≤ A := by rw [hw]; exact min_le_left _ _
  have hws : w ≤ s := by rw [hw]; exact (min_le_right _ _).trans (min_le_left _ _)
  have hwT : w ≤ r * T := by rw [hw]; exact (min_le_right _ _).trans (min_le_right _ _)
  rw [← hw] at hq
  have hqpos : 0 < q := by rw [hq]; positivity
  have hlt : ∀ y, On y → ε ≤ pb.M.norm y (pb.grad y) → 0 < pb.cost y - fmin := fun y hy hg => by
    have h1 : 0 < 2 * L * (pb.cost y - fmin) :=
      lt_of_lt_of_le (by have := hε.trans_le hg; positivity) (hgL y hy)
    exact pos_of_mul_pos_right h1 (by positivity)
  have hmuL : mu ≤ L := by
    have h1 := (hpl x hx le_rfl).trans (hgL x hx)
    have h2 := le_of_mul_le_mul_right h1 (hlt x hx hx0)
    linarith
  have hq1 : q ≤ 1 := dir_factor_le hL hmu hmuL hγ hγK hc0 hc hr1 hT hq hwT
  have hq2 : ∀ a y d, w ≤ a → On y → Good y d → pb.cost y ≤ pb.cost x →
      q * (pb.cost y - fmin) ≤ c * a * -pb.M.inner y (pb.grad y) d := fun a y d ha hy hd hyx => by
    have h1 : c * w * γ * (2 * mu * (pb.cost y - fmin)) ≤ c * w * γ * pb.M.norm y (pb.grad y) ^ 2 :=
      mul_le_mul_of_nonneg_left (hpl y hy hyx) (by positivity)
    have h2 : c * w * (γ * pb.M.norm y (pb.grad y) ^ 2) ≤ c * a * (γ * pb.M.norm y (pb.grad y) ^ 2) :=
      mul_le_mul_of_nonneg_right (mul_le_mul_of_nonneg_left ha hc0.le) (by positivity)
    have h3 : c * a * (γ * pb.M.norm y (pb.grad y) ^ 2) ≤ c * a * -pb.M.inner y (pb.grad y) d :=
      mul_le_mul_of_nonneg_left (by linarith [hD.slope y d hy hd])
        (mul_nonneg hc0.le (hwpos.le.trans ha))
    have h4 : q * (pb.cost y - fmin) = c * w * γ * (2 * mu * (pb.cost y - fmin)) := by rw [hq]; ring
    linarith
  refine cg_linear (Mem := fun y d mem => (mem = none ∧ y = x ∧ d = pb.M.neg (pb.precon x (pb.grad x)))
    ∨ ∃ old, mem = some old ∧ fmin < old ∧ q * (old - fmin) ≤ old - pb.cost y ∧ old ≤ pb.cost x)
    hD hγ hmu hx (Or.inl ⟨rfl, rfl, rfl⟩) hqpos hq1 hL hε hcfg hgL hpl hx0 ?_ h
  intro y d mem o hy hd hyx hmem hg ho
  have hgpos : 0 < pb.M.norm y (pb.grad y) := hε.trans_le hg
  have hdn := hnd y d hy hd hg
  have hdpos : 0 < pb.M.norm y d := (mul_pos hγ hgpos).trans_le hdn
  have hsl := hD.slope y d hy hd
  have hcs := hD.cauchy y d hy hd
  obtain ⟨p, hp⟩ : ∃ p, p = -pb.M.inner y (pb.grad y) d := ⟨_, rfl⟩
  have hp1 : γ * pb.M.norm y (pb.grad y) ^ 2 ≤ p := by linarith
  have hp0 : 0 < p := lt_of_lt_of_le (by positivity) hp1
  have hpe : pb.M.inner y (pb.grad y) d = -p := by rw [hp]; ring
  obtain ⟨a0, n, hinit, hbt, hom, hout⟩ := backTracking_trace ho
  obtain ⟨ha0, hbud, hcase⟩ : 0 < a0 ∧ r ^ ls.maxIterations.toNat * a0 ≤ T ∧
      ((y = x ∧ d = pb.M.neg (pb.precon x (pb.grad x)) ∧ a0 = A) ∨
        ∃ D, q * (pb.cost y - fmin) ≤ D ∧ a0 * p = b * D) := by
    rcases hmem with ⟨rfl, rfl, rfl⟩ | ⟨old, rfl, h0, h1, h2⟩
    · have e : a0 = A := by
        simp only [backTrackingInit, PyNum.div, if_neg hdpos.ne', PyNum.toFloat] at hinit
        cases hinit
        rw [hA]
      refine ⟨e ▸ hApos, ?_, Or.inl ⟨rfl, rfl, e⟩⟩
      rw [e]
      exact (mul_le_mul_of_nonneg_left (le_max_left _ _) (by positivity)).trans hbudget
    · rw [hpe] at hinit
      have hne : -p ≠ 0 := by linarith
      have e : a0 = b * (old - pb.cost y) / p := by
        simp only [backTrackingInit, PyNum.div, if_neg hne, PyNum.toFloat, PyNum.mul, PyNum.sub] at hinit
        cases hinit
        rw [← hbdef]
        simp only [PyNum.lit]
        push_cast
        field_simp
        ring
      have hDp : 0 < old - pb.cost y := (mul_pos hqpos (sub_pos.2 h0)).trans_le h1
      refine ⟨by rw [e]; positivity, ?_, Or.inr ⟨old - pb.cost y, ?_, ?_⟩⟩
      · refine (mul_le_mul_of_nonneg_left (le_trans ?_ (le_max_right _ _)) (by positivity)).trans
          hbudget
        rw [e]
        have h3 := hf y hy
        refine div_le_div₀ ?_ ?_ (by positivity) (le_trans ?_ hp1)
        · exact mul_nonneg (by linarith) (by linarith)
        · exact mul_le_mul_of_nonneg_left (by linarith) (by linarith)
        · exact mul_le_mul_of_nonneg_left (pow_le_pow_left₀ hε.le hg 2) hγ.le
      · exact (mul_le_mul_of_nonneg_left (by linarith) hqpos.le).trans h1
      · rw [e]
        field_simp
  rw [hcdef] at hbt
  obtain ⟨h1, h2, h3, h4⟩ := backTracks_dir hD hK hL hc hr hr1 hT hm hy hd ha0 hbud
    (next := fun a => mul ls.contractionFactor a) (by rw [hrdef]; exact iterate_left r a0) hbt
  simp only [iterate_left, hrdef] at hout
  obtain ⟨a, ha⟩ : ∃ a, r ^ (n - 1) * a0 = a := ⟨_, rfl⟩
  rw [ha] at h1 h2 h3 h4 hout
  rw [hpe] at h4
  have hle : pb.cost (trialPoint pb.M y d a) ≤ pb.cost y := by
    have : 0 ≤ c * a * p := by positivity
    linarith
  rcases hout with ⟨h5, -⟩ | ⟨-, h5, h6⟩
  · simp only [PyNum.lt, decide_eq_true_eq] at h5
    exact absurd h5 hle.not_gt
  have hdec : pb.cost (trialPoint pb.M y d a) ≤ pb.cost y - q * (pb.cost y - fmin) := by
    have hbig : w ≤ a → pb.cost (trialPoint pb.M y d a) ≤ pb.cost y - q * (pb.cost y - fmin) :=
      fun hwa => by
        have h10 := hq2 a y d hwa hy hd hyx
        rw [← hp] at h10
        linarith
    rcases h3 with h3 | h3
    · rcases hcase with ⟨-, -, h7⟩ | ⟨D, h7, h8⟩
      · exact hbig (by rw [h3, h7]; exact hwA)
      · rcases le_or_gt a s with h9 | h9
        · have h10 := hD.upper y d a hy hd h1
          rw [hpe] at h10
          have h11 : L / 2 * a * K ^ 2 ≤ (1 - 1 / b) * γ := by
            have h12 := h9
            rw [hs, le_div_iff₀ (by positivity)] at h12
            linarith
          have h12 : pb.M.norm y d ^ 2 ≤ K ^ 2 * pb.M.norm y (pb.grad y) ^ 2 := by
            rw [← mul_pow]
            exact pow_le_pow_left₀ (hD.norm_nonneg _ _ hy) (hD.size y d hy hd) 2
          have h13 : L / 2 * a * pb.M.norm y d ^ 2 ≤ (1 - 1 / b) * p := by
            have h14 : 0 ≤ 1 - 1 / b := sub_nonneg.2 ((div_lt_one (by linarith)).2 hb1).le
            calc L / 2 * a * pb.M.norm y d ^ 2
                ≤ L / 2 * a * (K ^ 2 * pb.M.norm y (pb.grad y) ^ 2) :=
                  mul_le_mul_of_nonneg_left h12 (by positivity)
              _ = L / 2 * a * K ^ 2 * pb.M.norm y (pb.grad y) ^ 2 := by ring
              _ ≤ (1 - 1 / b) * γ * pb.M.norm y (pb.grad y) ^ 2 :=
                  mul_le_mul_of_nonneg_right h11 (sq_nonneg _)
              _ = (1 - 1 / b) * (γ * pb.M.norm y (pb.grad y) ^ 2) := by ring
              _ ≤ _ := mul_le_mul_of_nonneg_left hp1 h14
          have h14 : a * (1 / b * p) = D := by
            have : a * p = b * D := by rw [h3, h8]
            calc a * (1 / b * p) = 1 / b * (a * p) := by ring
              _ = D := by rw [this]; field_simp
          have h15 := mul_le_mul_of_nonneg_left h13 h1.le
          linarith
        · exact hbig (hws.trans h9.le)
    · exact hbig (hwT.trans h3)
  refine ⟨⟨a, h1, h5⟩, by rw [h5]; linarith,
    fun nd => Or.inr ⟨_, hom, by linarith [hlt y hy hg], by rw [h5]; linarith, hyx⟩, ?_⟩
  rw [h6]
  change σ ≤ a * pb.M.norm y d
  rw [hσ]
  rcases h3 with h3 | h3
  · refine (min_le_left _ _).trans ?_
    rcases hcase with ⟨rfl, rfl, h7⟩ | ⟨D, h7, h8⟩
    · refine (min_le_left _ _).trans ?_
      rw [h3, h7, hA, div_mul_cancel₀ _ hdpos.ne']
    · refine (min_le_right _ _).trans ?_
      have h9 := hgL y hy
      rw [div_le_iff₀ (by positivity)]
      have h10 : b * q * pb.M.norm y (pb.grad y) ^ 2 ≤ 2 * L * (a * p) := by
        rw [h3, h8]
        have h11 : b * (q * pb.M.norm y (pb.grad y) ^ 2) ≤ b * (q * (2 * L * (pb.cost y - fmin))) :=
          mul_le_mul_of_nonneg_left (mul_le_mul_of_nonneg_left h9 hqpos.le) (by linarith)
        have h12 : 2 * L * b * (q * (pb.cost y - fmin)) ≤ 2 * L * b * D :=
          mul_le_mul_of_nonneg_left h7 (by have := hL.le; have : 0 ≤ b := by linarith
                                           positivity)
        linarith
      have h11 : a * p ≤ a * (pb.M.norm y (pb.grad y) * pb.M.norm y d) :=
        mul_le_mul_of_nonneg_left (by linarith) h1.le
      have h12 : b * q * pb.M.norm y (pb.grad y) ≤ 2 * L * (a * pb.M.norm y d) := by
        refine le_of_mul_le_mul_right ?_ hgpos
        have := mul_le_mul_of_nonneg_left h11 (by positivity : 0 ≤ 2 * L)
        linarith
      have h13 : b * q * ε ≤ b * q * pb.M.norm y (pb.grad y) :=
        mul_le_mul_of_nonneg_left hg (mul_nonneg (by linarith) hqpos.le)
      linarith
  · refine (min_le_right _ _).trans ?_
    exact mul_le_mul h3 ((mul_le_mul_of_nonneg_left hg hγ.le).trans hdn) (by positivity) h1.le

end

end Verif.Opt
