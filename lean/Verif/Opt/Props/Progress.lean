/-
C111, C112: in exact arithmetic the line searchers find a step of sufficient decrease along
every descent direction, and steepest descent makes guaranteed progress.
-/
import Mathlib.Analysis.Calculus.Deriv.Basic
import Mathlib.Analysis.Calculus.Deriv.Slope
import Mathlib.Analysis.Calculus.Deriv.Mul
import Mathlib.Analysis.Calculus.Deriv.Add
import Mathlib.Analysis.Calculus.Deriv.Pow
import Verif.Opt.Props.Counts
import Verif.Opt.Props.Descent
import Verif.Opt.Props.Stop

namespace Verif.Opt
open PyNum Filter Topology

variable {P E : Type*}

/-! ## Specification -/

/-- Along `d` the cost starts at `f0` with slope `df0`. -/
def HasSlope (obj : P → ℝ) (M : Mfd ℝ P E) (x : P) (d : E) (f0 df0 : ℝ) : Prop :=
  obj (trialPoint M x d 0) = f0 ∧ HasDerivAt (fun a : ℝ => obj (trialPoint M x d a)) df0 0

/-- The search succeeded: it returned the point of some step `0 < a ≤ a0`, reports its length, and
the cost decreased by at least `c * a * |df0|`. -/
def Succeeds {S : Type*} (obj : P → ℝ) (M : Mfd ℝ P E) (x : P) (d : E) (f0 df0 c a0 : ℝ)
    (o : SearchOut ℝ P S) : Prop :=
  ∃ a, 0 < a ∧ a ≤ a0 ∧ o.newx = trialPoint M x d a ∧ o.stepSize = a * M.norm x d ∧
    obj o.newx ≤ f0 + c * a * df0

/-! ## Contracting steps -/

theorem violates_iff {obj : P → ℝ} {M : Mfd ℝ P E} {x : P} {d : E} {f0 df0 c a : ℝ} :
    Violates obj M x d f0 df0 c a ↔ f0 + c * a * df0 < obj (trialPoint M x d a) := by
  simp [Violates, PyNum.lt, PyNum.add, PyNum.mul]

theorem iterate_left (r a : ℝ) (k : ℕ) : (fun b : ℝ => mul r b)^[k] a = r ^ k * a := by
  induction k with
  | zero => simp
  | succ k ih =>
    rw [Function.iterate_succ_apply', ih]
    change r * (r ^ k * a) = _
    ring

theorem iterate_right (r a : ℝ) (k : ℕ) : (fun b : ℝ => mul b r)^[k] a = r ^ k * a := by
  induction k with
  | zero => simp
  | succ k ih =>
    rw [Function.iterate_succ_apply', ih]
    change r ^ k * a * r = _
    ring

/-- All small positive steps along a descent direction give sufficient decrease. -/
theorem armijo_eventually {obj : P → ℝ} {M : Mfd ℝ P E} {x : P} {d : E} {f0 df0 c : ℝ}
    (h : HasSlope obj M x d f0 df0) (hd : df0 < 0) (hc : c < 1) :
    ∃ δ > 0, ∀ a, 0 < a → a < δ → ¬ Violates obj M x d f0 df0 c a := by
  have h1 := (hasDerivAt_iff_tendsto_slope.1 h.2).eventually_lt_const (u := c * df0) (by nlinarith)
  rw [eventually_nhdsWithin_iff, Metric.eventually_nhds_iff] at h1
  obtain ⟨δ, hδ, h2⟩ := h1
  refine ⟨δ, hδ, fun a ha haδ => ?_⟩
  have h3 := h2 (y := a) (by rw [Real.dist_eq, sub_zero, abs_of_pos ha]; exact haδ) ha.ne'
  rw [slope_def_field, sub_zero, h.1, div_lt_iff₀ ha] at h3
  rw [violates_iff, not_lt]
  nlinarith

/-- Repeated contraction gets there. -/
theorem armijo_contract {obj : P → ℝ} {M : Mfd ℝ P E} {x : P} {d : E} {f0 df0 c r a0 : ℝ}
    (h : HasSlope obj M x d f0 df0) (hd : df0 < 0) (hc : c < 1) (hr : 0 < r) (hr1 : r < 1)
    (ha : 0 < a0) : ∃ N : ℕ, ∀ k ≥ N, ¬ Violates obj M x d f0 df0 c (r ^ k * a0) := by
  obtain ⟨δ, hδ, h1⟩ := armijo_eventually h hd hc
  obtain ⟨N, hN⟩ := exists_pow_lt_of_lt_one (div_pos hδ ha) hr1
  refine ⟨N, fun k hk => h1 _ (by positivity) ?_⟩
  rw [← lt_div_iff₀ ha]
  exact (pow_le_pow_of_le_one hr.le hr1.le hk).trans_lt hN

/-- A back-tracking search whose budget suffices ends with a step that does not violate. -/
theorem backTracks_succeeds {obj : P → ℝ} {M : Mfd ℝ P E} {x : P} {d : E} {f0 df0 c r a0 : ℝ}
    {next : ℝ → ℝ} (hnext : ∀ k, next^[k] a0 = r ^ k * a0) {max : ℤ} {n N : ℕ} {evals : List P}
    (hb : BackTracks obj M x d f0 df0 c next max a0 n evals)
    (hN : ¬ Violates obj M x d f0 df0 c (r ^ N * a0)) (hmax : (N : ℤ) ≤ max) :
    n - 1 ≤ N ∧ ¬ Violates obj M x d f0 df0 c (r ^ (n - 1) * a0) := by
  obtain ⟨h1, h2, -, h4, h5⟩ := hb
  have hn : n - 1 ≤ N := by
    by_contra hlt
    exact hN (hnext N ▸ h4 N (by omega))
  refine ⟨hn, ?_⟩
  by_cases hlt : n < max.toNat + 1
  · exact hnext (n - 1) ▸ h5 hlt
  · have : n - 1 = N := by omega
    rw [this]
    exact hN

/-! ## C111 -/

/-- **C111** (core): a searcher that back-tracks from `a0 > 0` succeeds once its budget is large
enough, and it does not use more than that. -/
theorem C111_backTracks {obj : P → ℝ} {M : Mfd ℝ P E} {x : P} {d : E} {f0 df0 c r a0 : ℝ}
    (h : HasSlope obj M x d f0 df0) (hd : df0 < 0) (hc : c < 1) (hr : 0 < r) (hr1 : r < 1)
    (ha : 0 < a0) : ∃ N : ℕ, ∀ (next : ℝ → ℝ) (max : ℤ) (n : ℕ) (evals : List P),
      (∀ k, next^[k] a0 = r ^ k * a0) → (N : ℤ) ≤ max →
      BackTracks obj M x d f0 df0 c next max a0 n evals →
      evals.length ≤ N + 1 ∧ obj (trialPoint M x d (r ^ (n - 1) * a0)) ≤
        f0 + c * (r ^ (n - 1) * a0) * df0 := by
  obtain ⟨N, hN⟩ := armijo_contract h hd hc hr hr1 ha
  refine ⟨N, fun next max n evals hnext hmax hb => ?_⟩
  obtain ⟨h1, h2⟩ := backTracks_succeeds hnext hb (hN N le_rfl) hmax
  rw [violates_iff, not_lt] at h2
  refine ⟨?_, h2⟩
  rw [hb.2.2.1]
  simp only [List.length_map, List.length_range]
  omega

/-- **C111** (`BackTrackingLineSearcher`): along a direction of negative slope the search finds a
step of sufficient decrease, strictly lowering the cost, if `max_iterations` is large enough — in
the first call of a new searcher, and in any later call before which the cost has decreased. -/
theorem C111_backTracking {obj : P → ℝ} {M : Mfd ℝ P E} {x : P} {d : E} {f0 df0 : ℝ}
    {cfg : BackTrackingCfg ℝ} {mem : Option ℝ} (h : HasSlope obj M x d f0 df0) (hd : df0 < 0)
    (hc0 : 0 < cfg.sufficientDecrease) (hc : cfg.sufficientDecrease < 1)
    (hr : 0 < cfg.contractionFactor) (hr1 : cfg.contractionFactor < 1)
    (hmem : (mem = none ∧ 0 < cfg.initialStepSize ∧ 0 < M.norm x d) ∨
      ∃ old, mem = some old ∧ f0 < old ∧ 0 < cfg.optimism) :
    ∃ N : ℕ, ∀ max : ℤ, (N : ℤ) ≤ max → ∃ o a0,
      (backTracking P E { cfg with maxIterations := max }).search mem obj M x d f0 df0 = .ok o ∧
      Succeeds obj M x d f0 df0 cfg.sufficientDecrease a0 o ∧ obj o.newx < f0 ∧
      o.evals.length ≤ N + 1 := by
  obtain ⟨a0, ha0, hinit⟩ : ∃ a0 > 0, ∀ max : ℤ,
      backTrackingInit { cfg with maxIterations := max } mem f0 df0 (M.norm x d) = .ok a0 := by
    rcases hmem with ⟨rfl, h1, h2⟩ | ⟨old, rfl, h1, h2⟩
    · refine ⟨cfg.initialStepSize / M.norm x d, by positivity, fun max => ?_⟩
      simp [backTrackingInit, PyNum.div, h2.ne', PyNum.toFloat]
    · refine ⟨2 * (f0 - old) / df0 * cfg.optimism, ?_, fun max => ?_⟩
      · exact mul_pos (div_pos_of_neg_of_neg (by linarith) hd) h2
      · simp [backTrackingInit, PyNum.div, hd.ne, PyNum.toFloat, PyNum.mul, PyNum.lit, PyNum.sub]
  obtain ⟨N, hN⟩ := C111_backTracks h hd hc hr hr1 ha0
  refine ⟨N, fun max hmax => ?_⟩
  obtain ⟨o, ho⟩ : ∃ o, (backTracking P E { cfg with maxIterations := max }).search mem obj M x d f0
      df0 = .ok o := by
    simp only [backTracking, backTrackingSearch, hinit max]
    split <;> exact ⟨_, rfl⟩
  obtain ⟨a0', n, hi, hb, -, hout⟩ := backTracking_trace ho
  rw [hinit max] at hi
  cases hi
  obtain ⟨h1, h2⟩ := hN _ _ n _ (iterate_left _ _) hmax hb
  simp only [iterate_left] at hout
  have hpos : 0 < cfg.contractionFactor ^ (n - 1) * a0 := by positivity
  have hlt : obj (trialPoint M x d (cfg.contractionFactor ^ (n - 1) * a0)) < f0 :=
    h2.trans_lt (by nlinarith [mul_pos (mul_pos hc0 hpos) (neg_pos.2 hd)])
  rcases hout with ⟨h3, -⟩ | ⟨-, h3, h4⟩
  · simp only [PyNum.lt, decide_eq_true_eq] at h3
    exact absurd h3 hlt.not_gt
  · refine ⟨o, a0, ho, ⟨_, hpos, ?_, h3, h4, by rw [h3]; exact h2⟩, by rw [h3]; exact hlt, h1⟩
    exact mul_le_of_le_one_left ha0.le (pow_le_one₀ hr.le hr1.le)

/-- **C111** (`AdaptiveLineSearcher`): the same in the first call and in any later call whose
predecessor returned a positive step. -/
theorem C111_adaptive {obj : P → ℝ} {M : Mfd ℝ P E} {x : P} {d : E} {f0 df0 : ℝ}
    {cfg : AdaptiveCfg ℝ} {mem : Option ℝ} (h : HasSlope obj M x d f0 df0) (hd : df0 < 0)
    (hc0 : 0 < cfg.sufficientDecrease) (hc : cfg.sufficientDecrease < 1)
    (hr : 0 < cfg.contractionFactor) (hr1 : cfg.contractionFactor < 1)
    (hmem : (mem = none ∧ 0 < cfg.initialStepSize ∧ 0 < M.norm x d) ∨ ∃ old > 0, mem = some old) :
    ∃ N : ℕ, ∀ max : ℤ, (N : ℤ) ≤ max → ∃ o a0,
      (adaptive P E { cfg with maxIterations := max }).search mem obj M x d f0 df0 = .ok o ∧
      Succeeds obj M x d f0 df0 cfg.sufficientDecrease a0 o ∧ obj o.newx < f0 ∧
      o.evals.length ≤ N + 1 ∧ ∃ old > 0, o.mem = some old := by
  obtain ⟨a0, ha0, hinit⟩ : ∃ a0 > 0, ∀ max : ℤ,
      adaptiveInit { cfg with maxIterations := max } mem (M.norm x d) = .ok a0 := by
    rcases hmem with ⟨rfl, h1, h2⟩ | ⟨old, h1, rfl⟩
    · refine ⟨cfg.initialStepSize / M.norm x d, by positivity, fun max => ?_⟩
      simp [adaptiveInit, PyNum.div, h2.ne', PyNum.toFloat]
    · exact ⟨old, h1, fun max => rfl⟩
  obtain ⟨N, hN⟩ := C111_backTracks h hd hc hr hr1 ha0
  refine ⟨N, fun max hmax => ?_⟩
  obtain ⟨o, ho⟩ : ∃ o, (adaptive P E { cfg with maxIterations := max }).search mem obj M x d f0
      df0 = .ok o := by
    simp only [adaptive, adaptiveSearch, hinit max]
    exact ⟨_, rfl⟩
  obtain ⟨a0', n, hi, hb, hout⟩ := adaptive_trace ho
  rw [hinit max] at hi
  cases hi
  obtain ⟨h1, h2⟩ := hN _ _ n _ (iterate_right _ _) hmax hb
  simp only [iterate_right] at hout
  have hpos : 0 < cfg.contractionFactor ^ (n - 1) * a0 := by positivity
  have hlt : obj (trialPoint M x d (cfg.contractionFactor ^ (n - 1) * a0)) < f0 :=
    h2.trans_lt (by nlinarith [mul_pos (mul_pos hc0 hpos) (neg_pos.2 hd)])
  rcases hout with ⟨h3, -⟩ | ⟨-, h3, h4, h5⟩
  · simp only [PyNum.lt, decide_eq_true_eq] at h3
    exact absurd h3 hlt.not_gt
  · refine ⟨o, a0, ho, ⟨_, hpos, ?_, h3, h4, by rw [h3]; exact h2⟩, by rw [h3]; exact hlt, h1, _, ?_,
      h5⟩
    · exact mul_le_of_le_one_left ha0.le (pow_le_one₀ hr.le hr1.le)
    · split
      · exact hpos
      · exact mul_pos (by norm_num [PyNum.lit]) hpos

/-- What a search that fails leaves behind.  If the search of a `BackTrackingLineSearcher` is given
the cost of the previous search again (as after a search that kept its starting point), or the
previous search of an `AdaptiveLineSearcher` kept its starting point, then the step tried is zero
and the step size returned is zero: with exact arithmetic neither recovers. -/
theorem C111_stall {obj : P → ℝ} {M : Mfd ℝ P E} {x : P} {d : E} {f0 df0 : ℝ} (hd : df0 ≠ 0) :
    (∀ cfg : BackTrackingCfg ℝ, ∀ o, (backTracking P E cfg).search (some f0) obj M x d f0 df0 = .ok o →
      o.stepSize = 0 ∧ o.mem = some f0 ∧ (o.newx = x ∨ o.newx = trialPoint M x d 0)) ∧
    (∀ cfg : AdaptiveCfg ℝ, ∀ o, (adaptive P E cfg).search (some 0) obj M x d f0 df0 = .ok o →
      o.stepSize = 0 ∧ o.mem = some 0 ∧ (o.newx = x ∨ o.newx = trialPoint M x d 0)) ∧
    ∀ cfg : AdaptiveCfg ℝ, ∀ mem obj' x' d' f0' df0' o,
      (adaptive P E cfg).search mem obj' M x' d' f0' df0' = .ok o →
      f0' < obj' (o.evals.getLastD x') → o.newx = x' ∧ o.mem = some 0 := by
  refine ⟨fun cfg o ho => ?_, fun cfg o ho => ?_, fun cfg mem obj' x' d' f0' df0' o ho hlt => ?_⟩
  · obtain ⟨a0, n, hi, -, hm, hout⟩ := backTracking_trace ho
    have ha : a0 = 0 := by
      simp only [backTrackingInit, PyNum.div, if_neg hd, PyNum.toFloat, PyNum.mul, PyNum.sub,
        sub_self, mul_zero, zero_div, zero_mul] at hi
      cases hi
      rfl
    subst ha
    simp only [iterate_left, mul_zero] at hout
    refine ⟨?_, hm, ?_⟩
    · rcases hout with ⟨-, -, h⟩ | ⟨-, -, h⟩ <;> rw [h] <;> simp [PyNum.mul, PyNum.lit]
    · exact hout.imp (fun h => h.2.1) fun h => h.2.1
  · obtain ⟨a0, n, hi, -, hout⟩ := adaptive_trace ho
    have ha : a0 = 0 := by
      simp only [adaptiveInit, PyNum.toFloat] at hi
      cases hi
      rfl
    subst ha
    simp only [iterate_right, mul_zero] at hout
    refine ⟨?_, ?_, ?_⟩
    · rcases hout with ⟨-, -, h, -⟩ | ⟨-, -, h, -⟩ <;> rw [h] <;> simp [PyNum.mul, PyNum.lit]
    · rcases hout with ⟨-, -, -, h⟩ | ⟨-, -, -, h⟩ <;> rw [h] <;> simp [PyNum.mul, PyNum.lit]
    · exact hout.imp (fun h => h.2.1) fun h => h.2.1
  · obtain ⟨a0, n, -, hb, hout⟩ := adaptive_trace ho
    have hlast := hb.getLast?
    rw [List.getLastD_eq_getLast?, hlast, Option.getD_some] at hlt
    rcases hout with ⟨-, h, -, h'⟩ | ⟨h, -⟩
    · exact ⟨h, by rw [h']; simp [PyNum.mul, PyNum.lit]⟩
    · simp [PyNum.lt] at h
      exact absurd hlt h.not_gt

theorem pow_lit_two (a : ℝ) : pow a (lit 2) = a ^ 2 := by
  simp [PyNum.pow, PyNum.lit]

/-- A run of steepest descent from `x` whose first search lowers the cost returns a lower cost. -/
theorem sd_lowers {S : Type*} {cfg : Cfg ℝ} {ls : LineSearcher ℝ P E S} (hls : NeverAscends ls)
    {pb : Prob ℝ P E} {clk : Clock ℝ} {x : P} {mem : S}
    (hfirst : ∀ o, ls.search mem pb.cost pb.M x (pb.M.neg (pb.grad x)) (pb.cost x)
      (-pb.M.norm x (pb.grad x) ^ 2) = .ok o → pb.cost o.newx < pb.cost x)
    {r : Result ℝ P} {m : S} (h : SDRuns cfg ls pb clk x mem (.ok (r, m))) :
    r.cost < pb.cost x := by
  unfold SDRuns at h
  split at h
  · cases h
  have key : ∀ s : SDState ℝ P S, (s = sdInit cfg x mem ∨ pb.cost s.x < pb.cost x) → ∀ o,
      ls.search s.mem pb.cost pb.M s.x (pb.M.neg (pb.grad s.x)) (pb.cost s.x)
        (neg (pow (pb.M.norm s.x (pb.grad s.x)) (lit 2))) = .ok o → pb.cost o.newx < pb.cost x := by
    rintro s (rfl | hs) o ho
    · rw [pow_lit_two] at ho
      exact hfirst o ho
    · have := hls _ _ _ _ _ _ _ ho
      simp only [PyNum.lt, decide_eq_false_iff_not, not_lt] at this
      exact this.trans_lt hs
  refine h.invariant (Inv := fun s : SDState ℝ P S => s = sdInit cfg x mem ∨ pb.cost s.x < pb.cost x)
    (Post := fun r : Result ℝ P × S => r.1.cost < pb.cost x) ?_ ?_ (Or.inl rfl)
  · intro s s' hs h
    obtain ⟨o, ho, -, rfl⟩ := sdStep_next h
    exact Or.inr (key s hs o ho)
  · intro s r hs h
    obtain ⟨o, reason, ho, -, rfl⟩ := sdStep_brk h
    exact key s hs o ho

/-- **C111** (`SteepestDescent`): started anywhere but at a critical point, with line search budget
large enough (depending on the point), every run returns a point of strictly lower cost. -/
theorem C111_steepestDescent {pb : Prob ℝ P E} {x : P}
    (hs : HasSlope pb.cost pb.M x (pb.M.neg (pb.grad x)) (pb.cost x)
      (-pb.M.norm x (pb.grad x) ^ 2))
    (hn : 0 < pb.M.norm x (pb.M.neg (pb.grad x))) (hn' : pb.M.norm x (pb.grad x) ≠ 0)
    {c r init : ℝ} (hc0 : 0 < c) (hc : c < 1) (hr : 0 < r) (hr1 : r < 1) (hi : 0 < init) :
    ∃ N : ℕ, ∀ max : ℤ, (N : ℤ) ≤ max → ∀ (cfg : Cfg ℝ) (clk : Clock ℝ) (res : Result ℝ P)
      (m : Option ℝ),
      (∀ opt, SDRuns cfg (backTracking P E ⟨r, opt, c, max, init⟩) pb clk x none (.ok (res, m)) →
        res.cost < pb.cost x) ∧
      (SDRuns cfg (adaptive P E ⟨r, c, max, init⟩) pb clk x none (.ok (res, m)) →
        res.cost < pb.cost x) := by
  have hd : -pb.M.norm x (pb.grad x) ^ 2 < 0 := by
    have : 0 < pb.M.norm x (pb.grad x) ^ 2 := by positivity
    linarith
  obtain ⟨N, hN⟩ := C111_backTracks (c := c) (r := r)
    (a0 := init / pb.M.norm x (pb.M.neg (pb.grad x))) hs hd hc hr hr1 (by positivity)
  refine ⟨N, fun max hmax cfg clk res m => ⟨fun opt h => ?_, fun h => ?_⟩⟩
  · refine sd_lowers (backTracking_neverAscends _) (fun o ho => ?_) h
    obtain ⟨a0, n, hi', hb, -, hout⟩ := backTracking_trace ho
    simp only [backTrackingInit, PyNum.div, if_neg hn.ne', PyNum.toFloat] at hi'
    cases hi'
    obtain ⟨-, h2⟩ := hN _ _ n _ (iterate_left _ _) hmax hb
    simp only [iterate_left] at hout
    have hpos : 0 < r ^ (n - 1) * (init / pb.M.norm x (pb.M.neg (pb.grad x))) := by positivity
    have hlt := h2.trans_lt (b := _) (c := pb.cost x)
      (by nlinarith [mul_pos (mul_pos hc0 hpos) (neg_pos.2 hd)])
    rcases hout with ⟨h3, -⟩ | ⟨-, h3, -⟩
    · simp only [PyNum.lt, decide_eq_true_eq] at h3
      exact absurd h3 hlt.not_gt
    · rw [h3]
      exact hlt
  · refine sd_lowers (adaptive_neverAscends _) (fun o ho => ?_) h
    obtain ⟨a0, n, hi', hb, hout⟩ := adaptive_trace ho
    simp only [adaptiveInit, PyNum.div, if_neg hn.ne', PyNum.toFloat] at hi'
    cases hi'
    obtain ⟨-, h2⟩ := hN _ _ n _ (iterate_right _ _) hmax hb
    simp only [iterate_right] at hout
    have hpos : 0 < r ^ (n - 1) * (init / pb.M.norm x (pb.M.neg (pb.grad x))) := by positivity
    have hlt := h2.trans_lt (b := _) (c := pb.cost x)
      (by nlinarith [mul_pos (mul_pos hc0 hpos) (neg_pos.2 hd)])
    rcases hout with ⟨h3, -⟩ | ⟨-, h3, -⟩
    · simp only [PyNum.lt, decide_eq_true_eq] at h3
      exact absurd h3 hlt.not_gt
    · rw [h3]
      exact hlt

/-- A problem whose operators are what they claim to be, on points `On` and tangent vectors `Tan`:
the gradient represents the derivative of the cost along the retraction, which starts at the point,
and the norm is that of the metric. -/
structure FirstOrder (pb : Prob ℝ P E) (On : P → Prop) (Tan : P → E → Prop) : Prop where
  slope : ∀ x v, On x → Tan x v →
    HasDerivAt (fun t : ℝ => pb.cost (trialPoint pb.M x v t)) (pb.M.inner x (pb.grad x) v) 0
  start : ∀ x v, On x → Tan x v → pb.cost (trialPoint pb.M x v 0) = pb.cost x
  grad : ∀ x, On x → Tan x (pb.grad x)
  neg : ∀ x v, On x → Tan x v → Tan x (pb.M.neg v)
  innerNeg : ∀ x v, On x → Tan x v → pb.M.inner x v (pb.M.neg v) = -pb.M.inner x v v
  normSq : ∀ x v, On x → Tan x v → pb.M.norm x v ^ 2 = pb.M.inner x v v
  normNeg : ∀ x v, On x → Tan x v → pb.M.norm x (pb.M.neg v) = pb.M.norm x v
  normNonneg : ∀ x v, On x → Tan x v → 0 ≤ pb.M.norm x v

/-- **C111**: for such problems, from every point with nonzero gradient norm. -/
theorem C111_descent {pb : Prob ℝ P E} {On : P → Prop} {Tan : P → E → Prop}
    (hpb : FirstOrder pb On Tan) {x : P} (hx : On x) (hn : pb.M.norm x (pb.grad x) ≠ 0)
    {c r init : ℝ} (hc0 : 0 < c) (hc : c < 1) (hr : 0 < r) (hr1 : r < 1) (hi : 0 < init) :
    ∃ N : ℕ, ∀ max : ℤ, (N : ℤ) ≤ max → ∀ (cfg : Cfg ℝ) (clk : Clock ℝ) (res : Result ℝ P)
      (m : Option ℝ),
      (∀ opt, SDRuns cfg (backTracking P E ⟨r, opt, c, max, init⟩) pb clk x none (.ok (res, m)) →
        res.cost < pb.cost x) ∧
      (SDRuns cfg (adaptive P E ⟨r, c, max, init⟩) pb clk x none (.ok (res, m)) →
        res.cost < pb.cost x) := by
  have hg := hpb.grad x hx
  have hg' := hpb.neg x _ hx hg
  refine C111_steepestDescent ⟨hpb.start x _ hx hg', ?_⟩ ?_ hn hc0 hc hr hr1 hi
  · have := hpb.slope x _ hx hg'
    rwa [hpb.innerNeg x _ hx hg, ← hpb.normSq x _ hx hg] at this
  · rw [hpb.normNeg x _ hx hg]
    exact lt_of_le_of_ne (hpb.normNonneg x _ hx hg) hn.symm

/-! ## C112 -/

/-- On a set of points `On` the cost has a quadratic upper bound with constant `L` along the
steepest descent curves, which do not leave the set. -/
structure SmoothDescent (pb : Prob ℝ P E) (On : P → Prop) (L : ℝ) : Prop where
  stays : ∀ x, On x → ∀ t > 0, On (trialPoint pb.M x (pb.M.neg (pb.grad x)) t)
  upper : ∀ x, On x → ∀ t > 0, pb.cost (trialPoint pb.M x (pb.M.neg (pb.grad x)) t) ≤
    pb.cost x - t * pb.M.norm x (pb.grad x) ^ 2 + L / 2 * t ^ 2 * pb.M.norm x (pb.grad x) ^ 2

/-- One search of the adaptive searcher along the negative gradient: the accepted step is bounded
below, and so is the step the next search starts with. -/
theorem adaptive_smooth {pb : Prob ℝ P E} {On : P → Prop} {L : ℝ} (hS : SmoothDescent pb On L)
    (hL : 0 < L) {cfg : AdaptiveCfg ℝ} (hc0 : 0 < cfg.sufficientDecrease)
    (hc : cfg.sufficientDecrease < 1) (hr : 0 < cfg.contractionFactor)
    (hr1 : cfg.contractionFactor < 1) (hm : 0 ≤ cfg.maxIterations) {x : P} (hx : On x)
    {mem : Option ℝ} {a0 : ℝ} (ha : 0 < a0)
    (hinit : adaptiveInit cfg mem (pb.M.norm x (pb.M.neg (pb.grad x))) = .ok a0)
    (hbudget : cfg.contractionFactor ^ cfg.maxIterations.toNat * a0 ≤
      2 * (1 - cfg.sufficientDecrease) / L) {o : SearchOut ℝ P (Option ℝ)}
    (ho : (adaptive P E cfg).search mem pb.cost pb.M x (pb.M.neg (pb.grad x)) (pb.cost x)
      (-pb.M.norm x (pb.grad x) ^ 2) = .ok o) :
    ∃ a, min a0 (cfg.contractionFactor * (2 * (1 - cfg.sufficientDecrease) / L)) ≤ a ∧ 0 < a ∧
      a ≤ a0 ∧ On o.newx ∧
      pb.cost o.newx ≤ pb.cost x - cfg.sufficientDecrease * a * pb.M.norm x (pb.grad x) ^ 2 ∧
      ∃ a', a ≤ a' ∧ a' ≤ 2 * a ∧ o.mem = some a' := by
  set c := cfg.sufficientDecrease with hcdef
  set r := cfg.contractionFactor with hrdef
  set T := 2 * (1 - c) / L with hT
  have hok : ∀ t, 0 < t → t ≤ T → ¬ Violates pb.cost pb.M x (pb.M.neg (pb.grad x)) (pb.cost x)
      (-pb.M.norm x (pb.grad x) ^ 2) c t := by
    intro t ht htT
    rw [violates_iff, not_lt]
    refine (hS.upper x hx t ht).trans ?_
    have h1 : L / 2 * t ≤ 1 - c := by
      rw [hT, le_div_iff₀ hL] at htT
      linarith
    have h2 : 0 ≤ t * pb.M.norm x (pb.grad x) ^ 2 := by positivity
    nlinarith [mul_le_mul_of_nonneg_right h1 h2]
  obtain ⟨a1, n, hi, hb, hout⟩ := adaptive_trace ho
  rw [hinit] at hi
  cases hi
  simp only [iterate_right, ← hrdef] at hout
  have hN := backTracks_succeeds (r := r) (N := cfg.maxIterations.toNat) (iterate_right r a0) hb
    (hok _ (by positivity) hbudget) (by omega)
  have hpos : 0 < r ^ (n - 1) * a0 := by positivity
  have h2 := hN.2
  rw [violates_iff, not_lt] at h2
  have hle : pb.cost (trialPoint pb.M x (pb.M.neg (pb.grad x)) (r ^ (n - 1) * a0)) ≤ pb.cost x := by
    refine h2.trans ?_
    have : 0 ≤ c * (r ^ (n - 1) * a0) * pb.M.norm x (pb.grad x) ^ 2 := by positivity
    linarith
  have hlow : min a0 (r * T) ≤ r ^ (n - 1) * a0 := by
    obtain hn | hn : n = 1 ∨ 2 ≤ n := by have := hb.1; omega
    · subst hn
      simp
    · refine (min_le_right _ _).trans ?_
      have hv := hb.2.2.2.1 (n - 2) (by omega)
      rw [iterate_right] at hv
      have hlt : T < r ^ (n - 2) * a0 := by
        by_contra hcon
        exact hok _ (by positivity) (not_lt.1 hcon) hv
      have e : n - 1 = n - 2 + 1 := by omega
      rw [e, pow_succ]
      nlinarith
  rcases hout with ⟨h3, -⟩ | ⟨-, h3, -, h5⟩
  · simp only [PyNum.lt, decide_eq_true_eq] at h3
    exact absurd h3 hle.not_gt
  · refine ⟨r ^ (n - 1) * a0, hlow, hpos, mul_le_of_le_one_left ha.le (pow_le_one₀ hr.le hr1.le),
      ?_, ?_, _, ?_, ?_, h5⟩
    · rw [h3]
      exact hS.stays x hx _ hpos
    · rw [h3]
      linarith
    · split
      · exact le_rfl
      · simp only [PyNum.mul, PyNum.lit]
        push_cast
        linarith
    · split
      · linarith
      · simp [PyNum.mul, PyNum.lit]

/-- **C112**: steepest descent with the adaptive line searcher, on a cost with quadratic upper bound
`L` along the steepest descent curves, with search budget sufficient for `max_iterations`
doublings of the first step `a0`.  Over a run with a log, the squared logged gradient norms sum up
to at most the decrease of the cost, divided by `c * min(a0, 2 r (1 - c) / L)`. -/
theorem C112_decrease {pb : Prob ℝ P E} {On : P → Prop} {L : ℝ} (hS : SmoothDescent pb On L)
    (hL : 0 < L) {ls : AdaptiveCfg ℝ} (hc0 : 0 < ls.sufficientDecrease)
    (hc : ls.sufficientDecrease < 1) (hr : 0 < ls.contractionFactor)
    (hr1 : ls.contractionFactor < 1) (hm : 0 ≤ ls.maxIterations) (hi : 0 < ls.initialStepSize)
    {x : P} (hx : On x) (hn : 0 < pb.M.norm x (pb.M.neg (pb.grad x))) {cfg : Cfg ℝ}
    (hbudget : ls.contractionFactor ^ ls.maxIterations.toNat * (2 ^ cfg.maxIterations.toNat *
      (ls.initialStepSize / pb.M.norm x (pb.M.neg (pb.grad x)))) ≤
        2 * (1 - ls.sufficientDecrease) / L)
    {clk : Clock ℝ} {res : Result ℝ P} {m : Option ℝ}
    (h : SDRuns cfg (adaptive P E ls) pb clk x none (.ok (res, m))) :
    On res.point ∧ ∀ l, res.log = some l →
      ls.sufficientDecrease * min (ls.initialStepSize / pb.M.norm x (pb.M.neg (pb.grad x)))
        (ls.contractionFactor * (2 * (1 - ls.sufficientDecrease) / L)) *
        (l.map fun e => e.gradientNorm ^ 2).sum ≤ pb.cost x - res.cost := by
  set A := ls.initialStepSize / pb.M.norm x (pb.M.neg (pb.grad x)) with hA
  set r := ls.contractionFactor with hrdef
  set c := ls.sufficientDecrease with hcdef
  set T := 2 * (1 - c) / L with hT
  have hApos : 0 < A := by positivity
  have hTpos : 0 < T := div_pos (by linarith) hL
  have hlow : 0 < min A (r * T) := lt_min hApos (by positivity)
  have hr1' : r ^ ls.maxIterations.toNat ≤ 1 := pow_le_one₀ hr.le hr1.le
  unfold SDRuns at h
  split at h
  · cases h
  -- one step
  have step : ∀ s : SDState ℝ P (Option ℝ), On s.x → 0 ≤ s.iteration →
      (s.iteration < cfg.maxIterations ∨ s.iteration = 0) →
      ((s.mem = none ∧ s.x = x ∧ s.iteration = 0) ∨ ∃ a, s.mem = some a ∧ min A (r * T) ≤ a ∧
        a ≤ 2 ^ s.iteration.toNat * A) → ∀ o,
      (adaptive P E ls).search s.mem pb.cost pb.M s.x (pb.M.neg (pb.grad s.x)) (pb.cost s.x)
        (neg (pow (pb.M.norm s.x (pb.grad s.x)) (lit 2))) = .ok o →
      On o.newx ∧ pb.cost o.newx ≤ pb.cost s.x -
        c * min A (r * T) * pb.M.norm s.x (pb.grad s.x) ^ 2 ∧
      ∃ a, o.mem = some a ∧ min A (r * T) ≤ a ∧ a ≤ 2 ^ (s.iteration + 1).toNat * A := by
    intro s hs hit0 hit hmem o ho
    rw [pow_lit_two] at ho
    obtain ⟨a0, ha0, hinit, ha1, ha2⟩ : ∃ a0, 0 < a0 ∧ adaptiveInit ls s.mem
        (pb.M.norm s.x (pb.M.neg (pb.grad s.x))) = .ok a0 ∧ min A (r * T) ≤ a0 ∧
        a0 ≤ 2 ^ s.iteration.toNat * A := by
      rcases hmem with ⟨h1, h2, h3⟩ | ⟨a, h1, h2, h3⟩
      · refine ⟨A, hApos, ?_, min_le_left _ _, by rw [h3]; simp⟩
        rw [h1, h2]
        simp [adaptiveInit, PyNum.div, hn.ne', PyNum.toFloat, hA]
      · exact ⟨a, hlow.trans_le h2, by rw [h1]; rfl, h2, h3⟩
    have hle : s.iteration.toNat ≤ cfg.maxIterations.toNat := by omega
    have hbud : r ^ ls.maxIterations.toNat * a0 ≤ T := by
      refine le_trans (mul_le_mul_of_nonneg_left (ha2.trans ?_) (by positivity)) hbudget
      exact mul_le_mul_of_nonneg_right (pow_le_pow_right₀ (by norm_num) hle) hApos.le
    obtain ⟨a, h1, h2, h3, h4, h5, a', h6, h7, h8⟩ := adaptive_smooth hS hL hc0 hc hr hr1 hm hs ha0
      hinit hbud ho
    have h9 : min A (r * T) ≤ a := by
      refine le_trans (le_min ha1 (min_le_right _ _)) h1
    refine ⟨h4, h5.trans ?_, a', h8, h9.trans h6, ?_⟩
    · have h10 : c * min A (r * T) * pb.M.norm s.x (pb.grad s.x) ^ 2 ≤
          c * a * pb.M.norm s.x (pb.grad s.x) ^ 2 :=
        mul_le_mul_of_nonneg_right (mul_le_mul_of_nonneg_left h9 hc0.le) (by positivity)
      linarith
    · have e : (s.iteration + 1).toNat = s.iteration.toNat + 1 := by omega
      rw [e, pow_succ]
      calc a' ≤ 2 * a := h7
        _ ≤ 2 * (2 ^ s.iteration.toNat * A) := by linarith
        _ = _ := by ring
  have hlog : ∀ (lg : Option (List (LogEntry ℝ P))) (e : LogEntry ℝ P) (p : P) (w : ℝ),
      (∀ l, lg = some l → c * min A (r * T) * (l.map fun e => e.gradientNorm ^ 2).sum ≤
        pb.cost x - pb.cost p) → w ≤ pb.cost p - c * min A (r * T) * e.gradientNorm ^ 2 →
      ∀ l, addLog cfg lg e = some l →
        c * min A (r * T) * (l.map fun e => e.gradientNorm ^ 2).sum ≤ pb.cost x - w := by
    intro lg e p w hlg hw l hl
    simp only [addLog] at hl
    split at hl
    · have h0 : 0 ≤ c * min A (r * T) * e.gradientNorm ^ 2 := by positivity
      have := hlg l hl
      linarith
    · obtain ⟨l', hl', rfl⟩ := Option.map_eq_some_iff.1 hl
      have := hlg l' hl'
      rw [List.map_append, List.sum_append, mul_add]
      simp only [List.map_cons, List.map_nil, List.sum_cons, List.sum_nil, add_zero]
      linarith
  refine h.invariant (Inv := fun s : SDState ℝ P (Option ℝ) => On s.x ∧ 0 ≤ s.iteration ∧
      (s.iteration < cfg.maxIterations ∨ s.iteration = 0) ∧
      ((s.mem = none ∧ s.x = x ∧ s.iteration = 0) ∨ ∃ a, s.mem = some a ∧ min A (r * T) ≤ a ∧
        a ≤ 2 ^ s.iteration.toNat * A) ∧
      ∀ l, s.log = some l → c * min A (r * T) * (l.map fun e => e.gradientNorm ^ 2).sum ≤
        pb.cost x - pb.cost s.x)
    (Post := fun q : Result ℝ P × Option ℝ => On q.1.point ∧ ∀ l, q.1.log = some l →
      c * min A (r * T) * (l.map fun e => e.gradientNorm ^ 2).sum ≤ pb.cost x - q.1.cost) ?_ ?_ ?_
  · rintro s s' ⟨h1, h2, h3, h4, h5⟩ hs
    obtain ⟨o, ho, hck, rfl⟩ := sdStep_next hs
    obtain ⟨h6, h7, h8⟩ := step s h1 h2 h3 h4 o ho
    refine ⟨h6, by simp only; omega, Or.inl (checkStop_none_lt hck), Or.inr h8, ?_⟩
    exact hlog _ _ s.x _ h5 h7
  · rintro s q ⟨h1, h2, h3, h4, h5⟩ hs
    obtain ⟨o, reason, ho, hck, rfl⟩ := sdStep_brk hs
    obtain ⟨h6, h7, h8⟩ := step s h1 h2 h3 h4 o ho
    exact ⟨h6, hlog _ _ s.x _ h5 h7⟩
  · refine ⟨hx, le_rfl, Or.inr rfl, Or.inl ⟨rfl, rfl, rfl⟩, ?_⟩
    intro l hl
    simp only [sdInit, initLog] at hl
    split at hl
    · cases hl
      simp [sdInit]
    · cases hl

/-- **C112** (rate): with a log, among the gradient norms of the `k` points visited there is one of
square at most the decrease of the cost, divided by `c * min(a0, 2 r (1 - c) / L) * k`. -/
theorem C112_rate {pb : Prob ℝ P E} {On : P → Prop} {L : ℝ} (hS : SmoothDescent pb On L)
    (hL : 0 < L) {ls : AdaptiveCfg ℝ} (hc0 : 0 < ls.sufficientDecrease)
    (hc : ls.sufficientDecrease < 1) (hr : 0 < ls.contractionFactor)
    (hr1 : ls.contractionFactor < 1) (hm : 0 ≤ ls.maxIterations) (hi : 0 < ls.initialStepSize)
    {x : P} (hx : On x) (hn : 0 < pb.M.norm x (pb.M.neg (pb.grad x))) {cfg : Cfg ℝ}
    (hv : 1 ≤ cfg.logVerbosity)
    (hbudget : ls.contractionFactor ^ ls.maxIterations.toNat * (2 ^ cfg.maxIterations.toNat *
      (ls.initialStepSize / pb.M.norm x (pb.M.neg (pb.grad x)))) ≤
        2 * (1 - ls.sufficientDecrease) / L)
    {clk : Clock ℝ} {res : Result ℝ P} {m : Option ℝ}
    (h : SDRuns cfg (adaptive P E ls) pb clk x none (.ok (res, m))) :
    ∃ l, res.log = some l ∧ ∃ e ∈ l, e.gradientNorm = pb.M.norm e.point (pb.grad e.point) ∧
      ls.sufficientDecrease * min (ls.initialStepSize / pb.M.norm x (pb.M.neg (pb.grad x)))
        (ls.contractionFactor * (2 * (1 - ls.sufficientDecrease) / L)) * res.iterations *
        e.gradientNorm ^ 2 ≤ pb.cost x - res.cost := by
  obtain ⟨l, hl, hg, -⟩ := C31_steepestDescent hv h
  obtain ⟨-, hd⟩ := C112_decrease hS hL hc0 hc hr hr1 hm hi hx hn hbudget h
  have hsum := hd l hl
  have hit : 1 ≤ res.iterations := by
    obtain ⟨-, -, n, q, hq, h1, -, h2⟩ := C02_steepestDescent cfg (adaptive P E ls) pb clk x none
    unfold SDRuns at h
    split at h
    · cases h
    · obtain ⟨k, hk⟩ := h
      obtain ⟨-, rfl⟩ := hq.det hk
      rw [h2 _ rfl]
      exact_mod_cast h1
  refine ⟨l, hl, ?_⟩
  have hne : l ≠ [] := by
    rintro rfl
    have := hg.1
    simp at this
    omega
  -- the entry of least gradient norm
  obtain ⟨e, he, hmin⟩ : ∃ e ∈ l, ∀ e' ∈ l, e.gradientNorm ^ 2 ≤ e'.gradientNorm ^ 2 := by
    clear hsum hd hl hg
    induction l with
    | nil => exact absurd rfl hne
    | cons a t ih =>
      by_cases ht : t = []
      · exact ⟨a, by simp, by simp [ht]⟩
      · obtain ⟨e, he, hmin⟩ := ih ht
        by_cases hle : a.gradientNorm ^ 2 ≤ e.gradientNorm ^ 2
        · exact ⟨a, by simp, by simpa using fun e' he' => hle.trans (hmin e' he')⟩
        · refine ⟨e, by simp [he], fun e' he' => ?_⟩
          rcases List.mem_cons.1 he' with rfl | h'
          · exact (not_le.1 hle).le
          · exact hmin e' h'
  have hcard : (l.length : ℝ) * e.gradientNorm ^ 2 ≤ (l.map fun e => e.gradientNorm ^ 2).sum := by
    have := List.card_nsmul_le_sum (l.map fun e => e.gradientNorm ^ 2) (e.gradientNorm ^ 2)
      (by
        intro y hy
        obtain ⟨e', he', rfl⟩ := List.mem_map.1 hy
        exact hmin e' he')
    simpa using this
  have hlen : (res.iterations : ℝ) = l.length := by
    rw [hg.1.symm]
    simp
  refine ⟨e, he, ?_, ?_⟩
  · obtain ⟨i, hi, rfl⟩ := List.getElem_of_mem he
    exact (hg.2 i hi).2.2
  · have hk : 0 ≤ ls.sufficientDecrease * min (ls.initialStepSize /
        pb.M.norm x (pb.M.neg (pb.grad x)))
        (ls.contractionFactor * (2 * (1 - ls.sufficientDecrease) / L)) := by
      refine mul_nonneg hc0.le (le_min (by positivity) (mul_nonneg hr.le (div_nonneg ?_ hL.le)))
      linarith
    rw [hlen, mul_assoc]
    exact (mul_le_mul_of_nonneg_left hcard hk).trans hsum

/-! ## The hypotheses are met -/

/-- `x ** 2` on the real line. -/
noncomputable def realSquare : Prob ℝ ℝ ℝ where
  M := realMfd
  cost x := x ^ 2
  grad x := 2 * x
  hess _ v := 2 * v
  precon _ v := v

/-- Hypotheses of C111 at `1`. -/
example : HasSlope realSquare.cost realSquare.M 1 (realSquare.M.neg (realSquare.grad 1))
    (realSquare.cost 1) (-realSquare.M.norm 1 (realSquare.grad 1) ^ 2) ∧
    0 < realSquare.M.norm 1 (realSquare.M.neg (realSquare.grad 1)) ∧
    realSquare.M.norm 1 (realSquare.grad 1) ≠ 0 := by
  refine ⟨⟨by simp [realSquare, trialPoint, realMfd], ?_⟩, by norm_num [realSquare, realMfd],
    by norm_num [realSquare, realMfd]⟩
  have h : HasDerivAt (fun a : ℝ => (1 + a * -2) ^ 2) (-4) 0 := by
    have := (((hasDerivAt_id (0 : ℝ)).mul_const (-2)).const_add 1).pow 2
    have e : ((2 : ℕ) : ℝ) * (1 + id (0 : ℝ) * -2) ^ (2 - 1) * (1 * -2) = -4 := by norm_num
    rw [e] at this
    exact this
  convert h using 1
  · norm_num [realSquare, realMfd, trialPoint]
  · norm_num [realSquare, realMfd]

/-- Hypotheses of C112: constant `2`, five iterations from `1` with a budget of ten. -/
example : SmoothDescent realSquare (fun _ => True) 2 ∧
    (1 / 2 : ℝ) ^ (10 : ℤ).toNat * (2 ^ (5 : ℤ).toNat *
      (1 / realSquare.M.norm 1 (realSquare.M.neg (realSquare.grad 1)))) ≤ 2 * (1 - 1 / 2) / 2 := by
  refine ⟨⟨fun _ _ _ _ => trivial, fun x _ t _ => ?_⟩, ?_⟩
  · simp only [realSquare, realMfd, trialPoint]
    rw [sq_abs]
    nlinarith
  · have h1 : (10 : ℤ).toNat = 10 := rfl
    have h2 : (5 : ℤ).toNat = 5 := rfl
    rw [h1, h2]
    norm_num [realSquare, realMfd]

end Verif.Opt
