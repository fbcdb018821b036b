/-
C07–C09: steepest descent and conjugate gradient never increase the cost; results are
self-consistent.
-/
import Verif.Opt.Props.LineSearch

namespace Verif.Opt
open PyNum

variable {F P E S : Type*} [PyNum F]

/-! ## Specification -/

/-- A line searcher that never returns a point comparing greater in cost than its start. -/
def NeverAscends (ls : LineSearcher F P E S) : Prop :=
  ∀ mem obj M x d df0 o, ls.search mem obj M x d (obj x) df0 = .ok o →
    lt (obj x) (obj o.newx) = false

/-- The costs of a log followed by the returned cost never increase. -/
def CostsNonIncreasing (r : Result F P) : Prop :=
  ∀ l, r.log = some l → (l.map LogEntry.cost ++ [r.cost]).Pairwise (fun a b => le b a = true)

theorem backTracking_neverAscends [LawfulPyNum F] (c : BackTrackingCfg F) :
    NeverAscends (backTracking P E c) :=
  fun _ _ _ _ _ _ _ h => (C04_backTracking (LawfulPyNum.lt_irrefl _) h).1

theorem adaptive_neverAscends [LawfulPyNum F] (c : AdaptiveCfg F) :
    NeverAscends (adaptive P E c) :=
  fun _ _ _ _ _ _ _ h => (C04_adaptive (LawfulPyNum.lt_irrefl _) h).1

/-! ## C07 -/

/-- Log entries recorded so far are non-increasing and not below the current cost `c`. -/
private def LogOk (log : Option (List (LogEntry F P))) (c : F) : Prop :=
  ∀ l, log = some l → (l.map LogEntry.cost ++ [c]).Pairwise (fun a b => le b a = true)

private theorem LogOk.lower [LawfulPyNum F] {log : Option (List (LogEntry F P))} {c c' : F}
    {cost : P → F} (hn : ∀ p, isnan (cost p) = false)
    (hc : ∃ p, c = cost p) (hc' : ∃ p, c' = cost p)
    (hl : ∀ l, log = some l → ∀ e ∈ l, ∃ p, e.cost = cost p)
    (h : LogOk log c) (hle : le c' c = true) : LogOk log c' := by
  obtain ⟨p, rfl⟩ := hc
  obtain ⟨p', rfl⟩ := hc'
  intro l hlog
  have := h l hlog
  rw [List.pairwise_append] at this ⊢
  refine ⟨this.1, by simp, ?_⟩
  intro a ha b hb
  simp at hb
  subst hb
  obtain ⟨e, he, rfl⟩ := List.mem_map.1 ha
  obtain ⟨q, hq⟩ := hl l hlog e he
  have h2 := this.2.2 e.cost ha (cost p) (by simp)
  rw [hq] at h2 ⊢
  exact LawfulPyNum.le_trans (hn _) (hn _) (hn _) hle h2

private theorem LogOk.push [LawfulPyNum F] {cfg : Cfg F} {log : Option (List (LogEntry F P))}
    {e : LogEntry F P} (hn : isnan e.cost = false) (h : LogOk log e.cost) :
    LogOk (addLog cfg log e) e.cost := by
  intro l hl
  simp only [addLog] at hl
  split at hl
  · exact h l hl
  · obtain ⟨l', hl', rfl⟩ := Option.map_eq_some_iff.1 hl
    have := h l' hl'
    rw [List.map_append, List.pairwise_append]
    refine ⟨this, by simp, ?_⟩
    intro a ha b hb
    simp at hb
    subst hb
    simp only [List.map_cons, List.map_nil, List.mem_append, List.mem_singleton] at ha
    rcases ha with ha | rfl
    · rw [List.pairwise_append] at this
      exact this.2.2 a ha _ (by simp)
    · exact LawfulPyNum.le_refl _ hn

omit [PyNum F] in
private theorem log_costs_addLog {cfg : Cfg F} {log : Option (List (LogEntry F P))}
    {e : LogEntry F P} {cost : P → F} (he : ∃ p, e.cost = cost p)
    (h : ∀ l, log = some l → ∀ e ∈ l, ∃ p, e.cost = cost p) :
    ∀ l, addLog cfg log e = some l → ∀ e ∈ l, ∃ p, e.cost = cost p := by
  intro l hl e' he'
  simp only [addLog] at hl
  split at hl
  · exact h l hl e' he'
  · obtain ⟨l', hl', rfl⟩ := Option.map_eq_some_iff.1 hl
    rcases List.mem_append.1 he' with h1 | h1
    · exact h l' hl' e' h1
    · simp at h1
      rw [h1]
      exact he

/-- **C07**, for every line searcher that never ascends: the logged costs and the returned cost
are non-increasing and the returned cost is at most the initial cost.  Nothing is assumed of
the gradient or the manifold, only that the cost is never NaN. -/
theorem C07_steepestDescent [LawfulPyNum F] {cfg : Cfg F} {ls : LineSearcher F P E S}
    (hls : NeverAscends ls) {pb : Prob F P E} (hn : ∀ p, isnan (pb.cost p) = false)
    {clk : Clock F} {x : P} {mem : S} {r : Result F P} {m : S}
    (h : SDRuns cfg ls pb clk x mem (.ok (r, m))) :
    CostsNonIncreasing r ∧ le r.cost (pb.cost x) = true := by
  unfold SDRuns at h
  split at h
  · cases h
  refine h.invariant
    (Inv := fun s : SDState F P S => le (pb.cost s.x) (pb.cost x) = true ∧
      LogOk s.log (pb.cost s.x) ∧ ∀ l, s.log = some l → ∀ e ∈ l, ∃ p, e.cost = pb.cost p)
    (Post := fun r : Result F P × S => CostsNonIncreasing r.1 ∧ le r.1.cost (pb.cost x) = true)
    ?_ ?_ ?_
  · rintro s s' ⟨h1, h2, h3⟩ hs
    obtain ⟨o, ho, hc, rfl⟩ := sdStep_next hs
    have hd := hls _ _ _ _ _ _ _ ho
    rw [← LawfulPyNum.le_iff _ _ (hn _) (hn _)] at hd
    refine ⟨LawfulPyNum.le_trans (hn _) (hn _) (hn _) hd h1, ?_, log_costs_addLog ⟨_, rfl⟩ h3⟩
    exact LogOk.lower (cost := pb.cost) hn ⟨_, rfl⟩ ⟨_, rfl⟩ (log_costs_addLog ⟨_, rfl⟩ h3)
      (LogOk.push (hn _) h2) hd
  · rintro s r ⟨h1, h2, h3⟩ hs
    obtain ⟨o, reason, ho, hc, rfl⟩ := sdStep_brk hs
    have hd := hls _ _ _ _ _ _ _ ho
    rw [← LawfulPyNum.le_iff _ _ (hn _) (hn _)] at hd
    refine ⟨?_, LawfulPyNum.le_trans (hn _) (hn _) (hn _) hd h1⟩
    exact LogOk.lower (cost := pb.cost) hn ⟨_, rfl⟩ ⟨_, rfl⟩ (log_costs_addLog ⟨_, rfl⟩ h3)
      (LogOk.push (hn _) h2) hd
  · have hl : ∀ l, (sdInit cfg x mem : SDState F P S).log = some l → l = [] := by
      intro l hl
      simp only [sdInit, initLog] at hl
      split at hl <;> simp_all
    refine ⟨LawfulPyNum.le_refl _ (hn _), ?_, ?_⟩
    · intro l h
      simp [hl l h]
    · intro l h
      simp [hl l h]

/-- **C07** for the two built-in line searchers. -/
theorem C07_builtin [LawfulPyNum F] {cfg : Cfg F} {pb : Prob F P E}
    (hn : ∀ p, isnan (pb.cost p) = false) {clk : Clock F} {x : P} {mem : Option F}
    {r : Result F P} {m : Option F}
    (h : (∃ c, SDRuns cfg (backTracking P E c) pb clk x mem (.ok (r, m))) ∨
      (∃ c, SDRuns cfg (adaptive P E c) pb clk x mem (.ok (r, m)))) :
    CostsNonIncreasing r ∧ le r.cost (pb.cost x) = true := by
  rcases h with ⟨c, h⟩ | ⟨c, h⟩
  · exact C07_steepestDescent (backTracking_neverAscends c) hn h
  · exact C07_steepestDescent (adaptive_neverAscends c) hn h

/-! ## C08 -/

/-- **C08**, for every line searcher that never ascends, every beta rule, preconditioner,
`orth_value` and gradient function. -/
theorem C08_conjugateGradient [LawfulPyNum F] {cfg : Cfg F} {rule : BetaRule} {orth : F}
    {ls : LineSearcher F P E S} (hls : NeverAscends ls) {pb : Prob F P E}
    (hn : ∀ p, isnan (pb.cost p) = false) {clk : Clock F} {x : P} {mem : S} {r : Result F P}
    {m : S} {t : List (P × E × F)} (h : CGRuns cfg rule orth ls pb clk x mem (.ok (r, m, t))) :
    CostsNonIncreasing r ∧ le r.cost (pb.cost x) = true := by
  unfold CGRuns at h
  split at h
  · cases h
  refine h.invariant
    (Inv := fun s : CGState F P E S => s.cost = pb.cost s.x ∧
      le (pb.cost s.x) (pb.cost x) = true ∧
      LogOk s.log (pb.cost s.x) ∧ ∀ l, s.log = some l → ∀ e ∈ l, ∃ p, e.cost = pb.cost p)
    (Post := fun r : Result F P × S × List (P × E × F) =>
      CostsNonIncreasing r.1 ∧ le r.1.cost (pb.cost x) = true)
    ?_ ?_ ?_
  · rintro s s' ⟨h0, h1, h2, h3⟩ hs
    obtain ⟨o, nd, hc, ho, _, rfl⟩ := cgStep_next hs
    rw [h0] at ho
    have hd := hls _ _ _ _ _ _ _ ho
    rw [← LawfulPyNum.le_iff _ _ (hn _) (hn _)] at hd
    refine ⟨rfl, LawfulPyNum.le_trans (hn _) (hn _) (hn _) hd h1, ?_,
      log_costs_addLog ⟨_, h0⟩ h3⟩
    refine LogOk.lower (cost := pb.cost) hn ⟨_, h0⟩ ⟨_, rfl⟩ (log_costs_addLog ⟨_, h0⟩ h3)
      (LogOk.push (e := ⟨clk.log (s.iteration + 1), s.iteration + 1, s.x, s.cost,
        s.gradientNorm⟩) ?_ ?_) ?_
    · simp only [h0]; exact hn _
    · simp only [h0]; exact h2
    · simp only [h0]; exact hd
  · rintro s r ⟨h0, h1, h2, h3⟩ hs
    obtain ⟨reason, hc, rfl⟩ := cgStep_brk hs
    refine ⟨?_, ?_⟩
    · refine LogOk.push (e := ⟨clk.log (s.iteration + 1), s.iteration + 1, s.x, s.cost,
        s.gradientNorm⟩) ?_ ?_
      · simp only [h0]; exact hn _
      · simp only [h0]; exact h2
    · simp only [h0]; exact h1
  · have hl : ∀ l, (cgInit cfg pb x mem : CGState F P E S).log = some l → l = [] := by
      intro l hl
      simp only [cgInit, initLog] at hl
      split at hl <;> simp_all
    refine ⟨rfl, LawfulPyNum.le_refl _ (hn _), ?_, ?_⟩
    · intro l h
      simp [hl l h]
    · intro l h
      simp [hl l h]

/-- **C08** for the two built-in line searchers. -/
theorem C08_builtin [LawfulPyNum F] {cfg : Cfg F} {rule : BetaRule} {orth : F}
    {pb : Prob F P E} (hn : ∀ p, isnan (pb.cost p) = false) {clk : Clock F} {x : P}
    {mem : Option F} {r : Result F P} {m : Option F} {t : List (P × E × F)}
    (h : (∃ c, CGRuns cfg rule orth (backTracking P E c) pb clk x mem (.ok (r, m, t))) ∨
      (∃ c, CGRuns cfg rule orth (adaptive P E c) pb clk x mem (.ok (r, m, t)))) :
    CostsNonIncreasing r ∧ le r.cost (pb.cost x) = true := by
  rcases h with ⟨c, h⟩ | ⟨c, h⟩
  · exact C08_conjugateGradient (backTracking_neverAscends c) hn h
  · exact C08_conjugateGradient (adaptive_neverAscends c) hn h

/-! ## C09 -/

/-- **C09** for `ConjugateGradient`: returned cost and gradient norm are those at the returned
point. -/
theorem C09_conjugateGradient {cfg : Cfg F} {rule : BetaRule} {orth : F}
    {ls : LineSearcher F P E S} {pb : Prob F P E} {clk : Clock F} {x : P} {mem : S}
    {r : Result F P} {m : S} {t : List (P × E × F)}
    (h : CGRuns cfg rule orth ls pb clk x mem (.ok (r, m, t))) :
    r.cost = pb.cost r.point ∧ r.gradientNorm = some (pb.M.norm r.point (pb.grad r.point)) := by
  unfold CGRuns at h
  split at h
  · cases h
  refine h.invariant
    (Inv := fun s : CGState F P E S => s.cost = pb.cost s.x ∧
      s.gradientNorm = pb.M.norm s.x (pb.grad s.x))
    (Post := fun r : Result F P × S × List (P × E × F) =>
      r.1.cost = pb.cost r.1.point ∧
        r.1.gradientNorm = some (pb.M.norm r.1.point (pb.grad r.1.point))) ?_ ?_ ?_
  · rintro s s' ⟨h0, h1⟩ hs
    obtain ⟨o, nd, hc, ho, _, rfl⟩ := cgStep_next hs
    exact ⟨rfl, rfl⟩
  · rintro s r ⟨h0, h1⟩ hs
    obtain ⟨reason, hc, rfl⟩ := cgStep_brk hs
    exact ⟨h0, congrArg some h1⟩
  · exact ⟨rfl, rfl⟩

/-- **C09** for `TrustRegions`. -/
theorem C09_trustRegions {cfg : Cfg F} {c : TRCfg F} {pb : Prob F P E} {clk : Clock F}
    {eta0 : ℤ → E} {mininner : ℤ} {maxinner : Option ℤ} {td Db D0 : Option F} {x : P}
    {r : Result F P} {t : List (P × F × F)}
    (h : TRRuns cfg c pb clk eta0 mininner maxinner td Db D0 x (.ok (r, t))) :
    r.cost = pb.cost r.point ∧ r.gradientNorm = some (pb.M.norm r.point (pb.grad r.point)) := by
  unfold TRRuns at h
  split at h
  · cases h
  have hafter : ∀ (s : TRState F P E) b eta Delta,
      (s.fx = pb.cost s.x ∧ s.normGrad = pb.M.norm s.x (pb.grad s.x)) →
      (trAfter pb s b eta Delta).fx = pb.cost (trAfter pb s b eta Delta).x ∧
      (trAfter pb s b eta Delta).normGrad = pb.M.norm (trAfter pb s b eta Delta).x
        (pb.grad (trAfter pb s b eta Delta).x) := by
    intro s b eta Delta hs
    unfold trAfter
    split
    · exact ⟨rfl, rfl⟩
    · exact hs
  refine h.invariant
    (Inv := fun s : TRState F P E => s.fx = pb.cost s.x ∧
      s.normGrad = pb.M.norm s.x (pb.grad s.x))
    (Post := fun r : Result F P × List (P × F × F) =>
      r.1.cost = pb.cost r.1.point ∧
        r.1.gradientNorm = some (pb.M.norm r.1.point (pb.grad r.1.point))) ?_ ?_ ?_
  · rintro s s' h0 hs
    obtain ⟨o, eta, Heta, rho, md, Delta, _, _, _, _, ⟨hc, he⟩ | ⟨_, _, he⟩⟩ := trStep_inv hs
    · cases he
      exact hafter _ _ _ _ h0
    · cases he
  · rintro s r h0 hs
    obtain ⟨o, eta, Heta, rho, md, Delta, _, _, _, _, ⟨hc, he⟩ | ⟨_, _, he⟩⟩ := trStep_inv hs
    · cases he
    · cases he
      obtain ⟨a, b⟩ := hafter s (trAccept c rho md) eta Delta h0
      exact ⟨a, congrArg some b⟩
  · exact ⟨rfl, rfl⟩

/-- **C09** for `SteepestDescent`, the part that holds: the returned cost is that of the
returned point.  Missing: the returned gradient norm is the one at the last search's starting
point, not at the returned point (`C09_steepestDescent_gradientNorm_stale`). -/
theorem C09_steepestDescent_partial {cfg : Cfg F} {ls : LineSearcher F P E S} {pb : Prob F P E}
    {clk : Clock F} {x : P} {mem : S} {r : Result F P} {m : S}
    (h : SDRuns cfg ls pb clk x mem (.ok (r, m))) : r.cost = pb.cost r.point := by
  unfold SDRuns at h
  split at h
  · cases h
  refine h.invariant (Inv := fun _ : SDState F P S => True)
    (Post := fun r : Result F P × S => r.1.cost = pb.cost r.1.point) (fun _ _ _ _ => trivial)
    ?_ trivial
  rintro s r - hs
  obtain ⟨o, reason, ho, hc, rfl⟩ := sdStep_brk hs
  rfl

/-- `SteepestDescent` violates C09: with one iteration on `x ** 2` from `1` it returns the point
`0`, where the gradient norm is `0`, and reports the gradient norm `2`. -/
theorem C09_steepestDescent_gradientNorm_stale :
    ∃ (r : Result Q Q) (m : Option Q),
      SDRuns { defaultCfg with maxIterations := 1 } (adaptive Q Q defaultAdaptive) squareProb
        stillClock (.npy 1) none (.ok (r, m)) ∧
      r.gradientNorm = some (.npy 2) ∧
      squareProb.M.norm r.point (squareProb.grad r.point) = .npy 0 := by
  refine ⟨{ point := .npy 0, cost := .npy 0, iterations := 1,
            stop := .maxIterations (.py 0), time := .py 0, costEvaluations := some 1,
            stepSize := some ⟨true, .fin 1⟩, gradientNorm := some (.npy 2), log := none,
            evals := [.npy 1, .npy 0, .npy 0] }, some (.py 1), ?_, rfl, by decide +kernel⟩
  refine sdRuns_of_runFuel 1 rfl ?_
  decide +kernel

/-- Hypotheses of C07–C09 on a run with a log: from `3` with a back-tracking searcher. -/
example : (runFuel (sdStep { defaultCfg with maxIterations := 3, logVerbosity := 1 }
    (backTracking Q Q { defaultBackTracking with initialStepSize := .py 1 }) squareProb stillClock)
    5 (sdInit { defaultCfg with logVerbosity := 1 } (.npy 3) none)).map
      (fun r => r.map fun r => (r.1.log.map fun l => l.map LogEntry.cost, r.1.cost)) =
    some (.ok (some [.npy 9, .npy 4, .npy (1 / 4)], .npy (49 / 256))) := by
  decide +kernel

end Verif.Opt
