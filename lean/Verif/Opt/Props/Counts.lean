/-
C22 (reported number of cost evaluations) and C31 (iteration log).
-/
import Verif.Opt.Props.LineSearch
import Verif.Opt.Props.NM
import Verif.Opt.Props.PSO

namespace Verif.Opt
open PyNum

section
variable {F P E S : Type*} [PyNum F]

/-! ### C22 -/

/-- A line searcher that evaluates the cost at least once per search (both built-in ones do,
`C03_backTracking`, `C03_adaptive`). -/
def AlwaysEvaluates (ls : LineSearcher F P E S) : Prop :=
  ∀ mem obj M x d f0 df0 o, ls.search mem obj M x d f0 df0 = .ok o → 1 ≤ o.evals.length

theorem backTracking_alwaysEvaluates (c : BackTrackingCfg F) :
    AlwaysEvaluates (backTracking P E c) := fun _ _ _ _ _ _ _ _ h => (C03_backTracking h).1

theorem adaptive_alwaysEvaluates (c : AdaptiveCfg F) :
    AlwaysEvaluates (adaptive P E c) := fun _ _ _ _ _ _ _ _ h => (C03_adaptive h).1

/-- **C22** is false for `SteepestDescent`: the reported number is the number of iterations, and
every run evaluates the cost at least twice per iteration and once more (`evals` lists the
evaluated points). -/
theorem C22_steepestDescent_undercounts {cfg : Cfg F} {ls : LineSearcher F P E S}
    (hls : AlwaysEvaluates ls) {pb : Prob F P E} {clk : Clock F} {x : P} {mem : S}
    {r : Result F P} {m : S} (h : SDRuns cfg ls pb clk x mem (.ok (r, m))) :
    r.costEvaluations = some r.iterations ∧ 2 * r.iterations + 1 ≤ r.evals.length ∧
    1 ≤ r.iterations ∧ r.costEvaluations ≠ some (r.evals.length : ℤ) := by
  unfold SDRuns at h
  split at h
  · cases h
  · have key := h.invariant (fun s => 0 ≤ s.iteration ∧ 2 * s.iteration ≤ (s.evals.length : ℤ))
      (fun r => r.1.costEvaluations = some r.1.iterations ∧
        2 * r.1.iterations + 1 ≤ (r.1.evals.length : ℤ) ∧ 1 ≤ r.1.iterations) ?_ ?_ ?_
    · refine ⟨key.1, key.2.1, key.2.2, ?_⟩
      rw [key.1]
      have h2 := key.2.1
      have h3 := key.2.2
      simp only at h2 h3
      intro h
      simp only [Option.some.injEq] at h
      omega
    · rintro s s' ⟨h0, hs⟩ hst
      obtain ⟨o, ho, -, rfl⟩ := sdStep_next hst
      have := hls _ _ _ _ _ _ _ _ ho
      simp only [List.length_append, List.length_singleton]
      push_cast
      omega
    · rintro s r ⟨h0, hs⟩ hst
      obtain ⟨o, reason, ho, -, rfl⟩ := sdStep_brk hst
      have := hls _ _ _ _ _ _ _ _ ho
      simp only [List.length_append, List.length_singleton]
      push_cast
      exact ⟨trivial, by omega, by omega⟩
    · simp [sdInit]

/-- **C22** is false for `ConjugateGradient` whenever it makes a step: the reported number is the
number of iterations, but the cost was evaluated at least `2 * iterations - 1` times. -/
theorem C22_conjugateGradient_undercounts {cfg : Cfg F} {rule : BetaRule} {orth : F}
    {ls : LineSearcher F P E S} (hls : AlwaysEvaluates ls) {pb : Prob F P E} {clk : Clock F}
    {x : P} {mem : S} {r : Result F P} {m : S} {t : List (P × E × F)}
    (h : CGRuns cfg rule orth ls pb clk x mem (.ok (r, m, t))) :
    r.costEvaluations = some r.iterations ∧ 2 * r.iterations - 1 ≤ r.evals.length ∧
    (2 ≤ r.iterations → r.costEvaluations ≠ some (r.evals.length : ℤ)) ∧
    (r.iterations = 1 → r.costEvaluations = some (r.evals.length : ℤ)) := by
  unfold CGRuns at h
  split at h
  · cases h
  · have key := h.invariant (fun s => 0 ≤ s.iteration ∧ 2 * s.iteration + 1 ≤ (s.evals.length : ℤ) ∧
        (s.iteration = 0 → s.evals.length = 1))
      (fun r => r.1.costEvaluations = some r.1.iterations ∧
        2 * r.1.iterations - 1 ≤ (r.1.evals.length : ℤ) ∧
        (r.1.iterations = 1 → r.1.evals.length = 1)) ?_ ?_ ?_
    · refine ⟨key.1, key.2.1, fun hit => ?_, fun hit => ?_⟩
      · rw [key.1]
        have h2 := key.2.1
        simp only at h2
        intro h
        simp only [Option.some.injEq] at h
        omega
      · rw [key.1]
        have := key.2.2 hit
        simp only at this ⊢
        rw [this, hit]
        rfl
    · rintro s s' ⟨h0, hs, -⟩ hst
      obtain ⟨o, nd, -, ho, -, rfl⟩ := cgStep_next hst
      have := hls _ _ _ _ _ _ _ _ ho
      simp only [List.length_append, List.length_singleton]
      push_cast
      exact ⟨by omega, by omega, fun h => by omega⟩
    · rintro s r ⟨h0, hs, h1⟩ hst
      obtain ⟨reason, -, rfl⟩ := cgStep_brk hst
      refine ⟨rfl, by simp only; omega, fun h => h1 ?_⟩
      simpa using h
    · simp [cgInit]

/-- **C22** is false for `NelderMead`: from a random simplex the reported number is always one
less than the number of evaluations (the final evaluation is not counted). -/
theorem C22_nelderMead_off_by_one {o : NMObj F} {sort : List (F × P) → List (F × P)}
    {centroid : ℤ → List P → Except PyErr P} {pb : Prob F P E} {clk : Clock F}
    {draws : ℕ → P} {r : Result F P} (h : NMRuns o sort centroid pb clk (.none draws) (.ok r)) :
    r.costEvaluations = some ((r.evals.length : ℤ) - 1) := by
  unfold NMRuns at h
  simp only [nmSimplex] at h
  refine h.invariant (fun s => s.costEvaluations = (s.evals.length : ℤ))
      (fun r => r.costEvaluations = some ((r.evals.length : ℤ) - 1)) ?_ ?_ ?_
  · intro s s' hs hst
    obtain ⟨xbar, m, -, -, hm, rfl⟩ := nmStep_next hst
    simp only [List.length_append]
    rw [hs, (nmMove_spec hm).2.1]
    push_cast
    ring
  · intro s r hs hst
    obtain ⟨reason, best, -, hb, rfl⟩ := nmStep_brk hst
    simp only [List.length_append, List.length_singleton, Option.some.injEq]
    push_cast
    omega
  · simp [nmInit]

/-- **C22**, where it holds: `ParticleSwarm` reports the exact number of evaluations.  Missing:
the other optimizers, for which the claim is false (theorems above). -/
theorem C22_particleSwarm_partial {o : PSOObj F} {rnd : PSORand F P E} {pb : Prob F P E}
    {clk : Clock F} {init : InitArg P} {r : Result F P} {final positions : List P}
    (h : PSORuns o rnd pb clk init (.ok (r, final, positions))) :
    r.costEvaluations = some (r.evals.length : ℤ) := by
  unfold PSORuns at h
  split at h
  · cases h
  · cases h
  · rename_i o' x0 xs isT hpop
    have hsize : o'.populationSize.getD 0 = ((x0 :: xs).length : ℤ) := by
      cases init with
      | none draws =>
        simp only [psoPopulation, Except.ok.injEq, Prod.mk.injEq] at hpop
        obtain ⟨rfl, hl, -⟩ := hpop
        have := congrArg List.length hl
        simp only [List.length_map, List.length_range, List.length_cons] at this
        simp only [List.length_cons]
        omega
      | list l =>
        simp only [psoPopulation, Except.ok.injEq, Prod.mk.injEq] at hpop
        obtain ⟨rfl, rfl, -⟩ := hpop
        rfl
      | tuple l =>
        simp only [psoPopulation, Except.ok.injEq, Prod.mk.injEq] at hpop
        obtain ⟨rfl, rfl, -⟩ := hpop
        rfl
      | other => simp [psoPopulation] at hpop
    split at h
    · cases h
    · refine h.invariant (fun s => s.costEvaluations = (s.evals.length : ℤ) ∧
          s.swarm.length = (x0 :: xs).length)
        (fun r => r.1.costEvaluations = some (r.1.evals.length : ℤ)) ?_ ?_ ?_
      · rintro s s' ⟨hs, hl⟩ hst
        obtain ⟨w, swarm, -, hsw, -, rfl⟩ := psoStep_next hst
        simp only [List.length_append, List.length_map, psoMoves_length, hsw, List.length_mapIdx]
        rw [hs, hsize, hl]
        push_cast
        exact ⟨rfl, rfl⟩
      · rintro s r ⟨hs, -⟩ hst
        obtain ⟨_, -, rfl⟩ := psoStep_brk hst
        simp only
        rw [hs]
      · simp only [psoInit, List.length_mapIdx, and_true]
        exact hsize

/-! ### C31 -/

/-- A complete and consistent iteration log of a run with `n` iterations: entries `1..n` in order,
each with the cost and gradient norm of its point. -/
def GoodLog (pb : Prob F P E) (n : ℤ) (L : List (LogEntry F P)) : Prop :=
  (L.length : ℤ) = n ∧ ∀ i (hi : i < L.length), L[i].iteration = i + 1 ∧
    L[i].cost = pb.cost L[i].point ∧
    L[i].gradientNorm = pb.M.norm L[i].point (pb.grad L[i].point)

omit [PyNum F] in
theorem GoodLog.snoc {pb : Prob F P E} {n : ℤ} {L : List (LogEntry F P)} (h : GoodLog pb n L)
    {e : LogEntry F P} (h1 : e.iteration = n + 1) (h2 : e.cost = pb.cost e.point)
    (h3 : e.gradientNorm = pb.M.norm e.point (pb.grad e.point)) : GoodLog pb (n + 1) (L ++ [e]) := by
  refine ⟨by simp only [List.length_append, List.length_singleton]; push_cast; rw [h.1], ?_⟩
  intro i hi
  by_cases hi' : i < L.length
  · rw [List.getElem_append_left hi']
    exact h.2 i hi'
  · have : i = L.length := by
      simp only [List.length_append, List.length_singleton] at hi
      omega
    subst this
    simp only [List.getElem_concat_length, h1, h2, h3, and_self, and_true]
    rw [h.1]

/-- **C31** for `SteepestDescent`: with `log_verbosity >= 1` the log has exactly one entry per
iteration, in order, with that iteration's point (the iterate of the state `t` the loop is in
when the iteration starts), cost and gradient norm. -/
theorem C31_steepestDescent {cfg : Cfg F} (hv : 1 ≤ cfg.logVerbosity)
    {ls : LineSearcher F P E S} {pb : Prob F P E} {clk : Clock F} {x : P} {mem : S}
    {r : Result F P} {m : S} (h : SDRuns cfg ls pb clk x mem (.ok (r, m))) :
    ∃ L, r.log = some L ∧ GoodLog pb r.iterations L ∧
      ∀ t, Reaches (sdStep cfg ls pb clk) (sdInit cfg x mem) t →
        ∃ hi : t.iteration.toNat < L.length, L[t.iteration.toNat].point = t.x := by
  unfold SDRuns at h
  split at h
  · cases h
  · have hadd : ∀ (L : List (LogEntry F P)) e, addLog cfg (some L) e = some (L ++ [e]) := by
      intro L e
      simp [addLog, show ¬ cfg.logVerbosity ≤ 0 by omega]
    have inv : ∀ s s' : SDState F P S, (∃ L, s.log = some L ∧ GoodLog pb s.iteration L) →
        sdStep cfg ls pb clk s = .ok (.next s') →
        ∃ L, s'.log = some L ∧ GoodLog pb s'.iteration L := by
      rintro s s' ⟨L, hL, hg⟩ hst
      obtain ⟨o, ho, -, rfl⟩ := sdStep_next hst
      rw [hL, hadd]
      exact ⟨_, rfl, hg.snoc rfl rfl rfl⟩
    have h0 : ∃ L, (sdInit cfg x mem : SDState F P S).log = some L ∧
        GoodLog pb (sdInit cfg x mem : SDState F P S).iteration L :=
      ⟨[], by simp [sdInit, initLog, hv], by simp [sdInit, GoodLog]⟩
    obtain ⟨L, hL, hg⟩ := h.invariant
      (fun s => ∃ L, s.log = some L ∧ GoodLog pb s.iteration L)
      (fun r => ∃ L, r.1.log = some L ∧ GoodLog pb r.1.iterations L) inv (by
        rintro s r ⟨L, hL, hg⟩ hst
        obtain ⟨o, reason, ho, -, rfl⟩ := sdStep_brk hst
        simp only
        rw [hL, hadd]
        exact ⟨_, rfl, hg.snoc rfl rfl rfl⟩) h0
    refine ⟨L, hL, hg, fun t ht => ?_⟩
    obtain ⟨Lt, hLt, hgt⟩ := ht.invariant
      (fun s => ∃ L, s.log = some L ∧ GoodLog pb s.iteration L) inv h0
    have hrest := h.of_reaches ht
    have htl : t.iteration.toNat = Lt.length := by have := hgt.1; omega
    obtain ⟨L', hL', e, rest, he, hx⟩ : ∃ L', r.log = some L' ∧ ∃ e rest,
        L' = Lt ++ e :: rest ∧ e.point = t.x := by
      refine hrest.invariant (fun s => s = t ∨ ∃ L', s.log = some L' ∧ ∃ e rest,
        L' = Lt ++ e :: rest ∧ e.point = t.x)
        (fun r => ∃ L', r.1.log = some L' ∧ ∃ e rest,
          L' = Lt ++ e :: rest ∧ e.point = t.x) ?_ ?_ (Or.inl rfl)
      · rintro s s' hs hst
        obtain ⟨o, ho, -, rfl⟩ := sdStep_next hst
        refine Or.inr ?_
        rcases hs with rfl | ⟨L', h1, e, rest, rfl, h3⟩
        · rw [hLt, hadd]
          exact ⟨_, rfl, _, [], rfl, rfl⟩
        · rw [h1, hadd]
          exact ⟨_, rfl, e, _, List.append_assoc _ _ _, h3⟩
      · rintro s s' hs hst
        obtain ⟨o, reason, ho, -, rfl⟩ := sdStep_brk hst
        simp only
        rcases hs with rfl | ⟨L', h1, e, rest, rfl, h3⟩
        · rw [hLt, hadd]
          exact ⟨_, rfl, _, [], rfl, rfl⟩
        · rw [h1, hadd]
          exact ⟨_, rfl, e, _, List.append_assoc _ _ _, h3⟩
    simp only at hL
    rw [hL] at hL'
    cases hL'
    subst he
    refine ⟨by simp [htl], ?_⟩
    simp only [htl]
    rw [List.getElem_append_right (le_refl _)]
    simpa using hx

/-- **C31** for `ConjugateGradient`. -/
theorem C31_conjugateGradient {cfg : Cfg F} (hv : 1 ≤ cfg.logVerbosity) {rule : BetaRule}
    {orth : F} {ls : LineSearcher F P E S} {pb : Prob F P E} {clk : Clock F} {x : P} {mem : S}
    {r : Result F P} {m : S} {tr : List (P × E × F)}
    (h : CGRuns cfg rule orth ls pb clk x mem (.ok (r, m, tr))) :
    ∃ L, r.log = some L ∧ GoodLog pb r.iterations L ∧
      ∀ t, Reaches (cgStep cfg rule orth ls pb clk) (cgInit cfg pb x mem) t →
        ∃ hi : t.iteration.toNat < L.length, L[t.iteration.toNat].point = t.x := by
  unfold CGRuns at h
  split at h
  · cases h
  · have hadd : ∀ (L : List (LogEntry F P)) e, addLog cfg (some L) e = some (L ++ [e]) := by
      intro L e
      simp [addLog, show ¬ cfg.logVerbosity ≤ 0 by omega]
    have inv : ∀ s s' : CGState F P E S, ((∃ L, s.log = some L ∧ GoodLog pb s.iteration L) ∧
        s.cost = pb.cost s.x ∧ s.gradientNorm = pb.M.norm s.x (pb.grad s.x)) →
        cgStep cfg rule orth ls pb clk s = .ok (.next s') →
        (∃ L, s'.log = some L ∧ GoodLog pb s'.iteration L) ∧
        s'.cost = pb.cost s'.x ∧ s'.gradientNorm = pb.M.norm s'.x (pb.grad s'.x) := by
      rintro s s' ⟨⟨L, hL, hg⟩, hc, hn⟩ hst
      obtain ⟨o, nd, -, ho, -, rfl⟩ := cgStep_next hst
      rw [hL, hadd]
      exact ⟨⟨_, rfl, hg.snoc rfl hc hn⟩, rfl, rfl⟩
    have h0 : (∃ L, (cgInit cfg pb x mem : CGState F P E S).log = some L ∧
        GoodLog pb (cgInit cfg pb x mem : CGState F P E S).iteration L) ∧
        (cgInit cfg pb x mem : CGState F P E S).cost = pb.cost x ∧
        (cgInit cfg pb x mem : CGState F P E S).gradientNorm = pb.M.norm x (pb.grad x) :=
      ⟨⟨[], by simp [cgInit, initLog, hv], by simp [cgInit, GoodLog]⟩, rfl, rfl⟩
    obtain ⟨L, hL, hg⟩ := h.invariant
      (fun s => (∃ L, s.log = some L ∧ GoodLog pb s.iteration L) ∧
        s.cost = pb.cost s.x ∧ s.gradientNorm = pb.M.norm s.x (pb.grad s.x))
      (fun r => ∃ L, r.1.log = some L ∧ GoodLog pb r.1.iterations L) inv (by
        rintro s r ⟨⟨L, hL, hg⟩, hc, hn⟩ hst
        obtain ⟨reason, -, rfl⟩ := cgStep_brk hst
        simp only
        rw [hL, hadd]
        exact ⟨_, rfl, hg.snoc rfl hc hn⟩) h0
    refine ⟨L, hL, hg, fun t ht => ?_⟩
    obtain ⟨⟨Lt, hLt, hgt⟩, -⟩ := ht.invariant _ inv h0
    have hrest := h.of_reaches ht
    have htl : t.iteration.toNat = Lt.length := by have := hgt.1; omega
    obtain ⟨L', hL', e, rest, he, hx⟩ : ∃ L', r.log = some L' ∧ ∃ e rest,
        L' = Lt ++ e :: rest ∧ e.point = t.x := by
      refine hrest.invariant (fun s => s = t ∨ ∃ L', s.log = some L' ∧ ∃ e rest,
        L' = Lt ++ e :: rest ∧ e.point = t.x)
        (fun r => ∃ L', r.1.log = some L' ∧ ∃ e rest,
          L' = Lt ++ e :: rest ∧ e.point = t.x) ?_ ?_ (Or.inl rfl)
      · rintro s s' hs hst
        obtain ⟨o, nd, -, ho, -, rfl⟩ := cgStep_next hst
        refine Or.inr ?_
        rcases hs with rfl | ⟨L', h1, e, rest, rfl, h3⟩
        · rw [hLt, hadd]
          exact ⟨_, rfl, _, [], rfl, rfl⟩
        · rw [h1, hadd]
          exact ⟨_, rfl, e, _, List.append_assoc _ _ _, h3⟩
      · rintro s s' hs hst
        obtain ⟨reason, -, rfl⟩ := cgStep_brk hst
        simp only
        rcases hs with rfl | ⟨L', h1, e, rest, rfl, h3⟩
        · rw [hLt, hadd]
          exact ⟨_, rfl, _, [], rfl, rfl⟩
        · rw [h1, hadd]
          exact ⟨_, rfl, e, _, List.append_assoc _ _ _, h3⟩
    simp only at hL
    rw [hL] at hL'
    cases hL'
    subst he
    refine ⟨by simp [htl], ?_⟩
    simp only [htl]
    rw [List.getElem_append_right (le_refl _)]
    simpa using hx

/-- **C31**: with `log_verbosity <= 0` no iterations are logged, by any of the optimizers. -/
theorem C31_no_log {cfg : Cfg F} (hv : cfg.logVerbosity ≤ 0) :
    (∀ (ls : LineSearcher F P E S) (pb : Prob F P E) clk x mem r m,
      SDRuns cfg ls pb clk x mem (.ok (r, m)) → r.log = none) ∧
    (∀ rule orth (ls : LineSearcher F P E S) (pb : Prob F P E) clk x mem r m t,
      CGRuns cfg rule orth ls pb clk x mem (.ok (r, m, t)) → r.log = none) := by
  have hadd : ∀ (e : LogEntry F P), addLog cfg none e = none := fun e => by simp [addLog]
  have hinit : (initLog cfg : Option (List (LogEntry F P))) = none := by
    simp [initLog, show ¬ 1 ≤ cfg.logVerbosity by omega]
  constructor
  · intro ls pb clk x mem r m h
    unfold SDRuns at h
    split at h
    · cases h
    · refine h.invariant (fun s => s.log = none) (fun r => r.1.log = none) ?_ ?_ hinit
      · intro s s' hs hst
        obtain ⟨o, ho, -, rfl⟩ := sdStep_next hst
        rw [hs]
        exact hadd _
      · intro s s' hs hst
        obtain ⟨o, reason, ho, -, rfl⟩ := sdStep_brk hst
        simp only
        rw [hs]
        exact hadd _
  · intro rule orth ls pb clk x mem r m t h
    unfold CGRuns at h
    split at h
    · cases h
    · refine h.invariant (fun s => s.log = none) (fun r => r.1.log = none) ?_ ?_ hinit
      · intro s s' hs hst
        obtain ⟨o, nd, -, ho, -, rfl⟩ := cgStep_next hst
        rw [hs]
        exact hadd _
      · intro s s' hs hst
        obtain ⟨reason, -, rfl⟩ := cgStep_brk hst
        simp only
        rw [hs]
        exact hadd _

/-- **C31** is false for `TrustRegions`, `NelderMead` and `ParticleSwarm`: they create a log but
never add to it, so it is empty although every run has at least one iteration. -/
theorem C31_empty_logs :
    (∀ (cfg : Cfg F) (c : TRCfg F) (pb : Prob F P E) clk eta0 mininner maxinner td D D0 x r t,
      TRRuns cfg c pb clk eta0 mininner maxinner td D D0 x (.ok (r, t)) →
      1 ≤ cfg.logVerbosity → r.log = some [] ∧ 1 ≤ r.iterations) ∧
    (∀ (o : NMObj F) sort centroid (pb : Prob F P E) clk init r,
      NMRuns o sort centroid pb clk init (.ok r) →
      1 ≤ o.logVerbosity → r.log = some [] ∧ 1 ≤ r.iterations) ∧
    (∀ (o : PSOObj F) rnd (pb : Prob F P E) clk init r f p,
      PSORuns o rnd pb clk init (.ok (r, f, p)) →
      1 ≤ o.logVerbosity → r.log = some [] ∧ 1 ≤ r.iterations) := by
  refine ⟨?_, ?_, ?_⟩
  · intro cfg c pb clk eta0 mininner maxinner td D D0 x r t h hv
    unfold TRRuns at h
    split at h
    · cases h
    · refine h.invariant (fun s => 0 ≤ s.iteration)
        (fun r => r.1.log = some [] ∧ 1 ≤ r.1.iterations) ?_ ?_ (le_refl _)
      · intro s s' hs hst
        obtain ⟨_, _, _, _, _, _, -, -, -, -, ⟨-, h⟩ | ⟨_, -, h⟩⟩ := trStep_inv hst
        · cases h
          unfold trAfter
          split <;> simp only <;> omega
        · cases h
      · intro s r hs hst
        obtain ⟨_, _, _, _, _, _, -, -, -, -, ⟨-, h⟩ | ⟨_, -, h⟩⟩ := trStep_inv hst
        · cases h
        · cases h
          simp only [initLog]
          exact ⟨by simp [hv], by omega⟩
  · intro o sort centroid pb clk init r h hv
    unfold NMRuns at h
    split at h
    · cases h
    · refine h.invariant (fun s => 0 ≤ s.iteration)
        (fun r => r.log = some [] ∧ 1 ≤ r.iterations) ?_ ?_ (le_refl _)
      · intro s s' hs hst
        obtain ⟨xbar, m, -, -, hm, rfl⟩ := nmStep_next hst
        simp only
        omega
      · intro s r hs hst
        obtain ⟨reason, best, -, hb, rfl⟩ := nmStep_brk hst
        simp only [initLog, NMObj.cfg, NMObj.resolve]
        exact ⟨by simp [hv], by omega⟩
  · intro o rnd pb clk init r f p h hv
    unfold PSORuns at h
    split at h
    · cases h
    · cases h
    · rename_i o' x0 xs isT hpop
      have hcfg := psoPopulation_cfg hpop
      split at h
      · cases h
      · refine h.invariant (fun s => 0 ≤ s.iteration)
          (fun r => r.1.log = some [] ∧ 1 ≤ r.1.iterations) ?_ ?_ (le_refl _)
        · intro s s' hs hst
          obtain ⟨w, swarm, -, hsw, -, rfl⟩ := psoStep_next hst
          simp only
          omega
        · intro s r hs hst
          obtain ⟨_, -, rfl⟩ := psoStep_brk hst
          simp only [initLog, hcfg]
          simp only [PSOObj.cfg, PSOObj.resolve]
          exact ⟨by simp [hv], by omega⟩

end

/-- Concrete runs: a steepest descent run with a log of two entries that reports two
evaluations, and in fact makes five. -/
example : ∃ r m, SDRuns { defaultCfg with logVerbosity := 1 } (adaptive Q Q defaultAdaptive)
    squareProb stillClock (.npy 1) none (.ok (r, m)) ∧ r.evals.length = 5 ∧
    r.costEvaluations = some 2 ∧ r.log.map List.length = some 2 := by
  obtain ⟨r, hr, he⟩ := exists_of_checkFuel (n := 3)
    (p := isOk fun r => decide (r.1.evals.length = 5 ∧ r.1.costEvaluations = some 2 ∧
      r.1.log.map List.length = some 2))
    (step := sdStep { defaultCfg with logVerbosity := 1 } (adaptive Q Q defaultAdaptive)
      squareProb stillClock) (s := sdInit { defaultCfg with logVerbosity := 1 } (.npy 1) none)
    (by decide +kernel)
  obtain ⟨⟨r, m⟩, rfl, he⟩ := exists_of_isOk he
  exact ⟨r, m, hr, of_decide_eq_true he⟩

end Verif.Opt
