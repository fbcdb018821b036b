/-
C135: the number of cost evaluations of a run is bounded.
-/
import Verif.Opt.Props.Counts
import Verif.Opt.Props.Stop
import Verif.Opt.Props.NM
import Verif.Opt.Model.Centroid

namespace Verif.Opt
open PyNum

section
variable {F P E S : Type*} [PyNum F]

/-- A search evaluates the cost at most `k` times. -/
def EvaluatesAtMost (ls : LineSearcher F P E S) (k : ℤ) : Prop :=
  ∀ mem obj M x d f0 df0 o, ls.search mem obj M x d f0 df0 = .ok o → (o.evals.length : ℤ) ≤ k

theorem backTracking_atMost (c : BackTrackingCfg F) :
    EvaluatesAtMost (backTracking P E c) (max 1 (c.maxIterations + 1)) :=
  fun _ _ _ _ _ _ _ _ h => (C03_backTracking h).2

theorem adaptive_atMost (c : AdaptiveCfg F) :
    EvaluatesAtMost (adaptive P E c) (max 1 (c.maxIterations + 1)) :=
  fun _ _ _ _ _ _ _ _ h => (C03_adaptive h).2

/-- **C135** for `SteepestDescent`: one evaluation per iteration, those of the line searcher, and one
for the result. -/
theorem C135_steepestDescent {cfg : Cfg F} {ls : LineSearcher F P E S} {k : ℤ}
    (hls : EvaluatesAtMost ls k) {pb : Prob F P E} {clk : Clock F} {x : P} {mem : S}
    {r : Result F P} {m : S} (h : SDRuns cfg ls pb clk x mem (.ok (r, m))) :
    r.iterations ≤ max 1 cfg.maxIterations ∧
      (r.evals.length : ℤ) ≤ r.iterations * (k + 1) + 1 := by
  unfold SDRuns at h
  split at h
  · cases h
  refine h.invariant (fun s => (s.iteration = 0 ∨ s.iteration < cfg.maxIterations) ∧
      (s.evals.length : ℤ) ≤ s.iteration * (k + 1))
    (fun r => r.1.iterations ≤ max 1 cfg.maxIterations ∧
      (r.1.evals.length : ℤ) ≤ r.1.iterations * (k + 1) + 1) ?_ ?_ ?_
  · rintro s s' ⟨h0, hs⟩ hst
    obtain ⟨o, ho, hc, rfl⟩ := sdStep_next hst
    have := hls _ _ _ _ _ _ _ _ ho
    refine ⟨Or.inr (checkStop_none_lt hc), ?_⟩
    simp only [List.length_append, List.length_singleton]
    push_cast
    rw [add_mul, one_mul]
    linarith
  · rintro s r ⟨h0, hs⟩ hst
    obtain ⟨o, reason, ho, -, rfl⟩ := sdStep_brk hst
    have := hls _ _ _ _ _ _ _ _ ho
    simp only [List.length_append, List.length_singleton]
    push_cast
    rw [add_mul, one_mul]
    exact ⟨by omega, by linarith⟩
  · simp [sdInit]

/-- **C135** for `ConjugateGradient`. -/
theorem C135_conjugateGradient {cfg : Cfg F} {rule : BetaRule} {orth : F}
    {ls : LineSearcher F P E S} {k : ℤ} (hls : EvaluatesAtMost ls k) {pb : Prob F P E} {clk : Clock F}
    {x : P} {mem : S} {r : Result F P} {m : S} {t : List (P × E × F)}
    (h : CGRuns cfg rule orth ls pb clk x mem (.ok (r, m, t))) :
    r.iterations ≤ max 1 cfg.maxIterations ∧
      (r.evals.length : ℤ) ≤ (r.iterations - 1) * (k + 1) + 1 := by
  unfold CGRuns at h
  split at h
  · cases h
  refine h.invariant (fun s => (s.iteration = 0 ∨ s.iteration < cfg.maxIterations) ∧
      (s.evals.length : ℤ) ≤ s.iteration * (k + 1) + 1)
    (fun r => r.1.iterations ≤ max 1 cfg.maxIterations ∧
      (r.1.evals.length : ℤ) ≤ (r.1.iterations - 1) * (k + 1) + 1) ?_ ?_ ?_
  · rintro s s' ⟨h0, hs⟩ hst
    obtain ⟨o, newdir, hc, ho, -, rfl⟩ := cgStep_next hst
    have := hls _ _ _ _ _ _ _ _ ho
    refine ⟨Or.inr (checkStop_none_lt hc), ?_⟩
    simp only [List.length_append, List.length_singleton]
    push_cast
    rw [add_mul, one_mul]
    linarith
  · rintro s r ⟨h0, hs⟩ hst
    obtain ⟨reason, -, rfl⟩ := cgStep_brk hst
    exact ⟨by simp only; omega, by simpa using hs⟩
  · simp [cgInit]

/-- **C135** for `TrustRegions`: one evaluation per iteration and one at the initial point. -/
theorem C135_trustRegions {cfg : Cfg F} {c : TRCfg F} {pb : Prob F P E} {clk : Clock F}
    {eta0 : ℤ → E} {mininner : ℤ} {maxinner : Option ℤ} {td Db D0 : Option F} {x : P}
    {r : Result F P} {hist : List (P × F × F)}
    (h : TRRuns cfg c pb clk eta0 mininner maxinner td Db D0 x (.ok (r, hist))) :
    r.iterations ≤ max 1 cfg.maxIterations ∧ (r.evals.length : ℤ) = r.iterations + 1 := by
  have key : ∀ (s : TRState F P E) b eta Delta, (trAfter pb s b eta Delta).iteration = s.iteration + 1 ∧
      (trAfter pb s b eta Delta).evals.length = s.evals.length + 1 := fun s b eta Delta => by
    cases b <;> simp [trAfter]
  have fin : ∀ mi Dbar Delta0, Runs (trStep cfg c pb clk eta0 mininner mi Dbar) (trInit pb x Delta0)
      (.ok (r, hist)) → r.iterations ≤ max 1 cfg.maxIterations ∧
        (r.evals.length : ℤ) = r.iterations + 1 := by
    intro mi Dbar Delta0 h
    refine h.invariant (fun s => (s.iteration = 0 ∨ s.iteration < cfg.maxIterations) ∧
        (s.evals.length : ℤ) = s.iteration + 1)
      (fun r => r.1.iterations ≤ max 1 cfg.maxIterations ∧
        (r.1.evals.length : ℤ) = r.1.iterations + 1) ?_ ?_ ?_
    · rintro s s' ⟨h0, hs⟩ hst
      obtain ⟨o, eta, Heta, rho, md, Delta, -, -, -, -, ⟨hc, he⟩ | ⟨_, _, he⟩⟩ := trStep_inv hst
      · cases he
        obtain ⟨k1, k2⟩ := key s (trAccept c rho md) eta Delta
        rw [k1, k2]
        exact ⟨Or.inr (checkStop_none_lt hc), by push_cast; omega⟩
      · cases he
    · rintro s r ⟨h0, hs⟩ hst
      obtain ⟨o, eta, Heta, rho, md, Delta, -, -, -, -, ⟨hc, he⟩ | ⟨_, _, he⟩⟩ := trStep_inv hst
      · cases he
      · cases he
        obtain ⟨k1, k2⟩ := key s (trAccept c rho md) eta Delta
        simp only [k2]
        exact ⟨by omega, by push_cast; omega⟩
    · simp [trInit]
  unfold TRRuns at h
  split at h
  · cases h
  · exact fin _ _ _ h

theorem nmMove_evals {o : NMObj F} {obj : P → F} {M : Mfd F P E} {xbar : P} {l : List (F × P)}
    {m : NMMove F P} (h : nmMove o obj M xbar l = .ok m) : m.evals.length ≤ 2 + M.dim := by
  have hs : ∀ best l' ev (m : NMMove F P), ev.length ≤ 2 → nmShrinkMove obj M M.dim best l' ev = .ok m →
      m.evals.length ≤ 2 + M.dim := by
    intro best l' ev m hev h
    unfold nmShrinkMove at h
    split at h
    · cases h
    · cases h
      simp only [List.length_append, List.length_map, List.length_take]
      omega
  unfold nmMove at h
  split at h
  swap
  · cases h
  simp only at h
  split at h
  · cases h
  · cases h
    simp
    omega
  · split at h
    · split at h <;> · cases h; simp
    · unfold nmContract at h
      split at h
      · cases h
      · split at h
        · split at h
          · simp only at h
            split at h
            · cases h; simp
            · exact hs _ _ _ _ (by simp) h
          · simp only at h
            split at h
            · cases h; simp
            · exact hs _ _ _ _ (by simp) h
        · exact hs _ _ _ _ (by simp) h

/-- **C135** for `NelderMead` without an initial simplex: also the number of cost evaluations asked
for is exceeded by no more than an iteration's worth. -/
theorem C135_nelderMead {o : NMObj F} {sort : List (F × P) → List (F × P)}
    {centroid : ℤ → List P → Except PyErr P} {pb : Prob F P E} {clk : Clock F}
    {draws : ℕ → P} {r : Result F P} (h : NMRuns o sort centroid pb clk (.none draws) (.ok r)) :
    r.iterations ≤ max 1 (o.maxIterations.getD (max 2000 (4 * pb.M.dim))) ∧
      (r.evals.length : ℤ) ≤ r.iterations * (pb.M.dim + 2) ∧
      (r.evals.length : ℤ) ≤ max 0 (o.maxCostEvaluations.getD (max 1000 (2 * pb.M.dim))) +
        pb.M.dim + 2 := by
  unfold NMRuns at h
  simp only [nmSimplex] at h
  refine h.invariant (fun s => (s.iteration = 0 ∨
        s.iteration < o.maxIterations.getD (max 2000 (4 * pb.M.dim))) ∧
      s.costEvaluations = s.evals.length ∧
      (s.evals.length : ℤ) ≤ s.iteration * (pb.M.dim + 2) + pb.M.dim + 1 ∧
      (s.evals.length : ℤ) ≤ max 0 (o.maxCostEvaluations.getD (max 1000 (2 * pb.M.dim))) +
        pb.M.dim + 1)
    (fun r => r.iterations ≤ max 1 (o.maxIterations.getD (max 2000 (4 * pb.M.dim))) ∧
      (r.evals.length : ℤ) ≤ r.iterations * (pb.M.dim + 2) ∧
      (r.evals.length : ℤ) ≤ max 0 (o.maxCostEvaluations.getD (max 1000 (2 * pb.M.dim))) +
        pb.M.dim + 2) ?_ ?_ ?_
  · rintro s s' ⟨h0, hc, h1, h2⟩ hst
    obtain ⟨xbar, m, hk, -, hm, rfl⟩ := nmStep_next hst
    have hl := nmMove_evals hm
    have hcount := (nmMove_spec hm).2.1
    have hlt : s.iteration + 1 < o.maxIterations.getD (max 2000 (4 * pb.M.dim)) := checkStop_none_lt hk
    have hce : s.costEvaluations < o.maxCostEvaluations.getD (max 1000 (2 * pb.M.dim)) :=
      ((C01_stopping_rule _ _ _ _ _ _ _ _).2.1 hk).2.2.2.2
    simp only [List.length_append]
    push_cast
    refine ⟨Or.inr hlt, by rw [hc, hcount], ?_, by omega⟩
    rw [add_mul, one_mul]
    have : (m.evals.length : ℤ) ≤ 2 + pb.M.dim := by exact_mod_cast hl
    linarith
  · rintro s r ⟨h0, hc, h1, h2⟩ hst
    obtain ⟨reason, best, -, -, rfl⟩ := nmStep_brk hst
    simp only [List.length_append, List.length_singleton]
    push_cast
    refine ⟨by omega, ?_, by omega⟩
    rw [add_mul, one_mul]
    linarith
  · simp only [nmInit, List.length_map, List.length_range]
    push_cast
    refine ⟨Or.inl trivial, rfl, by omega, by omega⟩

omit [PyNum F] in
theorem psoPopulation_size {o o' : PSOObj F} {init : InitArg P} {x0 : P} {xs : List P} {b : Bool}
    (h : psoPopulation o init = .ok (o', x0 :: xs, b)) :
    o'.populationSize.getD 0 = ((x0 :: xs).length : ℤ) := by
  cases init with
  | none draws =>
    simp only [psoPopulation, Except.ok.injEq, Prod.mk.injEq] at h
    obtain ⟨rfl, hl, -⟩ := h
    have := congrArg List.length hl
    simp only [List.length_map, List.length_range, List.length_cons] at this
    simp only [List.length_cons]
    omega
  | list l =>
    simp only [psoPopulation, Except.ok.injEq, Prod.mk.injEq] at h
    obtain ⟨rfl, rfl, -⟩ := h
    rfl
  | tuple l =>
    simp only [psoPopulation, Except.ok.injEq, Prod.mk.injEq] at h
    obtain ⟨rfl, rfl, -⟩ := h
    rfl
  | other => simp [psoPopulation] at h

/-- **C135** for `ParticleSwarm`: each iteration but the last evaluates the cost once per particle;
the number of cost evaluations asked for is exceeded by less than a population. -/
theorem C135_particleSwarm {o : PSOObj F} {rnd : PSORand F P E} {pb : Prob F P E}
    {clk : Clock F} {init : InitArg P} {r : Result F P} {final positions : List P}
    (h : PSORuns o rnd pb clk init (.ok (r, final, positions))) :
    r.iterations ≤ max 1 (o.maxIterations.getD (max 500 (4 * pb.M.dim))) ∧
      (r.evals.length : ℤ) = r.iterations * final.length ∧
      (r.evals.length : ℤ) ≤ max 1 (o.maxCostEvaluations.getD (max 5000 (2 * pb.M.dim))) - 1 +
        final.length := by
  unfold PSORuns at h
  split at h
  · cases h
  · cases h
  · rename_i o' x0 xs isT hpop
    have hcfg := psoPopulation_cfg hpop
    have hmi : o'.cfg.maxIterations = o.maxIterations.getD (max 500 (4 * pb.M.dim)) := by
      rw [hcfg]; rfl
    have hmc : o'.cfg.maxCostEvaluations = o.maxCostEvaluations.getD (max 5000 (2 * pb.M.dim)) := by
      rw [hcfg]; rfl
    have hsize : o'.populationSize.getD 0 = ((x0 :: xs).length : ℤ) := psoPopulation_size hpop
    split at h
    · cases h
    refine h.invariant (fun s => (s.iteration = 0 ∨
          s.iteration < o.maxIterations.getD (max 500 (4 * pb.M.dim))) ∧
        s.costEvaluations = s.evals.length ∧ s.swarm.length = (x0 :: xs).length ∧
        (s.evals.length : ℤ) = (s.iteration + 1) * (x0 :: xs).length ∧
        (s.evals.length : ℤ) ≤ max 1 (o.maxCostEvaluations.getD (max 5000 (2 * pb.M.dim))) - 1 +
          (x0 :: xs).length)
      (fun r => r.1.iterations ≤ max 1 (o.maxIterations.getD (max 500 (4 * pb.M.dim))) ∧
        (r.1.evals.length : ℤ) = r.1.iterations * r.2.1.length ∧
        (r.1.evals.length : ℤ) ≤ max 1 (o.maxCostEvaluations.getD (max 5000 (2 * pb.M.dim))) - 1 +
          r.2.1.length) ?_ ?_ ?_
    · rintro s s' ⟨h0, hc, hl, h1, h2⟩ hst
      obtain ⟨w, swarm, hk, hsw, -, rfl⟩ := psoStep_next hst
      have hk0 := List.findSome?_eq_none_iff.1 hk 0 (by rw [hl]; simp)
      have hlt := checkStop_none_lt hk0
      have hce := ((C01_stopping_rule _ _ _ _ _ _ _ _).2.1 hk0).2.2.2.2
      rw [hmi] at hlt
      rw [hmc] at hce
      simp only [List.length_append, List.length_map, psoMoves_length, hsw, List.length_mapIdx, hl]
      push_cast
      refine ⟨Or.inr hlt, by rw [hc, hsize], trivial, ?_, ?_⟩
      · rw [h1]; ring
      · simp only [List.length_cons] at h2 ⊢
        push_cast at h2 ⊢
        omega
    · rintro s r ⟨h0, hc, hl, h1, h2⟩ hst
      obtain ⟨_, -, rfl⟩ := psoStep_brk hst
      simp only [List.length_map, hl]
      exact ⟨by omega, h1, h2⟩
    · simp only [psoInit, List.length_mapIdx]
      exact ⟨Or.inl trivial, hsize, trivial, by simp, by omega⟩

/-- **C135** for `compute_centroid`: at most 15 iterations, and 406 evaluations of the sum of squared
distances. -/
theorem C135_centroid {M : Mfd F P E} {dist : P → P → F} {clk : Clock F} {draw y : P}
    {points : List P} (h : CentroidRuns M dist clk draw points (.ok y)) :
    ∃ r m, SDRuns centroidCfg (backTracking P E centroidSearch) (centroidProb M dist points) clk draw
      none (.ok (r, m)) ∧ r.point = y ∧ r.iterations ≤ 15 ∧ r.evals.length ≤ 406 := by
  obtain ⟨r', hr, he⟩ := h
  cases r' with
  | error e => cases he
  | ok q =>
    obtain ⟨r, m⟩ := q
    have hy : y = r.point := by cases he; rfl
    have h1 := C135_steepestDescent (backTracking_atMost _) hr
    have e1 : (centroidCfg (F := F)).maxIterations = 15 := rfl
    have e2 : (centroidSearch (F := F)).maxIterations = 25 := rfl
    rw [e1, e2] at h1
    refine ⟨r, m, hr, hy.symm, by omega, ?_⟩
    have := h1.2
    norm_num at this
    omega

end

/-- A run of Nelder-Mead that attains the bound: three evaluations in its only iteration. -/
example : ∃ (o : NMObj Q) (centroid : ℤ → List Q → Except PyErr Q) (r : Result Q Q),
    NMRuns o id centroid squareProb stillClock (.none fun n => .npy n) (.ok r) ∧
      r.iterations = 1 ∧ r.evals.length = 3 := by
  refine ⟨⟨.py 1000, .py 0, .py 0, 0, 0, none, some 1, .py 1, .py 2, .py (1 / 2)⟩,
    fun _ _ => .ok (.npy 0), ?_⟩
  obtain ⟨r, hr, he⟩ := exists_of_checkFuel (n := 2)
    (p := isOk fun r => decide (r.iterations = 1 ∧ r.evals.length = 3))
    (step := nmStep (NMObj.resolve ⟨.py 1000, .py 0, .py 0, 0, 0, none, some 1, .py 1, .py 2,
      .py (1 / 2)⟩ 1) id (fun _ _ => .ok (.npy 0)) squareProb stillClock)
    (s := nmInit id squareProb [.npy 0, .npy 1]) (by decide +kernel)
  obtain ⟨r, rfl, he⟩ := exists_of_isOk he
  exact ⟨r, hr, of_decide_eq_true he⟩

/-- A run of steepest descent: two iterations, five evaluations. -/
example : ∃ r m, SDRuns defaultCfg (adaptive Q Q defaultAdaptive)
    squareProb stillClock (.npy 1) none (.ok (r, m)) ∧ r.iterations = 2 ∧ r.evals.length = 5 := by
  obtain ⟨r, hr, he⟩ := exists_of_checkFuel (n := 3)
    (p := isOk fun r => decide (r.1.iterations = 2 ∧ r.1.evals.length = 5))
    (step := sdStep defaultCfg (adaptive Q Q defaultAdaptive) squareProb stillClock)
    (s := sdInit defaultCfg (.npy 1) none) (by decide +kernel)
  obtain ⟨⟨r, m⟩, rfl, he⟩ := exists_of_isOk he
  exact ⟨r, m, hr, of_decide_eq_true he⟩

end Verif.Opt
