/-
C01: the stopping rule.  C02: termination within the iteration budget.
-/
import Verif.Opt.Witness

namespace Verif.Opt
open PyNum

/-! ## Specification -/

/-- `a` is the reason attached to the first condition in `l` that holds. -/
def FirstTrue {α : Type*} (l : List (Bool × α)) (a : α) : Prop :=
  ∃ pre post, l = pre ++ (true, a) :: post ∧ ∀ p ∈ pre, p.1 = false

/-- The five documented conditions in their documented order (optimizer.py:97-120), each
with the reason that is reported for it. -/
def stopTable {F : Type*} [PyNum F] (cfg : Cfg F) (start now1 now2 : F) (iteration : ℤ)
    (gradientNorm stepSize : Option F) (costEvaluations : ℤ) : List (Bool × StopReason F) :=
  [(le (add start cfg.maxTime) now2, .maxTime iteration),
   (decide (cfg.maxIterations ≤ iteration), .maxIterations (sub now1 start)),
   (gradientNorm.any (lt · cfg.minGradientNorm), .minGradNorm iteration (sub now1 start)),
   (stepSize.any (lt · cfg.minStepSize), .minStepSize iteration (sub now1 start)),
   (decide (cfg.maxCostEvaluations ≤ costEvaluations), .maxCostEvals (sub now1 start))]

variable {F P E S : Type*} [PyNum F]

theorem firstTrue_nil {α : Type*} (a : α) : FirstTrue [] a ↔ False := by
  simp [FirstTrue]

theorem firstTrue_true {α : Type*} (a b : α) (l : List (Bool × α)) :
    FirstTrue ((true, b) :: l) a ↔ a = b := by
  constructor
  · rintro ⟨pre, post, h, hpre⟩
    rcases pre with _ | ⟨p, pre⟩
    · simp at h
      exact h.1.symm
    · simp at h
      have := hpre p (by simp)
      simp [← h.1] at this
  · rintro rfl
    exact ⟨[], l, rfl, by simp⟩

theorem firstTrue_false {α : Type*} (a b : α) (l : List (Bool × α)) :
    FirstTrue ((false, b) :: l) a ↔ FirstTrue l a := by
  constructor
  · rintro ⟨pre, post, h, hpre⟩
    rcases pre with _ | ⟨p, pre⟩
    · simp at h
    · simp at h
      exact ⟨pre, post, h.2, fun q hq => hpre q (by simp [hq])⟩
  · rintro ⟨pre, post, rfl, hpre⟩
    exact ⟨(false, b) :: pre, post, rfl, by simpa using hpre⟩

private theorem checkStop_some_iff' {cfg : Cfg F} {start now1 now2 : F} {it : ℤ} {g st : Option F}
    {ce : ℤ} {reason : StopReason F} :
    checkStop cfg start now1 now2 it g st ce = some reason ↔
      FirstTrue (stopTable cfg start now1 now2 it g st ce) reason := by
  unfold checkStop stopTable
  simp only [ge_iff_le]
  by_cases h1 : le (add start cfg.maxTime) now2 = true
  · simp [h1, firstTrue_true, eq_comm]
  rw [if_neg h1]
  simp only [Bool.not_eq_true] at h1
  rw [h1, firstTrue_false]
  by_cases h2 : cfg.maxIterations ≤ it
  · simp [h2, firstTrue_true, eq_comm]
  rw [if_neg h2, decide_eq_false h2, firstTrue_false]
  by_cases h3 : g.any (lt · cfg.minGradientNorm) = true
  · simp [h3, firstTrue_true, eq_comm]
  rw [if_neg h3]
  simp only [Bool.not_eq_true] at h3
  rw [h3, firstTrue_false]
  by_cases h4 : st.any (lt · cfg.minStepSize) = true
  · simp [h4, firstTrue_true, eq_comm]
  rw [if_neg h4]
  simp only [Bool.not_eq_true] at h4
  rw [h4, firstTrue_false]
  by_cases h5 : cfg.maxCostEvaluations ≤ ce
  · simp [h5, firstTrue_true, eq_comm]
  rw [if_neg h5, decide_eq_false h5, firstTrue_false, firstTrue_nil]
  simp

private theorem checkStop_none_iff' {cfg : Cfg F} {start now1 now2 : F} {it : ℤ} {g st : Option F}
    {ce : ℤ} : checkStop cfg start now1 now2 it g st ce = none ↔
      ∀ p ∈ stopTable cfg start now1 now2 it g st ce, p.1 = false := by
  unfold checkStop stopTable
  simp only [List.mem_cons, List.not_mem_nil, or_false, forall_eq_or_imp, forall_eq,
    decide_eq_false_iff_not, ge_iff_le]
  by_cases h1 : le (add start cfg.maxTime) now2 = true
  · simp [h1]
  rw [if_neg h1]
  by_cases h2 : cfg.maxIterations ≤ it
  · simp [h2]
  rw [if_neg h2]
  by_cases h3 : g.any (lt · cfg.minGradientNorm) = true
  · simp [h3]
  rw [if_neg h3]
  by_cases h4 : st.any (lt · cfg.minStepSize) = true
  · simp [h4]
  rw [if_neg h4]
  by_cases h5 : cfg.maxCostEvaluations ≤ ce
  · simp [h5]
  rw [if_neg h5]
  simp only [Bool.not_eq_true] at h1 h3 h4
  exact ⟨fun _ => ⟨h1, h2, h3, h4, h5⟩, fun _ => rfl⟩

/-- **C01** (decision).  The check reports a reason iff it is the one attached to the first
condition that holds, and lets the optimizer go on iff none of the five conditions holds. -/
theorem C01_stopping_rule (cfg : Cfg F) (start now1 now2 : F) (it : ℤ) (g st : Option F) (ce : ℤ) :
    (∀ reason, checkStop cfg start now1 now2 it g st ce = some reason ↔
      FirstTrue (stopTable cfg start now1 now2 it g st ce) reason) ∧
    (checkStop cfg start now1 now2 it g st ce = none ↔
      le (add start cfg.maxTime) now2 = false ∧ it < cfg.maxIterations ∧
      g.any (lt · cfg.minGradientNorm) = false ∧ st.any (lt · cfg.minStepSize) = false ∧
      ce < cfg.maxCostEvaluations) := by
  refine ⟨fun _ => checkStop_some_iff', ?_⟩
  rw [checkStop_none_iff']
  simp [stopTable]

/-- time and iteration budget both used up, gradient small: the time is reported -/
example : checkStop ({ defaultCfg with maxIterations := 3 }) (.py 0) (.py 2000) (.py 2000) 3
    (some (.py 0)) (some (.py 1)) (-1) = some (.maxTime 3 : StopReason Q) := by decide +kernel

/-- thresholds are strict: a gradient norm equal to the threshold does not stop -/
example : checkStop defaultCfg (.py 0) (.py 0) (.py 0) 3
    (some (.py (1 / 10 ^ 6))) (some (.py 1)) (-1) = (none : Option (StopReason Q)) := by decide +kernel

/-- **C01** The default arguments: passing `np.inf` is the same as passing nothing. -/
theorem C01_defaults {K : Type*} [NumField K] (cfg : Cfg (Num K)) (start now1 now2 : Num K)
    (it : ℤ) (g st : Option (Num K)) (ce : ℤ) :
    checkStop cfg start now1 now2 it (some inf) st ce = checkStop cfg start now1 now2 it none st ce ∧
    checkStop cfg start now1 now2 it g (some inf) ce =
      checkStop cfg start now1 now2 it g none ce := by
  have h : ∀ y : Num K, lt inf y = false := by
    rintro ⟨_, _ | _ | _ | q⟩ <;> rfl
  constructor <;> simp [checkStop, h]

/-! ### The reason in a result is true of the result -/

/-- **C01** for `SteepestDescent`: the reported reason is the first condition that holds for
the reported iteration count, gradient norm and step size; at no earlier iteration was the
time or the iteration budget used up, or did a logged gradient norm lie below the threshold. -/
theorem C01_steepestDescent {cfg : Cfg F} {ls : LineSearcher F P E S} {pb : Prob F P E}
    {clk : Clock F} {x : P} {mem : S} {r : Result F P} {m : S}
    (h : SDRuns cfg ls pb clk x mem (.ok (r, m))) :
    (∃ g st, r.gradientNorm = some g ∧ r.stepSize = some st ∧
      FirstTrue (stopTable cfg clk.start (clk.check1 r.iterations 0) (clk.check2 r.iterations 0)
        r.iterations g st (-1)) r.stop) ∧
    (∀ i, 1 ≤ i → i < r.iterations →
      le (add clk.start cfg.maxTime) (clk.check2 i 0) = false ∧ i < cfg.maxIterations) ∧
    (∀ l, r.log = some l → ∀ e ∈ l, e.iteration < r.iterations →
      lt e.gradientNorm cfg.minGradientNorm = false) := by
  unfold SDRuns at h
  split at h
  · cases h
  refine h.invariant
    (Inv := fun s : SDState F P S => 0 ≤ s.iteration ∧
      (∀ i, 1 ≤ i → i ≤ s.iteration →
        le (add clk.start cfg.maxTime) (clk.check2 i 0) = false ∧ i < cfg.maxIterations) ∧
      (∀ l, s.log = some l → ∀ e ∈ l, lt e.gradientNorm cfg.minGradientNorm = false))
    (Post := fun r : Result F P × S => (∃ g st, r.1.gradientNorm = some g ∧
      r.1.stepSize = some st ∧
      FirstTrue (stopTable cfg clk.start (clk.check1 r.1.iterations 0)
        (clk.check2 r.1.iterations 0) r.1.iterations g st (-1)) r.1.stop) ∧
      (∀ i, 1 ≤ i → i < r.1.iterations →
        le (add clk.start cfg.maxTime) (clk.check2 i 0) = false ∧ i < cfg.maxIterations) ∧
      (∀ l, r.1.log = some l → ∀ e ∈ l, e.iteration < r.1.iterations →
        lt e.gradientNorm cfg.minGradientNorm = false)) ?_ ?_ ?_
  · rintro s s' ⟨h0, h1, h2⟩ hs
    obtain ⟨o, _, hc, rfl⟩ := sdStep_next hs
    obtain ⟨c1, c2, c3, -, -⟩ := ((C01_stopping_rule _ _ _ _ _ _ _ _).2).1 hc
    refine ⟨by simp; omega, ?_, ?_⟩
    · intro i hi1 hi2
      rcases eq_or_lt_of_le hi2 with rfl | hlt
      · exact ⟨c1, c2⟩
      · exact h1 i hi1 (by simp at hlt; omega)
    · intro l hl e he
      simp only [addLog] at hl
      split at hl
      · exact h2 l hl e he
      · obtain ⟨l', hl', rfl⟩ := Option.map_eq_some_iff.1 hl
        rcases List.mem_append.1 he with he | he
        · exact h2 l' hl' e he
        · simp at he
          rw [he]
          exact c3
  · rintro s r ⟨h0, h1, h2⟩ hs
    obtain ⟨o, reason, _, hc, rfl⟩ := sdStep_brk hs
    refine ⟨⟨_, _, rfl, rfl, checkStop_some_iff'.1 hc⟩, fun i hi1 hi2 => h1 i hi1 ?_, ?_⟩
    · simp at hi2
      omega
    · intro l hl e he hlt
      simp only [addLog] at hl
      split at hl
      · exact h2 l hl e he
      · obtain ⟨l', hl', rfl⟩ := Option.map_eq_some_iff.1 hl
        rcases List.mem_append.1 he with he | he
        · exact h2 l' hl' e he
        · simp at he
          subst he
          simp at hlt
  · refine ⟨le_refl _, fun i h1 h2 => by simp [sdInit] at h2; omega, ?_⟩
    intro l hl
    simp only [sdInit, initLog] at hl
    split at hl
    · cases hl
      simp
    · cases hl

/-- **C01** for `ConjugateGradient`; see `C01_steepestDescent`. -/
theorem C01_conjugateGradient {cfg : Cfg F} {rule : BetaRule} {orth : F}
    {ls : LineSearcher F P E S} {pb : Prob F P E}
    {clk : Clock F} {x : P} {mem : S} {r : Result F P} {m : S} {t : List (P × E × F)}
    (h : CGRuns cfg rule orth ls pb clk x mem (.ok (r, m, t))) :
    (∃ g, r.gradientNorm = some g ∧
      FirstTrue (stopTable cfg clk.start (clk.check1 r.iterations 0) (clk.check2 r.iterations 0)
        r.iterations g r.stepSize (-1)) r.stop) ∧
    (∀ i, 1 ≤ i → i < r.iterations →
      le (add clk.start cfg.maxTime) (clk.check2 i 0) = false ∧ i < cfg.maxIterations) ∧
    (∀ l, r.log = some l → ∀ e ∈ l, e.iteration < r.iterations →
      lt e.gradientNorm cfg.minGradientNorm = false) := by
  unfold CGRuns at h
  split at h
  · cases h
  refine h.invariant
    (Inv := fun s : CGState F P E S => 0 ≤ s.iteration ∧
      (∀ i, 1 ≤ i → i ≤ s.iteration →
        le (add clk.start cfg.maxTime) (clk.check2 i 0) = false ∧ i < cfg.maxIterations) ∧
      (∀ l, s.log = some l → ∀ e ∈ l, lt e.gradientNorm cfg.minGradientNorm = false))
    (Post := fun r : Result F P × S × List (P × E × F) => (∃ g, r.1.gradientNorm = some g ∧
      FirstTrue (stopTable cfg clk.start (clk.check1 r.1.iterations 0)
        (clk.check2 r.1.iterations 0) r.1.iterations g r.1.stepSize (-1)) r.1.stop) ∧
      (∀ i, 1 ≤ i → i < r.1.iterations →
        le (add clk.start cfg.maxTime) (clk.check2 i 0) = false ∧ i < cfg.maxIterations) ∧
      (∀ l, r.1.log = some l → ∀ e ∈ l, e.iteration < r.1.iterations →
        lt e.gradientNorm cfg.minGradientNorm = false)) ?_ ?_ ?_
  · rintro s s' ⟨h0, h1, h2⟩ hs
    obtain ⟨o, _, hc, _, _, rfl⟩ := cgStep_next hs
    obtain ⟨c1, c2, c3, -, -⟩ := ((C01_stopping_rule _ _ _ _ _ _ _ _).2).1 hc
    refine ⟨by simp; omega, ?_, ?_⟩
    · intro i hi1 hi2
      rcases eq_or_lt_of_le hi2 with rfl | hlt
      · exact ⟨c1, c2⟩
      · exact h1 i hi1 (by simp at hlt; omega)
    · intro l hl e he
      simp only [addLog] at hl
      split at hl
      · exact h2 l hl e he
      · obtain ⟨l', hl', rfl⟩ := Option.map_eq_some_iff.1 hl
        rcases List.mem_append.1 he with he | he
        · exact h2 l' hl' e he
        · simp at he
          rw [he]
          exact c3
  · rintro s r ⟨h0, h1, h2⟩ hs
    obtain ⟨reason, hc, rfl⟩ := cgStep_brk hs
    refine ⟨⟨_, rfl, checkStop_some_iff'.1 hc⟩, fun i hi1 hi2 => h1 i hi1 ?_, ?_⟩
    · simp at hi2
      omega
    · intro l hl e he hlt
      simp only [addLog] at hl
      split at hl
      · exact h2 l hl e he
      · obtain ⟨l', hl', rfl⟩ := Option.map_eq_some_iff.1 hl
        rcases List.mem_append.1 he with he | he
        · exact h2 l' hl' e he
        · simp at he
          subst he
          simp at hlt
  · refine ⟨le_refl _, fun i h1 h2 => by simp [cgInit] at h2; omega, ?_⟩
    intro l hl
    simp only [cgInit, initLog] at hl
    split at hl
    · cases hl
      simp
    · cases hl

/-- **C01** for `TrustRegions` (which passes neither step size nor evaluation count). -/
theorem C01_trustRegions {cfg : Cfg F} {c : TRCfg F} {pb : Prob F P E} {clk : Clock F}
    {eta0 : ℤ → E} {mininner : ℤ} {maxinner : Option ℤ} {td Db D0 : Option F} {x : P}
    {r : Result F P} {t : List (P × F × F)}
    (h : TRRuns cfg c pb clk eta0 mininner maxinner td Db D0 x (.ok (r, t))) :
    (∃ g, r.gradientNorm = some g ∧
      FirstTrue (stopTable cfg clk.start (clk.check1 r.iterations 0) (clk.check2 r.iterations 0)
        r.iterations g none (-1)) r.stop) ∧
    (∀ i, 1 ≤ i → i < r.iterations →
      le (add clk.start cfg.maxTime) (clk.check2 i 0) = false ∧ i < cfg.maxIterations) := by
  unfold TRRuns at h
  split at h
  · cases h
  refine h.invariant
    (Inv := fun s : TRState F P E => 0 ≤ s.iteration ∧
      (∀ i, 1 ≤ i → i ≤ s.iteration →
        le (add clk.start cfg.maxTime) (clk.check2 i 0) = false ∧ i < cfg.maxIterations))
    (Post := fun r : Result F P × List (P × F × F) => (∃ g, r.1.gradientNorm = some g ∧
      FirstTrue (stopTable cfg clk.start (clk.check1 r.1.iterations 0)
        (clk.check2 r.1.iterations 0) r.1.iterations g none (-1)) r.1.stop) ∧
      (∀ i, 1 ≤ i → i < r.1.iterations →
        le (add clk.start cfg.maxTime) (clk.check2 i 0) = false ∧ i < cfg.maxIterations)) ?_ ?_ ?_
  · rintro s s' ⟨h0, h1⟩ hs
    obtain ⟨o, eta, Heta, rho, md, Delta, _, _, _, _, ⟨hc, he⟩ | ⟨_, _, he⟩⟩ := trStep_inv hs
    · obtain ⟨c1, c2, -, -, -⟩ := ((C01_stopping_rule _ _ _ _ _ _ _ _).2).1 hc
      cases he
      have hit : (trAfter pb s (trAccept c rho md) eta Delta).iteration = s.iteration + 1 := by
        unfold trAfter
        split <;> rfl
      refine ⟨by omega, ?_⟩
      intro i hi1 hi2
      rw [hit] at hi2
      rcases eq_or_lt_of_le hi2 with rfl | hlt
      · exact ⟨c1, c2⟩
      · exact h1 i hi1 (by omega)
    · cases he
  · rintro s r ⟨h0, h1⟩ hs
    obtain ⟨o, eta, Heta, rho, md, Delta, _, _, _, _, ⟨hc, he⟩ | ⟨_, hc, he⟩⟩ := trStep_inv hs
    · cases he
    · cases he
      exact ⟨⟨_, rfl, checkStop_some_iff'.1 hc⟩, fun i hi1 hi2 => h1 i hi1 (by simp at hi2; omega)⟩
  · exact ⟨le_refl _, fun i h1 h2 => by simp [trInit] at h2; omega⟩

/-- **C01** for `NelderMead`: the thresholds are those resolved for the manifold's dimension;
gradient norm and step size are never tested. -/
theorem C01_nelderMead {o : NMObj F} {sort : List (F × P) → List (F × P)}
    {centroid : ℤ → List P → Except PyErr P} {pb : Prob F P E} {clk : Clock F}
    {init : InitArg P} {r : Result F P} (h : NMRuns o sort centroid pb clk init (.ok r)) :
    (∃ n, r.costEvaluations = some n ∧
      FirstTrue (stopTable (o.resolve pb.M.dim).cfg clk.start (clk.check1 r.iterations 0)
        (clk.check2 r.iterations 0) r.iterations none none n) r.stop) ∧
    (∀ i, 1 ≤ i → i < r.iterations →
      le (add clk.start o.maxTime) (clk.check2 i 0) = false ∧
      i < (o.resolve pb.M.dim).cfg.maxIterations) := by
  unfold NMRuns at h
  split at h
  · cases h
  refine h.invariant
    (Inv := fun s : NMState F P => 0 ≤ s.iteration ∧
      (∀ i, 1 ≤ i → i ≤ s.iteration →
        le (add clk.start o.maxTime) (clk.check2 i 0) = false ∧
        i < (o.resolve pb.M.dim).cfg.maxIterations))
    (Post := fun r : Result F P => (∃ n, r.costEvaluations = some n ∧
      FirstTrue (stopTable (o.resolve pb.M.dim).cfg clk.start (clk.check1 r.iterations 0)
        (clk.check2 r.iterations 0) r.iterations none none n) r.stop) ∧
      (∀ i, 1 ≤ i → i < r.iterations →
        le (add clk.start o.maxTime) (clk.check2 i 0) = false ∧
        i < (o.resolve pb.M.dim).cfg.maxIterations)) ?_ ?_ ?_
  · rintro s s' ⟨h0, h1⟩ hs
    obtain ⟨xbar, mv, hc, _, _, rfl⟩ := nmStep_next hs
    obtain ⟨c1, c2, -, -, -⟩ := ((C01_stopping_rule _ _ _ _ _ _ _ _).2).1 hc
    refine ⟨by simp; omega, ?_⟩
    intro i hi1 hi2
    rcases eq_or_lt_of_le hi2 with rfl | hlt
    · exact ⟨c1, c2⟩
    · exact h1 i hi1 (by simp at hlt; omega)
  · rintro s r ⟨h0, h1⟩ hs
    obtain ⟨reason, best, hc, _, rfl⟩ := nmStep_brk hs
    exact ⟨⟨_, rfl, checkStop_some_iff'.1 hc⟩, fun i hi1 hi2 => h1 i hi1 (by simp at hi2; omega)⟩
  · exact ⟨le_refl _, fun i h1 h2 => by simp [nmInit] at h2; omega⟩

/-- **C01** for `ParticleSwarm`: the check is made once per particle; the reason is that of the
first particle `j` whose check fires. -/
theorem C01_particleSwarm {o : PSOObj F} {rnd : PSORand F P E} {pb : Prob F P E} {clk : Clock F}
    {init : InitArg P} {r : Result F P} {xs ps : List P}
    (h : PSORuns o rnd pb clk init (.ok (r, xs, ps))) :
    (∃ n j, r.costEvaluations = some n ∧ j < xs.length ∧
      FirstTrue (stopTable (o.resolve pb.M.dim).cfg clk.start (clk.check1 r.iterations j)
        (clk.check2 r.iterations j) r.iterations none none n) r.stop ∧
      ∀ j' < j, ∀ c ∈ stopTable (o.resolve pb.M.dim).cfg clk.start (clk.check1 r.iterations j')
        (clk.check2 r.iterations j') r.iterations none none n, c.1 = false) ∧
    (∀ i, 1 ≤ i → i < r.iterations → ∀ j < xs.length,
      le (add clk.start o.maxTime) (clk.check2 i j) = false ∧
      i < (o.resolve pb.M.dim).cfg.maxIterations) := by
  unfold PSORuns at h
  split at h
  · cases h
  · cases h
  rename_i o' x0 xs0 isT hpop
  have hcfg := psoPopulation_cfg hpop
  split at h
  · cases h
  have hlen : ∀ s : PSOState F P E, s.swarm.length = xs0.length + 1 →
      ∀ w, (psoMoves pb.cost pb.M (s.fbest, s.xbest)
        (s.swarm.mapIdx (psoVelocity o' pb.M rnd (s.iteration + 1) w s.xbest))).2.length
        = xs0.length + 1 := by
    intro s hs w
    rw [psoMoves_length, List.length_mapIdx, hs]
  refine h.invariant
    (Inv := fun s : PSOState F P E => 0 ≤ s.iteration ∧ s.swarm.length = xs0.length + 1 ∧
      (∀ i, 1 ≤ i → i ≤ s.iteration → ∀ j < xs0.length + 1,
        le (add clk.start o.maxTime) (clk.check2 i j) = false ∧
        i < (o.resolve pb.M.dim).cfg.maxIterations))
    (Post := fun r : Result F P × List P × List P =>
    (∃ n j, r.1.costEvaluations = some n ∧ j < r.2.1.length ∧
      FirstTrue (stopTable (o.resolve pb.M.dim).cfg clk.start (clk.check1 r.1.iterations j)
        (clk.check2 r.1.iterations j) r.1.iterations none none n) r.1.stop ∧
      ∀ j' < j, ∀ c ∈ stopTable (o.resolve pb.M.dim).cfg clk.start (clk.check1 r.1.iterations j')
        (clk.check2 r.1.iterations j') r.1.iterations none none n, c.1 = false) ∧
    (∀ i, 1 ≤ i → i < r.1.iterations → ∀ j < r.2.1.length,
      le (add clk.start o.maxTime) (clk.check2 i j) = false ∧
      i < (o.resolve pb.M.dim).cfg.maxIterations)) ?_ ?_ ?_
  · rintro s s' ⟨h0, hl, h1⟩ hs
    obtain ⟨w, swarm, hc, rfl, _, rfl⟩ := psoStep_next hs
    refine ⟨by simp; omega, hlen s hl w, ?_⟩
    intro i hi1 hi2 j hj
    rcases eq_or_lt_of_le hi2 with rfl | hlt
    · simp only [psoStop, List.findSome?_eq_none_iff, List.mem_range] at hc
      obtain ⟨c1, c2, -, -, -⟩ := ((C01_stopping_rule _ _ _ _ _ _ _ _).2).1 (hc j (by omega))
      rw [hcfg] at c1 c2
      exact ⟨c1, c2⟩
    · exact h1 i hi1 (by simp at hlt; omega) j hj
  · rintro s r ⟨h0, hl, h1⟩ hs
    obtain ⟨reason, hc, rfl⟩ := psoStep_brk hs
    refine ⟨?_, fun i hi1 hi2 j hj => h1 i hi1 (by simp at hi2; omega) j
      (by simpa [hl] using hj)⟩
    obtain ⟨l1, j, l2, hsplit, hj, hbefore⟩ := List.findSome?_eq_some_iff.1 hc
    have hj1 : j = l1.length := by
      have := congrArg (fun l => l[l1.length]?) hsplit
      simp at this
      obtain ⟨_, h⟩ := List.getElem?_eq_some_iff.1 this
      simpa using h.symm
    have hjl : j < s.swarm.length := by
      have := congrArg List.length hsplit
      simp at this
      omega
    have hbefore' : ∀ j' < j, j' ∈ l1 := by
      intro j' hj'
      have h2 := congrArg (fun l => l[j']?) hsplit
      rw [List.getElem?_append_left (by omega), List.getElem?_range (by omega)] at h2
      exact List.mem_of_getElem? h2.symm
    refine ⟨_, j, rfl, by simpa using hjl, ?_, ?_⟩
    · rw [← hcfg]
      exact checkStop_some_iff'.1 hj
    · intro j' hj'
      rw [← hcfg]
      exact checkStop_none_iff'.1 (hbefore j' (hbefore' j' hj'))
  · exact ⟨le_refl _, by simp [psoInit], fun i h1 h2 => by simp [psoInit] at h2; omega⟩

/-! ## C02 -/

/-- **C02** for `SteepestDescent`: every run ends (with a result or an exception) after at most
`max(1, max_iterations)` iterations, in exactly one way, and a result reports the number of
iterations performed.  Nothing is assumed about cost, gradient, manifold, line searcher or
clock. -/
theorem C02_steepestDescent (cfg : Cfg F) (ls : LineSearcher F P E S) (pb : Prob F P E)
    (clk : Clock F) (x : P) (mem : S) :
    (∃ r, SDRuns cfg ls pb clk x mem r) ∧
    (∀ r r', SDRuns cfg ls pb clk x mem r → SDRuns cfg ls pb clk x mem r' → r = r') ∧
    (∃ (n : ℕ) (r : Except PyErr (Result F P × S)),
      RunsIn (sdStep cfg ls pb clk) (sdInit cfg x mem) n r ∧
      1 ≤ n ∧ (n : ℤ) ≤ max 1 cfg.maxIterations ∧
      ∀ res, r = .ok res → res.1.iterations = n) := by
  have key := RunsIn.exists_of_counter (step := sdStep cfg ls pb clk) (fun _ => True)
    SDState.iteration (fun r => r.1.iterations) cfg.maxIterations
    (fun s s' _ hs => by
      obtain ⟨o, _, hc, rfl⟩ := sdStep_next hs
      exact ⟨trivial, rfl, checkStop_none_lt hc⟩)
    (fun s r _ hs => by
      obtain ⟨o, reason, _, hc, rfl⟩ := sdStep_brk hs
      rfl) (sdInit cfg x mem) trivial
  refine ⟨?_, ?_, by simpa [sdInit] using key⟩
  · unfold SDRuns
    split
    · exact ⟨_, rfl⟩
    · obtain ⟨n, r, hr, -⟩ := key
      exact ⟨r, n, hr⟩
  · intro r r'
    unfold SDRuns
    split
    · rintro rfl rfl
      rfl
    · exact fun h h' => h.det h'

/-- **C02** for `ConjugateGradient`. -/
theorem C02_conjugateGradient (cfg : Cfg F) (rule : BetaRule) (orth : F)
    (ls : LineSearcher F P E S) (pb : Prob F P E) (clk : Clock F) (x : P) (mem : S) :
    (∃ r, CGRuns cfg rule orth ls pb clk x mem r) ∧
    (∀ r r', CGRuns cfg rule orth ls pb clk x mem r → CGRuns cfg rule orth ls pb clk x mem r' →
      r = r') ∧
    (∃ (n : ℕ) (r : Except PyErr (Result F P × S × List (P × E × F))),
      RunsIn (cgStep cfg rule orth ls pb clk) (cgInit cfg pb x mem) n r ∧
      1 ≤ n ∧ (n : ℤ) ≤ max 1 cfg.maxIterations ∧
      ∀ res, r = .ok res → res.1.iterations = n) := by
  have key := RunsIn.exists_of_counter (step := cgStep cfg rule orth ls pb clk) (fun _ => True)
    CGState.iteration (fun r => r.1.iterations) cfg.maxIterations
    (fun s s' _ hs => by
      obtain ⟨o, _, hc, _, _, rfl⟩ := cgStep_next hs
      exact ⟨trivial, rfl, checkStop_none_lt hc⟩)
    (fun s r _ hs => by
      obtain ⟨reason, hc, rfl⟩ := cgStep_brk hs
      rfl) (cgInit cfg pb x mem) trivial
  refine ⟨?_, ?_, by simpa [cgInit] using key⟩
  · unfold CGRuns
    split
    · exact ⟨_, rfl⟩
    · obtain ⟨n, r, hr, -⟩ := key
      exact ⟨r, n, hr⟩
  · intro r r'
    unfold CGRuns
    split
    · rintro rfl rfl
      rfl
    · exact fun h h' => h.det h'

/-- **C02** for `TrustRegions`. -/
theorem C02_trustRegions (cfg : Cfg F) (c : TRCfg F) (pb : Prob F P E) (clk : Clock F)
    (eta0 : ℤ → E) (mininner : ℤ) (maxinner : Option ℤ) (td Db D0 : Option F) (x : P) :
    (∃ r, TRRuns cfg c pb clk eta0 mininner maxinner td Db D0 x r) ∧
    (∀ r r', TRRuns cfg c pb clk eta0 mininner maxinner td Db D0 x r →
      TRRuns cfg c pb clk eta0 mininner maxinner td Db D0 x r' → r = r') ∧
    (∀ mi Dbar Delta0, ∃ (n : ℕ) (r : Except PyErr (Result F P × List (P × F × F))),
      RunsIn (trStep cfg c pb clk eta0 mininner mi Dbar) (trInit pb x Delta0) n r ∧
      1 ≤ n ∧ (n : ℤ) ≤ max 1 cfg.maxIterations ∧
      ∀ res, r = .ok res → res.1.iterations = n) := by
  have key := fun mi Dbar Delta0 =>
    RunsIn.exists_of_counter (step := trStep cfg c pb clk eta0 mininner mi Dbar) (fun _ => True)
    TRState.iteration (fun r => r.1.iterations) cfg.maxIterations
    (fun s s' _ hs => by
      obtain ⟨o, eta, Heta, rho, md, Delta, _, _, _, _, ⟨hc, he⟩ | ⟨_, _, he⟩⟩ := trStep_inv hs
      · cases he
        refine ⟨trivial, ?_, checkStop_none_lt hc⟩
        unfold trAfter
        split <;> rfl
      · cases he)
    (fun s r _ hs => by
      obtain ⟨o, eta, Heta, rho, md, Delta, _, _, _, _, ⟨_, he⟩ | ⟨_, _, he⟩⟩ := trStep_inv hs
      · cases he
      · cases he
        rfl) (trInit pb x Delta0) trivial
  refine ⟨?_, ?_, fun mi Dbar Delta0 => by simpa [trInit] using key mi Dbar Delta0⟩
  · unfold TRRuns
    split
    · exact ⟨_, rfl⟩
    · obtain ⟨n, r, hr, -⟩ := key (maxinner.getD pb.M.dim) _ _
      exact ⟨r, n, hr⟩
  · intro r r'
    unfold TRRuns
    split
    · rintro rfl rfl
      rfl
    · exact fun h h' => h.det h'

/-- **C02** for `NelderMead`; the iteration limit is the one resolved for the dimension. -/
theorem C02_nelderMead (o : NMObj F) (sort : List (F × P) → List (F × P))
    (centroid : ℤ → List P → Except PyErr P) (pb : Prob F P E) (clk : Clock F)
    (init : InitArg P) :
    (∃ r, NMRuns o sort centroid pb clk init r) ∧
    (∀ r r', NMRuns o sort centroid pb clk init r → NMRuns o sort centroid pb clk init r' →
      r = r') ∧
    (∀ simplex, ∃ (n : ℕ) (r : Except PyErr (Result F P)),
      RunsIn (nmStep (o.resolve pb.M.dim) sort centroid pb clk) (nmInit sort pb simplex) n r ∧
      1 ≤ n ∧ (n : ℤ) ≤ max 1 (o.maxIterations.getD (max 2000 (4 * pb.M.dim))) ∧
      ∀ res, r = .ok res → res.iterations = n) := by
  have key := fun simplex => RunsIn.exists_of_counter
    (step := nmStep (o.resolve pb.M.dim) sort centroid pb clk) (fun _ => True)
    NMState.iteration (fun r => r.iterations) (o.maxIterations.getD (max 2000 (4 * pb.M.dim)))
    (fun s s' _ hs => by
      obtain ⟨_, _, hc, _, _, rfl⟩ := nmStep_next hs
      exact ⟨trivial, rfl, checkStop_none_lt hc⟩)
    (fun s r _ hs => by
      obtain ⟨_, _, hc, _, rfl⟩ := nmStep_brk hs
      rfl) (nmInit sort pb simplex) trivial
  refine ⟨?_, ?_, fun simplex => by simpa [nmInit] using key simplex⟩
  · unfold NMRuns
    split
    · exact ⟨_, rfl⟩
    · obtain ⟨n, r, hr, -⟩ := key _
      exact ⟨r, n, hr⟩
  · intro r r'
    unfold NMRuns
    split
    · rintro rfl rfl
      rfl
    · exact fun h h' => h.det h'

/-- **C02** for `ParticleSwarm`; the iteration limit is the one resolved for the dimension
(`o'` is the object with its attributes filled in, `x0 :: xs` the initial population). -/
theorem C02_particleSwarm (o : PSOObj F) (rnd : PSORand F P E) (pb : Prob F P E) (clk : Clock F)
    (init : InitArg P) :
    (∃ r, PSORuns o rnd pb clk init r) ∧
    (∀ r r', PSORuns o rnd pb clk init r → PSORuns o rnd pb clk init r' → r = r') ∧
    (∀ o' x0 xs isT, psoPopulation (o.resolve pb.M.dim) init = .ok (o', x0 :: xs, isT) →
      ∃ (n : ℕ) (r : Except PyErr (Result F P × List P × List P)),
      RunsIn (psoStep o' isT rnd pb clk) (psoInit o' rnd pb x0 xs) n r ∧
      1 ≤ n ∧ (n : ℤ) ≤ max 1 (o.maxIterations.getD (max 500 (4 * pb.M.dim))) ∧
      ∀ res, r = .ok res → res.1.iterations = n) := by
  have key := fun (o' : PSOObj F) (x0 : P) xs isT (hpop : psoPopulation (o.resolve pb.M.dim) init
      = .ok (o', x0 :: xs, isT)) => RunsIn.exists_of_counter
    (step := psoStep o' isT rnd pb clk) (fun s => 0 < s.swarm.length)
    PSOState.iteration (fun r => r.1.iterations) (o.maxIterations.getD (max 500 (4 * pb.M.dim)))
    (fun s s' hpos hs => by
      obtain ⟨w, swarm, hc, rfl, _, rfl⟩ := psoStep_next hs
      refine ⟨by simpa [psoMoves_length] using hpos, rfl, ?_⟩
      simp only [psoStop, List.findSome?_eq_none_iff, List.mem_range] at hc
      have := checkStop_none_lt (hc 0 hpos)
      rw [psoPopulation_cfg hpop] at this
      exact this)
    (fun s r _ hs => by
      obtain ⟨_, hc, rfl⟩ := psoStep_brk hs
      rfl) (psoInit o' rnd pb x0 xs) (by simp [psoInit])
  refine ⟨?_, ?_, fun o' x0 xs isT hpop => by simpa [psoInit] using key o' x0 xs isT hpop⟩
  · unfold PSORuns
    split
    · exact ⟨_, rfl⟩
    · exact ⟨_, rfl⟩
    · rename_i hpop
      split
      · exact ⟨_, rfl⟩
      · obtain ⟨n, r, hr, -⟩ := key _ _ _ _ hpop
        exact ⟨r, n, hr⟩
  · intro r r'
    unfold PSORuns
    split
    · rintro rfl rfl
      rfl
    · rintro rfl rfl
      rfl
    · split
      · rintro rfl rfl
        rfl
      · exact fun h h' => h.det h'

/-- A run that needs two iterations, and one that is cut off by its budget. -/
example : SDRuns defaultCfg (adaptive Q Q defaultAdaptive) squareProb stillClock (.npy 1) none
    (.ok ({ point := .npy 0, cost := .npy 0, iterations := 2,
            stop := .minGradNorm 2 (.py 0), time := .py 0, costEvaluations := some 2,
            stepSize := some ⟨true, .fin 0⟩, gradientNorm := some (.npy 0), log := none,
            evals := [.npy 1, .npy 0, .npy 0, .npy 0, .npy 0] }, some (.py 2))) := by
  refine sdRuns_of_runFuel 5 rfl ?_
  decide +kernel

end Verif.Opt
