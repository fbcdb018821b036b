/-
C164: looser limits extend a run, and do not make its result worse.
-/
import Verif.Opt.Props.Undefined

namespace Verif.Opt
open PyNum

variable {F P E S : Type*} [PyNum F]

/-! ## Specification -/

/-- The limits `cfg'` are no stricter than the limits `cfg`, for a run with the given clock. -/
structure Looser (clk : Clock F) (cfg cfg' : Cfg F) : Prop where
  /-- the second run is over time only when the first is -/
  time : ∀ k i, le (add clk.start cfg'.maxTime) (clk.check2 k i) = true →
    le (add clk.start cfg.maxTime) (clk.check2 k i) = true
  iterations : cfg.maxIterations ≤ cfg'.maxIterations
  gradientNorm : le cfg'.minGradientNorm cfg.minGradientNorm = true
  stepSize : le cfg'.minStepSize cfg.minStepSize = true
  costEvaluations : cfg.maxCostEvaluations ≤ cfg'.maxCostEvaluations
  verbosity : cfg'.verbosity = cfg.verbosity
  logVerbosity : cfg'.logVerbosity = cfg.logVerbosity

/-- The log `a` is the beginning of the log `b`, or there are no logs. -/
def LogPrefix : Option (List (LogEntry F P)) → Option (List (LogEntry F P)) → Prop
  | none, none => True
  | some a, some b => a <+: b
  | _, _ => False

/-- The run with result `r` goes on where the run with result `a` ended. -/
structure Extends (a r : Result F P) : Prop where
  iterations : a.iterations ≤ r.iterations
  log : LogPrefix a.log r.log
  /-- with the same number of iterations, the results differ at most in the criterion and the
  time -/
  same : a.iterations = r.iterations → r.point = a.point ∧ r.cost = a.cost ∧
    r.costEvaluations = a.costEvaluations ∧ r.stepSize = a.stepSize ∧
    r.gradientNorm = a.gradientNorm ∧ r.log = a.log ∧ r.evals = a.evals

/-! ## Lemmas -/

omit [PyNum F] in
theorem LogPrefix.refl (a : Option (List (LogEntry F P))) : LogPrefix a a := by
  cases a with
  | none => trivial
  | some a => exact List.prefix_refl a

omit [PyNum F] in
theorem LogPrefix.add {a b : Option (List (LogEntry F P))} (h : LogPrefix a b) (cfg : Cfg F)
    (e : LogEntry F P) : LogPrefix a (addLog cfg b e) := by
  unfold addLog
  split
  · exact h
  · cases a <;> cases b
    · trivial
    · exact h
    · exact h
    · exact List.IsPrefix.trans h (List.prefix_append _ _)

omit [PyNum F] in
theorem addLog_congr {cfg cfg' : Cfg F} (h : cfg'.logVerbosity = cfg.logVerbosity)
    (l : Option (List (LogEntry F P))) (e : LogEntry F P) : addLog cfg' l e = addLog cfg l e := by
  unfold addLog
  rw [h]

omit [PyNum F] in
theorem initLog_congr {cfg cfg' : Cfg F} (h : cfg'.logVerbosity = cfg.logVerbosity) :
    (initLog cfg' : Option (List (LogEntry F P))) = initLog cfg := by
  unfold initLog
  rw [h]

/-- A run that goes on as another one until that one ends, in states with a given invariant. -/
theorem runs_extend_inv {T R : Type*} {step step' : T → Except PyErr (Ctl T R)} (Inv : T → Prop)
    (hinv : ∀ s t, Inv s → step s = .ok (.next t) → Inv t)
    (hnext : ∀ s t, Inv s → step s = .ok (.next t) → step' s = .ok (.next t))
    (herr : ∀ s e, Inv s → step s = .error e → step' s = .error e) {s : T} (h0 : Inv s)
    {a : Except PyErr R} (h : Runs step s a) :
    match a with
    | .error e => Runs step' s (.error e)
    | .ok a => ∃ s1, Reaches step' s s1 ∧ step s1 = .ok (.brk a) := by
  obtain ⟨n, h⟩ := h
  induction h with
  | brk h => exact ⟨_, .refl, h⟩
  | err h => exact ⟨1, .err (herr _ _ h0 h)⟩
  | @next s s' n r h _ ih =>
    have ih := ih (hinv _ _ h0 h)
    cases r with
    | error e =>
      obtain ⟨m, ih⟩ := ih
      exact ⟨m + 1, .next (hnext _ _ h0 h) ih⟩
    | ok a =>
      obtain ⟨s1, h1, h2⟩ := ih
      refine ⟨s1, ?_, h2⟩
      clear h2
      induction h1 with
      | refl => exact .tail .refl (hnext _ _ h0 h)
      | tail _ h4 ih => exact .tail ih h4

/-- A run that goes on as another one until that one ends. -/
theorem runs_extend {T R : Type*} {step step' : T → Except PyErr (Ctl T R)}
    (hnext : ∀ s t, step s = .ok (.next t) → step' s = .ok (.next t))
    (herr : ∀ s e, step s = .error e → step' s = .error e) {s : T} {a : Except PyErr R}
    (h : Runs step s a) :
    match a with
    | .error e => Runs step' s (.error e)
    | .ok a => ∃ s1, Reaches step' s s1 ∧ step s1 = .ok (.brk a) :=
  runs_extend_inv (fun _ => True) (fun _ _ _ _ => trivial) (fun s t _ => hnext s t)
    (fun s e _ => herr s e) trivial h

section
variable [LawfulPyNum F]

theorem lt_of_lt_of_le' {a b c : F} (h : lt a b = true) (h' : le b c = true) : lt a c = true := by
  obtain ⟨hb, hc⟩ := not_nan_of_le h'
  rcases LawfulPyNum.lt_cotrans a c b hc h with h2 | h2
  · exact h2
  · rw [LawfulPyNum.le_iff _ _ hb hc] at h'
    rw [h'] at h2
    cases h2

theorem Looser.checkStop {clk : Clock F} {cfg cfg' : Cfg F} (hL : Looser clk cfg cfg') {k : ℤ}
    {i : ℕ} {it : ℤ} {g st : Option F} {ce : ℤ}
    (h : Opt.checkStop cfg clk.start (clk.check1 k i) (clk.check2 k i) (iteration := it)
      (gradientNorm := g) (stepSize := st) (costEvaluations := ce) = none) :
    Opt.checkStop cfg' clk.start (clk.check1 k i) (clk.check2 k i) (iteration := it)
      (gradientNorm := g) (stepSize := st) (costEvaluations := ce) = none := by
  have hany : ∀ (o : Option F) (m m' : F), le m' m = true → ¬ (o.any (lt · m) = true) →
      ¬ (o.any (lt · m') = true) := by
    intro o m m' hm h1 h2
    cases o with
    | none => cases h2
    | some v => exact h1 (lt_of_lt_of_le' h2 hm)
  unfold Opt.checkStop at h ⊢
  simp only at h ⊢
  split at h
  · cases h
  rename_i h1
  split at h
  · cases h
  rename_i h2
  split at h
  · cases h
  rename_i h3
  split at h
  · cases h
  rename_i h4
  split at h
  · cases h
  rename_i h5
  have := hL.iterations
  have := hL.costEvaluations
  rw [if_neg fun h => h1 (hL.time _ _ h), if_neg (by omega),
    if_neg (hany _ _ _ hL.gradientNorm h3), if_neg (hany _ _ _ hL.stepSize h4),
    if_neg (by omega)]

omit [LawfulPyNum F] in
theorem Looser.printerSetup {clk : Clock F} {cfg cfg' : Cfg F} (hL : Looser clk cfg cfg')
    (h : Opt.printerSetup cfg = .ok ()) : Opt.printerSetup cfg' = .ok () := by
  unfold Opt.printerSetup at h ⊢
  rw [hL.verbosity]
  have := hL.iterations
  split
  · rename_i hv
    rw [if_pos hv] at h
    split at h
    · cases h
    split at h
    · cases h
    rw [if_neg (by omega), if_neg (by omega)]
  · rfl

/-! ## Steepest descent -/

section
variable {cfg cfg' : Cfg F} {ls : LineSearcher F P E S} {pb : Prob F P E} {clk : Clock F}

theorem sdStep_looser (hL : Looser clk cfg cfg') (s : SDState F P S) :
    (∀ t, sdStep cfg ls pb clk s = .ok (.next t) → sdStep cfg' ls pb clk s = .ok (.next t)) ∧
    ∀ e, sdStep cfg ls pb clk s = .error e → sdStep cfg' ls pb clk s = .error e := by
  constructor
  · intro t h
    obtain ⟨o, ho, hc, rfl⟩ := sdStep_next h
    unfold sdStep
    simp only [ho, hL.checkStop hc, addLog_congr hL.logVerbosity]
  · intro e h
    unfold sdStep at h ⊢
    simp only at h ⊢
    cases hls : ls.search s.mem pb.cost pb.M s.x (pb.M.neg (pb.grad s.x)) (pb.cost s.x)
      (neg (pow (pb.M.norm s.x (pb.grad s.x)) (lit 2))) with
    | error e' =>
      rw [hls] at h
      simp only at h ⊢
      exact h
    | ok o =>
      rw [hls] at h
      simp only at h
      split at h <;> simp at h

/-- **C164** (steepest descent): a run with looser limits goes on where the run with the stricter
limits ended.  Its result has no larger cost if the line searcher never ascends. -/
theorem C164_steepestDescent (hL : Looser clk cfg cfg') {x : P} {mem m m' : S} {a r : Result F P}
    (h : SDRuns cfg ls pb clk x mem (.ok (a, m))) (h' : SDRuns cfg' ls pb clk x mem (.ok (r, m'))) :
    Extends a r ∧ a.evals.dropLast <+: r.evals ∧
    (NeverAscends ls → (∀ p, isnan (pb.cost p) = false) → le r.cost a.cost = true) := by
  unfold SDRuns at h h'
  split at h
  · cases h
  rename_i hp
  rw [hL.printerSetup hp] at h'
  simp only at h'
  have hi : sdInit cfg' x mem = sdInit cfg x mem := by
    unfold sdInit
    rw [initLog_congr hL.logVerbosity]
  rw [hi] at h'
  obtain ⟨s1, hr1, hs1⟩ := runs_extend (fun s => (sdStep_looser hL s).1)
    (fun s => (sdStep_looser hL s).2) h
  obtain ⟨o, reason, ho, hc, e1⟩ := sdStep_brk hs1
  cases e1
  have h2 := h'.of_reaches hr1
  obtain ⟨n, h2⟩ := h2
  cases h2 with
  | brk h3 =>
    obtain ⟨o', reason', ho', hc', e2⟩ := sdStep_brk h3
    rw [ho] at ho'
    cases ho'
    cases e2
    refine ⟨⟨le_refl _, ?_, fun _ => ⟨rfl, rfl, rfl, rfl, rfl, ?_, rfl⟩⟩, ?_, fun _ hn => ?_⟩
    · rw [addLog_congr hL.logVerbosity]
      exact LogPrefix.refl _
    · rw [addLog_congr hL.logVerbosity]
    · exact List.dropLast_prefix _
    · exact LawfulPyNum.le_refl _ (hn _)
  | next h3 h4 =>
    obtain ⟨o', ho', hc', rfl⟩ := sdStep_next h3
    rw [ho] at ho'
    cases ho'
    have key := h4.invariant
      (fun u : SDState F P S => s1.iteration + 1 ≤ u.iteration ∧
        LogPrefix (addLog cfg s1.log ⟨clk.log (s1.iteration + 1), s1.iteration + 1, s1.x,
          pb.cost s1.x, pb.M.norm s1.x (pb.grad s1.x)⟩) u.log ∧
        s1.evals ++ [s1.x] ++ o.evals <+: u.evals ∧
        (NeverAscends ls → (∀ p, isnan (pb.cost p) = false) →
          le (pb.cost u.x) (pb.cost o.newx) = true))
      (fun r : Result F P × S => s1.iteration + 1 < r.1.iterations ∧
        LogPrefix (addLog cfg s1.log ⟨clk.log (s1.iteration + 1), s1.iteration + 1, s1.x,
          pb.cost s1.x, pb.M.norm s1.x (pb.grad s1.x)⟩) r.1.log ∧
        s1.evals ++ [s1.x] ++ o.evals <+: r.1.evals ∧
        (NeverAscends ls → (∀ p, isnan (pb.cost p) = false) →
          le r.1.cost (pb.cost o.newx) = true)) ?_ ?_ ?_
    · obtain ⟨k1, k2, k3, k4⟩ := key
      simp only at k1 k2 k3 k4
      refine ⟨⟨le_of_lt k1, k2, fun e => absurd e (ne_of_lt k1)⟩, ?_, k4⟩
      simp only [List.dropLast_concat]
      exact k3
    · rintro u u' ⟨k1, k2, k3, k4⟩ hu
      obtain ⟨q, hq, -, rfl⟩ := sdStep_next hu
      refine ⟨by simp only; omega, k2.add _ _, ?_, fun hls hn => ?_⟩
      · exact k3.trans (by rw [List.append_assoc]; exact List.prefix_append _ _)
      · have hd := hls _ _ _ _ _ _ _ hq
        rw [← LawfulPyNum.le_iff _ _ (hn _) (hn _)] at hd
        exact LawfulPyNum.le_trans (hn _) (hn _) (hn _) hd (k4 hls hn)
    · rintro u w ⟨k1, k2, k3, k4⟩ hu
      obtain ⟨q, reason', hq, -, rfl⟩ := sdStep_brk hu
      refine ⟨by simp only; omega, k2.add _ _, ?_, fun hls hn => ?_⟩
      · exact k3.trans (by simp only [List.append_assoc]; exact List.prefix_append _ _)
      · have hd := hls _ _ _ _ _ _ _ hq
        rw [← LawfulPyNum.le_iff _ _ (hn _) (hn _)] at hd
        exact LawfulPyNum.le_trans (hn _) (hn _) (hn _) hd (k4 hls hn)
    · refine ⟨le_refl _, ?_, List.prefix_refl _, fun _ hn => LawfulPyNum.le_refl _ (hn _)⟩
      simp only
      rw [addLog_congr hL.logVerbosity]
      exact LogPrefix.refl _

/-- **C164** (steepest descent, exceptions): what a run raises, the run with looser limits raises;
so if that one returns, the run with the stricter limits does not raise. -/
theorem C164_steepestDescent_raises (hL : Looser clk cfg cfg') (hp : 1 ≤ cfg.maxIterations)
    {x : P} {mem : S} {e : PyErr} (h : SDRuns cfg ls pb clk x mem (.error e)) :
    SDRuns cfg' ls pb clk x mem (.error e) := by
  have hp1 : Opt.printerSetup cfg = .ok () := by
    unfold Opt.printerSetup
    split
    · rw [if_neg (by omega), if_neg (by omega)]
    · rfl
  unfold SDRuns at h ⊢
  rw [hp1] at h
  rw [hL.printerSetup hp1]
  simp only at h ⊢
  have hi : sdInit cfg' x mem = sdInit cfg x mem := by
    unfold sdInit
    rw [initLog_congr hL.logVerbosity]
  rw [hi]
  exact runs_extend (fun s => (sdStep_looser hL s).1) (fun s => (sdStep_looser hL s).2) h

end

/-! ## Conjugate gradient -/

section
variable {cfg cfg' : Cfg F} {rule : BetaRule} {orth : F} {ls : LineSearcher F P E S}
  {pb : Prob F P E} {clk : Clock F}

theorem cgStep_looser (hL : Looser clk cfg cfg') (s : CGState F P E S) :
    (∀ t, cgStep cfg rule orth ls pb clk s = .ok (.next t) →
      cgStep cfg' rule orth ls pb clk s = .ok (.next t)) ∧
    ∀ e, cgStep cfg rule orth ls pb clk s = .error e →
      cgStep cfg' rule orth ls pb clk s = .error e := by
  rcases hc : Opt.checkStop cfg clk.start (clk.check1 (s.iteration + 1) 0)
    (clk.check2 (s.iteration + 1) 0) (gradientNorm := s.gradientNorm)
    (iteration := s.iteration + 1) (stepSize := s.stepSize) with _ | reason
  · have : cgStep cfg' rule orth ls pb clk s = cgStep cfg rule orth ls pb clk s := by
      unfold cgStep
      simp only [hc, hL.checkStop hc, addLog_congr hL.logVerbosity]
    rw [this]
    exact ⟨fun _ h => h, fun _ h => h⟩
  · constructor
    · intro t h
      unfold cgStep at h
      simp only [hc] at h
      cases h
    · intro t h
      unfold cgStep at h
      simp only [hc] at h
      cases h

/-- **C164** (conjugate gradient). -/
theorem C164_conjugateGradient (hL : Looser clk cfg cfg') {x : P} {mem m m' : S}
    {a r : Result F P} {t t' : List (P × E × F)}
    (h : CGRuns cfg rule orth ls pb clk x mem (.ok (a, m, t)))
    (h' : CGRuns cfg' rule orth ls pb clk x mem (.ok (r, m', t'))) :
    Extends a r ∧ a.evals <+: r.evals ∧ t <+: t' ∧
    (NeverAscends ls → (∀ p, isnan (pb.cost p) = false) → le r.cost a.cost = true) := by
  unfold CGRuns at h h'
  split at h
  · cases h
  rename_i hp
  rw [hL.printerSetup hp] at h'
  simp only at h'
  have hi : cgInit cfg' pb x mem = cgInit cfg pb x mem := by
    unfold cgInit
    rw [initLog_congr hL.logVerbosity]
  rw [hi] at h'
  obtain ⟨s1, hr1, hs1⟩ := runs_extend (fun s => (cgStep_looser hL s).1)
    (fun s => (cgStep_looser hL s).2) h
  have hcost : s1.cost = pb.cost s1.x := by
    refine hr1.invariant (fun s : CGState F P E S => s.cost = pb.cost s.x) ?_ rfl
    intro s s' _ hs
    obtain ⟨o, nd, -, -, -, rfl⟩ := cgStep_next hs
    rfl
  obtain ⟨reason, hc, e1⟩ := cgStep_brk hs1
  cases e1
  have h2 := h'.of_reaches hr1
  obtain ⟨n, h2⟩ := h2
  cases h2 with
  | brk h3 =>
    obtain ⟨reason', hc', e2⟩ := cgStep_brk h3
    cases e2
    refine ⟨⟨le_refl _, ?_, fun _ => ⟨rfl, rfl, rfl, rfl, rfl, ?_, rfl⟩⟩, List.prefix_refl _,
      List.prefix_refl _, fun _ hn => ?_⟩
    · rw [addLog_congr hL.logVerbosity]
      exact LogPrefix.refl _
    · rw [addLog_congr hL.logVerbosity]
    · rw [hcost]
      exact LawfulPyNum.le_refl _ (hn _)
  | next h3 h4 =>
    obtain ⟨o, nd, hc', ho, -, rfl⟩ := cgStep_next h3
    have key := h4.invariant
      (fun u : CGState F P E S => s1.iteration + 1 ≤ u.iteration ∧
        LogPrefix (addLog cfg s1.log ⟨clk.log (s1.iteration + 1), s1.iteration + 1, s1.x,
          s1.cost, s1.gradientNorm⟩) u.log ∧
        s1.evals <+: u.evals ∧ s1.searches <+: u.searches ∧ u.cost = pb.cost u.x ∧
        (NeverAscends ls → (∀ p, isnan (pb.cost p) = false) →
          le (pb.cost u.x) (pb.cost s1.x) = true))
      (fun r : Result F P × S × List (P × E × F) => s1.iteration + 1 < r.1.iterations ∧
        LogPrefix (addLog cfg s1.log ⟨clk.log (s1.iteration + 1), s1.iteration + 1, s1.x,
          s1.cost, s1.gradientNorm⟩) r.1.log ∧
        s1.evals <+: r.1.evals ∧ s1.searches <+: r.2.2 ∧
        (NeverAscends ls → (∀ p, isnan (pb.cost p) = false) →
          le r.1.cost (pb.cost s1.x) = true)) ?_ ?_ ?_
    · obtain ⟨k1, k2, k3, k4, k5⟩ := key
      simp only at k1 k2 k3 k4 k5
      refine ⟨⟨le_of_lt k1, k2, fun e => absurd e (ne_of_lt k1)⟩, k3, k4, ?_⟩
      rw [hcost]
      exact k5
    · rintro u u' ⟨k1, k2, k3, k4, k5, k6⟩ hu
      obtain ⟨q, nd, -, hq, -, rfl⟩ := cgStep_next hu
      refine ⟨by simp only; omega, k2.add _ _, ?_, ?_, rfl, fun hls hn => ?_⟩
      · exact k3.trans (by simp only [List.append_assoc]; exact List.prefix_append _ _)
      · exact k4.trans (List.prefix_append _ _)
      · rw [k5] at hq
        have hd := hls _ _ _ _ _ _ _ hq
        rw [← LawfulPyNum.le_iff _ _ (hn _) (hn _)] at hd
        exact LawfulPyNum.le_trans (hn _) (hn _) (hn _) hd (k6 hls hn)
    · rintro u w ⟨k1, k2, k3, k4, k5, k6⟩ hu
      obtain ⟨reason', -, rfl⟩ := cgStep_brk hu
      refine ⟨by simp only; omega, k2.add _ _, k3, k4, fun hls hn => ?_⟩
      simp only [k5]
      exact k6 hls hn
    · refine ⟨le_refl _, ?_, ?_, List.prefix_append _ _, rfl, fun hls hn => ?_⟩
      · simp only
        rw [addLog_congr hL.logVerbosity]
        exact LogPrefix.refl _
      · simp only [List.append_assoc]
        exact List.prefix_append _ _
      · rw [hcost] at ho
        have hd := hls _ _ _ _ _ _ _ ho
        rw [← LawfulPyNum.le_iff _ _ (hn _) (hn _)] at hd
        exact hd

/-- **C164** (conjugate gradient, exceptions). -/
theorem C164_conjugateGradient_raises (hL : Looser clk cfg cfg') (hp : 1 ≤ cfg.maxIterations)
    {x : P} {mem : S} {e : PyErr} (h : CGRuns cfg rule orth ls pb clk x mem (.error e)) :
    CGRuns cfg' rule orth ls pb clk x mem (.error e) := by
  have hp1 : Opt.printerSetup cfg = .ok () := by
    unfold Opt.printerSetup
    split
    · rw [if_neg (by omega), if_neg (by omega)]
    · rfl
  unfold CGRuns at h ⊢
  rw [hp1] at h
  rw [hL.printerSetup hp1]
  simp only at h ⊢
  have hi : cgInit cfg' pb x mem = cgInit cfg pb x mem := by
    unfold cgInit
    rw [initLog_congr hL.logVerbosity]
  rw [hi]
  exact runs_extend (fun s => (cgStep_looser hL s).1) (fun s => (cgStep_looser hL s).2) h

end

/-! ## Trust regions -/

section
variable {cfg cfg' : Cfg F} {c : TRCfg F} {pb : Prob F P E} {clk : Clock F} {eta0 : ℤ → E}
  {mininner maxinner : ℤ} {DeltaBar : F}

theorem trStep_looser (hL : Looser clk cfg cfg') (s : TRState F P E) :
    (∀ t, trStep cfg c pb clk eta0 mininner maxinner DeltaBar s = .ok (.next t) →
      trStep cfg' c pb clk eta0 mininner maxinner DeltaBar s = .ok (.next t)) ∧
    (∀ e, trStep cfg c pb clk eta0 mininner maxinner DeltaBar s = .error e →
      trStep cfg' c pb clk eta0 mininner maxinner DeltaBar s = .error e) ∧
    ∀ a t, trStep cfg c pb clk eta0 mininner maxinner DeltaBar s = .ok (.brk a) →
      trStep cfg' c pb clk eta0 mininner maxinner DeltaBar s = .ok (.next t) →
      t.iteration = a.1.iterations ∧ t.x = a.1.point ∧ t.fx = a.1.cost ∧ t.evals = a.1.evals ∧
        t.history = a.2 := by
  unfold trStep
  simp only
  cases h1 : tcg c pb s.x s.fgradx (if c.useRand then eta0 (s.iteration + 1) else
    pb.M.zeroVector s.x) s.Delta mininner maxinner with
  | error e => simp
  | ok o =>
    simp only
    cases h2 : (if c.useRand then cauchy pb s.x s.fx s.fgradx s.normGrad s.Delta o
      else .ok (o.eta, o.Heta)) with
    | error e => simp
    | ok q =>
      obtain ⟨eta, Heta⟩ := q
      simp only
      cases h3 : trRatio c pb s.x s.fx s.fgradx (pb.cost (pb.M.retraction s.x eta)) eta Heta with
      | error e => simp
      | ok q =>
        obtain ⟨rho, md⟩ := q
        simp only
        cases h4 : trRadius rho md o.stop DeltaBar s.Delta with
        | error e => simp
        | ok Delta =>
          simp only
          generalize hS : (if trAccept c rho md = true then
            ({ iteration := s.iteration + 1, x := pb.M.retraction s.x eta,
               fx := pb.cost (pb.M.retraction s.x eta),
               fgradx := pb.grad (pb.M.retraction s.x eta),
               normGrad := pb.M.norm (pb.M.retraction s.x eta)
                 (pb.grad (pb.M.retraction s.x eta)), Delta := Delta,
               evals := s.evals ++ [pb.M.retraction s.x eta],
               history := s.history ++ [(s.x, s.fx, s.Delta)] } : TRState F P E)
            else _) = S
          have hit : S.iteration = s.iteration + 1 := by
            rw [← hS]
            split <;> rfl
          cases hc : Opt.checkStop cfg clk.start (clk.check1 (s.iteration + 1) 0)
            (clk.check2 (s.iteration + 1) 0) (gradientNorm := S.normGrad)
            (iteration := s.iteration + 1) with
          | none => simp [hL.checkStop hc]
          | some reason =>
            refine ⟨by simp, by simp, ?_⟩
            intro a t ha ht
            simp only [Except.ok.injEq, Ctl.brk.injEq] at ha
            subst ha
            cases hc' : Opt.checkStop cfg' clk.start (clk.check1 (s.iteration + 1) 0)
              (clk.check2 (s.iteration + 1) 0) (gradientNorm := S.normGrad)
              (iteration := s.iteration + 1) with
            | none =>
              simp only [hc', Except.ok.injEq, Ctl.next.injEq] at ht
              subst ht
              exact ⟨hit, rfl, rfl, rfl, rfl⟩
            | some reason' =>
              simp [hc'] at ht

/-- **C164** (trust regions); `hist` are the iterates with their costs and radii. -/
theorem C164_trustRegions (hL : Looser clk cfg cfg') {mi : Option ℤ} {td D D0 : Option F} {x : P}
    {a r : Result F P} {hist hist' : List (P × F × F)}
    (h : TRRuns cfg c pb clk eta0 mininner mi td D D0 x (.ok (a, hist)))
    (h' : TRRuns cfg' c pb clk eta0 mininner mi td D D0 x (.ok (r, hist'))) :
    Extends a r ∧ a.evals <+: r.evals ∧ hist <+: hist' := by
  unfold TRRuns at h h'
  split at h
  · cases h
  rename_i Db D1 hrad
  rw [hrad] at h'
  simp only at h'
  obtain ⟨s1, hr1, hs1⟩ := runs_extend (fun s => (trStep_looser hL s).1)
    (fun s => (trStep_looser hL s).2.1) h
  have h2 := h'.of_reaches hr1
  obtain ⟨n, h2⟩ := h2
  cases h2 with
  | brk h3 =>
    obtain ⟨o, eta, Heta, rho, md, Delta, e1, e2, e3, e4, ⟨-, e5⟩ | ⟨_, -, e5⟩⟩ := trStep_inv hs1
    · cases e5
    obtain ⟨o', eta', Heta', rho', md', Delta', f1, f2, f3, f4, ⟨-, f5⟩ | ⟨_, -, f5⟩⟩ :=
      trStep_inv h3
    · cases f5
    rw [e1] at f1
    cases f1
    rw [e2] at f2
    cases f2
    rw [e3] at f3
    cases f3
    rw [e4] at f4
    cases f4
    cases e5
    cases f5
    refine ⟨⟨le_refl _, ?_, fun _ => ⟨rfl, rfl, rfl, rfl, rfl, ?_, rfl⟩⟩, List.prefix_refl _,
      List.prefix_refl _⟩
    · rw [initLog_congr hL.logVerbosity]
      exact LogPrefix.refl _
    · exact initLog_congr hL.logVerbosity
  | @next _ t _ _ h3 h4 =>
    obtain ⟨g1, -, -, g4, g5⟩ := (trStep_looser hL s1).2.2 _ _ hs1 h3
    have hlog : a.log = initLog cfg := by
      obtain ⟨o, eta, Heta, rho, md, Delta, e1, e2, e3, e4, ⟨-, e5⟩ | ⟨_, -, e5⟩⟩ := trStep_inv hs1
      · cases e5
      cases e5
      rfl
    have aux : ∀ (u : TRState F P E) (b : Bool) (eta : E) (Delta : F),
        (trAfter pb u b eta Delta).iteration = u.iteration + 1 ∧
        u.evals <+: (trAfter pb u b eta Delta).evals ∧
        u.history <+: (trAfter pb u b eta Delta).history := by
      intro u b eta Delta
      unfold trAfter
      split
      · exact ⟨rfl, List.prefix_append _ _, List.prefix_append _ _⟩
      · exact ⟨rfl, List.prefix_append _ _, List.prefix_append _ _⟩
    have key := h4.invariant
      (fun u : TRState F P E => a.iterations ≤ u.iteration ∧ a.evals <+: u.evals ∧
        hist <+: u.history)
      (fun r : Result F P × List (P × F × F) => a.iterations < r.1.iterations ∧
        r.1.log = initLog cfg' ∧ a.evals <+: r.1.evals ∧ hist <+: r.2) ?_ ?_ ?_
    · obtain ⟨k1, k2, k3, k4⟩ := key
      simp only at k1 k2 k3 k4
      refine ⟨⟨le_of_lt k1, ?_, fun e => absurd e (ne_of_lt k1)⟩, k3, k4⟩
      rw [hlog, k2, initLog_congr hL.logVerbosity]
      exact LogPrefix.refl _
    · rintro u u' ⟨k1, k2, k3⟩ hu
      obtain ⟨o, eta, Heta, rho, md, Delta, e1, e2, e3, e4, ⟨-, e5⟩ | ⟨_, -, e5⟩⟩ := trStep_inv hu
      · cases e5
        obtain ⟨j1, j2, j3⟩ := aux u (trAccept c rho md) eta Delta
        exact ⟨by rw [j1]; omega, k2.trans j2, k3.trans j3⟩
      · cases e5
    · rintro u w ⟨k1, k2, k3⟩ hu
      obtain ⟨o, eta, Heta, rho, md, Delta, e1, e2, e3, e4, ⟨-, e5⟩ | ⟨_, -, e5⟩⟩ := trStep_inv hu
      · cases e5
      · cases e5
        obtain ⟨j1, j2, j3⟩ := aux u (trAccept c rho md) eta Delta
        exact ⟨by simp only; omega, rfl, k2.trans j2, k3.trans j3⟩
    · refine ⟨le_of_eq g1.symm, ?_, ?_⟩
      · rw [g4]
      · rw [g5]

/-- **C164** (trust regions, exceptions). -/
theorem C164_trustRegions_raises (hL : Looser clk cfg cfg') {mi : Option ℤ} {td D D0 : Option F}
    {x : P} {e : PyErr} (h : TRRuns cfg c pb clk eta0 mininner mi td D D0 x (.error e)) :
    TRRuns cfg' c pb clk eta0 mininner mi td D D0 x (.error e) := by
  unfold TRRuns at h ⊢
  split at h
  · exact h
  · exact runs_extend (fun s => (trStep_looser hL s).1) (fun s => (trStep_looser hL s).2.1) h

end

/-! ## Particle swarm -/

section
variable {o o' : PSOObj F} {rnd : PSORand F P E} {pb : Prob F P E} {clk : Clock F}

/-- Two particle swarm objects that differ at most in `max_time` and `max_cost_evaluations` (and in
the limits that are not used). -/
structure SamePSO (o o' : PSOObj F) : Prop where
  maxIterations : o'.maxIterations = o.maxIterations
  populationSize : o'.populationSize = o.populationSize
  nostalgia : o'.nostalgia = o.nostalgia
  social : o'.social = o.social

omit [LawfulPyNum F] in
theorem psoVelocity_congr (ho : SamePSO o o') : psoVelocity (E := E) (P := P) o' = psoVelocity o := by
  funext M rnd k w xb i p
  unfold psoVelocity
  rw [ho.nostalgia, ho.social]

theorem psoStop_looser (hL : Looser clk o.cfg o'.cfg) {k ce : ℤ} {n : ℕ}
    (h : psoStop o clk k ce n = none) : psoStop o' clk k ce n = none := by
  unfold psoStop at h ⊢
  rw [List.findSome?_eq_none_iff] at h ⊢
  intro i hi
  exact hL.checkStop (h i hi)

theorem psoStep_looser (ho : SamePSO o o') (hL : Looser clk o.cfg o'.cfg) {isT : Bool}
    (s : PSOState F P E) :
    (∀ t, psoStep o isT rnd pb clk s = .ok (.next t) →
      psoStep o' isT rnd pb clk s = .ok (.next t)) ∧
    ∀ e, psoStep o isT rnd pb clk s = .error e → psoStep o' isT rnd pb clk s = .error e := by
  cases hc : psoStop o clk (s.iteration + 1) s.costEvaluations s.swarm.length with
  | none =>
    have : psoStep o' isT rnd pb clk s = psoStep o isT rnd pb clk s := by
      unfold psoStep
      have hm : o'.cfg.maxIterations = o.cfg.maxIterations := by
        unfold PSOObj.cfg
        rw [ho.maxIterations]
      simp only [hc, psoStop_looser hL hc, hm, psoVelocity_congr ho, ho.populationSize]
    rw [this]
    exact ⟨fun _ h => h, fun _ h => h⟩
  | some reason =>
    constructor
    · intro t h
      unfold psoStep at h
      simp only [hc] at h
      cases h
    · intro t h
      unfold psoStep at h
      simp only [hc] at h
      cases h

omit [PyNum F] [LawfulPyNum F] in
theorem samePSO_population (ho : SamePSO o o') {d : ℕ} {init : InitArg P} {o1 : PSOObj F}
    {l : List P} {b : Bool} (h : psoPopulation (o.resolve d) init = .ok (o1, l, b)) :
    ∃ o1', psoPopulation (o'.resolve d) init = .ok (o1', l, b) ∧ SamePSO o1 o1' ∧
      o1.cfg = (o.resolve d).cfg ∧ o1'.cfg = (o'.resolve d).cfg := by
  cases init with
  | none draws =>
    simp only [psoPopulation, Except.ok.injEq, Prod.mk.injEq] at h
    obtain ⟨rfl, rfl, rfl⟩ := h
    refine ⟨o'.resolve d, ?_, ⟨?_, ?_, ho.nostalgia, ho.social⟩, rfl, rfl⟩
    · simp [psoPopulation, PSOObj.resolve, ho.populationSize]
    · simp [PSOObj.resolve, ho.maxIterations]
    · simp [PSOObj.resolve, ho.populationSize]
  | list l' =>
    simp only [psoPopulation, Except.ok.injEq, Prod.mk.injEq] at h
    obtain ⟨rfl, rfl, rfl⟩ := h
    refine ⟨_, rfl, ⟨?_, rfl, ho.nostalgia, ho.social⟩, rfl, rfl⟩
    simp [PSOObj.resolve, ho.maxIterations]
  | tuple l' =>
    simp only [psoPopulation, Except.ok.injEq, Prod.mk.injEq] at h
    obtain ⟨rfl, rfl, rfl⟩ := h
    refine ⟨_, rfl, ⟨?_, rfl, ho.nostalgia, ho.social⟩, rfl, rfl⟩
    simp [PSOObj.resolve, ho.maxIterations]
  | other => cases h

/-- Moving particles leaves the best cost or lowers it. -/
theorem psoMoves_lower (obj : P → F) (M : Mfd F P E) (b : F × P) (l : List (Particle F P E)) :
    (psoMoves obj M b l).1 = b ∨ lt (psoMoves obj M b l).1.1 b.1 = true := by
  induction l generalizing b with
  | nil => exact .inl rfl
  | cons p l ih =>
    have h1 : (psoMove obj M b p).1 = b ∨ lt (psoMove obj M b p).1.1 b.1 = true := by
      unfold psoMove
      simp only
      split
      · simp only
        split
        · rename_i h
          exact .inr h
        · exact .inl rfl
      · exact .inl rfl
    simp only [psoMoves]
    rcases ih (psoMove obj M b p).1 with h2 | h2
    · rw [h2]
      exact h1
    · rcases h1 with h1 | h1
      · rw [h1] at h2 ⊢
        exact .inr h2
      · exact .inr (LawfulPyNum.lt_trans _ _ _ h2 h1)

/-- **C164** (particle swarm): with more time or cost evaluations, but the same `max_iterations`
(for which see `C164_negation_particleSwarm`).  The cost is the same or smaller even if costs are
NaN. -/
theorem C164_particleSwarm_partial (ho : SamePSO o o')
    (hL : Looser clk (o.resolve pb.M.dim).cfg (o'.resolve pb.M.dim).cfg) {init : InitArg P}
    {a r : Result F P} {fin fin' pos pos' : List P}
    (h : PSORuns o rnd pb clk init (.ok (a, fin, pos)))
    (h' : PSORuns o' rnd pb clk init (.ok (r, fin', pos'))) :
    Extends a r ∧ a.evals <+: r.evals ∧ pos <+: pos' ∧
    (r.cost = a.cost ∨ lt r.cost a.cost = true) := by
  unfold PSORuns at h
  split at h
  · cases h
  · cases h
  rename_i o1 x0 xs isT hpop
  obtain ⟨o1', hpop', hs, hcfg, hcfg'⟩ := samePSO_population ho hpop
  unfold PSORuns at h'
  rw [hpop'] at h'
  simp only at h'
  rw [← hcfg, ← hcfg'] at hL
  split at h
  · cases h
  rename_i hp
  rw [hL.printerSetup hp] at h'
  simp only at h'
  have hi : psoInit o1' rnd pb x0 xs = psoInit o1 rnd pb x0 xs := by
    unfold psoInit
    rw [hs.populationSize]
  rw [hi] at h'
  obtain ⟨s1, hr1, hs1⟩ := runs_extend (fun s => (psoStep_looser hs hL s).1)
    (fun s => (psoStep_looser hs hL s).2) h
  obtain ⟨reason, hc, e1⟩ := psoStep_brk hs1
  cases e1
  obtain ⟨n, h2⟩ := h'.of_reaches hr1
  cases h2 with
  | brk h3 =>
    obtain ⟨reason', hc', e2⟩ := psoStep_brk h3
    cases e2
    refine ⟨⟨le_refl _, ?_, fun _ => ⟨rfl, rfl, rfl, rfl, rfl, ?_, rfl⟩⟩, List.prefix_refl _,
      List.prefix_refl _, .inl rfl⟩
    · rw [initLog_congr hL.logVerbosity]
      exact LogPrefix.refl _
    · exact initLog_congr hL.logVerbosity
  | next h3 h4 =>
    have stp : ∀ u u' : PSOState F P E, psoStep o1' isT rnd pb clk u = .ok (.next u') →
        u'.iteration = u.iteration + 1 ∧ u.evals <+: u'.evals ∧ u.positions <+: u'.positions ∧
        (u'.fbest = u.fbest ∨ lt u'.fbest u.fbest = true) := by
      intro u u' hu
      obtain ⟨w, swarm, -, -, -, rfl⟩ := psoStep_next hu
      refine ⟨rfl, List.prefix_append _ _, List.prefix_append _ _, ?_⟩
      exact (psoMoves_lower pb.cost pb.M (u.fbest, u.xbest) swarm).imp_left fun h => by
        simp only [h]
    have key := h4.invariant
      (fun u : PSOState F P E => s1.iteration + 1 ≤ u.iteration ∧ s1.evals <+: u.evals ∧
        s1.positions <+: u.positions ∧ (u.fbest = s1.fbest ∨ lt u.fbest s1.fbest = true))
      (fun r : Result F P × List P × List P => s1.iteration + 1 < r.1.iterations ∧
        r.1.log = initLog o1'.cfg ∧ s1.evals <+: r.1.evals ∧ s1.positions <+: r.2.2 ∧
        (r.1.cost = s1.fbest ∨ lt r.1.cost s1.fbest = true)) ?_ ?_ ?_
    · obtain ⟨k1, k2, k3, k4, k5⟩ := key
      simp only at k1 k2 k3 k4 k5
      refine ⟨⟨le_of_lt k1, ?_, fun e => absurd e (ne_of_lt k1)⟩, k3, k4, k5⟩
      simp only
      rw [k2, initLog_congr hL.logVerbosity]
      exact LogPrefix.refl _
    · rintro u u' ⟨k1, k2, k3, k4⟩ hu
      obtain ⟨j1, j2, j3, j4⟩ := stp _ _ hu
      refine ⟨by omega, k2.trans j2, k3.trans j3, ?_⟩
      rcases j4 with j4 | j4
      · rw [j4]
        exact k4
      · rcases k4 with k4 | k4
        · rw [k4] at j4
          exact .inr j4
        · exact .inr (LawfulPyNum.lt_trans _ _ _ j4 k4)
    · rintro u w ⟨k1, k2, k3, k4⟩ hu
      obtain ⟨reason', -, rfl⟩ := psoStep_brk hu
      exact ⟨by simp only; omega, rfl, k2, k3, k4⟩
    · obtain ⟨j1, j2, j3, j4⟩ := stp _ _ h3
      exact ⟨by omega, j2, j3, j4⟩

/-- **C164** (particle swarm, exceptions). -/
theorem C164_particleSwarm_raises_partial (ho : SamePSO o o')
    (hL : Looser clk (o.resolve pb.M.dim).cfg (o'.resolve pb.M.dim).cfg)
    (hp : 1 ≤ (o.resolve pb.M.dim).cfg.maxIterations) {init : InitArg P} {e : PyErr}
    (h : PSORuns o rnd pb clk init (.error e)) : PSORuns o' rnd pb clk init (.error e) := by
  unfold PSORuns at h
  split at h
  · rename_i e' hpop
    cases h
    cases init <;> cases hpop
    rfl
  · rename_i o1 isT hpop
    cases h
    obtain ⟨o1', hpop', -⟩ := samePSO_population ho hpop
    unfold PSORuns
    rw [hpop']
  · rename_i o1 x0 xs isT hpop
    obtain ⟨o1', hpop', hs, hcfg, hcfg'⟩ := samePSO_population ho hpop
    rw [← hcfg, ← hcfg'] at hL
    rw [← hcfg] at hp
    have hp1 : Opt.printerSetup o1.cfg = .ok () := by
      unfold Opt.printerSetup
      split
      · rw [if_neg (by omega), if_neg (by omega)]
      · rfl
    rw [hp1] at h
    unfold PSORuns
    rw [hpop']
    simp only at h ⊢
    rw [hL.printerSetup hp1]
    simp only
    have hi : psoInit o1' rnd pb x0 xs = psoInit o1 rnd pb x0 xs := by
      unfold psoInit
      rw [hs.populationSize]
    rw [hi]
    exact runs_extend (fun s => (psoStep_looser hs hL s).1)
      (fun s => (psoStep_looser hs hL s).2) h

end

/-! ## Nelder-Mead -/

section
variable {o o' : NMObj F} {sort : List (F × P) → List (F × P)}
  {centroid : ℤ → List P → Except PyErr P} {pb : Prob F P E} {clk : Clock F}

/-- Two Nelder-Mead objects that differ at most in their limits. -/
structure SameNM (o o' : NMObj F) : Prop where
  reflection : o'.reflection = o.reflection
  expansion : o'.expansion = o.expansion
  contraction : o'.contraction = o.contraction

omit [LawfulPyNum F] in
theorem head_sort_ne (hsort : SortsByCost sort) {l : List (F × P)} (h : l ≠ []) :
    (sort l).head? ≠ none := by
  intro h1
  rw [List.head?_eq_none_iff] at h1
  have := (hsort l).1.length_eq
  rw [h1] at this
  exact h (List.length_eq_zero_iff.1 this.symm)

omit [LawfulPyNum F] in
theorem nmStep_nonempty (s t : NMState F P)
    (hst : nmStep o sort centroid pb clk s = .ok (.next t)) : t.simplex ≠ [] := by
  obtain ⟨xb, m, -, -, hm, rfl⟩ := nmStep_next hst
  obtain ⟨-, -, -, best, -, v', hv', -⟩ := nmMove_spec hm
  exact List.ne_nil_of_mem hv'

omit [LawfulPyNum F] in
theorem nmInit_nonempty (hsort : SortsByCost sort) (pb : Prob F P E) {x : List P} (h : x ≠ []) :
    (nmInit sort pb x).simplex ≠ [] := by
  intro h1
  have := (hsort (x.map fun p => (pb.cost p, p))).1.length_eq
  simp only [nmInit] at h1
  rw [h1] at this
  simp only [List.length_nil, List.length_map] at this
  exact h (List.length_eq_zero_iff.1 this.symm)

theorem nmStep_looser (ho : SameNM o o') (hL : Looser clk o.cfg o'.cfg) (s : NMState F P) :
    (∀ t, nmStep o sort centroid pb clk s = .ok (.next t) →
      nmStep o' sort centroid pb clk s = .ok (.next t)) ∧
    ∀ e, (sort s.simplex).head? ≠ none → nmStep o sort centroid pb clk s = .error e →
      nmStep o' sort centroid pb clk s = .error e := by
  have hm : nmMove (P := P) (E := E) o' = nmMove o := by
    funext obj M xbar l
    unfold nmMove nmContract
    rw [ho.reflection, ho.expansion, ho.contraction]
  cases hc : Opt.checkStop o.cfg clk.start (clk.check1 (s.iteration + 1) 0)
    (clk.check2 (s.iteration + 1) 0) (iteration := s.iteration + 1)
    (costEvaluations := s.costEvaluations) with
  | none =>
    have : nmStep o' sort centroid pb clk s = nmStep o sort centroid pb clk s := by
      unfold nmStep
      simp only [hc, hL.checkStop hc, hm]
    rw [this]
    exact ⟨fun _ h => h, fun _ _ h => h⟩
  | some reason =>
    constructor
    · intro t h
      unfold nmStep at h
      simp only [hc] at h
      split at h <;> cases h
    · intro t h0 h
      unfold nmStep at h
      simp only [hc] at h
      split at h
      · rename_i h1
        exact absurd h1 h0
      · cases h

/-- **C164** (Nelder-Mead): the cost is no larger, for sorts by cost and costs that are not NaN. -/
theorem C164_nelderMead (ho : SameNM o o')
    (hL : Looser clk (o.resolve pb.M.dim).cfg (o'.resolve pb.M.dim).cfg) {init : InitArg P}
    {x : List P} (hx : nmSimplex pb.M.dim init = .ok x) (hsort : SortsByCost sort) (hx0 : x ≠ [])
    {a r : Result F P} (h : NMRuns o sort centroid pb clk init (.ok a))
    (h' : NMRuns o' sort centroid pb clk init (.ok r)) :
    Extends a r ∧ a.evals.dropLast <+: r.evals ∧
    ((∀ p, isnan (pb.cost p) = false) → le r.cost a.cost = true) := by
  have h'0 := h'
  unfold NMRuns at h h'
  rw [hx] at h h'
  simp only at h h'
  have ho2 : SameNM (o.resolve pb.M.dim) (o'.resolve pb.M.dim) :=
    ⟨ho.reflection, ho.expansion, ho.contraction⟩
  obtain ⟨s1, hr1, hs1⟩ := runs_extend_inv (fun s : NMState F P => s.simplex ≠ [])
    (fun s t _ => nmStep_nonempty s t) (fun s t _ => (nmStep_looser ho2 hL s).1 t)
    (fun s e h => (nmStep_looser ho2 hL s).2 e (head_sort_ne hsort h))
    (nmInit_nonempty hsort pb hx0) h
  obtain ⟨reason, best, hc, hb, e1⟩ := nmStep_brk hs1
  have hcost : (∀ p, isnan (pb.cost p) = false) → le r.cost a.cost = true := by
    intro hn
    have hbm : best ∈ s1.simplex := (hsort _).1.mem_iff.1 (List.mem_of_head? hb)
    obtain ⟨q1, q2⟩ := (C16_nelderMead hsort hn hx h'0).2.2 s1 hr1 best hbm
    rw [e1]
    simp only
    rw [← q1]
    exact q2
  refine ⟨?_, ?_, hcost⟩ <;> subst e1
  all_goals
    obtain ⟨n, h2⟩ := h'.of_reaches hr1
    cases h2 with
    | brk h3 =>
      obtain ⟨reason', best', hc', hb', e2⟩ := nmStep_brk h3
      rw [hb] at hb'
      cases hb'
      subst e2
      first
      | refine ⟨le_refl _, ?_, fun _ => ⟨rfl, rfl, rfl, rfl, rfl, ?_, rfl⟩⟩
        · rw [initLog_congr hL.logVerbosity]
          exact LogPrefix.refl _
        · exact initLog_congr hL.logVerbosity
      | exact List.dropLast_prefix _
    | next h3 h4 =>
      have stp : ∀ u u' : NMState F P,
          nmStep (o'.resolve pb.M.dim) sort centroid pb clk u = .ok (.next u') →
          u'.iteration = u.iteration + 1 ∧ u.evals <+: u'.evals := by
        intro u u' hu
        obtain ⟨xb, m, -, -, -, rfl⟩ := nmStep_next hu
        exact ⟨rfl, List.prefix_append _ _⟩
      have key := h4.invariant
        (fun u : NMState F P => s1.iteration + 1 ≤ u.iteration ∧ s1.evals <+: u.evals)
        (fun r : Result F P => s1.iteration + 1 < r.iterations ∧
          r.log = initLog (o'.resolve pb.M.dim).cfg ∧ s1.evals <+: r.evals)
        (by
          rintro u u' ⟨k1, k2⟩ hu
          obtain ⟨j1, j2⟩ := stp _ _ hu
          exact ⟨by omega, k2.trans j2⟩)
        (by
          rintro u w ⟨k1, k2⟩ hu
          obtain ⟨reason', best', -, -, rfl⟩ := nmStep_brk hu
          exact ⟨by simp only; omega, rfl, k2.trans (List.prefix_append _ _)⟩)
        (by
          obtain ⟨j1, j2⟩ := stp _ _ h3
          exact ⟨by omega, j2⟩)
      obtain ⟨k1, k2, k3⟩ := key
      first
      | refine ⟨le_of_lt k1, ?_, fun e => absurd e (ne_of_lt k1)⟩
        simp only
        rw [k2, initLog_congr hL.logVerbosity]
        exact LogPrefix.refl _
      | simp only [List.dropLast_concat]
        exact k3

/-- **C164** (Nelder-Mead, exceptions). -/
theorem C164_nelderMead_raises (ho : SameNM o o')
    (hL : Looser clk (o.resolve pb.M.dim).cfg (o'.resolve pb.M.dim).cfg) {init : InitArg P}
    (hx0 : nmSimplex pb.M.dim init ≠ .ok []) (hsort : SortsByCost sort) {e : PyErr}
    (h : NMRuns o sort centroid pb clk init (.error e)) :
    NMRuns o' sort centroid pb clk init (.error e) := by
  unfold NMRuns at h ⊢
  have ho2 : SameNM (o.resolve pb.M.dim) (o'.resolve pb.M.dim) :=
    ⟨ho.reflection, ho.expansion, ho.contraction⟩
  split at h
  · exact h
  · rename_i x hx
    exact runs_extend_inv (fun s : NMState F P => s.simplex ≠ [])
      (fun s t _ => nmStep_nonempty s t) (fun s t _ => (nmStep_looser ho2 hL s).1 t)
      (fun s e h => (nmStep_looser ho2 hL s).2 e (head_sort_ne hsort h))
      (nmInit_nonempty hsort pb (fun e => hx0 (by rw [hx, e]))) h

end

end

/-! ## Numbers -/

section
variable {K : Type*} [NumField K]

/-- A larger `max_time` is a later deadline, if the clock is finite at the start. -/
theorem looser_time {start a b now : Num K} {q : K} (hs : start.v = .fin q)
    (hab : le a b = true) (h : le (add start b) now = true) : le (add start a) now = true := by
  obtain ⟨n0, v0⟩ := start
  obtain ⟨n1, va⟩ := a
  obtain ⟨n2, vb⟩ := b
  obtain ⟨n3, vn⟩ := now
  simp only at hs
  subst hs
  simp only [PyNum.le, PyNum.add] at hab h ⊢
  rcases va with _ | _ | _ | va <;> rcases vb with _ | _ | _ | vb <;>
    rcases vn with _ | _ | _ | vn <;> simp_all [XF.le, XF.add]
  linarith

/-- **C164** (trust regions, costs): without regularisation of the ratio the run with the looser
limits returns the same or a smaller cost.  With the regularisation this is false, see
`C164_negation_trustRegions`. -/
theorem C164_trustRegions_cost_partial {cfg cfg' : Cfg (Num K)} {c : TRCfg (Num K)}
    {pb : Prob (Num K) P E} {clk : Clock (Num K)} {eta0 : ℤ → E} {mininner : ℤ}
    (hL : Looser clk cfg cfg') (hrp : le (lit 0) c.rhoPrime = true)
    (hrr : c.rhoRegularization.v = .fin 0) {mi : Option ℤ} {td D D0 : Option (Num K)} {x : P}
    {a r : Result (Num K) P} {hist hist' : List (P × Num K × Num K)}
    (h : TRRuns cfg c pb clk eta0 mininner mi td D D0 x (.ok (a, hist)))
    (h' : TRRuns cfg' c pb clk eta0 mininner mi td D D0 x (.ok (r, hist'))) :
    r.cost = a.cost ∨ lt r.cost a.cost = true := by
  by_cases hit : a.iterations = r.iterations
  · exact .inl ((C164_trustRegions hL h h').1.same hit).2.1
  unfold TRRuns at h h'
  split at h
  · cases h
  rename_i Db D1 hrad
  rw [hrad] at h'
  simp only at h'
  obtain ⟨s1, hr1, hs1⟩ := runs_extend (fun s => (trStep_looser hL s).1)
    (fun s => (trStep_looser hL s).2.1) h
  obtain ⟨n, h2⟩ := h'.of_reaches hr1
  have low : ∀ (u : TRState (Num K) P E) v,
      trStep cfg' c pb clk eta0 mininner (mi.getD pb.M.dim) Db u = .ok v →
      (u.fx = a.cost ∨ lt u.fx a.cost = true) →
      (TRNow v).2 = a.cost ∨ lt (TRNow v).2 a.cost = true := by
    intro u v hst hu
    rcases C24_step_decreases hrp hrr hst with h1 | h1
    · rw [h1]
      exact hu
    · rcases hu with hu | hu
      · rw [hu] at h1
        exact .inr h1
      · exact .inr (LawfulPyNum.lt_trans _ _ _ h1 hu)
  cases h2 with
  | brk h3 =>
    obtain ⟨o, eta, Heta, rho, md, Delta, e1, e2, e3, e4, ⟨-, e5⟩ | ⟨_, -, e5⟩⟩ := trStep_inv hs1
    · cases e5
    obtain ⟨o', eta', Heta', rho', md', Delta', f1, f2, f3, f4, ⟨-, f5⟩ | ⟨_, -, f5⟩⟩ :=
      trStep_inv h3
    · cases f5
    cases e5
    cases f5
    exact absurd rfl hit
  | @next _ t _ _ h3 h4 =>
    obtain ⟨-, -, g3, -, -⟩ := (trStep_looser hL s1).2.2 _ _ hs1 h3
    exact h4.invariant
      (fun u : TRState (Num K) P E => u.fx = a.cost ∨ lt u.fx a.cost = true)
      (fun r : Result (Num K) P × List (P × Num K × Num K) =>
        r.1.cost = a.cost ∨ lt r.1.cost a.cost = true)
      (fun u u' hu hst => low u _ hst hu) (fun u w hu hst => low u _ hst hu) (.inl g3)

end

/-! ## Concrete cases -/

/-- `f(x) = x ** 2`, and a million where that is not a number. -/
def safeSquareProb : Prob Q Q Q :=
  lineProb (fun x => match x.v with
      | .fin q => .npy (q * q)
      | _ => .npy 1000000) (fun x => mul (lit 2) x) (fun _ => .npy 2)

theorem safeSquareProb_defined (p : Q) : isnan (safeSquareProb.cost p) = false := by
  obtain ⟨_, p⟩ := p
  cases p <;> rfl

/-- One iteration with a log. -/
def loggedOnce : Cfg Q := { defaultCfg with maxIterations := 1, logVerbosity := 1 }

/-- Four iterations with a log. -/
def loggedLonger : Cfg Q :=
  { defaultCfg with maxIterations := 4, logVerbosity := 1, minGradientNorm := .py 0 }

/-- `C164_steepestDescent` and `C164_steepestDescent_raises`: one iteration and four iterations
of steepest descent with the adaptive line search from 5; the second run ends lower. -/
example : Looser stillClock loggedOnce
      loggedLonger ∧
    ∃ a m r m', SDRuns loggedOnce
        (adaptive Q Q defaultAdaptive) safeSquareProb stillClock (.npy 5) none (.ok (a, m)) ∧
      SDRuns loggedLonger
        (adaptive Q Q defaultAdaptive) safeSquareProb stillClock (.npy 5) none (.ok (r, m')) ∧
      lt r.cost a.cost = true ∧ a.iterations < r.iterations ∧ LogPrefix a.log r.log := by
  have hL : Looser stillClock loggedOnce
      loggedLonger :=
    ⟨fun _ _ h => h, by decide, by decide +kernel, by decide +kernel, by decide, rfl, rfl⟩
  refine ⟨hL, ?_⟩
  have h : (match runFuel (sdStep loggedOnce
        (adaptive Q Q defaultAdaptive) safeSquareProb stillClock) 6
        (sdInit loggedOnce (.npy 5) none),
      runFuel (sdStep loggedLonger (adaptive Q Q defaultAdaptive) safeSquareProb stillClock) 6
        (sdInit loggedLonger (.npy 5) none) with
      | some (.ok a), some (.ok r) => lt r.1.cost a.1.cost &&
        decide (a.1.iterations < r.1.iterations)
      | _, _ => false) = true := by decide +kernel
  split at h
  · rename_i a r h1 h2
    simp only [Bool.and_eq_true, decide_eq_true_eq] at h
    have q1 := sdRuns_of_runFuel 6 rfl h1
    have q2 := sdRuns_of_runFuel 6 rfl h2
    exact ⟨a.1, a.2, r.1, r.2, q1, q2, h.1, h.2, (C164_steepestDescent hL q1 q2).1.log⟩
  · cases h

/-- `C164_conjugateGradient`: the same for conjugate gradient with one and three iterations. -/
example : Looser stillClock { defaultCfg with maxIterations := 1 }
      { defaultCfg with maxIterations := 3 } ∧
    ∃ a m t r m' t', CGRuns { defaultCfg with maxIterations := 1 } .polakRibiere inf
        (adaptive Q Q { defaultAdaptive with initialStepSize := .py 9 }) safeSquareProb
        stillClock (.npy 5) none (.ok (a, m, t)) ∧
      CGRuns { defaultCfg with maxIterations := 3 } .polakRibiere inf
        (adaptive Q Q { defaultAdaptive with initialStepSize := .py 9 }) safeSquareProb
        stillClock (.npy 5) none (.ok (r, m', t')) ∧
      lt r.cost a.cost = true ∧ a.iterations < r.iterations ∧ t <+: t' := by
  have hL : Looser stillClock { defaultCfg with maxIterations := 1 }
      { defaultCfg with maxIterations := 3 } :=
    ⟨fun _ _ h => h, by decide, by decide +kernel, by decide +kernel, by decide, rfl, rfl⟩
  refine ⟨hL, ?_⟩
  have h : (match runFuel (cgStep { defaultCfg with maxIterations := 1 } .polakRibiere inf
        (adaptive Q Q { defaultAdaptive with initialStepSize := .py 9 }) safeSquareProb
        stillClock) 9 (cgInit { defaultCfg with maxIterations := 1 } safeSquareProb
          (.npy 5) none),
      runFuel (cgStep { defaultCfg with maxIterations := 3 } .polakRibiere inf
        (adaptive Q Q { defaultAdaptive with initialStepSize := .py 9 }) safeSquareProb
        stillClock) 9 (cgInit { defaultCfg with maxIterations := 3 } safeSquareProb
          (.npy 5) none) with
      | some (.ok a), some (.ok r) => lt r.1.cost a.1.cost &&
        decide (a.1.iterations < r.1.iterations)
      | _, _ => false) = true := by decide +kernel
  split at h
  · rename_i a r h1 h2
    simp only [Bool.and_eq_true, decide_eq_true_eq] at h
    have q1 := cgRuns_of_runFuel 9 rfl h1
    have q2 := cgRuns_of_runFuel 9 rfl h2
    exact ⟨a.1, a.2.1, a.2.2, r.1, r.2.1, r.2.2, q1, q2, h.1, h.2,
      (C164_conjugateGradient hL q1 q2).2.2.1⟩
  · cases h

/-- The radii of the runs below. -/
theorem trRadii_line (D0 : Q) (hD : D0 = .py (1 / 4) ∨ D0 = .py (3 / 400)) :
    trRadii 1 (some (.py 1)) none (some D0) = .ok (.py 1, D0) := by
  have hc : (match trRadii 1 (some (.py 1)) none (some D0) with
    | .ok (a, b) => decide (a = .py 1 ∧ b = D0)
    | _ => false) = true := by
    rcases hD with rfl | rfl <;> decide +kernel
  split at hc
  · rename_i a b hab
    obtain ⟨rfl, rfl⟩ := of_decide_eq_true hc
    exact hab
  · cases hc

/-- `C164_trustRegions_cost_partial`: one and three iterations without regularisation of the
ratio. -/
example : Looser stillClock { defaultCfg with maxIterations := 1 }
      { defaultCfg with maxIterations := 3 } ∧
    ∃ a hist r hist', TRRuns { defaultCfg with maxIterations := 1 }
        { defaultTR with rhoRegularization := .py 0 } squareProb stillClock (fun _ => .npy 0) 1
        none (some (.py 1)) none (some (.py (1 / 4))) (.npy 5) (.ok (a, hist)) ∧
      TRRuns { defaultCfg with maxIterations := 3 }
        { defaultTR with rhoRegularization := .py 0 } squareProb stillClock (fun _ => .npy 0) 1
        none (some (.py 1)) none (some (.py (1 / 4))) (.npy 5) (.ok (r, hist')) ∧
      lt r.cost a.cost = true ∧ hist <+: hist' := by
  have hL : Looser stillClock { defaultCfg with maxIterations := 1 }
      { defaultCfg with maxIterations := 3 } :=
    ⟨fun _ _ h => h, by decide, by decide +kernel, by decide +kernel, by decide, rfl, rfl⟩
  refine ⟨hL, ?_⟩
  have h : (match runFuel (trStep { defaultCfg with maxIterations := 1 }
        { defaultTR with rhoRegularization := .py 0 } squareProb stillClock (fun _ => .npy 0) 1 1
        (.py 1)) 5 (trInit squareProb (.npy 5) (.py (1 / 4))),
      runFuel (trStep { defaultCfg with maxIterations := 3 }
        { defaultTR with rhoRegularization := .py 0 } squareProb stillClock (fun _ => .npy 0) 1 1
        (.py 1)) 5 (trInit squareProb (.npy 5) (.py (1 / 4))) with
      | some (.ok a), some (.ok r) => lt r.1.cost a.1.cost
      | _, _ => false) = true := by decide +kernel
  split at h
  · rename_i a r h1 h2
    have q1 : TRRuns { defaultCfg with maxIterations := 1 }
        { defaultTR with rhoRegularization := .py 0 } squareProb stillClock (fun _ => .npy 0) 1
        none (some (.py 1)) none (some (.py (1 / 4))) (.npy 5) (.ok a) := by
      unfold TRRuns
      rw [show squareProb.M.dim = 1 from rfl, trRadii_line _ (.inl rfl)]
      exact runs_of_runFuel h1
    have q2 : TRRuns { defaultCfg with maxIterations := 3 }
        { defaultTR with rhoRegularization := .py 0 } squareProb stillClock (fun _ => .npy 0) 1
        none (some (.py 1)) none (some (.py (1 / 4))) (.npy 5) (.ok r) := by
      unfold TRRuns
      rw [show squareProb.M.dim = 1 from rfl, trRadii_line _ (.inl rfl)]
      exact runs_of_runFuel h2
    exact ⟨a.1, a.2, r.1, r.2, q1, q2, h, (C164_trustRegions hL q1 q2).2.2⟩
  · cases h

/-- **C164** is false for trust regions with the default regularisation of the ratio: on the
polynomial of C25 a run of two iterations from `-11/2000` returns a larger cost than a run of one
iteration. -/
theorem C164_negation_trustRegions : ∃ cfg cfg' : Cfg Q, Looser stillClock cfg cfg' ∧
    ∃ a hist r hist', TRRuns cfg defaultTR flatProb stillClock (fun _ => .npy 0) 1 none
        (some (.py 1)) none (some (.py (3 / 400))) (.npy (-11 / 2000)) (.ok (a, hist)) ∧
      TRRuns cfg' defaultTR flatProb stillClock (fun _ => .npy 0) 1 none (some (.py 1)) none
        (some (.py (3 / 400))) (.npy (-11 / 2000)) (.ok (r, hist')) ∧
      lt a.cost r.cost = true := by
  refine ⟨{ defaultCfg with maxIterations := 1, minGradientNorm := .py 0 },
    { defaultCfg with maxIterations := 2, minGradientNorm := .py 0 },
    ⟨fun _ _ h => h, by decide, by decide +kernel, by decide +kernel, by decide, rfl, rfl⟩, ?_⟩
  have h : (match runFuel (trStep { defaultCfg with maxIterations := 1, minGradientNorm := .py 0 }
        defaultTR flatProb stillClock (fun _ => .npy 0) 1 1 (.py 1)) 5
        (trInit flatProb (.npy (-11 / 2000)) (.py (3 / 400))),
      runFuel (trStep { defaultCfg with maxIterations := 2, minGradientNorm := .py 0 }
        defaultTR flatProb stillClock (fun _ => .npy 0) 1 1 (.py 1)) 5
        (trInit flatProb (.npy (-11 / 2000)) (.py (3 / 400))) with
      | some (.ok a), some (.ok r) => lt a.1.cost r.1.cost
      | _, _ => false) = true := by decide +kernel
  split at h
  · rename_i a r h1 h2
    refine ⟨a.1, a.2, r.1, r.2, ?_, ?_, h⟩ <;> unfold TRRuns <;>
      rw [show flatProb.M.dim = 1 from rfl, trRadii_line _ (.inr rfl)]
    · exact runs_of_runFuel h1
    · exact runs_of_runFuel h2
  · cases h

/-- `C164_particleSwarm_partial`: two and four evaluations of the cost. -/
example : ∃ o o' : PSOObj Q, SamePSO o o' ∧
    Looser stillClock (o.resolve 1).cfg (o'.resolve 1).cfg ∧
    ∃ a fin pos r fin' pos',
      PSORuns o oneRand squareProb stillClock (.list [.npy 3]) (.ok (a, fin, pos)) ∧
      PSORuns o' oneRand squareProb stillClock (.list [.npy 3]) (.ok (r, fin', pos')) ∧
      lt r.cost a.cost = true ∧ pos <+: pos' := by
  have hs : SamePSO { oneParticle with maxIterations := some 5, maxCostEvaluations := some 2 }
      { oneParticle with maxIterations := some 5, maxCostEvaluations := some 4 } :=
    ⟨rfl, rfl, rfl, rfl⟩
  have hL : Looser stillClock (PSOObj.resolve { oneParticle with
        maxIterations := some 5, maxCostEvaluations := some 2 } 1).cfg
      (PSOObj.resolve { oneParticle with
        maxIterations := some 5, maxCostEvaluations := some 4 } 1).cfg :=
    ⟨fun _ _ h => h, by decide, by decide +kernel, by decide +kernel, by decide, rfl, rfl⟩
  refine ⟨_, _, hs, hL, ?_⟩
  have h : (match runFuel (psoStep { (PSOObj.resolve { oneParticle with
          maxIterations := some 5, maxCostEvaluations := some 2 } 1) with
          populationSize := some 1 } false oneRand squareProb stillClock) 8
        (psoInit { (PSOObj.resolve { oneParticle with
          maxIterations := some 5, maxCostEvaluations := some 2 } 1) with
          populationSize := some 1 } oneRand squareProb (.npy 3) []),
      runFuel (psoStep { (PSOObj.resolve { oneParticle with
          maxIterations := some 5, maxCostEvaluations := some 4 } 1) with
          populationSize := some 1 } false oneRand squareProb stillClock) 8
        (psoInit { (PSOObj.resolve { oneParticle with
          maxIterations := some 5, maxCostEvaluations := some 4 } 1) with
          populationSize := some 1 } oneRand squareProb (.npy 3) []) with
      | some (.ok a), some (.ok r) => lt r.1.cost a.1.cost
      | _, _ => false) = true := by decide +kernel
  split at h
  · rename_i a r h1 h2
    have q1 : PSORuns { oneParticle with maxIterations := some 5, maxCostEvaluations := some 2 }
      oneRand squareProb stillClock (.list [.npy 3]) (.ok a) := runs_of_runFuel h1
    have q2 : PSORuns { oneParticle with maxIterations := some 5, maxCostEvaluations := some 4 }
      oneRand squareProb stillClock (.list [.npy 3]) (.ok r) := runs_of_runFuel h2
    exact ⟨a.1, a.2.1, a.2.2, r.1, r.2.1, r.2.2, q1, q2, h,
      (C164_particleSwarm_partial hs hL q1 q2).2.2.1⟩
  · cases h

/-- The cost is 0 at `34/15` and 1 elsewhere. -/
def needleProb : Prob Q Q Q :=
  lineProb (fun x => if x = .npy (34 / 15) then .npy 0 else .npy 1) (fun _ => .npy 0)
    (fun _ => .npy 0)

/-- **C164** is false for particle swarm with a larger `max_iterations`: the inertia of the
particles depends on that limit, so that the particle passes through other points. -/
theorem C164_negation_particleSwarm : ∃ o o' : PSOObj Q,
    o' = { o with maxIterations := some 4 } ∧
    Looser stillClock (o.resolve 1).cfg (o'.resolve 1).cfg ∧
    ∃ a fin pos r fin' pos',
      PSORuns o oneRand needleProb stillClock (.list [.npy 3]) (.ok (a, fin, pos)) ∧
      PSORuns o' oneRand needleProb stillClock (.list [.npy 3]) (.ok (r, fin', pos')) ∧
      lt a.cost r.cost = true ∧ ¬ pos <+: pos' := by
  refine ⟨{ oneParticle with maxIterations := some 3 }, _, rfl,
    ⟨fun _ _ h => h, by decide, by decide +kernel, by decide +kernel, by decide, rfl, rfl⟩, ?_⟩
  have h : (match runFuel (psoStep { (PSOObj.resolve { oneParticle with
          maxIterations := some 3 } 1) with
          populationSize := some 1 } false oneRand needleProb stillClock) 8
        (psoInit { (PSOObj.resolve { oneParticle with maxIterations := some 3 } 1) with
          populationSize := some 1 } oneRand needleProb (.npy 3) []),
      runFuel (psoStep { (PSOObj.resolve { oneParticle with
          maxIterations := some 4 } 1) with
          populationSize := some 1 } false oneRand needleProb stillClock) 8
        (psoInit { (PSOObj.resolve { oneParticle with maxIterations := some 4 } 1) with
          populationSize := some 1 } oneRand needleProb (.npy 3) []) with
      | some (.ok a), some (.ok r) => lt a.1.cost r.1.cost && !decide (a.2.2 <+: r.2.2)
      | _, _ => false) = true := by decide +kernel
  split at h
  · rename_i a r h1 h2
    simp only [Bool.and_eq_true, Bool.not_eq_true', decide_eq_false_iff_not] at h
    have q1 : PSORuns { oneParticle with maxIterations := some 3 }
      oneRand needleProb stillClock (.list [.npy 3]) (.ok a) := runs_of_runFuel h1
    have q2 : PSORuns { oneParticle with maxIterations := some 4 }
      oneRand needleProb stillClock (.list [.npy 3]) (.ok r) := runs_of_runFuel h2
    exact ⟨a.1, a.2.1, a.2.2, r.1, r.2.1, r.2.2, q1, q2, h.1, h.2⟩
  · cases h

theorem nanLastSort_byCost : SortsByCost nanLastSort := by
  intro l
  refine ⟨(nanLastSort_sorts l).1, fun hn => ?_⟩
  have hm : ∀ v ∈ nanLastSort l, isnan v.1 = false :=
    fun v hv => hn v ((nanLastSort_sorts l).1.mem_iff.1 hv)
  refine (nanLastSort_sorts l).2.imp_of_mem fun {a b} ha hb h => ?_
  have := hm b hb
  simpa [this] using h

/-- `C164_nelderMead`: one and three iterations from three points. -/
example : ∃ (o o' : NMObj Q) (centroid : ℤ → List Q → Except PyErr Q), SameNM o o' ∧
    Looser stillClock (o.resolve 1).cfg (o'.resolve 1).cfg ∧
    ∃ a r, NMRuns o nanLastSort centroid safeSquareProb stillClock
        (.list [.npy 4, .npy 3, .npy 2]) (.ok a) ∧
      NMRuns o' nanLastSort centroid safeSquareProb stillClock
        (.list [.npy 4, .npy 3, .npy 2]) (.ok r) ∧ lt r.cost a.cost = true ∧
      a.evals.dropLast <+: r.evals := by
  have hs : SameNM (F := Q)
      ⟨.py 1000, .py 0, .py 0, 0, 0, none, some 1, .py 1, .py 2, .py (1 / 2)⟩
      ⟨.py 1000, .py 0, .py 0, 0, 0, none, some 3, .py 1, .py 2, .py (1 / 2)⟩ := ⟨rfl, rfl, rfl⟩
  have hL : Looser stillClock
      (NMObj.resolve ⟨.py 1000, .py 0, .py 0, 0, 0, none, some 1, .py 1, .py 2, .py (1 / 2)⟩ 1).cfg
      (NMObj.resolve ⟨.py 1000, .py 0, .py 0, 0, 0, none, some 3, .py 1, .py 2,
        .py (1 / 2)⟩ 1).cfg :=
    ⟨fun _ _ h => h, by decide, by decide +kernel, by decide +kernel, by decide, rfl, rfl⟩
  refine ⟨_, _, fun _ _ => .ok (.npy (5 / 2)), hs, hL, ?_⟩
  have h : (match runFuel (nmStep (NMObj.resolve ⟨.py 1000, .py 0, .py 0, 0, 0, none, some 1,
        .py 1, .py 2, .py (1 / 2)⟩ 1) nanLastSort (fun _ _ => .ok (.npy (5 / 2))) safeSquareProb
        stillClock) 6 (nmInit nanLastSort safeSquareProb [.npy 4, .npy 3, .npy 2]),
      runFuel (nmStep (NMObj.resolve ⟨.py 1000, .py 0, .py 0, 0, 0, none, some 3,
        .py 1, .py 2, .py (1 / 2)⟩ 1) nanLastSort (fun _ _ => .ok (.npy (5 / 2))) safeSquareProb
        stillClock) 6 (nmInit nanLastSort safeSquareProb [.npy 4, .npy 3, .npy 2]) with
      | some (.ok a), some (.ok r) => lt r.cost a.cost
      | _, _ => false) = true := by decide +kernel
  split at h
  · rename_i a r h1 h2
    have q1 : NMRuns ⟨.py 1000, .py 0, .py 0, 0, 0, none, some 1, .py 1, .py 2, .py (1 / 2)⟩
      nanLastSort (fun _ _ => .ok (.npy (5 / 2))) safeSquareProb stillClock
      (.list [.npy 4, .npy 3, .npy 2]) (.ok a) := runs_of_runFuel h1
    have q2 : NMRuns ⟨.py 1000, .py 0, .py 0, 0, 0, none, some 3, .py 1, .py 2, .py (1 / 2)⟩
      nanLastSort (fun _ _ => .ok (.npy (5 / 2))) safeSquareProb stillClock
      (.list [.npy 4, .npy 3, .npy 2]) (.ok r) := runs_of_runFuel h2
    exact ⟨a, r, q1, q2, h, (C164_nelderMead hs hL (x := [.npy 4, .npy 3, .npy 2]) rfl
      nanLastSort_byCost (by simp) q1 q2).2.1⟩
  · cases h

/-- The theorems about exceptions: conjugate gradient divides by zero after the step from 5 to the
minimum; `ParticleSwarm` fails on a tuple; `NelderMead` raises what the centroid raises. -/
example : CGRuns { defaultCfg with maxIterations := 9, minGradientNorm := .py 0 } .polakRibiere inf
      (adaptive Q Q { defaultAdaptive with initialStepSize := .py 5 }) squareProb
      stillClock (.npy 5) none (.error .zeroDivision) := by
  have hL : Looser stillClock { defaultCfg with maxIterations := 5, minGradientNorm := .py 0 }
      { defaultCfg with maxIterations := 9, minGradientNorm := .py 0 } :=
    ⟨fun _ _ h => h, by decide, by decide +kernel, by decide +kernel, by decide, rfl, rfl⟩
  refine C164_conjugateGradient_raises hL (by decide) ?_
  obtain ⟨r, hr, he⟩ := exists_of_checkFuel (n := 6) (p := isError .zeroDivision)
    (step := cgStep { defaultCfg with maxIterations := 5, minGradientNorm := .py 0 }
      .polakRibiere inf (adaptive Q Q { defaultAdaptive with initialStepSize := .py 5 })
      squareProb stillClock)
    (s := cgInit { defaultCfg with maxIterations := 5, minGradientNorm := .py 0 } squareProb
      (.npy 5) none) (by decide +kernel)
  rw [eq_of_isError he] at hr
  exact hr

example : PSORuns { oneParticle with maxCostEvaluations := some 9000 } oneRand squareProb
    stillClock (.tuple [.npy 3]) (.error .typeError) := by
  have hL : Looser stillClock (oneParticle.resolve 1).cfg
      (PSOObj.resolve { oneParticle with maxCostEvaluations := some 9000 } 1).cfg :=
    ⟨fun _ _ h => h, by decide, by decide +kernel, by decide +kernel, by decide, rfl, rfl⟩
  have hs : SamePSO oneParticle { oneParticle with maxCostEvaluations := some 9000 } :=
    ⟨rfl, rfl, rfl, rfl⟩
  refine C164_particleSwarm_raises_partial (pb := squareProb) hs hL (by decide) ?_
  obtain ⟨r, hr, he⟩ := exists_of_checkFuel (n := 3) (p := isError .typeError)
    (step := psoStep { oneParticle.resolve 1 with populationSize := some 1 } true oneRand
      squareProb stillClock)
    (s := psoInit { oneParticle.resolve 1 with populationSize := some 1 } oneRand squareProb
      (.npy 3) []) (by decide +kernel)
  rw [eq_of_isError he] at hr
  exact hr

example : NMRuns ⟨.py 1000, .py 0, .py 0, 0, 0, none, some 3, .py 1, .py 2, .py (1 / 2)⟩
    nanLastSort (fun _ _ => .error .notImplemented) safeSquareProb stillClock
    (.list [.npy 4, .npy 3, .npy 2]) (.error .notImplemented) := by
  have hL : Looser stillClock
      (NMObj.resolve ⟨.py 1000, .py 0, .py 0, 0, 0, none, some 2, .py 1, .py 2, .py (1 / 2)⟩ 1).cfg
      (NMObj.resolve ⟨.py 1000, .py 0, .py 0, 0, 0, none, some 3, .py 1, .py 2,
        .py (1 / 2)⟩ 1).cfg :=
    ⟨fun _ _ h => h, by decide, by decide +kernel, by decide +kernel, by decide, rfl, rfl⟩
  have hs : SameNM (F := Q)
      ⟨.py 1000, .py 0, .py 0, 0, 0, none, some 2, .py 1, .py 2, .py (1 / 2)⟩
      ⟨.py 1000, .py 0, .py 0, 0, 0, none, some 3, .py 1, .py 2, .py (1 / 2)⟩ := ⟨rfl, rfl, rfl⟩
  have hx : nmSimplex safeSquareProb.M.dim (.list [.npy 4, .npy 3, .npy 2] : InitArg Q) ≠ .ok [] := by
    intro h
    cases h
  refine C164_nelderMead_raises (pb := safeSquareProb) hs hL hx nanLastSort_byCost ?_
  obtain ⟨r, hr, he⟩ := exists_of_checkFuel (n := 3) (p := isError .notImplemented)
    (step := nmStep (NMObj.resolve ⟨.py 1000, .py 0, .py 0, 0, 0, none, some 2, .py 1, .py 2,
      .py (1 / 2)⟩ 1) nanLastSort (fun _ _ => .error .notImplemented) safeSquareProb stillClock)
    (s := nmInit nanLastSort safeSquareProb [.npy 4, .npy 3, .npy 2]) (by decide +kernel)
  rw [eq_of_isError he] at hr
  exact hr

/-- `looser_time`: the deadlines of the same clock for 10 and 20 seconds. -/
example : (Num.py 5 : Q).v = .fin 5 ∧ le (Num.py 10 : Q) (.py 20) = true ∧
    le (add (Num.py 5 : Q) (.py 20)) (.py 30) = true := by
  refine ⟨rfl, ?_⟩
  decide +kernel

end Verif.Opt
