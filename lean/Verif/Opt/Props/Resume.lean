/-
C162: a run of steepest descent can be interrupted and resumed; runs of conjugate gradient and trust
regions cannot.
-/
import Verif.Opt.Props.Stop
import Verif.Opt.Props.CostUnitsCases
import Verif.Opt.Witness
import Mathlib.Tactic.Ring
import Mathlib.Tactic.Linarith

namespace Verif.Opt
open PyNum

variable {F P E S : Type*} [PyNum F]

/-! ## Specification -/

/-- The time limit is never reached. -/
def NoTimeLimit (cfg : Cfg F) (clk : Clock F) : Prop :=
  ∀ k, le (add clk.start cfg.maxTime) (clk.check2 k 0) = false

/-- The same settings with another number of iterations. -/
def Cfg.upTo (cfg : Cfg F) (n : ℤ) : Cfg F := { cfg with maxIterations := n }

/-- The same stopping criterion. -/
def SameCriterion : StopReason F → StopReason F → Prop
  | .maxTime _, .maxTime _ => True
  | .maxIterations _, .maxIterations _ => True
  | .minGradNorm _ _, .minGradNorm _ _ => True
  | .minStepSize _ _, .minStepSize _ _ => True
  | .maxCostEvals _, .maxCostEvals _ => True
  | _, _ => False

/-- A log entry without its time, with the iterations counted from `-k`. -/
def LogEntry.timeless (k : ℤ) (e : LogEntry F P) : ℤ × P × F × F :=
  (e.iteration + k, e.point, e.cost, e.gradientNorm)

/-- The log `a` is `b` followed by `c`, where the iterations of `c` are counted from `-k`; or
there are no logs. -/
def LogJoin (k : ℤ) : Option (List (LogEntry F P)) → Option (List (LogEntry F P)) →
    Option (List (LogEntry F P)) → Prop
  | none, none, none => True
  | some a, some b, some c =>
    a.map (LogEntry.timeless 0) = b.map (LogEntry.timeless 0) ++ c.map (LogEntry.timeless k)
  | _, _, _ => False

/-- The logs agree up to their times. -/
def LogSame (a b : Option (List (LogEntry F P))) : Prop :=
  a.map (List.map (LogEntry.timeless 0)) = b.map (List.map (LogEntry.timeless 0))

/-- The run with result `r` is the one with result `a`, of `k` iterations, followed by the one with
result `b`. -/
structure Joined (k : ℤ) (r a b : Result F P) : Prop where
  first : a.iterations = k
  point : b.point = r.point
  cost : b.cost = r.cost
  iterations : r.iterations = k + b.iterations
  criterion : SameCriterion r.stop b.stop
  stepSize : b.stepSize = r.stepSize
  gradientNorm : b.gradientNorm = r.gradientNorm
  log : LogJoin k r.log a.log b.log
  evals : r.evals = a.evals.dropLast ++ b.evals

/-- The same outcome, except for times and the reason to stop, which is the same unless the run with
up to `k` iterations ended because of them. -/
def SameOutcome (k : ℤ) : Except PyErr (Result F P × S) → Except PyErr (Result F P × S) → Prop
  | .ok (r, m), .ok (a, m') => m = m' ∧ a.point = r.point ∧ a.cost = r.cost ∧
      a.iterations = r.iterations ∧ a.stepSize = r.stepSize ∧ a.gradientNorm = r.gradientNorm ∧
      a.evals = r.evals ∧ LogSame r.log a.log ∧ r.iterations ≤ k ∧
      (if r.iterations = k then ∃ t, a.stop = .maxIterations t else SameCriterion r.stop a.stop)
  | .error e, .error e' => e = e'
  | _, _ => False

/-! ## Lemmas -/

/-- What the criteria other than time and iterations say. -/
def restStop (cfg : Cfg F) (iteration : ℤ) (rt g st : F) : Option (StopReason F) :=
  if lt g cfg.minGradientNorm then some (.minGradNorm iteration rt)
  else if lt st cfg.minStepSize then some (.minStepSize iteration rt)
  else if (-1 : ℤ) ≥ cfg.maxCostEvaluations then some (.maxCostEvals rt)
  else none

theorem checkStop_untimed {cfg : Cfg F} {clk : Clock F} (h : NoTimeLimit cfg clk) (k : ℤ)
    (n1 g st : F) :
    checkStop cfg clk.start n1 (clk.check2 k 0) (gradientNorm := some g) (iteration := k)
      (stepSize := some st) =
      if k ≥ cfg.maxIterations then some (.maxIterations (sub n1 clk.start))
      else restStop cfg k (sub n1 clk.start) g st := by
  simp [checkStop, h k, restStop]

theorem restStop_kind (cfg : Cfg F) (n i j : ℤ) (a b g st : F) :
    (restStop cfg i a g st = none ∧ restStop (cfg.upTo n) j b g st = none) ∨
    ∃ r r', restStop cfg i a g st = some r ∧ restStop (cfg.upTo n) j b g st = some r' ∧
      SameCriterion r r' := by
  unfold restStop Cfg.upTo
  by_cases h1 : lt g cfg.minGradientNorm = true
  · exact .inr ⟨_, _, if_pos h1, if_pos h1, trivial⟩
  · by_cases h2 : lt st cfg.minStepSize = true
    · simp only [h1, h2]
      exact .inr ⟨_, _, rfl, rfl, trivial⟩
    · by_cases h3 : (-1 : ℤ) ≥ cfg.maxCostEvaluations
      · simp only [h1, h2, h3]
        exact .inr ⟨_, _, rfl, rfl, trivial⟩
      · simp only [h1, h2, h3]
        exact .inl ⟨rfl, rfl⟩

omit [PyNum F] in
theorem logJoin_add {cfg : Cfg F} {n k : ℤ} {L a b : Option (List (LogEntry F P))}
    (h : LogJoin k a L b) {e e' : LogEntry F P} (he : e.timeless 0 = e'.timeless k) :
    LogJoin k (addLog cfg a e) L (addLog (cfg.upTo n) b e') := by
  unfold addLog Cfg.upTo
  simp only
  split
  · exact h
  · rcases a with _ | a <;> rcases L with _ | L <;> rcases b with _ | b <;>
      first | trivial | exact h.elim | skip
    simp only [LogJoin, Option.map_some, List.map_append, List.map_cons, List.map_nil] at h ⊢
    rw [h, he, List.append_assoc]

/-- The state of the long run when the resumed one is in state `t'`. -/
structure After (k : ℤ) (L : Option (List (LogEntry F P))) (V : List P) (t t' : SDState F P S) :
    Prop where
  iteration : t.iteration = k + t'.iteration
  x : t.x = t'.x
  mem : t.mem = t'.mem
  log : LogJoin k t.log L t'.log
  evals : t.evals = V ++ t'.evals

variable {cfg : Cfg F} {ls : LineSearcher F P E S} {pb : Prob F P E} {clk clk1 clk2 : Clock F}

theorem after_step {k n : ℤ} {L : Option (List (LogEntry F P))} {V : List P}
    (hn : cfg.maxIterations = k + n) (h : NoTimeLimit cfg clk) (h2 : NoTimeLimit cfg clk2)
    {t t' : SDState F P S} (hr : After k L V t t') :
    (∃ e, sdStep cfg ls pb clk t = .error e ∧ sdStep (cfg.upTo n) ls pb clk2 t' = .error e) ∨
    (∃ u u', sdStep cfg ls pb clk t = .ok (.next u) ∧
      sdStep (cfg.upTo n) ls pb clk2 t' = .ok (.next u') ∧ After k L V u u') ∨
    (∃ r r' m, sdStep cfg ls pb clk t = .ok (.brk (r, m)) ∧
      sdStep (cfg.upTo n) ls pb clk2 t' = .ok (.brk (r', m)) ∧ r'.point = r.point ∧
      r'.cost = r.cost ∧ r.iterations = k + r'.iterations ∧ SameCriterion r.stop r'.stop ∧
      r'.stepSize = r.stepSize ∧ r'.gradientNorm = r.gradientNorm ∧ LogJoin k r.log L r'.log ∧
      r.evals = V ++ r'.evals) := by
  obtain ⟨it, x, me, lo, ev⟩ := t
  obtain ⟨it', x', me', lo', ev'⟩ := t'
  obtain ⟨h1, hx, hm, hl, he⟩ := hr
  simp only at h1 hx hm hl he
  subst h1 hx hm he
  unfold sdStep
  simp only
  rcases ls.search me pb.cost pb.M x (pb.M.neg (pb.grad x)) (pb.cost x)
    (neg (pow (pb.M.norm x (pb.grad x)) (lit 2))) with e | o
  · exact .inl ⟨e, rfl, rfl⟩
  · simp only
    have hl' : LogJoin k (addLog cfg lo
        { time := clk.log (k + it' + 1), iteration := k + it' + 1, point := x,
          cost := pb.cost x, gradientNorm := pb.M.norm x (pb.grad x) }) L
        (addLog (cfg.upTo n) lo'
        { time := clk2.log (it' + 1), iteration := it' + 1, point := x, cost := pb.cost x,
          gradientNorm := pb.M.norm x (pb.grad x) }) :=
      logJoin_add hl (by simp [LogEntry.timeless]; ring)
    rw [checkStop_untimed h, checkStop_untimed (cfg := cfg.upTo n) (clk := clk2) h2]
    have hge : k + it' + 1 ≥ cfg.maxIterations ↔ it' + 1 ≥ (cfg.upTo n).maxIterations := by
      rw [hn]
      change _ ↔ it' + 1 ≥ n
      omega
    by_cases hi : k + it' + 1 ≥ cfg.maxIterations
    · rw [if_pos hi, if_pos (hge.1 hi)]
      refine .inr (.inr ⟨_, _, _, rfl, rfl, rfl, rfl, by simp only; ring, trivial, rfl, rfl, hl', ?_⟩)
      simp
    · rw [if_neg hi, if_neg (fun h => hi (hge.2 h))]
      rcases restStop_kind cfg n (k + it' + 1) (it' + 1)
        (sub (clk.check1 (k + it' + 1) 0) clk.start) (sub (clk2.check1 (it' + 1) 0) clk2.start)
        (pb.M.norm x (pb.grad x)) o.stepSize with ⟨e1, e2⟩ | ⟨r, r', e1, e2, e3⟩
      · rw [e1, e2]
        exact .inr (.inl ⟨_, _, rfl, rfl, by simp only; ring, rfl, rfl, hl', by simp⟩)
      · rw [e1, e2]
        refine .inr (.inr ⟨_, _, _, rfl, rfl, rfl, rfl, by simp only; ring, e3, rfl, rfl, hl', ?_⟩)
        simp

theorem after_runs {k n : ℤ} {L : Option (List (LogEntry F P))} {V : List P}
    (hn : cfg.maxIterations = k + n) (h : NoTimeLimit cfg clk) (h2 : NoTimeLimit cfg clk2)
    {c : ℕ} {t : SDState F P S} {res : Except PyErr (Result F P × S)}
    (hrun : RunsIn (sdStep cfg ls pb clk) t c res) :
    ∀ {t' : SDState F P S}, After k L V t t' →
      (∃ e, res = .error e ∧ RunsIn (sdStep (cfg.upTo n) ls pb clk2) t' c (.error e)) ∨
      (∃ r r' m, res = .ok (r, m) ∧
        RunsIn (sdStep (cfg.upTo n) ls pb clk2) t' c (.ok (r', m)) ∧ r'.point = r.point ∧
        r'.cost = r.cost ∧ r.iterations = k + r'.iterations ∧ SameCriterion r.stop r'.stop ∧
        r'.stepSize = r.stepSize ∧ r'.gradientNorm = r.gradientNorm ∧ LogJoin k r.log L r'.log ∧
        r.evals = V ++ r'.evals) := by
  induction hrun with
  | brk hs =>
    intro t' hr
    rcases after_step (ls := ls) (pb := pb) hn h h2 hr with
      ⟨e, e1, e2⟩ | ⟨u, u', e1, e2, e3⟩ | ⟨r, r', m, e1, e2, e3⟩
    · rw [hs] at e1; cases e1
    · rw [hs] at e1; cases e1
    · rw [hs] at e1
      cases e1
      exact .inr ⟨r, r', m, rfl, .brk e2, e3⟩
  | err hs =>
    intro t' hr
    rcases after_step (ls := ls) (pb := pb) hn h h2 hr with
      ⟨e, e1, e2⟩ | ⟨u, u', e1, e2, e3⟩ | ⟨r, r', m, e1, e2, e3⟩
    · rw [hs] at e1
      cases e1
      exact .inl ⟨_, rfl, .err e2⟩
    · rw [hs] at e1; cases e1
    · rw [hs] at e1; cases e1
  | next hs _ ih =>
    intro t' hr
    rcases after_step (ls := ls) (pb := pb) hn h h2 hr with
      ⟨e, e1, e2⟩ | ⟨u, u', e1, e2, e3⟩ | ⟨r, r', m, e1, e2, e3⟩
    · rw [hs] at e1; cases e1
    · rw [hs] at e1
      cases e1
      rcases ih e3 with ⟨e, e4, e5⟩ | ⟨r, r', m, e4, e5, e6⟩
      · exact .inl ⟨e, e4, .next e2 e5⟩
      · exact .inr ⟨r, r', m, e4, .next e2 e5, e6⟩
    · rw [hs] at e1; cases e1

/-- The state of the long run and of its first part. -/
structure First (cfg : Cfg F) (t t' : SDState F P S) : Prop where
  iteration : t.iteration = t'.iteration
  x : t.x = t'.x
  mem : t.mem = t'.mem
  log : LogSame t.log t'.log
  has : t'.log.isSome = decide (1 ≤ cfg.logVerbosity)
  evals : t.evals = t'.evals

omit [PyNum F] in
theorem logSame_add {cfg : Cfg F} {n : ℤ} {a b : Option (List (LogEntry F P))}
    (h : LogSame a b) {e e' : LogEntry F P} (he : e.timeless 0 = e'.timeless 0) :
    LogSame (addLog cfg a e) (addLog (cfg.upTo n) b e') := by
  unfold addLog Cfg.upTo
  simp only
  split
  · exact h
  · rcases a with _ | a <;> rcases b with _ | b <;> first | rfl | cases h | skip
    simp only [LogSame, Option.map_some, List.map_append, List.map_cons, List.map_nil,
      Option.some.injEq] at h ⊢
    rw [h, he]

omit [PyNum F] in
theorem isSome_addLog (cfg : Cfg F) (a : Option (List (LogEntry F P))) (e : LogEntry F P) :
    (addLog cfg a e).isSome = a.isSome := by
  unfold addLog
  split <;> simp

/-- One iteration of the long run and of the first part, from the same state (up to times in
logs). -/
theorem first_step {k : ℤ} (hk : k < cfg.maxIterations) (h : NoTimeLimit cfg clk)
    (h1 : NoTimeLimit cfg clk1) {t t' : SDState F P S} (hr : First cfg t t')
    (hit : t'.iteration < k) :
    (∃ e, sdStep cfg ls pb clk t = .error e ∧ sdStep (cfg.upTo k) ls pb clk1 t' = .error e) ∨
    (∃ u u', sdStep cfg ls pb clk t = .ok (.next u) ∧
      sdStep (cfg.upTo k) ls pb clk1 t' = .ok (.next u') ∧ First cfg u u' ∧ u'.iteration < k) ∨
    (∃ r r' m, sdStep cfg ls pb clk t = .ok (.brk (r, m)) ∧
      sdStep (cfg.upTo k) ls pb clk1 t' = .ok (.brk (r', m)) ∧
      SameOutcome k (.ok (r, m)) (.ok (r', m))) ∨
    (∃ u r' m, sdStep cfg ls pb clk t = .ok (.next u) ∧
      sdStep (cfg.upTo k) ls pb clk1 t' = .ok (.brk (r', m)) ∧ r'.iterations = k ∧
      u.iteration = k ∧ u.x = r'.point ∧ u.mem = m ∧ LogSame u.log r'.log ∧
      r'.log.isSome = decide (1 ≤ cfg.logVerbosity) ∧ u.evals = r'.evals.dropLast) := by
  obtain ⟨it, x, me, lo, ev⟩ := t
  obtain ⟨it', x', me', lo', ev'⟩ := t'
  obtain ⟨h3, hx, hm, hl, hs, he⟩ := hr
  simp only at h3 hx hm hl hs he hit
  subst h3 hx hm he
  unfold sdStep
  simp only
  rcases ls.search me pb.cost pb.M x (pb.M.neg (pb.grad x)) (pb.cost x)
    (neg (pow (pb.M.norm x (pb.grad x)) (lit 2))) with e | o
  · exact .inl ⟨e, rfl, rfl⟩
  · simp only
    have hl' : LogSame (addLog cfg lo
        { time := clk.log (it + 1), iteration := it + 1, point := x,
          cost := pb.cost x, gradientNorm := pb.M.norm x (pb.grad x) })
        (addLog (cfg.upTo k) lo'
        { time := clk1.log (it + 1), iteration := it + 1, point := x, cost := pb.cost x,
          gradientNorm := pb.M.norm x (pb.grad x) }) := logSame_add hl rfl
    have hs' : (addLog (cfg.upTo k) lo'
        { time := clk1.log (it + 1), iteration := it + 1, point := x, cost := pb.cost x,
          gradientNorm := pb.M.norm x (pb.grad x) }).isSome = decide (1 ≤ cfg.logVerbosity) := by
      rw [isSome_addLog, hs]
    rw [checkStop_untimed h, checkStop_untimed (cfg := cfg.upTo k) (clk := clk1) h1]
    have hi : ¬ it + 1 ≥ cfg.maxIterations := by omega
    rw [if_neg hi]
    change (_ ∨ _)
    by_cases hi2 : it + 1 ≥ (cfg.upTo k).maxIterations
    · have hik : it + 1 = k := by
        change it + 1 ≥ k at hi2
        omega
      rw [if_pos hi2]
      rcases hrest : restStop cfg (it + 1) (sub (clk.check1 (it + 1) 0) clk.start)
        (pb.M.norm x (pb.grad x)) o.stepSize with _ | r
      · exact .inr (.inr (.inr ⟨_, _, _, rfl, rfl, hik, hik, rfl, rfl, hl', hs',
          List.dropLast_concat.symm⟩))
      · exact .inr (.inr (.inl ⟨_, _, _, rfl, rfl, rfl, rfl, rfl, rfl, rfl, rfl, rfl, hl', hik.le, by
          rw [if_pos hik]; exact ⟨_, rfl⟩⟩))
    · rw [if_neg hi2]
      have hik : it + 1 < k := by
        change ¬ it + 1 ≥ k at hi2
        omega
      rcases restStop_kind cfg k (it + 1) (it + 1)
        (sub (clk.check1 (it + 1) 0) clk.start) (sub (clk1.check1 (it + 1) 0) clk1.start)
        (pb.M.norm x (pb.grad x)) o.stepSize with ⟨e1, e2⟩ | ⟨r, r', e1, e2, e3⟩
      · rw [e1, e2]
        exact .inr (.inl ⟨_, _, rfl, rfl, ⟨rfl, rfl, rfl, hl', hs', rfl⟩, hik⟩)
      · rw [e1, e2]
        exact .inr (.inr (.inl ⟨_, _, _, rfl, rfl, rfl, rfl, rfl, rfl, rfl, rfl, rfl, hl', hik.le, by
          rw [if_neg hik.ne]; exact e3⟩))

theorem first_runs {k : ℤ} (hk : k < cfg.maxIterations) (h : NoTimeLimit cfg clk)
    (h1 : NoTimeLimit cfg clk1) {c : ℕ} {t : SDState F P S}
    {res : Except PyErr (Result F P × S)} (hrun : RunsIn (sdStep cfg ls pb clk) t c res) :
    ∀ {t' : SDState F P S}, First cfg t t' → t'.iteration < k →
      (∃ res', Runs (sdStep (cfg.upTo k) ls pb clk1) t' res' ∧ SameOutcome k res res') ∨
      (∃ c' u r' m, RunsIn (sdStep cfg ls pb clk) u c' res ∧
        Runs (sdStep (cfg.upTo k) ls pb clk1) t' (.ok (r', m)) ∧ r'.iterations = k ∧
        u.iteration = k ∧ u.x = r'.point ∧ u.mem = m ∧ LogSame u.log r'.log ∧
        r'.log.isSome = decide (1 ≤ cfg.logVerbosity) ∧ u.evals = r'.evals.dropLast) := by
  induction hrun with
  | brk hs =>
    intro t' hr hit
    rcases first_step (ls := ls) (pb := pb) hk h h1 hr hit with
      ⟨e, e1, e2⟩ | ⟨u, u', e1, e2, e3⟩ | ⟨r, r', m, e1, e2, e4⟩ | ⟨u, r', m, e1, e2, e3⟩
    · rw [hs] at e1; cases e1
    · rw [hs] at e1; cases e1
    · rw [hs] at e1
      cases e1
      exact .inl ⟨_, ⟨1, .brk e2⟩, e4⟩
    · rw [hs] at e1; cases e1
  | err hs =>
    intro t' hr hit
    rcases first_step (ls := ls) (pb := pb) hk h h1 hr hit with
      ⟨e, e1, e2⟩ | ⟨u, u', e1, e2, e3⟩ | ⟨r, r', m, e1, e2, e4⟩ | ⟨u, r', m, e1, e2, e3⟩
    · rw [hs] at e1
      cases e1
      exact .inl ⟨_, ⟨1, .err e2⟩, rfl⟩
    · rw [hs] at e1; cases e1
    · rw [hs] at e1; cases e1
    · rw [hs] at e1; cases e1
  | next hs hrest ih =>
    intro t' hr hit
    rcases first_step (ls := ls) (pb := pb) hk h h1 hr hit with
      ⟨e, e1, e2⟩ | ⟨u, u', e1, e2, e3, e4⟩ | ⟨r, r', m, e1, e2, e3⟩ | ⟨u, r', m, e1, e2, e3⟩
    · rw [hs] at e1; cases e1
    · rw [hs] at e1
      cases e1
      rcases ih e3 e4 with ⟨res', ⟨j, e5⟩, e6⟩ | ⟨c', u2, r', m, e5, ⟨j, e6⟩, e7⟩
      · exact .inl ⟨res', ⟨_, .next e2 e5⟩, e6⟩
      · exact .inr ⟨c', u2, r', m, e5, ⟨_, .next e2 e6⟩, e7⟩
    · rw [hs] at e1; cases e1
    · rw [hs] at e1
      cases e1
      exact .inr ⟨_, _, r', m, hrest, ⟨1, .brk e2⟩, e3⟩

omit [PyNum F] in
theorem printerSetup_pos {cfg : Cfg F} (h : 1 ≤ cfg.maxIterations) : printerSetup cfg = .ok () := by
  unfold printerSetup
  split
  · rw [if_neg (by omega), if_neg (by omega)]
  · rfl

/-! ## C162 -/

/-- **C162**: a run of `SteepestDescent` with up to `N = k + n` iterations, against one with up to `k`
iterations, followed by another one with up to `n` iterations from the point and with the line
searcher that the first one ended with.  If the long run ends within `k` iterations, the first part
ends in the same way.  If not, the first part makes `k` iterations, and the second one does what is
left of the long run, and ends at the same point, for the same reason or with the same exception. -/
theorem C162_steepestDescent {k n : ℤ} (hk : 1 ≤ k) (hn : 1 ≤ n)
    (hN : cfg.maxIterations = k + n) (h : NoTimeLimit cfg clk) (h1 : NoTimeLimit cfg clk1)
    (h2 : NoTimeLimit cfg clk2) {x : P} {mem : S} {res : Except PyErr (Result F P × S)}
    (hrun : SDRuns cfg ls pb clk x mem res) :
    (∃ res', SDRuns (cfg.upTo k) ls pb clk1 x mem res' ∧ SameOutcome k res res') ∨
    (∃ a m1, SDRuns (cfg.upTo k) ls pb clk1 x mem (.ok (a, m1)) ∧ a.iterations = k ∧
      ((∃ e, res = .error e ∧ SDRuns (cfg.upTo n) ls pb clk2 a.point m1 (.error e)) ∨
        ∃ r m b, res = .ok (r, m) ∧ SDRuns (cfg.upTo n) ls pb clk2 a.point m1 (.ok (b, m)) ∧
          Joined k r a b)) := by
  unfold SDRuns at hrun ⊢
  rw [printerSetup_pos (by omega)] at hrun
  rw [printerSetup_pos (cfg := cfg.upTo k) hk, printerSetup_pos (cfg := cfg.upTo n) hn]
  simp only at hrun ⊢
  obtain ⟨c, hrun⟩ := hrun
  have hfirst : First cfg (sdInit cfg x mem) (sdInit (cfg.upTo k) x mem : SDState F P S) := by
    refine ⟨rfl, rfl, rfl, rfl, ?_, rfl⟩
    change (if cfg.logVerbosity ≥ 1 then some [] else none : Option (List _)).isSome = _
    by_cases hv : 1 ≤ cfg.logVerbosity <;> simp [hv]
  rcases first_runs (k := k) (by omega) h h1 hrun hfirst (by change (0 : ℤ) < k; omega) with
    ⟨res', e1, e2⟩ | ⟨c', u, a, m1, e1, e2, e3, e4, e5, e6, e7, e8, e9⟩
  · exact .inl ⟨res', e1, e2⟩
  · refine .inr ⟨a, m1, e2, e3, ?_⟩
    have hafter : After k a.log a.evals.dropLast u (sdInit (cfg.upTo n) a.point m1) := by
      refine ⟨by rw [e4]; change k = k + 0; ring, e5, e6, ?_, by rw [e9]; simp [sdInit]⟩
      change LogJoin k u.log a.log (if cfg.logVerbosity ≥ 1 then some [] else none)
      by_cases hv : 1 ≤ cfg.logVerbosity
      · rw [if_pos hv]
        rw [decide_eq_true hv] at e8
        obtain ⟨l, hl⟩ := Option.isSome_iff_exists.1 e8
        rw [hl] at e7 ⊢
        rcases hul : u.log with _ | l'
        · rw [hul] at e7
          cases e7
        · rw [hul] at e7
          simpa [LogJoin, LogSame] using e7
      · rw [if_neg hv]
        rw [decide_eq_false hv] at e8
        have hl : a.log = none := by simpa using e8
        rw [hl] at e7 ⊢
        rcases hul : u.log with _ | l'
        · trivial
        · rw [hul] at e7
          cases e7
    rcases after_runs hN h h2 e1 hafter with ⟨e, f1, f2⟩ | ⟨r, b, m, f1, f2, f3⟩
    · exact .inl ⟨e, f1, ⟨_, f2⟩⟩
    · obtain ⟨g1, g2, g3, g4, g5, g6, g7, g8⟩ := f3
      exact .inr ⟨r, m, b, f1, ⟨_, f2⟩, ⟨e3, g1, g2, g3, g4, g5, g6, g7, g8⟩⟩

/-- **C162** for one optimizer object: a run with up to `k` iterations, followed by a run of the
same object from the point it returned with `reuse_line_searcher=True`, ends where one run with up to
`k + n` iterations ends, unless that one ends within `k` iterations. -/
theorem C162_object {o : LSObj S} {k n : ℤ} (hk : 1 ≤ k) (hn : 1 ≤ n)
    (hN : cfg.maxIterations = k + n) (h : NoTimeLimit cfg clk) (h1 : NoTimeLimit cfg clk1)
    (h2 : NoTimeLimit cfg clk2) {x : P} {reuse : Bool} {r : Result F P} {o' : LSObj S}
    (hrun : SDCall cfg ls o pb clk x reuse (.ok r) o') (hlong : k < r.iterations) :
    ∃ a b o1, SDCall (cfg.upTo k) ls o pb clk1 x reuse (.ok a) o1 ∧
      SDCall (cfg.upTo n) ls o1 pb clk2 a.point true (.ok b) o' ∧ Joined k r a b := by
  cases hrun with
  | ok hrun =>
    rename_i m
    rcases C162_steepestDescent hk hn hN h h1 h2 hrun with
      ⟨res', _, e2⟩ | ⟨a, m1, e1, _, ⟨e, e3, _⟩ | ⟨r', m', b, e3, e4, e5⟩⟩
    · rcases res' with e | ⟨a, m1⟩
      · exact e2.elim
      · obtain ⟨_, _, _, _, _, _, _, _, e3, _⟩ := e2
        omega
    · cases e3
    · cases e3
      exact ⟨a, b, ⟨o.proto, some m1⟩, .ok e1, .ok (o := ⟨o.proto, some m1⟩) e4, e5⟩

/-! ## Concrete runs -/

/-- Optimizer arguments with up to four iterations. -/
def fourIterations : Cfg Q := { defaultCfg with maxIterations := 4, logVerbosity := 1 }

/-- `C162_object`: its hypotheses are met by four iterations of steepest descent with the adaptive
line search on `f(x) = x ** 2` from `5`, which end somewhere else than two iterations do. -/
example : NoTimeLimit fourIterations stillClock ∧
    ∃ r a o' o1, SDCall fourIterations (adaptive Q Q defaultAdaptive) ⟨none, none⟩ squareProb
        stillClock (.npy 5) false (.ok r) o' ∧ 2 < r.iterations ∧
      SDCall (fourIterations.upTo 2) (adaptive Q Q defaultAdaptive) ⟨none, none⟩ squareProb
        stillClock (.npy 5) false (.ok a) o1 ∧ r.point ≠ a.point ∧ r.log.isSome = true := by
  refine ⟨fun _ => by
    change le (add (Num.py 0) (Num.py 1000) : Q) (.py 0) = false
    decide +kernel, ?_⟩
  have h : (match runFuel (sdStep fourIterations (adaptive Q Q defaultAdaptive) squareProb
        stillClock) 5 (sdInit fourIterations (.npy 5) none),
      runFuel (sdStep (fourIterations.upTo 2) (adaptive Q Q defaultAdaptive) squareProb
        stillClock) 5 (sdInit (fourIterations.upTo 2) (.npy 5) none) with
      | some (.ok r), some (.ok a) => decide (2 < r.1.iterations) &&
        decide (r.1.point ≠ a.1.point) && r.1.log.isSome
      | _, _ => false) = true := by
    decide +kernel
  split at h
  · rename_i r a h1 h2
    simp only [Bool.and_eq_true, decide_eq_true_eq] at h
    exact ⟨r.1, a.1, _, _, .ok (m := r.2) (sdRuns_of_runFuel 5 rfl h1), h.1.1,
      .ok (m := a.2) (sdRuns_of_runFuel 5 rfl h2), h.1.2, h.2⟩
  · cases h

/-- **C162** is false for `ConjugateGradient` (Fletcher-Reeves, adaptive line search): two iterations
of a run with up to four are lost when it is interrupted, because the search direction is not kept.
Whether the resumed run may make two iterations or one more (conjugate gradient makes no move in the
iteration in which it stops), it ends somewhere else. -/
theorem C162_negation_conjugateGradient :
    ∃ r a b c, CGRuns fourIterations .fletcherReeves PyNum.inf (adaptive Q Q defaultAdaptive) squareProb
        stillClock (.npy 5) none (.ok r) ∧
      CGRuns (fourIterations.upTo 2) .fletcherReeves PyNum.inf (adaptive Q Q defaultAdaptive) squareProb
        stillClock (.npy 5) none (.ok a) ∧
      CGRuns (fourIterations.upTo 2) .fletcherReeves PyNum.inf (adaptive Q Q defaultAdaptive) squareProb
        stillClock a.1.point a.2.1 (.ok b) ∧
      CGRuns (fourIterations.upTo 3) .fletcherReeves PyNum.inf (adaptive Q Q defaultAdaptive) squareProb
        stillClock a.1.point a.2.1 (.ok c) ∧
      b.1.point ≠ r.1.point ∧ c.1.point ≠ r.1.point := by
  have h : (match runFuel (cgStep fourIterations .fletcherReeves PyNum.inf
        (adaptive Q Q defaultAdaptive) squareProb stillClock) 5
          (cgInit fourIterations squareProb (.npy 5) none),
      runFuel (cgStep (fourIterations.upTo 2) .fletcherReeves PyNum.inf
        (adaptive Q Q defaultAdaptive) squareProb stillClock) 5
          (cgInit (fourIterations.upTo 2) squareProb (.npy 5) none) with
      | some (.ok r), some (.ok a) =>
        (match runFuel (cgStep (fourIterations.upTo 2) .fletcherReeves PyNum.inf
            (adaptive Q Q defaultAdaptive) squareProb stillClock) 5
              (cgInit (fourIterations.upTo 2) squareProb a.1.point a.2.1),
          runFuel (cgStep (fourIterations.upTo 3) .fletcherReeves PyNum.inf
            (adaptive Q Q defaultAdaptive) squareProb stillClock) 5
              (cgInit (fourIterations.upTo 3) squareProb a.1.point a.2.1) with
        | some (.ok b), some (.ok c) =>
          decide (b.1.point ≠ r.1.point) && decide (c.1.point ≠ r.1.point)
        | _, _ => false)
      | _, _ => false) = true := by
    decide +kernel
  split at h
  · rename_i r a h1 h2
    split at h
    · rename_i b c h3 h4
      rw [Bool.and_eq_true] at h
      exact ⟨r, a, b, c, cgRuns_of_runFuel 5 rfl h1, cgRuns_of_runFuel 5 rfl h2,
        cgRuns_of_runFuel 5 rfl h3, cgRuns_of_runFuel 5 rfl h4, of_decide_eq_true h.1,
        of_decide_eq_true h.2⟩
    · cases h
  · cases h

/-- **C162** is false for `TrustRegions`: the radius starts again from `Delta0`, so that one iteration
followed by one iteration ends somewhere else than two iterations. -/
theorem C162_negation_trustRegions :
    ∃ r a b, TRRuns (fourIterations.upTo 2) defaultTR squareProb stillClock (fun _ => .npy 0) 1 none
        none (some (.py 4)) (some (.py (1 / 2))) (.npy 5) (.ok r) ∧
      TRRuns (fourIterations.upTo 1) defaultTR squareProb stillClock (fun _ => .npy 0) 1 none
        none (some (.py 4)) (some (.py (1 / 2))) (.npy 5) (.ok a) ∧
      TRRuns (fourIterations.upTo 1) defaultTR squareProb stillClock (fun _ => .npy 0) 1 none
        none (some (.py 4)) (some (.py (1 / 2))) a.1.point (.ok b) ∧
      b.1.point ≠ r.1.point := by
  have h : (match runFuel (trStep (fourIterations.upTo 2) defaultTR squareProb stillClock
        (fun _ => .npy 0) 1 1 (.py 4)) 5 (trInit squareProb (.npy 5) (.py (1 / 2))),
      runFuel (trStep (fourIterations.upTo 1) defaultTR squareProb stillClock
        (fun _ => .npy 0) 1 1 (.py 4)) 5 (trInit squareProb (.npy 5) (.py (1 / 2))) with
      | some (.ok r), some (.ok a) =>
        (match runFuel (trStep (fourIterations.upTo 1) defaultTR squareProb stillClock
            (fun _ => .npy 0) 1 1 (.py 4)) 5 (trInit squareProb a.1.point (.py (1 / 2))) with
        | some (.ok b) => decide (b.1.point ≠ r.1.point)
        | _ => false)
      | _, _ => false) = true := by
    decide +kernel
  split at h
  · rename_i r a h1 h2
    split at h
    · rename_i b h3
      exact ⟨r, a, b, runs_of_runFuel h1, runs_of_runFuel h2, runs_of_runFuel h3,
        of_decide_eq_true h⟩
    · cases h
  · cases h

/-- **C162** needs the line searcher to be kept: with a fresh one the resumed run of steepest descent
ends somewhere else. -/
theorem C162_negation_fresh :
    ∃ r a b, SDRuns fourIterations (adaptive Q Q defaultAdaptive) squareProb stillClock (.npy 5)
        none (.ok r) ∧
      SDRuns (fourIterations.upTo 2) (adaptive Q Q defaultAdaptive) squareProb stillClock (.npy 5)
        none (.ok a) ∧
      SDRuns (fourIterations.upTo 2) (adaptive Q Q defaultAdaptive) squareProb stillClock a.1.point
        none (.ok b) ∧ b.1.point ≠ r.1.point := by
  have h : (match runFuel (sdStep fourIterations (adaptive Q Q defaultAdaptive) squareProb
        stillClock) 5 (sdInit fourIterations (.npy 5) none),
      runFuel (sdStep (fourIterations.upTo 2) (adaptive Q Q defaultAdaptive) squareProb
        stillClock) 5 (sdInit (fourIterations.upTo 2) (.npy 5) none) with
      | some (.ok r), some (.ok a) =>
        (match runFuel (sdStep (fourIterations.upTo 2) (adaptive Q Q defaultAdaptive) squareProb
            stillClock) 5 (sdInit (fourIterations.upTo 2) a.1.point none) with
        | some (.ok b) => decide (b.1.point ≠ r.1.point)
        | _ => false)
      | _, _ => false) = true := by
    decide +kernel
  split at h
  · rename_i r a h1 h2
    split at h
    · rename_i b h3
      exact ⟨r, a, b, sdRuns_of_runFuel 5 rfl h1, sdRuns_of_runFuel 5 rfl h2,
        sdRuns_of_runFuel 5 rfl h3, of_decide_eq_true h⟩
    · cases h
  · cases h

end Verif.Opt
