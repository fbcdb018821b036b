/-
C158: the units of the cost do not matter.  Multiplying the cost by a positive number and adding
a number to it (the gradient is multiplied by the same number) changes nothing in a run of
steepest descent or conjugate gradient but the reported costs and gradient norms, if the gradient
threshold is rescaled too.
-/
import Verif.Opt.Props.Equivariance
import Verif.Base.Num

namespace Verif.Opt
open PyNum

variable {P E S : Type*}

/-! ## Specification -/

/-- The cost in other units: `a * cost + b`, with its gradient and Hessian. -/
def Prob.inUnits (a b : ℝ) (pb : Prob ℝ P E) : Prob ℝ P E where
  M := pb.M
  cost y := a * pb.cost y + b
  grad y := pb.M.smul a (pb.grad y)
  hess y v := pb.M.smul a (pb.hess y v)
  precon := pb.precon

/-- The gradient threshold in the new units. -/
def Cfg.inUnits (a : ℝ) (cfg : Cfg ℝ) : Cfg ℝ :=
  { cfg with minGradientNorm := a * cfg.minGradientNorm }

/-- A log entry in the new units. -/
def LogEntry.inUnits (a b : ℝ) (e : LogEntry ℝ P) : LogEntry ℝ P :=
  { e with cost := a * e.cost + b, gradientNorm := a * e.gradientNorm }

/-- A result in the new units: cost and gradient norm are converted, everything else is kept. -/
def Result.inUnits (a b : ℝ) (r : Result ℝ P) : Result ℝ P :=
  { r with
    cost := a * r.cost + b
    gradientNorm := r.gradientNorm.map (a * ·)
    log := r.log.map (List.map (LogEntry.inUnits a b)) }

/-- How norms, inner products and transports deal with multiples of vectors. -/
structure ScaleOps (M : Mfd ℝ P E) : Prop where
  smul_smul : ∀ s t v, M.smul s (M.smul t v) = M.smul (s * t) v
  norm_smul : ∀ y t v, 0 < t → M.norm y (M.smul t v) = t * M.norm y v
  inner_left : ∀ y t u v, M.inner y (M.smul t u) v = t * M.inner y u v
  inner_right : ∀ y t u v, M.inner y u (M.smul t v) = t * M.inner y u v
  transport : ∀ x y t v, M.transport x y (M.smul t v) = M.smul t (M.transport x y v)
  toTangent : ∀ y t v, M.toTangent y (M.smul t v) = M.smul t (M.toTangent y v)
  zeroVector : ∀ y t, M.smul t (M.zeroVector y) = M.zeroVector y
  add : ∀ t u v, M.add (M.smul t u) (M.smul t v) = M.smul t (M.add u v)
  sub : ∀ t u v, M.sub (M.smul t u) (M.smul t v) = M.smul t (M.sub u v)
  neg : ∀ t v, M.neg (M.smul t v) = M.smul t (M.neg v)

/-- The preconditioner commutes with multiples (the default one does). -/
def PreconScales (pb : Prob ℝ P E) : Prop :=
  ∀ y t v, pb.precon y (pb.M.smul t v) = pb.M.smul t (pb.precon y v)

/-- A search result whose memory is converted by `m`. -/
def SearchOut.mapMem {S' : Type*} (m : S → S') (o : SearchOut ℝ P S) : SearchOut ℝ P S' :=
  { stepSize := o.stepSize, newx := o.newx, mem := m o.mem, evals := o.evals }

/-- The line searcher finds the same points and the same step sizes in the new units, with its
memory converted by `m`. -/
def SearchInUnits (ls : LineSearcher ℝ P E S) (M : Mfd ℝ P E) (a b : ℝ) (m : S → S) : Prop :=
  ∀ mem cost x d f0 df0,
    ls.search (m mem) (fun y => a * cost y + b) M x (M.smul a d) (a * f0 + b) (a ^ 2 * df0) =
      (ls.search mem cost M x d f0 df0).map (SearchOut.mapMem m)

/-! ## Arithmetic -/

theorem units_le {a : ℝ} (ha : 0 < a) (u v : ℝ) : PyNum.le (a * u) (a * v) = PyNum.le u v := by
  simp only [PyNum.le, mul_le_mul_iff_right₀ ha]

theorem units_lt {a : ℝ} (ha : 0 < a) (u v : ℝ) : PyNum.lt (a * u) (a * v) = PyNum.lt u v := by
  simp only [PyNum.lt, mul_lt_mul_iff_right₀ ha]

theorem units_lt' {a : ℝ} (ha : 0 < a) (b u v : ℝ) :
    PyNum.lt (a * u + b) (a * v + b) = PyNum.lt u v := by
  simp only [PyNum.lt, add_lt_add_iff_right, mul_lt_mul_iff_right₀ ha]

theorem units_le0 {a : ℝ} (ha : 0 < a) (u : ℝ) :
    PyNum.le (PyNum.lit 0) (a * u) = PyNum.le (PyNum.lit 0) u := by
  have : (0 : ℝ) ≤ a * u ↔ 0 ≤ u := by
    constructor
    · exact fun h => nonneg_of_mul_nonneg_right h ha
    · exact fun h => mul_nonneg ha.le h
  simp only [PyNum.le, PyNum.lit, Rat.cast_zero, this]

theorem units_div {s t : ℝ} (ht : t ≠ 0) (u v : ℝ) :
    PyNum.div (s * u) (t * v) = (PyNum.div u v).map (s / t * ·) := by
  simp only [PyNum.div]
  by_cases hv : v = 0
  · simp [hv, Except.map]
  · simp only [hv, mul_eq_zero, ht, or_self, if_false, Except.map]
    congr 1
    field_simp

theorem units_div_same {t : ℝ} (ht : t ≠ 0) (u v : ℝ) :
    PyNum.div (t * u) (t * v) = PyNum.div u v := by
  rw [units_div ht]
  cases PyNum.div u v with
  | error => rfl
  | ok q => simp [Except.map, div_self ht]

/-! ## Line searchers -/

section search
variable {M : Mfd ℝ P E} {a b : ℝ}

private noncomputable def BTState.inUnits (a b : ℝ) (s : BTState ℝ P) : BTState ℝ P :=
  { alpha := a⁻¹ * s.alpha, newx := s.newx, newf := a * s.newf + b, count := s.count,
    evals := s.evals }

private theorem trial_units (h : ScaleOps M) (ha : 0 < a) (cost : P → ℝ) (x : P) (d : E) (t : ℝ)
    (c : ℤ) (ev : List P) :
    trial (fun y => a * cost y + b) M x (M.smul a d) (a⁻¹ * t) c ev =
      (trial cost M x d t c ev).inUnits a b := by
  have e : a⁻¹ * t * a = t := by field_simp
  simp only [trial, BTState.inUnits, h.smul_smul, e]

private theorem btLoop_units (h : ScaleOps M) (ha : 0 < a) (cost : P → ℝ) (x : P) (d : E)
    (f0 df0 c : ℝ) {next : ℝ → ℝ} (hn : ∀ t, next (a⁻¹ * t) = a⁻¹ * next t) (n : ℕ)
    (s : BTState ℝ P) :
    btLoop (fun y => a * cost y + b) M x (M.smul a d) (a * f0 + b) (a ^ 2 * df0) c next n
        (s.inUnits a b) =
      (btLoop cost M x d f0 df0 c next n s).inUnits a b := by
  induction n generalizing s with
  | zero => rfl
  | succ n ih =>
    have e : armijoFails c (a * f0 + b) (a ^ 2 * df0) (s.inUnits a b).alpha (s.inUnits a b).newf =
        armijoFails c f0 df0 s.alpha s.newf := by
      simp only [armijoFails, BTState.inUnits]
      refine Eq.trans ?_ (units_lt' ha b _ _)
      congr 1
      simp only [PyNum.add, PyNum.mul]
      field_simp
      ring
    rw [btLoop, btLoop, e]
    by_cases hf : armijoFails c f0 df0 s.alpha s.newf
    · have e' : (s.inUnits a b).alpha = a⁻¹ * s.alpha := rfl
      rw [if_pos hf, if_pos hf, e', hn, trial_units h ha, ih]
      rfl
    · rw [if_neg hf, if_neg hf]

/-- **C158** (back-tracking line search): the same points in all units; the remembered cost is
converted. -/
theorem C158_backTracking (h : ScaleOps M) (ha : 0 < a) (b : ℝ) (c : BackTrackingCfg ℝ) :
    SearchInUnits (backTracking P E c) M a b (Option.map fun f => a * f + b) := by
  intro mem cost x d f0 df0
  have hi : backTrackingInit c (mem.map fun f => a * f + b) (a * f0 + b) (a ^ 2 * df0)
      (a * M.norm x d) = (backTrackingInit c mem f0 df0 (M.norm x d)).map (a⁻¹ * ·) := by
    cases mem with
    | none =>
      have := units_div (s := 1) ha.ne' c.initialStepSize (M.norm x d)
      rw [one_mul] at this
      simp only [backTrackingInit, Option.map_none, this]
      cases PyNum.div c.initialStepSize (M.norm x d) with
      | error e => rfl
      | ok q => simp [Except.map, PyNum.toFloat]
    | some o =>
      have e : (PyNum.mul (lit 2) (PyNum.sub (a * f0 + b) (a * o + b)) : ℝ) =
          a * PyNum.mul (lit 2) (PyNum.sub f0 o) := by
        simp only [PyNum.mul, PyNum.sub]
        ring
      have := units_div (s := a) (t := a ^ 2) (by positivity) (PyNum.mul (lit 2) (PyNum.sub f0 o))
        df0
      simp only [backTrackingInit, Option.map_some, e, this]
      cases PyNum.div (PyNum.mul (lit 2) (PyNum.sub f0 o)) df0 with
      | error e => rfl
      | ok q =>
        simp only [Except.map, PyNum.toFloat, PyNum.mul, Except.ok.injEq]
        field_simp
  simp only [backTracking, backTrackingSearch, h.norm_smul x a d ha, hi]
  cases backTrackingInit c mem f0 df0 (M.norm x d) with
  | error e => rfl
  | ok t =>
    simp only [Except.map]
    rw [trial_units h ha, btLoop_units h ha cost x d f0 df0 _ fun t => by
      simp only [PyNum.mul]; ring]
    generalize btLoop cost M x d f0 df0 _ _ _ _ = s
    have e : PyNum.lt (a * f0 + b) (s.inUnits a b).newf = PyNum.lt f0 s.newf := units_lt' ha b _ _
    rw [e]
    have e0 : (PyNum.mul (lit 0) (a * M.norm x d) : ℝ) = PyNum.mul (lit 0) (M.norm x d) := by
      simp [PyNum.mul, PyNum.lit]
    have e1 : PyNum.mul (s.inUnits a b).alpha (a * M.norm x d) =
        PyNum.mul s.alpha (M.norm x d) := by
      simp only [PyNum.mul, BTState.inUnits]
      field_simp
    rw [e0, e1]
    by_cases hf : PyNum.lt f0 s.newf = true
    · simp only [hf, if_true]
      rfl
    · simp only [hf]
      rfl

/-- **C158** (adaptive line search): the same points in all units; the remembered step is
converted. -/
theorem C158_adaptive (h : ScaleOps M) (ha : 0 < a) (b : ℝ) (c : AdaptiveCfg ℝ) :
    SearchInUnits (adaptive P E c) M a b (Option.map fun t => a⁻¹ * t) := by
  intro mem cost x d f0 df0
  have hi : adaptiveInit c (mem.map fun t => a⁻¹ * t) (a * M.norm x d) =
      (adaptiveInit c mem (M.norm x d)).map (a⁻¹ * ·) := by
    cases mem with
    | none =>
      have := units_div (s := 1) ha.ne' c.initialStepSize (M.norm x d)
      rw [one_mul] at this
      simp only [adaptiveInit, Option.map_none, this]
      cases PyNum.div c.initialStepSize (M.norm x d) with
      | error e => rfl
      | ok q => simp [Except.map, PyNum.toFloat]
    | some o => rfl
  simp only [adaptive, adaptiveSearch, h.norm_smul x a d ha, hi]
  cases adaptiveInit c mem (M.norm x d) with
  | error e => rfl
  | ok t =>
    simp only [Except.map]
    rw [trial_units h ha, btLoop_units h ha cost x d f0 df0 _ fun t => by
      simp only [PyNum.mul]; ring]
    generalize btLoop cost M x d f0 df0 _ _ _ _ = s
    have e : PyNum.lt (a * f0 + b) (s.inUnits a b).newf = PyNum.lt f0 s.newf := units_lt' ha b _ _
    rw [e]
    have ec : (s.inUnits a b).count = s.count := rfl
    have e1 : ∀ t : ℝ, PyNum.mul (a⁻¹ * t) (a * M.norm x d) = PyNum.mul t (M.norm x d) := by
      intro t
      simp only [PyNum.mul]
      field_simp
    have e2 : ∀ t : ℝ, PyNum.mul (lit 2) (a⁻¹ * t) = a⁻¹ * PyNum.mul (lit 2) t := by
      intro t
      simp only [PyNum.mul]
      ring
    have e3 : (lit 0 : ℝ) = a⁻¹ * lit 0 := by simp [PyNum.lit]
    by_cases hf : PyNum.lt f0 s.newf = true
    · simp only [hf, if_true, SearchOut.mapMem, Option.map_some, ec]
      congr 1
      rw [e3, e1, e2, ← e3]
      congr 1
      split <;> simp [PyNum.lit, PyNum.mul]
    · simp only [hf, SearchOut.mapMem, Option.map_some, ec]
      have ea : (s.inUnits a b).alpha = a⁻¹ * s.alpha := rfl
      simp only [ea, Bool.false_eq_true, if_false, e1, e2]
      congr 2
      split <;> rfl

end search

/-! ## Logs and stopping -/

theorem initLog_units (a b : ℝ) (cfg : Cfg ℝ) :
    (initLog (cfg.inUnits a) : Option (List (LogEntry ℝ P))) =
      (initLog cfg).map (List.map (LogEntry.inUnits a b)) := by
  unfold initLog Cfg.inUnits
  split <;> rfl

private theorem addLog_units (a b : ℝ) (cfg : Cfg ℝ) (l : Option (List (LogEntry ℝ P)))
    (e : LogEntry ℝ P) :
    addLog (cfg.inUnits a) (l.map (List.map (LogEntry.inUnits a b))) (e.inUnits a b) =
      (addLog cfg l e).map (List.map (LogEntry.inUnits a b)) := by
  unfold addLog Cfg.inUnits
  split
  · rfl
  · cases l <;> simp

theorem checkStop_units {a : ℝ} (ha : 0 < a) (cfg : Cfg ℝ) (t0 t1 t2 : ℝ) (it : ℤ)
    (g s : Option ℝ) (n : ℤ) :
    checkStop (cfg.inUnits a) t0 t1 t2 it (g.map (a * ·)) s n = checkStop cfg t0 t1 t2 it g s n := by
  have e : (g.map (a * ·)).any (fun u => PyNum.lt u (a * cfg.minGradientNorm)) =
      g.any (fun u => PyNum.lt u cfg.minGradientNorm) := by
    cases g with
    | none => rfl
    | some u => simp only [Option.map_some, Option.any_some, units_lt ha]
  simp only [checkStop, Cfg.inUnits, e]
  rfl

/-! ## Steepest descent -/

private def SDState.inUnits (a b : ℝ) (m : S → S) (s : SDState ℝ P S) : SDState ℝ P S :=
  { s with mem := m s.mem, log := s.log.map (List.map (LogEntry.inUnits a b)) }

/-- **C158** (steepest descent): in other units the runs are the same, with the same points, step
sizes, numbers of iterations and reasons for stopping; costs and gradient norms are converted.
This holds for results and for exceptions. -/
theorem C158_steepestDescent {cfg : Cfg ℝ} {ls : LineSearcher ℝ P E S} {pb : Prob ℝ P E}
    {clk : Clock ℝ} {x : P} {mem : S} {m : S → S} {a b : ℝ}
    {r' : Except PyErr (Result ℝ P × S)} (h : ScaleOps pb.M) (ha : 0 < a)
    (hls : SearchInUnits ls pb.M a b m) :
    SDRuns (cfg.inUnits a) ls (pb.inUnits a b) clk x (m mem) r' ↔
      ∃ r, SDRuns cfg ls pb clk x mem r ∧ r' = r.map fun q => (q.1.inUnits a b, m q.2) := by
  unfold SDRuns
  have hp : printerSetup (cfg.inUnits a) = printerSetup cfg := rfl
  rw [hp]
  split
  · constructor
    · rintro rfl
      exact ⟨_, rfl, rfl⟩
    · rintro ⟨r, rfl, rfl⟩
      rfl
  · have hi : sdInit (cfg.inUnits a) x (m mem) = (sdInit cfg x mem).inUnits a b m := by
      simp only [sdInit, SDState.inUnits, initLog_units a b]
    rw [hi]
    refine Runs.map_iff (SDState.inUnits a b m) _ (fun _ => True) (fun _ _ _ _ => trivial) ?_
      trivial
    intro s _
    have hl := addLog_units a b cfg s.log
      { time := clk.log (s.iteration + 1), iteration := s.iteration + 1, point := s.x,
        cost := pb.cost s.x, gradientNorm := pb.M.norm s.x (pb.grad s.x) }
    simp only [LogEntry.inUnits] at hl
    have en : (PyNum.neg (PyNum.pow (a * pb.M.norm s.x (pb.grad s.x)) (lit 2)) : ℝ) =
        a ^ 2 * PyNum.neg (PyNum.pow (pb.M.norm s.x (pb.grad s.x)) (lit 2)) := by
      simp only [PyNum.neg, PyNum.pow, PyNum.lit, Rat.cast_ofNat, Real.rpow_two]
      ring
    simp only [sdStep, SDState.inUnits, Prob.inUnits, h.norm_smul _ _ _ ha, h.neg, en,
      hls s.mem pb.cost]
    cases ls.search s.mem pb.cost pb.M s.x (pb.M.neg (pb.grad s.x)) (pb.cost s.x)
        (PyNum.neg (PyNum.pow (pb.M.norm s.x (pb.grad s.x)) (lit 2))) with
    | error e => rfl
    | ok o =>
      have hc := fun t1 t2 => checkStop_units ha cfg clk.start t1 t2 (s.iteration + 1)
        (some (pb.M.norm s.x (pb.grad s.x))) (some o.stepSize) (-1)
      simp only [Option.map_some] at hc
      simp only [Except.map, SearchOut.mapMem, hc]
      split
      · simp only [Ctl.map, SDState.inUnits, ← hl]
      · simp only [Ctl.map, Result.inUnits, Option.map_some, ← hl]

/-! ## Conjugate gradient -/

private def BetaArgs.inUnits (a : ℝ) (M : Mfd ℝ P E) (q : BetaArgs P E ℝ) : BetaArgs P E ℝ :=
  { x := q.x, newx := q.newx, grad := M.smul a q.grad, newgrad := M.smul a q.newgrad,
    Pnewgrad := M.smul a q.Pnewgrad, newgradPnewgrad := a ^ 2 * q.newgradPnewgrad,
    Pgrad := M.smul a q.Pgrad, gradPgrad := a ^ 2 * q.gradPgrad,
    gradientNorm := a * q.gradientNorm, oldgrad := M.smul a q.oldgrad, dir := M.smul a q.dir }

private theorem inner_units {M : Mfd ℝ P E} (h : ScaleOps M) (a : ℝ) (y : P) (u v : E) :
    M.inner y (M.smul a u) (M.smul a v) = a ^ 2 * M.inner y u v := by
  rw [h.inner_left, h.inner_right]
  ring

private theorem beta_units {M : Mfd ℝ P E} (h : ScaleOps M) {a : ℝ} (ha : 0 < a) {rule : BetaRule}
    (hr : rule ≠ .hagerZhang) (q : BetaArgs P E ℝ) :
    rule.eval M (q.inUnits a M) = rule.eval M q := by
  have h2 : a ^ 2 ≠ 0 := by positivity
  have hn : ∀ u : ℝ, PyNum.neg (a ^ 2 * u) = a ^ 2 * PyNum.neg u := fun u => by
    simp only [PyNum.neg]; ring
  cases rule
  · simp only [BetaRule.eval, betaFletcherReeves, BetaArgs.inUnits, units_div_same h2]
  · exact absurd rfl hr
  · simp only [BetaRule.eval, betaHestenesStiefel, BetaArgs.inUnits, h.sub, inner_units h,
      units_div_same h2]
  · simp only [BetaRule.eval, betaPolakRibiere, BetaArgs.inUnits, h.sub, inner_units h,
      units_div_same h2]
  · simp only [BetaRule.eval, betaLiuStorey, BetaArgs.inUnits, h.sub, inner_units h, hn,
      units_div_same h2]

private theorem cgDirection_units {M : Mfd ℝ P E} (h : ScaleOps M) {a : ℝ} (ha : 0 < a)
    {rule : BetaRule} (hr : rule ≠ .hagerZhang) (orth : ℝ) (q : BetaArgs P E ℝ) (dir : E) :
    cgDirection M rule orth (q.inUnits a M) (M.smul a dir) =
      (cgDirection M rule orth q dir).map (M.smul a) := by
  have h2 : a ^ 2 ≠ 0 := by positivity
  have hb := beta_units h ha hr { q with dir := M.transport q.x q.newx dir }
  simp only [cgDirection, BetaArgs.inUnits] at hb ⊢
  simp only [inner_units h, units_div_same h2, h.neg, h.transport, hb]
  cases PyNum.div (M.inner q.newx q.oldgrad q.Pnewgrad) q.newgradPnewgrad with
  | error e => rfl
  | ok t =>
    dsimp only
    by_cases hq : PyNum.le orth (PyNum.abs t) = true
    · simp [hq, Except.map]
    · simp only [hq]
      cases rule.eval M { q with dir := M.transport q.x q.newx dir } with
      | error e => rfl
      | ok β =>
        have e : M.smul β (M.smul a (M.transport q.x q.newx dir)) =
            M.smul a (M.smul β (M.transport q.x q.newx dir)) := by
          rw [h.smul_smul, h.smul_smul, mul_comm]
        simp only [Except.map, e, h.add]
        rfl

private def CGState.inUnits (a b : ℝ) (M : Mfd ℝ P E) (m : S → S) (s : CGState ℝ P E S) :
    CGState ℝ P E S :=
  { iteration := s.iteration, stepSize := s.stepSize, x := s.x, cost := a * s.cost + b,
    grad := M.smul a s.grad, Pgrad := M.smul a s.Pgrad, gradientNorm := a * s.gradientNorm,
    gradPgrad := a ^ 2 * s.gradPgrad, dir := M.smul a s.dir, mem := m s.mem,
    log := s.log.map (List.map (LogEntry.inUnits a b)), evals := s.evals,
    searches := s.searches.map fun q => (q.1, M.smul a q.2.1, a ^ 2 * q.2.2) }

/-- **C158** (conjugate gradient with any rule but that of Hager and Zhang): as for steepest
descent; the search directions are multiplied by `a`. -/
theorem C158_conjugateGradient_partial {cfg : Cfg ℝ} {rule : BetaRule} {orth : ℝ}
    {ls : LineSearcher ℝ P E S} {pb : Prob ℝ P E} {clk : Clock ℝ} {x : P} {mem : S} {m : S → S}
    {a b : ℝ} {r' : Except PyErr (Result ℝ P × S × List (P × E × ℝ))} (h : ScaleOps pb.M)
    (hP : PreconScales pb) (ha : 0 < a) (hr : rule ≠ .hagerZhang)
    (hls : SearchInUnits ls pb.M a b m) :
    CGRuns (cfg.inUnits a) rule orth ls (pb.inUnits a b) clk x (m mem) r' ↔
      ∃ r, CGRuns cfg rule orth ls pb clk x mem r ∧
        r' = r.map fun q => (q.1.inUnits a b, m q.2.1,
          q.2.2.map fun q => (q.1, pb.M.smul a q.2.1, a ^ 2 * q.2.2)) := by
  unfold CGRuns
  have hp : printerSetup (cfg.inUnits a) = printerSetup cfg := rfl
  rw [hp]
  split
  · constructor
    · rintro rfl
      exact ⟨_, rfl, rfl⟩
    · rintro ⟨r, rfl, rfl⟩
      rfl
  · have hi : cgInit (cfg.inUnits a) (pb.inUnits a b) x (m mem) =
        (cgInit cfg pb x mem).inUnits a b pb.M m := by
      simp only [cgInit, CGState.inUnits, Prob.inUnits, initLog_units a b, hP x,
        h.norm_smul _ _ _ ha, inner_units h, h.neg, List.map_nil]
    rw [hi]
    refine Runs.map_iff (CGState.inUnits a b pb.M m) _ (fun _ => True) (fun _ _ _ _ => trivial) ?_
      trivial
    intro s _
    have hl := addLog_units a b cfg s.log
      { time := clk.log (s.iteration + 1), iteration := s.iteration + 1, point := s.x,
        cost := s.cost, gradientNorm := s.gradientNorm }
    simp only [LogEntry.inUnits] at hl
    obtain ⟨d, df0, hdd, hdd'⟩ : ∃ d df0,
        (if PyNum.le (lit 0) (pb.M.inner s.x s.grad s.dir) then
          (pb.M.neg s.Pgrad, PyNum.neg s.gradPgrad)
          else (s.dir, pb.M.inner s.x s.grad s.dir)) = (d, df0) ∧
        (if PyNum.le (lit 0) (a ^ 2 * pb.M.inner s.x s.grad s.dir) then
          (pb.M.smul a (pb.M.neg s.Pgrad), PyNum.neg (a ^ 2 * s.gradPgrad))
          else (pb.M.smul a s.dir, a ^ 2 * pb.M.inner s.x s.grad s.dir)) =
          (pb.M.smul a d, a ^ 2 * df0) := by
      have hn : PyNum.neg (a ^ 2 * s.gradPgrad) = a ^ 2 * PyNum.neg s.gradPgrad := by
        simp only [PyNum.neg]; ring
      rw [units_le0 (by positivity), hn]
      by_cases hc : PyNum.le (lit 0) (pb.M.inner s.x s.grad s.dir) = true
      · exact ⟨_, _, by rw [if_pos hc], by rw [if_pos hc]⟩
      · exact ⟨_, _, by rw [if_neg hc], by rw [if_neg hc]⟩
    have hc := fun t1 t2 => checkStop_units ha cfg clk.start t1 t2 (s.iteration + 1)
      (some s.gradientNorm) s.stepSize (-1)
    simp only [Option.map_some] at hc
    simp only [cgStep, CGState.inUnits, Prob.inUnits, inner_units h, h.neg, hc]
    rw [hdd, hdd']
    dsimp only
    split
    · simp only [Except.map, Ctl.map, Result.inUnits, Option.map_some, ← hl]
    · rw [hls s.mem pb.cost]
      cases ls.search s.mem pb.cost pb.M s.x d s.cost df0 with
      | error e => rfl
      | ok o =>
        have hdir := cgDirection_units h ha hr orth
          { x := s.x, newx := o.newx, grad := s.grad, newgrad := pb.grad o.newx,
            Pnewgrad := pb.precon o.newx (pb.grad o.newx),
            newgradPnewgrad := pb.M.inner o.newx (pb.grad o.newx)
              (pb.precon o.newx (pb.grad o.newx)), Pgrad := s.Pgrad,
            gradPgrad := s.gradPgrad, gradientNorm := s.gradientNorm,
            oldgrad := pb.M.transport s.x o.newx s.grad, dir := d } d
        simp only [BetaArgs.inUnits] at hdir
        simp only [Except.map, SearchOut.mapMem, hP o.newx, inner_units h, h.transport,
          h.norm_smul _ _ _ ha, hdir]
        cases cgDirection pb.M rule orth _ d with
        | error e => rfl
        | ok nd =>
          simp only [Ctl.map, CGState.inUnits, List.map_append, List.map_cons, List.map_nil, ← hl]

end Verif.Opt
