/-
C133: what an optimizer does depends on the problem only up to isomorphism.  If points and
tangent vectors of one problem are translated into another one so that all methods agree, then
the runs of the optimizers are translated too: same number of iterations, same costs, same step
sizes, same reason for stopping, corresponding points.
-/
import Verif.Opt.Props.OnManifold

namespace Verif

/-! ## Loops -/

/-- Translation of the outcome of a loop body. -/
def Ctl.map {S R S' R' : Type*} (f : S → S') (g : R → R') : Ctl S R → Ctl S' R'
  | .next s => .next (f s)
  | .brk r => .brk (g r)

/-- Loops whose bodies correspond have corresponding runs, of the same length. -/
theorem RunsIn.map_iff {S R S' R' : Type*} {step : S → Except PyErr (Ctl S R)}
    {step' : S' → Except PyErr (Ctl S' R')} (f : S → S') (g : R → R') (Inv : S → Prop)
    (hinv : ∀ s s', Inv s → step s = .ok (.next s') → Inv s')
    (hstep : ∀ s, Inv s → step' (f s) = (step s).map (Ctl.map f g)) {s : S} (hs : Inv s) {n : ℕ}
    {r' : Except PyErr R'} :
    RunsIn step' (f s) n r' ↔ ∃ r, RunsIn step s n r ∧ r' = r.map g := by
  constructor
  · intro h
    generalize hf : f s = t at h
    induction h generalizing s with
    | brk h =>
      subst hf
      rw [hstep s hs] at h
      match hc : step s, h with
      | .ok (.brk r), h =>
        cases h
        exact ⟨_, .brk hc, rfl⟩
    | err h =>
      subst hf
      rw [hstep s hs] at h
      match hc : step s, h with
      | .error e, h =>
        cases h
        exact ⟨_, .err hc, rfl⟩
    | next h _ ih =>
      subst hf
      rw [hstep s hs] at h
      match hc : step s, h with
      | .ok (.next u), h =>
        cases h
        obtain ⟨r, hr, rfl⟩ := ih (hinv _ _ hs hc) rfl
        exact ⟨r, .next hc hr, rfl⟩
  · rintro ⟨r, h, rfl⟩
    induction h with
    | brk h => exact .brk (by rw [hstep _ hs, h]; rfl)
    | err h => exact .err (by rw [hstep _ hs, h]; rfl)
    | next h _ ih => exact .next (by rw [hstep _ hs, h]; rfl) (ih (hinv _ _ hs h))

theorem Runs.map_iff {S R S' R' : Type*} {step : S → Except PyErr (Ctl S R)}
    {step' : S' → Except PyErr (Ctl S' R')} (f : S → S') (g : R → R') (Inv : S → Prop)
    (hinv : ∀ s s', Inv s → step s = .ok (.next s') → Inv s')
    (hstep : ∀ s, Inv s → step' (f s) = (step s).map (Ctl.map f g)) {s : S} (hs : Inv s)
    {r' : Except PyErr R'} :
    Runs step' (f s) r' ↔ ∃ r, Runs step s r ∧ r' = r.map g := by
  constructor
  · rintro ⟨n, h⟩
    obtain ⟨r, hr, e⟩ := (RunsIn.map_iff f g Inv hinv hstep hs).1 h
    exact ⟨r, ⟨n, hr⟩, e⟩
  · rintro ⟨r, ⟨n, h⟩, e⟩
    exact ⟨n, (RunsIn.map_iff f g Inv hinv hstep hs).2 ⟨r, h, e⟩⟩

namespace Opt
open PyNum

variable {F P E S P' E' : Type*} [PyNum F]

/-! ## Specification -/

/-- Points `p` of one problem become the points `φ p` of another, vectors `v` tangent at `p`
become the vectors `ψ p v`: all methods agree.  Nothing is assumed outside the manifold. -/
structure Translates (φ : P → P') (ψ : P → E → E') (On : P → Prop) (Tan : P → E → Prop)
    (pb : Prob F P E) (pb' : Prob F P' E') : Prop where
  closed : ClosedProb pb On Tan
  sub_tan : ∀ x v w, On x → Tan x v → Tan x w → Tan x (pb.M.sub v w)
  dim : pb'.M.dim = pb.M.dim
  norm : ∀ x v, On x → Tan x v → pb'.M.norm (φ x) (ψ x v) = pb.M.norm x v
  inner : ∀ x v w, On x → Tan x v → Tan x w →
    pb'.M.inner (φ x) (ψ x v) (ψ x w) = pb.M.inner x v w
  retraction : ∀ x v, On x → Tan x v → pb'.M.retraction (φ x) (ψ x v) = φ (pb.M.retraction x v)
  transport : ∀ x y v, On x → On y → Tan x v →
    pb'.M.transport (φ x) (φ y) (ψ x v) = ψ y (pb.M.transport x y v)
  zeroVector : ∀ x, On x → pb'.M.zeroVector (φ x) = ψ x (pb.M.zeroVector x)
  toTangent : ∀ x v, On x → Tan x v → pb'.M.toTangent (φ x) (ψ x v) = ψ x (pb.M.toTangent x v)
  add : ∀ x v w, On x → Tan x v → Tan x w → pb'.M.add (ψ x v) (ψ x w) = ψ x (pb.M.add v w)
  sub : ∀ x v w, On x → Tan x v → Tan x w → pb'.M.sub (ψ x v) (ψ x w) = ψ x (pb.M.sub v w)
  neg : ∀ x v, On x → Tan x v → pb'.M.neg (ψ x v) = ψ x (pb.M.neg v)
  smul : ∀ x a v, On x → Tan x v → pb'.M.smul a (ψ x v) = ψ x (pb.M.smul a v)
  cost : ∀ x, On x → pb'.cost (φ x) = pb.cost x
  grad : ∀ x, On x → pb'.grad (φ x) = ψ x (pb.grad x)
  precon : ∀ x v, On x → Tan x v → pb'.precon (φ x) (ψ x v) = ψ x (pb.precon x v)

/-- The same for the Hessian. -/
structure TranslatesHess (φ : P → P') (ψ : P → E → E') (On : P → Prop) (Tan : P → E → Prop)
    (pb : Prob F P E) (pb' : Prob F P' E') : Prop where
  closed : ClosedHess pb On Tan
  hess : ∀ x v, On x → Tan x v → pb'.hess (φ x) (ψ x v) = ψ x (pb.hess x v)

/-- The same for the logarithm. -/
structure TranslatesLog (φ : P → P') (ψ : P → E → E') (On : P → Prop) (Tan : P → E → Prop)
    (M : Mfd F P E) (M' : Mfd F P' E') : Prop where
  closed : ClosedLog M On Tan
  log : ∀ x y, On x → On y → M'.log (φ x) (φ y) = ψ x (M.log x y)

/-- The same for the midpoint of two points. -/
structure TranslatesMean (φ : P → P') (On : P → Prop) (M : Mfd F P E) (M' : Mfd F P' E') : Prop where
  on : ∀ x y, On x → On y → On (M.pairMean x y)
  mean : ∀ x y, On x → On y → M'.pairMean (φ x) (φ y) = φ (M.pairMean x y)

/-- A log entry with its point translated. -/
def LogEntry.mapPoint (φ : P → P') (e : LogEntry F P) : LogEntry F P' :=
  { time := e.time, iteration := e.iteration, point := φ e.point, cost := e.cost,
    gradientNorm := e.gradientNorm }

/-- A result with its points translated; all numbers are kept. -/
def Result.mapPoint (φ : P → P') (r : Result F P) : Result F P' :=
  { point := φ r.point, cost := r.cost, iterations := r.iterations, stop := r.stop,
    time := r.time, costEvaluations := r.costEvaluations, stepSize := r.stepSize,
    gradientNorm := r.gradientNorm, log := r.log.map (List.map (LogEntry.mapPoint φ)),
    evals := r.evals.map φ }

/-- What a line search returns, with its points translated. -/
def SearchOut.mapPoint (φ : P → P') (o : SearchOut F P S) : SearchOut F P' S :=
  { stepSize := o.stepSize, newx := φ o.newx, mem := o.mem, evals := o.evals.map φ }

/-- Two line searchers do the same to problems that correspond, and stay on the manifold. -/
structure SearchTranslates (ls : LineSearcher F P E S) (ls' : LineSearcher F P' E' S)
    (φ : P → P') (ψ : P → E → E') (On : P → Prop) (Tan : P → E → Prop) (pb : Prob F P E)
    (pb' : Prob F P' E') : Prop where
  on : SearchesOn ls pb.M On Tan
  search : ∀ mem x d f0 df0, On x → Tan x d →
    ls'.search mem pb'.cost pb'.M (φ x) (ψ x d) f0 df0 =
      (ls.search mem pb.cost pb.M x d f0 df0).map (SearchOut.mapPoint φ)

variable {φ : P → P'} {ψ : P → E → E'} {On : P → Prop} {Tan : P → E → Prop} {pb : Prob F P E}
  {pb' : Prob F P' E'}

/-! ## Line searchers -/

private def BTState.mapPoint (φ : P → P') (s : BTState F P) : BTState F P' :=
  { alpha := s.alpha, newx := φ s.newx, newf := s.newf, count := s.count,
    evals := s.evals.map φ }

omit [PyNum F] in
private theorem trial_map (h : Translates φ ψ On Tan pb pb') {x : P} {d : E} (hx : On x)
    (hd : Tan x d) (a : F) (c : ℤ) (ev : List P) :
    trial pb'.cost pb'.M (φ x) (ψ x d) a c (ev.map φ) =
      (trial pb.cost pb.M x d a c ev).mapPoint φ := by
  have hM := h.closed.mfd
  have hs := hM.smul x a d hx hd
  simp only [trial, BTState.mapPoint, h.smul x a d hx hd, h.retraction x _ hx hs,
    h.cost _ (hM.retraction x _ hx hs), List.map_append, List.map_cons, List.map_nil]

private theorem btLoop_map (h : Translates φ ψ On Tan pb pb') {x : P} {d : E} (hx : On x)
    (hd : Tan x d) (f0 df0 c : F) (next : F → F) (n : ℕ) (s : BTState F P) :
    btLoop pb'.cost pb'.M (φ x) (ψ x d) f0 df0 c next n (s.mapPoint φ) =
      (btLoop pb.cost pb.M x d f0 df0 c next n s).mapPoint φ := by
  induction n generalizing s with
  | zero => rfl
  | succ n ih =>
    have e : (s.mapPoint φ).evals = s.evals.map φ := rfl
    rw [btLoop, btLoop, e, trial_map h hx hd, ih]
    by_cases hf : armijoFails c f0 df0 s.alpha s.newf
    · simp [BTState.mapPoint, hf]
    · simp [BTState.mapPoint, hf]

/-- **C133** (back-tracking line search): it depends on the problem up to isomorphism only. -/
theorem C133_backTracking (h : Translates φ ψ On Tan pb pb') (c : BackTrackingCfg F) :
    SearchTranslates (backTracking P E c) (backTracking P' E' c) φ ψ On Tan pb pb' := by
  refine ⟨C109_backTracking h.closed.mfd c, fun mem x d f0 df0 hx hd => ?_⟩
  simp only [backTracking, backTrackingSearch, h.norm x d hx hd]
  split
  · rfl
  · have ht := fun a => trial_map h hx hd a 1 []
    simp only [List.map_nil] at ht
    rw [ht, btLoop_map h hx hd]
    generalize btLoop pb.cost pb.M _ _ _ _ _ _ _ _ = s
    by_cases hf : lt f0 s.newf
    · simp [BTState.mapPoint, hf, Except.map, SearchOut.mapPoint]
    · simp [BTState.mapPoint, hf, Except.map, SearchOut.mapPoint]

/-- **C133** (adaptive line search). -/
theorem C133_adaptive (h : Translates φ ψ On Tan pb pb') (c : AdaptiveCfg F) :
    SearchTranslates (adaptive P E c) (adaptive P' E' c) φ ψ On Tan pb pb' := by
  refine ⟨C109_adaptive h.closed.mfd c, fun mem x d f0 df0 hx hd => ?_⟩
  simp only [adaptive, adaptiveSearch, h.norm x d hx hd]
  split
  · rfl
  · have ht := fun a => trial_map h hx hd a 1 []
    simp only [List.map_nil] at ht
    rw [ht, btLoop_map h hx hd]
    generalize btLoop pb.cost pb.M _ _ _ _ _ _ _ _ = s
    by_cases hf : lt f0 s.newf
    · simp [BTState.mapPoint, hf, Except.map, SearchOut.mapPoint]
    · simp [BTState.mapPoint, hf, Except.map, SearchOut.mapPoint]

/-! ## Logs -/

omit [PyNum F] in
theorem initLog_map (φ : P → P') (cfg : Cfg F) :
    (initLog cfg : Option (List (LogEntry F P))).map (List.map (LogEntry.mapPoint φ)) =
      initLog cfg := by
  unfold initLog
  split <;> rfl

omit [PyNum F] in
private theorem addLog_map (φ : P → P') (cfg : Cfg F) (l : Option (List (LogEntry F P)))
    (e : LogEntry F P) :
    addLog cfg (l.map (List.map (LogEntry.mapPoint φ))) (e.mapPoint φ) =
      (addLog cfg l e).map (List.map (LogEntry.mapPoint φ)) := by
  unfold addLog
  split
  · rfl
  · cases l <;> simp

/-! ## Steepest descent -/

private def SDState.mapPoint (φ : P → P') (s : SDState F P S) : SDState F P' S :=
  { iteration := s.iteration, x := φ s.x, mem := s.mem,
    log := s.log.map (List.map (LogEntry.mapPoint φ)), evals := s.evals.map φ }

/-- **C133** (steepest descent): the runs on the second problem are the translations of the runs
on the first, whether they end with a result or with an exception. -/
theorem C133_steepestDescent {cfg : Cfg F} {ls : LineSearcher F P E S}
    {ls' : LineSearcher F P' E' S} {clk : Clock F} {x : P} {mem : S}
    {r' : Except PyErr (Result F P' × S)} (h : Translates φ ψ On Tan pb pb')
    (hls : SearchTranslates ls ls' φ ψ On Tan pb pb') (hx : On x) :
    SDRuns cfg ls' pb' clk (φ x) mem r' ↔
      ∃ r, SDRuns cfg ls pb clk x mem r ∧ r' = r.map fun q => (q.1.mapPoint φ, q.2) := by
  unfold SDRuns
  split
  · constructor
    · rintro rfl
      exact ⟨_, rfl, rfl⟩
    · rintro ⟨r, rfl, rfl⟩
      rfl
  · have hi : sdInit cfg (φ x) mem = (sdInit cfg x mem).mapPoint φ := by
      simp only [sdInit, SDState.mapPoint, initLog_map, List.map_nil]
    rw [hi]
    refine Runs.map_iff (SDState.mapPoint φ) _ (fun s => On s.x) ?_ ?_ hx
    · intro s s' hs h'
      obtain ⟨o, ho, -, rfl⟩ := sdStep_next h'
      exact (hls.on _ _ _ _ _ _ _ hs (h.closed.mfd.neg _ _ hs (h.closed.grad _ hs)) ho).1
    · intro s hs
      have hg := h.closed.grad _ hs
      have hd := h.closed.mfd.neg _ _ hs hg
      have hl := addLog_map φ cfg s.log
        { time := clk.log (s.iteration + 1), iteration := s.iteration + 1, point := s.x,
          cost := pb.cost s.x, gradientNorm := pb.M.norm s.x (pb.grad s.x) }
      simp only [LogEntry.mapPoint] at hl
      simp only [sdStep, SDState.mapPoint, h.grad _ hs, h.norm _ _ hs hg, h.cost _ hs,
        h.neg _ _ hs hg, hls.search _ _ _ _ _ hs hd]
      cases ho : ls.search s.mem pb.cost pb.M s.x (pb.M.neg (pb.grad s.x)) (pb.cost s.x)
          (PyNum.neg (pow (pb.M.norm s.x (pb.grad s.x)) (lit 2))) with
      | error e => rfl
      | ok o =>
        have hn := (hls.on _ _ _ _ _ _ _ hs hd ho).1
        simp only [Except.map, SearchOut.mapPoint]
        split
        · simp only [Ctl.map, SDState.mapPoint, List.map_append, List.map_cons, List.map_nil,
            ← hl]
        · simp only [Ctl.map, Result.mapPoint, List.map_append, List.map_cons, List.map_nil,
            ← hl, h.cost _ hn]

/-! ## Conjugate gradient -/

private def BetaArgs.map (φ : P → P') (ψ : P → E → E') (a : BetaArgs P E F) : BetaArgs P' E' F :=
  { x := φ a.x, newx := φ a.newx, grad := ψ a.x a.grad, newgrad := ψ a.newx a.newgrad,
    Pnewgrad := ψ a.newx a.Pnewgrad, newgradPnewgrad := a.newgradPnewgrad,
    Pgrad := ψ a.x a.Pgrad, gradPgrad := a.gradPgrad, gradientNorm := a.gradientNorm,
    oldgrad := ψ a.newx a.oldgrad, dir := ψ a.newx a.dir }

/-- Translation of what `CGRuns` returns: result, memory of the line searcher, list of line
searches. -/
def mapSearches (φ : P → P') (ψ : P → E → E') (l : List (P × E × F)) : List (P' × E' × F) :=
  l.map fun q => (φ q.1, ψ q.1 q.2.1, q.2.2)

private structure BetaTan (On : P → Prop) (Tan : P → E → Prop) (a : BetaArgs P E F) : Prop where
  x : On a.x
  newx : On a.newx
  grad : Tan a.x a.grad
  newgrad : Tan a.newx a.newgrad
  Pnewgrad : Tan a.newx a.Pnewgrad
  Pgrad : Tan a.x a.Pgrad
  oldgrad : Tan a.newx a.oldgrad

/-- The rule of Liu and Storey takes the inner product of a vector at the old point with the
transported direction, which is a vector at the new point. -/
def InnerAnywhere (ψ : P → E → E') (φ : P → P') (On : P → Prop) (Tan : P → E → Prop)
    (M : Mfd F P E) (M' : Mfd F P' E') : Prop :=
  ∀ x y v w, On x → On y → Tan x v → Tan y w → M'.inner (φ x) (ψ x v) (ψ y w) = M.inner x v w

private theorem beta_map (h : Translates φ ψ On Tan pb pb') {rule : BetaRule}
    (hr : rule = .liuStorey → InnerAnywhere ψ φ On Tan pb.M pb'.M) {a : BetaArgs P E F}
    (ha : BetaTan On Tan a) (hd : Tan a.newx a.dir) :
    rule.eval pb'.M (a.map φ ψ) = rule.eval pb.M a := by
  obtain ⟨h1, h2, h3, h4, h5, h6, h7⟩ := ha
  have hM := h.closed.mfd
  have hdiff := h.sub_tan _ _ _ h2 h4 h7
  have hold := hM.transport _ _ _ h1 h2 h6
  have hPd := h.sub_tan _ _ _ h2 h5 hold
  cases rule
  · rfl
  · simp only [BetaRule.eval, betaHagerZhang, BetaArgs.map, h.sub _ _ _ h2 h4 h7,
      h.transport _ _ _ h1 h2 h6, h.sub _ _ _ h2 h5 hold, h.inner _ _ _ h2 hdiff hd,
      h.inner _ _ _ h2 hdiff h5, h.inner _ _ _ h2 hdiff hPd, h.inner _ _ _ h2 hd h4,
      h.norm _ _ h2 hd]
  · simp only [BetaRule.eval, betaHestenesStiefel, BetaArgs.map, h.sub _ _ _ h2 h4 h7,
      h.inner _ _ _ h2 h5 hdiff, h.inner _ _ _ h2 hdiff hd]
  · simp only [BetaRule.eval, betaPolakRibiere, BetaArgs.map, h.sub _ _ _ h2 h4 h7,
      h.inner _ _ _ h2 h5 hdiff]
  · simp only [BetaRule.eval, betaLiuStorey, BetaArgs.map, h.sub _ _ _ h2 h4 h7,
      h.inner _ _ _ h2 h5 hdiff, hr rfl _ _ _ _ h1 h2 h3 hd]

private theorem cgDirection_map (h : Translates φ ψ On Tan pb pb') {rule : BetaRule}
    (hr : rule = .liuStorey → InnerAnywhere ψ φ On Tan pb.M pb'.M) {orth : F} {a : BetaArgs P E F}
    (ha : BetaTan On Tan a) {a' : BetaArgs P' E' F} {dir : E} (hd : Tan a.x dir)
    (ha' : a' = { a.map φ ψ with dir := a'.dir }) :
    cgDirection pb'.M rule orth a' (ψ a.x dir) =
      (cgDirection pb.M rule orth a dir).map (ψ a.newx) := by
  have hM := h.closed.mfd
  have ht := hM.transport _ _ _ ha.x ha.newx hd
  have hb := beta_map h hr (a := { a with dir := pb.M.transport a.x a.newx dir })
    ⟨ha.x, ha.newx, ha.grad, ha.newgrad, ha.Pnewgrad, ha.Pgrad, ha.oldgrad⟩ ht
  have hn := hM.neg _ _ ha.newx ha.Pnewgrad
  rw [ha']
  simp only [cgDirection, BetaArgs.map] at hb ⊢
  simp only [h.inner _ _ _ ha.newx ha.oldgrad ha.Pnewgrad, h.neg _ _ ha.newx ha.Pnewgrad,
    h.transport _ _ _ ha.x ha.newx hd, hb]
  cases div (pb.M.inner a.newx a.oldgrad a.Pnewgrad) a.newgradPnewgrad with
  | error e => rfl
  | ok q =>
    dsimp only
    by_cases hq : le orth (PyNum.abs q)
    · simp [hq, Except.map]
    · simp only [hq]
      cases rule.eval pb.M { a with dir := pb.M.transport a.x a.newx dir } with
      | error e => rfl
      | ok b =>
        simp only [Except.map, h.smul _ b _ ha.newx ht,
          h.add _ _ _ ha.newx hn (hM.smul _ b _ ha.newx ht)]
        rfl

private def CGState.map (φ : P → P') (ψ : P → E → E') (s : CGState F P E S) :
    CGState F P' E' S :=
  { iteration := s.iteration, stepSize := s.stepSize, x := φ s.x, cost := s.cost,
    grad := ψ s.x s.grad, Pgrad := ψ s.x s.Pgrad, gradientNorm := s.gradientNorm,
    gradPgrad := s.gradPgrad, dir := ψ s.x s.dir, mem := s.mem,
    log := s.log.map (List.map (LogEntry.mapPoint φ)), evals := s.evals.map φ,
    searches := mapSearches φ ψ s.searches }

/-- **C133** (conjugate gradient): as for steepest descent; also the search directions
correspond. -/
theorem C133_conjugateGradient {cfg : Cfg F} {rule : BetaRule} {orth : F}
    {ls : LineSearcher F P E S} {ls' : LineSearcher F P' E' S} {clk : Clock F} {x : P} {mem : S}
    {r' : Except PyErr (Result F P' × S × List (P' × E' × F))}
    (h : Translates φ ψ On Tan pb pb')
    (hr : rule = .liuStorey → InnerAnywhere ψ φ On Tan pb.M pb'.M)
    (hls : SearchTranslates ls ls' φ ψ On Tan pb pb') (hx : On x) :
    CGRuns cfg rule orth ls' pb' clk (φ x) mem r' ↔
      ∃ r, CGRuns cfg rule orth ls pb clk x mem r ∧
        r' = r.map fun q => (q.1.mapPoint φ, q.2.1, mapSearches φ ψ q.2.2) := by
  have hM := h.closed.mfd
  unfold CGRuns
  split
  · constructor
    · rintro rfl
      exact ⟨_, rfl, rfl⟩
    · rintro ⟨r, rfl, rfl⟩
      rfl
  · have hg := h.closed.grad _ hx
    have hP := h.closed.precon _ _ hx hg
    have hi : cgInit cfg pb' (φ x) mem = (cgInit cfg pb x mem).map φ ψ := by
      simp only [cgInit, CGState.map, initLog_map, List.map_nil, List.map_cons, h.grad _ hx,
        h.precon _ _ hx hg, h.cost _ hx, h.norm _ _ hx hg, h.inner _ _ _ hx hg hP,
        h.neg _ _ hx hP, mapSearches]
    rw [hi]
    refine Runs.map_iff (CGState.map φ ψ) _
      (fun s => On s.x ∧ Tan s.x s.grad ∧ Tan s.x s.Pgrad ∧ Tan s.x s.dir) ?_ ?_
      ⟨hx, hg, hP, hM.neg _ _ hx hP⟩
    · rintro s s' ⟨h1, h2, h3, h4⟩ hs
      obtain ⟨o, nd, -, ho, hnd, rfl⟩ := cgStep_next hs
      have hd : Tan s.x (cgSearchDir pb s).1 := by
        unfold cgSearchDir
        split
        · exact hM.neg _ _ h1 h3
        · exact h4
      obtain ⟨a, -⟩ := hls.on _ _ _ _ _ _ _ h1 hd ho
      have hg := h.closed.grad _ a
      have hP := h.closed.precon _ _ a hg
      refine ⟨a, hg, hP, ?_⟩
      simp only [cgDirection] at hnd
      split at hnd
      · cases hnd
      · split at hnd
        · cases hnd; exact hM.neg _ _ a hP
        · split at hnd
          · cases hnd
          · cases hnd
            exact hM.add _ _ _ a (hM.neg _ _ a hP)
              (hM.smul _ _ _ a (hM.transport _ _ _ h1 a hd))
    · rintro s ⟨h1, h2, h3, h4⟩
      have hl := addLog_map φ cfg s.log
        { time := clk.log (s.iteration + 1), iteration := s.iteration + 1, point := s.x,
          cost := s.cost, gradientNorm := s.gradientNorm }
      simp only [LogEntry.mapPoint] at hl
      obtain ⟨d, df0, hdd, hd, hdd'⟩ : ∃ d df0,
          (if le (lit 0) (pb.M.inner s.x s.grad s.dir) then
            (pb.M.neg s.Pgrad, PyNum.neg s.gradPgrad)
            else (s.dir, pb.M.inner s.x s.grad s.dir)) = (d, df0) ∧ Tan s.x d ∧
          (if le (lit 0) (pb'.M.inner (s.map φ ψ).x (s.map φ ψ).grad (s.map φ ψ).dir) then
            (pb'.M.neg (s.map φ ψ).Pgrad, PyNum.neg (s.map φ ψ).gradPgrad)
            else ((s.map φ ψ).dir,
              pb'.M.inner (s.map φ ψ).x (s.map φ ψ).grad (s.map φ ψ).dir)) = (ψ s.x d, df0) := by
        have e : pb'.M.inner (s.map φ ψ).x (s.map φ ψ).grad (s.map φ ψ).dir =
          pb.M.inner s.x s.grad s.dir := h.inner _ _ _ h1 h2 h4
        have e' : pb'.M.neg (s.map φ ψ).Pgrad = ψ s.x (pb.M.neg s.Pgrad) := h.neg _ _ h1 h3
        rw [e, e']
        by_cases hc : le (lit 0) (pb.M.inner s.x s.grad s.dir)
        · exact ⟨_, _, by rw [if_pos hc], hM.neg _ _ h1 h3, by rw [if_pos hc]; rfl⟩
        · exact ⟨_, _, by rw [if_neg hc], h4, by rw [if_neg hc]; rfl⟩
      simp only [cgStep]
      rw [hdd, hdd']
      simp only [CGState.map]
      split
      · simp only [Except.map, Ctl.map, Result.mapPoint, ← hl]
      · simp only [hls.search _ _ _ _ _ h1 hd]
        cases ho : ls.search s.mem pb.cost pb.M s.x d s.cost df0 with
        | error e => rfl
        | ok o =>
          have a := (hls.on _ _ _ _ _ _ _ h1 hd ho).1
          have hg := h.closed.grad _ a
          have hP := h.closed.precon _ _ a hg
          have ht := hM.transport _ _ _ h1 a h2
          simp only [Except.map, SearchOut.mapPoint, h.grad _ a, h.precon _ _ a hg, h.cost _ a,
            h.norm _ _ a hg, h.inner _ _ _ a hg hP, h.transport _ _ _ h1 a h2]
          have hdir := cgDirection_map h hr (orth := orth)
            (a := { x := s.x, newx := o.newx, grad := s.grad, newgrad := pb.grad o.newx,
                    Pnewgrad := pb.precon o.newx (pb.grad o.newx),
                    newgradPnewgrad := pb.M.inner o.newx (pb.grad o.newx)
                      (pb.precon o.newx (pb.grad o.newx)), Pgrad := s.Pgrad,
                    gradPgrad := s.gradPgrad, gradientNorm := s.gradientNorm,
                    oldgrad := pb.M.transport s.x o.newx s.grad, dir := d })
            (a' := { x := φ s.x, newx := φ o.newx, grad := ψ s.x s.grad,
                     newgrad := ψ o.newx (pb.grad o.newx),
                     Pnewgrad := ψ o.newx (pb.precon o.newx (pb.grad o.newx)),
                     newgradPnewgrad := pb.M.inner o.newx (pb.grad o.newx)
                       (pb.precon o.newx (pb.grad o.newx)), Pgrad := ψ s.x s.Pgrad,
                     gradPgrad := s.gradPgrad, gradientNorm := s.gradientNorm,
                     oldgrad := ψ o.newx (pb.M.transport s.x o.newx s.grad), dir := ψ s.x d })
            ⟨h1, a, h2, hg, hP, h3, ht⟩ hd rfl
          dsimp only at hdir
          rw [hdir]
          cases cgDirection pb.M rule orth _ d with
          | error e => rfl
          | ok nd =>
            simp only [Except.map, Ctl.map, CGState.map, List.map_append, List.map_cons,
              List.map_nil, ← hl, mapSearches]

/-! ## Trust regions -/

private def TCGState.map (f : E → E') (s : TCGState F E) : TCGState F E' :=
  { eta := f s.eta, Heta := f s.Heta, r := f s.r, ePe := s.ePe, zr := s.zr, dPd := s.dPd,
    delta := f s.delta, ePd := s.ePd, modelValue := s.modelValue }

/-- What the inner loop returns, with its vectors translated. -/
def TCGOut.map (f : E → E') (o : TCGOut E) : TCGOut E' :=
  { eta := f o.eta, Heta := f o.Heta, j := o.j, stop := o.stop, hessCalls := o.hessCalls }

private structure TCGTan (T : E → Prop) (s : TCGState F E) : Prop where
  eta : T s.eta
  Heta : T s.Heta
  r : T s.r
  delta : T s.delta

private theorem tcgBody_map (h : Translates φ ψ On Tan pb pb')
    (hH : TranslatesHess φ ψ On Tan pb pb') {c : TRCfg F} {x : P} (hx : On x) {g : E}
    (hg : Tan x g) {Delta normr0 : F} {mininner : ℤ} {j : ℕ} {s : TCGState F E}
    (hs : TCGTan (Tan x) s) :
    tcgBody c pb' (φ x) (ψ x g) Delta normr0 mininner j (s.map (ψ x)) =
      (tcgBody c pb x g Delta normr0 mininner j s).map
        (Ctl.map (TCGState.map (ψ x)) (TCGOut.map (ψ x))) := by
  have hM := h.closed.mfd
  obtain ⟨h1, h2, h3, h4⟩ := hs
  have hHd := hH.closed _ _ hx h4
  have eH : pb'.hess (φ x) (s.map (ψ x)).delta = ψ x (pb.hess x s.delta) := hH.hess _ _ hx h4
  have ed : pb'.M.inner (φ x) (s.map (ψ x)).delta (ψ x (pb.hess x s.delta)) =
    pb.M.inner x s.delta (pb.hess x s.delta) := h.inner _ _ _ hx h4 hHd
  have ta : ∀ a, Tan x (pb.M.add s.eta (pb.M.smul a s.delta)) := fun a =>
    hM.add _ _ _ hx h1 (hM.smul _ a _ hx h4)
  have tb : ∀ a, Tan x (pb.M.add s.Heta (pb.M.smul a (pb.hess x s.delta))) := fun a =>
    hM.add _ _ _ hx h2 (hM.smul _ a _ hx hHd)
  have tr : ∀ a, Tan x (pb.M.add s.r (pb.M.smul a (pb.hess x s.delta))) := fun a =>
    hM.add _ _ _ hx h3 (hM.smul _ a _ hx hHd)
  have ea : ∀ a, pb'.M.add (s.map (ψ x)).eta (pb'.M.smul a (s.map (ψ x)).delta) =
      ψ x (pb.M.add s.eta (pb.M.smul a s.delta)) := fun a => by
    simp only [TCGState.map]
    rw [h.smul _ a _ hx h4, h.add _ _ _ hx h1 (hM.smul _ a _ hx h4)]
  have eb : ∀ a, pb'.M.add (s.map (ψ x)).Heta (pb'.M.smul a (ψ x (pb.hess x s.delta))) =
      ψ x (pb.M.add s.Heta (pb.M.smul a (pb.hess x s.delta))) := fun a => by
    simp only [TCGState.map]
    rw [h.smul _ a _ hx hHd, h.add _ _ _ hx h2 (hM.smul _ a _ hx hHd)]
  have er : ∀ a, pb'.M.add (s.map (ψ x)).r (pb'.M.smul a (ψ x (pb.hess x s.delta))) =
      ψ x (pb.M.add s.r (pb.M.smul a (pb.hess x s.delta))) := fun a => by
    simp only [TCGState.map]
    rw [h.smul _ a _ hx hHd, h.add _ _ _ hx h3 (hM.smul _ a _ hx hHd)]
  have em : ∀ a, modelFun pb' (φ x) (ψ x g) (ψ x (pb.M.add s.eta (pb.M.smul a s.delta)))
      (ψ x (pb.M.add s.Heta (pb.M.smul a (pb.hess x s.delta)))) =
      modelFun pb x g (pb.M.add s.eta (pb.M.smul a s.delta))
        (pb.M.add s.Heta (pb.M.smul a (pb.hess x s.delta))) := fun a => by
    simp only [modelFun, h.inner _ _ _ hx (ta a) hg, h.inner _ _ _ hx (ta a) (tb a)]
  have e2 : ∀ a, pb'.M.inner (φ x) (ψ x (pb.M.add s.r (pb.M.smul a (pb.hess x s.delta))))
      (ψ x (pb.M.add s.r (pb.M.smul a (pb.hess x s.delta)))) =
      pb.M.inner x (pb.M.add s.r (pb.M.smul a (pb.hess x s.delta)))
        (pb.M.add s.r (pb.M.smul a (pb.hess x s.delta))) := fun a =>
    h.inner _ _ _ hx (tr a) (tr a)
  have tz : ∀ a, Tan x (if c.useRand then pb.M.add s.r (pb.M.smul a (pb.hess x s.delta))
      else pb.precon x (pb.M.add s.r (pb.M.smul a (pb.hess x s.delta)))) := fun a => by
    split
    · exact tr a
    · exact h.closed.precon _ _ hx (tr a)
  have ez : ∀ a, (if c.useRand then ψ x (pb.M.add s.r (pb.M.smul a (pb.hess x s.delta)))
      else pb'.precon (φ x) (ψ x (pb.M.add s.r (pb.M.smul a (pb.hess x s.delta))))) =
      ψ x (if c.useRand then pb.M.add s.r (pb.M.smul a (pb.hess x s.delta))
        else pb.precon x (pb.M.add s.r (pb.M.smul a (pb.hess x s.delta)))) := fun a => by
    split
    · rfl
    · exact h.precon _ _ hx (tr a)
  have edelta : ∀ a b, pb'.M.toTangent (φ x) (pb'.M.add (pb'.M.neg
        (ψ x (if c.useRand then pb.M.add s.r (pb.M.smul a (pb.hess x s.delta))
          else pb.precon x (pb.M.add s.r (pb.M.smul a (pb.hess x s.delta))))))
        (pb'.M.smul b (s.map (ψ x)).delta)) =
      ψ x (pb.M.toTangent x (pb.M.add (pb.M.neg
        (if c.useRand then pb.M.add s.r (pb.M.smul a (pb.hess x s.delta))
          else pb.precon x (pb.M.add s.r (pb.M.smul a (pb.hess x s.delta)))))
        (pb.M.smul b s.delta))) := fun a b => by
    have hn := hM.neg _ _ hx (tz a)
    have hs := hM.smul _ b _ hx h4
    simp only [TCGState.map]
    rw [h.neg _ _ hx (tz a), h.smul _ b _ hx h4, h.add _ _ _ hx hn hs,
      h.toTangent _ _ hx (hM.add _ _ _ hx hn hs)]
  simp only [tcgBody, eH, ed]
  have epre : (s.map (ψ x)).zr = s.zr ∧ (s.map (ψ x)).ePe = s.ePe ∧ (s.map (ψ x)).ePd = s.ePd ∧
    (s.map (ψ x)).dPd = s.dPd ∧ (s.map (ψ x)).modelValue = s.modelValue := ⟨rfl, rfl, rfl, rfl, rfl⟩
  obtain ⟨e3, e4, e5, e6, e7⟩ := epre
  rw [e3, e4, e5, e6, e7]
  generalize (if ne0 (pb.M.inner x s.delta (pb.hess x s.delta)) = true then _ else _ :
    Except PyErr (F × F)) = pre
  match pre with
  | .error e => rfl
  | .ok (alpha, ePeNew) =>
    simp only [ea, eb, er, em, e2, ez, edelta]
    by_cases hc : (le (pb.M.inner x s.delta (pb.hess x s.delta)) (lit 0) ||
        le (pow Delta (lit 2)) ePeNew) = true
    · simp only [hc, if_true]
      split
      · rfl
      · rfl
    · simp only [hc]
      by_cases hm : le s.modelValue (modelFun pb x g (pb.M.add s.eta (pb.M.smul alpha s.delta))
        (pb.M.add s.Heta (pb.M.smul alpha (pb.hess x s.delta)))) = true
      · simp only [hm, if_true]
        rfl
      · simp only [hm]
        by_cases hk : (decide (mininner ≤ (j : ℤ)) &&
            le (sqrt (pb.M.inner x (pb.M.add s.r (pb.M.smul alpha (pb.hess x s.delta)))
              (pb.M.add s.r (pb.M.smul alpha (pb.hess x s.delta)))))
              (mul normr0 (pymin (pow normr0 c.theta) c.kappa))) = true
        · simp only [hk, if_true]
          rfl
        · simp only [hk]
          rw [h.inner _ _ _ hx (tz alpha) (tr alpha)]
          cases div (pb.M.inner x (if c.useRand = true then
            pb.M.add s.r (pb.M.smul alpha (pb.hess x s.delta)) else
            pb.precon x (pb.M.add s.r (pb.M.smul alpha (pb.hess x s.delta))))
            (pb.M.add s.r (pb.M.smul alpha (pb.hess x s.delta)))) s.zr with
          | error e => rfl
          | ok beta =>
            rfl

private theorem tcgBody_tan (h : ClosedProb pb On Tan) (hH : ClosedHess pb On Tan) {c : TRCfg F}
    {x : P} (hx : On x) {g : E} {Delta normr0 : F} {mininner : ℤ} {j : ℕ} {s s' : TCGState F E}
    (hs : TCGTan (Tan x) s)
    (he : tcgBody c pb x g Delta normr0 mininner j s = .ok (.next s')) : TCGTan (Tan x) s' := by
  have hM := h.mfd
  obtain ⟨h1, h2, h3, h4⟩ := hs
  have hHd := hH _ _ hx h4
  simp only [tcgBody] at he
  split at he
  · cases he
  · split at he
    · split at he <;> cases he
    · split at he
      · cases he
      · split at he
        · cases he
        · split at he
          · cases he
          · cases he
            have hr := fun a => hM.add _ _ _ hx h3 (hM.smul _ a _ hx hHd)
            refine ⟨hM.add _ _ _ hx h1 (hM.smul _ _ _ hx h4),
              hM.add _ _ _ hx h2 (hM.smul _ _ _ hx hHd), hr _,
              hM.toTangent _ _ hx (hM.add _ _ _ hx (hM.neg _ _ hx ?_) (hM.smul _ _ _ hx h4))⟩
            split
            · exact hr _
            · exact h.precon _ _ hx (hr _)

private theorem tcgLoop_map (h : Translates φ ψ On Tan pb pb')
    (hH : TranslatesHess φ ψ On Tan pb pb') {c : TRCfg F} {x : P} (hx : On x) {g : E}
    (hg : Tan x g) {Delta normr0 : F} {mininner : ℤ} (n j : ℕ) {s : TCGState F E}
    (hs : TCGTan (Tan x) s) :
    tcgLoop c pb' (φ x) (ψ x g) Delta normr0 mininner n j (s.map (ψ x)) =
      (tcgLoop c pb x g Delta normr0 mininner n j s).map (TCGOut.map (ψ x)) := by
  induction n generalizing j s with
  | zero => cases j <;> rfl
  | succ n ih =>
    have e := tcgBody_map h hH hx hg (c := c) (Delta := Delta) (normr0 := normr0)
      (mininner := mininner) (j := j) hs
    rw [tcgLoop, tcgLoop, e]
    match hb : tcgBody c pb x g Delta normr0 mininner j s with
    | .error e => rfl
    | .ok (.brk o) => rfl
    | .ok (.next s') => exact ih _ (tcgBody_tan h.closed hH.closed hx hs hb)

private theorem tcgInit_tan (h : ClosedProb pb On Tan) (hH : ClosedHess pb On Tan) {c : TRCfg F}
    {x : P} (hx : On x) {g eta : E} (hg : Tan x g) (he : Tan x eta) :
    TCGTan (Tan x) (tcgInit c pb x g eta) := by
  have hM := h.mfd
  unfold tcgInit
  dsimp only
  split
  · have hr := hM.add _ _ _ hx hg (hH _ _ hx he)
    exact ⟨he, hH _ _ hx he, hr, hM.neg _ _ hx hr⟩
  · exact ⟨he, hM.zeroVector _ hx, hg, hM.neg _ _ hx (h.precon _ _ hx hg)⟩

private theorem tcgInit_map (h : Translates φ ψ On Tan pb pb')
    (hH : TranslatesHess φ ψ On Tan pb pb') {c : TRCfg F} {x : P} (hx : On x) {g eta : E}
    (hg : Tan x g) (he : Tan x eta) :
    tcgInit c pb' (φ x) (ψ x g) (ψ x eta) = (tcgInit c pb x g eta).map (ψ x) := by
  have hM := h.closed.mfd
  have h1 := hH.closed _ _ hx he
  have hr := hM.add _ _ _ hx hg h1
  have hz := h.closed.precon _ _ hx hg
  simp only [tcgInit]
  by_cases hc : c.useRand = true
  · simp only [hc, if_true, TCGState.map, hH.hess _ _ hx he, h.add _ _ _ hx hg h1, h.neg _ _ hx hr,
      h.inner _ _ _ hx he he, h.inner _ _ _ hx hr hr, h.inner _ _ _ hx he (hM.neg _ _ hx hr),
      modelFun, h.inner _ _ _ hx he hg, h.inner _ _ _ hx he h1]
  · simp only [hc, TCGState.map, h.precon _ _ hx hg, h.zeroVector _ hx, h.neg _ _ hx hz,
      h.inner _ _ _ hx hz hg]
    rfl

/-- **C133** (trust-region subproblem): the steps correspond, with the same number of inner
iterations and the same reason for stopping. -/
theorem C133_tcg (h : Translates φ ψ On Tan pb pb') (hH : TranslatesHess φ ψ On Tan pb pb')
    {c : TRCfg F} {x : P} (hx : On x) {g eta : E} (hg : Tan x g) (he : Tan x eta) {Delta : F}
    {mininner maxinner : ℤ} :
    tcg c pb' (φ x) (ψ x g) (ψ x eta) Delta mininner maxinner =
      (tcg c pb x g eta Delta mininner maxinner).map (TCGOut.map (ψ x)) := by
  have ht := tcgInit_tan h.closed hH.closed (c := c) hx hg he
  simp only [tcg, tcgInit_map h hH hx hg he]
  have e : pb'.M.inner (φ x) ((tcgInit c pb x g eta).map (ψ x)).r
      ((tcgInit c pb x g eta).map (ψ x)).r =
      pb.M.inner x (tcgInit c pb x g eta).r (tcgInit c pb x g eta).r :=
    h.inner _ _ _ hx ht.r ht.r
  rw [e, tcgLoop_map h hH hx hg _ _ ht]

private theorem cauchy_map (h : Translates φ ψ On Tan pb pb')
    (hH : TranslatesHess φ ψ On Tan pb pb') {x : P} (hx : On x) {g : E} (hg : Tan x g)
    {fx normGrad Delta : F} {o : TCGOut E} (ho : Tan x o.eta) (ho' : Tan x o.Heta) :
    cauchy pb' (φ x) fx (ψ x g) normGrad Delta (o.map (ψ x)) =
      (cauchy pb x fx g normGrad Delta o).map fun q => (ψ x q.1, ψ x q.2) := by
  have hM := h.closed.mfd
  have hHg := hH.closed _ _ hx hg
  have t1 := fun a => hM.smul _ a _ hx hg
  have t2 := fun a => hM.smul _ a _ hx hHg
  simp only [cauchy, hH.hess _ _ hx hg, h.inner _ _ _ hx hg hHg]
  generalize (if le (pb.M.inner x g (pb.hess x g)) (lit 0) = true then _ else _ :
    Except PyErr F) = tauC
  cases tauC with
  | error e => rfl
  | ok tauC =>
    dsimp only
    cases div (mul (PyNum.neg tauC) Delta) normGrad with
    | error e => rfl
    | ok t =>
      simp only [TCGOut.map, h.smul _ t _ hx hg, h.smul _ t _ hx hHg, h.inner _ _ _ hx hg ho,
        h.inner _ _ _ hx ho' ho, h.inner _ _ _ hx hg (t1 t), h.inner _ _ _ hx (t2 t) (t1 t)]
      split_ifs <;> rfl

private theorem cauchy_tan (h : ClosedProb pb On Tan) (hH : ClosedHess pb On Tan) {x : P}
    (hx : On x) {g : E} (hg : Tan x g) {fx normGrad Delta : F} {o : TCGOut E} (ho : Tan x o.eta)
    (ho' : Tan x o.Heta) {q : E × E} (hq : cauchy pb x fx g normGrad Delta o = .ok q) :
    Tan x q.1 ∧ Tan x q.2 := by
  have hHg := hH _ _ hx hg
  simp only [cauchy] at hq
  split at hq
  · cases hq
  · split at hq
    · cases hq
    · split at hq <;> cases hq
      · exact ⟨h.mfd.smul _ _ _ hx hg, h.mfd.smul _ _ _ hx hHg⟩
      · exact ⟨ho, ho'⟩

private def TRState.map (φ : P → P') (ψ : P → E → E') (s : TRState F P E) : TRState F P' E' :=
  { iteration := s.iteration, x := φ s.x, fx := s.fx, fgradx := ψ s.x s.fgradx,
    normGrad := s.normGrad, Delta := s.Delta, evals := s.evals.map φ,
    history := s.history.map fun q => (φ q.1, q.2) }

private theorem trStep_map (h : Translates φ ψ On Tan pb pb')
    (hH : TranslatesHess φ ψ On Tan pb pb') {cfg : Cfg F} {c : TRCfg F} {clk : Clock F}
    {eta0 : ℤ → E} {eta0' : ℤ → E'} {mi ma : ℤ} {DB : F} {s : TRState F P E} (hx : On s.x)
    (hg : Tan s.x s.fgradx)
    (heta : c.useRand = true → Tan s.x (eta0 (s.iteration + 1)) ∧
      eta0' (s.iteration + 1) = ψ s.x (eta0 (s.iteration + 1))) :
    trStep cfg c pb' clk eta0' mi ma DB (s.map φ ψ) =
      (trStep cfg c pb clk eta0 mi ma DB s).map
        (Ctl.map (TRState.map φ ψ) fun q => (q.1.mapPoint φ, q.2.map fun q => (φ q.1, q.2))) := by
  have hM := h.closed.mfd
  obtain ⟨eta, he1, he2, he3⟩ : ∃ eta, Tan s.x eta ∧
      (if c.useRand then eta0 (s.iteration + 1) else pb.M.zeroVector s.x) = eta ∧
      (if c.useRand then eta0' ((s.map φ ψ).iteration + 1)
        else pb'.M.zeroVector (s.map φ ψ).x) = ψ s.x eta := by
    by_cases hc : c.useRand = true
    · exact ⟨_, (heta hc).1, by rw [if_pos hc], by rw [if_pos hc]; exact (heta hc).2⟩
    · exact ⟨_, hM.zeroVector _ hx, by rw [if_neg hc], by
        rw [if_neg hc]; exact h.zeroVector _ hx⟩
  simp only [trStep]
  rw [he2, he3]
  have et : tcg c pb' (s.map φ ψ).x (s.map φ ψ).fgradx (ψ s.x eta) (s.map φ ψ).Delta mi ma =
    (tcg c pb s.x s.fgradx eta s.Delta mi ma).map (TCGOut.map (ψ s.x)) := C133_tcg h hH hx hg he1
  rw [et]
  cases ht : tcg c pb s.x s.fgradx eta s.Delta mi ma with
  | error e => rfl
  | ok o =>
    obtain ⟨to1, to2⟩ := C109_tcg h.closed hH.closed hx hg he1 ht
    simp only [Except.map]
    have ec : (if c.useRand = true then
          cauchy pb' (s.map φ ψ).x (s.map φ ψ).fx (s.map φ ψ).fgradx (s.map φ ψ).normGrad
            (s.map φ ψ).Delta (o.map (ψ s.x))
        else Except.ok ((o.map (ψ s.x)).eta, (o.map (ψ s.x)).Heta)) =
        (if c.useRand = true then cauchy pb s.x s.fx s.fgradx s.normGrad s.Delta o
          else Except.ok (o.eta, o.Heta)).map fun q => (ψ s.x q.1, ψ s.x q.2) := by
      split
      · exact cauchy_map h hH hx hg to1 to2
      · rfl
    rw [ec]
    have tc : ∀ q, (if c.useRand = true then cauchy pb s.x s.fx s.fgradx s.normGrad s.Delta o
          else Except.ok (o.eta, o.Heta)) = .ok q → Tan s.x q.1 ∧ Tan s.x q.2 := by
      intro q hq
      split at hq
      · exact cauchy_tan h.closed hH.closed hx hg to1 to2 hq
      · cases hq
        exact ⟨to1, to2⟩
    generalize (if c.useRand = true then cauchy pb s.x s.fx s.fgradx s.normGrad s.Delta o
          else Except.ok (o.eta, o.Heta)) = q at tc ⊢
    match q with
    | .error e => rfl
    | .ok (eta, Heta) =>
      obtain ⟨t1, t2⟩ := tc _ rfl
      have hr := hM.retraction _ _ hx t1
      have e1 : pb'.M.retraction (s.map φ ψ).x (ψ s.x eta) = φ (pb.M.retraction s.x eta) :=
        h.retraction _ _ hx t1
      have e2 : trRatio c pb' (s.map φ ψ).x (s.map φ ψ).fx (s.map φ ψ).fgradx
          (pb.cost (pb.M.retraction s.x eta)) (ψ s.x eta) (ψ s.x Heta) =
          trRatio c pb s.x s.fx s.fgradx (pb.cost (pb.M.retraction s.x eta)) eta Heta := by
        simp only [trRatio, TRState.map, h.inner _ _ _ hx hg t1, h.inner _ _ _ hx t1 t2]
      simp only [Except.map, e1, h.cost _ hr, e2]
      match trRatio c pb s.x s.fx s.fgradx (pb.cost (pb.M.retraction s.x eta)) eta Heta with
      | .error e => rfl
      | .ok (rho, dec) =>
        simp only [TRState.map, TCGOut.map]
        cases trRadius rho dec o.stop DB s.Delta with
        | error e => rfl
        | ok D =>
          dsimp only
          by_cases hacc : trAccept c rho dec = true
          · simp only [hacc, if_true, h.grad _ hr, h.norm _ _ hr (h.closed.grad _ hr)]
            split
            · simp only [Ctl.map, TRState.map, List.map_append, List.map_cons, List.map_nil]
            · simp only [Ctl.map, Result.mapPoint, List.map_append, List.map_cons, List.map_nil,
                initLog_map]
          · rw [Bool.not_eq_true] at hacc
            simp only [hacc, Bool.false_eq_true, if_false]
            split
            · simp only [Ctl.map, TRState.map, List.map_append, List.map_cons, List.map_nil]
            · simp only [Ctl.map, Result.mapPoint, List.map_append, List.map_cons, List.map_nil,
                initLog_map]

/-- **C133** (trust regions): the runs on the second problem are the translations of the runs on
the first, with the same radii (with `use_rand`, if the random starts correspond). -/
theorem C133_trustRegions {cfg : Cfg F} {c : TRCfg F} {clk : Clock F} {eta0 : ℤ → E}
    {eta0' : ℤ → E'} {mininner : ℤ} {maxinner : Option ℤ}
    {typicalDist DeltaBar Delta0 : Option F} {x : P}
    {r' : Except PyErr (Result F P' × List (P' × F × F))} (h : Translates φ ψ On Tan pb pb')
    (hH : TranslatesHess φ ψ On Tan pb pb')
    (heta : c.useRand = true → ∀ mi ma D D0 s,
      Reaches (trStep cfg c pb clk eta0 mi ma D) (trInit pb x D0) s →
      Tan s.x (eta0 (s.iteration + 1)) ∧
        eta0' (s.iteration + 1) = ψ s.x (eta0 (s.iteration + 1))) (hx : On x) :
    TRRuns cfg c pb' clk eta0' mininner maxinner typicalDist DeltaBar Delta0 (φ x) r' ↔
      ∃ r, TRRuns cfg c pb clk eta0 mininner maxinner typicalDist DeltaBar Delta0 x r ∧
        r' = r.map fun q => (q.1.mapPoint φ, q.2.map fun q => (φ q.1, q.2)) := by
  have hM := h.closed.mfd
  unfold TRRuns
  rw [h.dim]
  split
  · constructor
    · rintro rfl
      exact ⟨_, rfl, rfl⟩
    · rintro ⟨r, rfl, rfl⟩
      rfl
  · rename_i DB D0 _
    have hg := h.closed.grad _ hx
    have hi : trInit pb' (φ x) D0 = (trInit pb x D0).map φ ψ := by
      simp only [trInit, TRState.map, List.map_nil, List.map_cons, h.grad _ hx, h.cost _ hx,
        h.norm _ _ hx hg]
    rw [hi]
    refine Runs.map_iff (TRState.map φ ψ) _
      (fun s => (On s.x ∧ Tan s.x s.fgradx) ∧
        Reaches (trStep cfg c pb clk eta0 mininner (maxinner.getD pb.M.dim) DB) (trInit pb x D0) s)
      ?_ ?_ ⟨⟨hx, hg⟩, .refl⟩
    · rintro s s' ⟨⟨h1, h2⟩, h3⟩ hs
      refine ⟨?_, h3.tail hs⟩
      obtain ⟨o, eta, Heta, rho, md, D, ho, he, -, -, hcase⟩ := trStep_inv hs
      have h0 : Tan s.x (if c.useRand then eta0 (s.iteration + 1) else pb.M.zeroVector s.x) := by
        split
        · exact (heta ‹_› _ _ _ _ _ h3).1
        · exact hM.zeroVector _ h1
      obtain ⟨ht1, ht2⟩ := C109_tcg h.closed hH.closed h1 h2 h0 ho
      have ht : Tan s.x eta := by
        split at he
        · exact (cauchy_tan h.closed hH.closed h1 h2 ht1 ht2 he).1
        · cases he
          exact ht1
      have hr := hM.retraction _ _ h1 ht
      rcases hcase with ⟨-, hc⟩ | ⟨_, -, hc⟩
      · cases hc
        unfold trAfter
        split
        · exact ⟨hr, h.closed.grad _ hr⟩
        · exact ⟨h1, h2⟩
      · cases hc
    · rintro s ⟨⟨h1, h2⟩, h3⟩
      exact trStep_map h hH h1 h2 fun hc => heta hc _ _ _ _ _ h3

end Opt
end Verif
