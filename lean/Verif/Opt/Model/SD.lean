/-
Steepest descent: `/repo/src/pymanopt/optimizers/steepest_descent.py`.
-/
import Verif.Opt.Model.LineSearch

namespace Verif.Opt
open PyNum

/-- Loop variables of `SteepestDescent.run` (steepest_descent.py:83-127): iterate, line
searcher memory, log; `evals` is the ghost list of cost evaluations. -/
structure SDState (F P S : Type*) where
  iteration : ℤ
  x : P
  mem : S
  log : Option (List (LogEntry F P))
  evals : List P

section
variable {F P E S : Type*} [PyNum F]

/-- The loop body of `SteepestDescent.run` (steepest_descent.py:91-127) with the
construction of the result (129-138) on `break`.  The second component of the result
is the final memory of `self.line_searcher`. -/
def sdStep (cfg : Cfg F) (ls : LineSearcher F P E S) (pb : Prob F P E) (clk : Clock F)
    (s : SDState F P S) : Except PyErr (Ctl (SDState F P S) (Result F P × S)) :=
  let iteration := s.iteration + 1
  let cost := pb.cost s.x
  let grad := pb.grad s.x
  let gradientNorm := pb.M.norm s.x grad
  let log := addLog cfg s.log
    { time := clk.log iteration, iteration := iteration, point := s.x, cost := cost,
      gradientNorm := gradientNorm }
  let descDir := pb.M.neg grad
  match ls.search s.mem pb.cost pb.M s.x descDir cost (neg (pow gradientNorm (lit 2))) with
  | .error e => .error e
  | .ok o =>
    match checkStop cfg clk.start (clk.check1 iteration 0) (clk.check2 iteration 0)
        (stepSize := o.stepSize) (gradientNorm := gradientNorm) (iteration := iteration) with
    | none =>
      .ok (.next { iteration := iteration, x := o.newx, mem := o.mem, log := log,
                   evals := s.evals ++ [s.x] ++ o.evals })
    | some reason =>
      .ok (.brk ({ point := o.newx, cost := pb.cost o.newx, iterations := iteration,
                   stop := reason, time := sub clk.final clk.start,
                   costEvaluations := some iteration, stepSize := some o.stepSize,
                   gradientNorm := some gradientNorm, log := log,
                   evals := s.evals ++ [s.x] ++ o.evals ++ [o.newx] }, o.mem))

/-- State at loop entry (steepest_descent.py:83-89). -/
def sdInit (cfg : Cfg F) (x : P) (mem : S) : SDState F P S :=
  { iteration := 0, x := x, mem := mem, log := initLog cfg, evals := [] }

/-- `SteepestDescent.run` from the choice of the initial point `x` (a caller's point
or `manifold.random_point()`) and of the line searcher memory on
(steepest_descent.py:61-138): printer set-up, then the loop. -/
def SDRuns (cfg : Cfg F) (ls : LineSearcher F P E S) (pb : Prob F P E) (clk : Clock F)
    (x : P) (mem : S) (r : Except PyErr (Result F P × S)) : Prop :=
  match printerSetup cfg with
  | .error e => r = .error e
  | .ok _ => Runs (sdStep cfg ls pb clk) (sdInit cfg x mem) r

/-- The mutable attributes of a `SteepestDescent` / `ConjugateGradient` object:
the line searcher given to the constructor (`_line_searcher`) and the one of the last
run (`line_searcher`, `None` before) (steepest_descent.py:26-30). -/
structure LSObj (S : Type*) where
  proto : S
  current : Option S

/-- Line searcher memory a run starts with (steepest_descent.py:57-59): a copy of the
constructor's unless reuse is requested and there was an earlier run. -/
def LSObj.startMem (o : LSObj S) (reuse : Bool) : S :=
  match reuse, o.current with
  | true, some m => m
  | _, _ => o.proto

/-- `SteepestDescent.run` as a transition of the optimizer object
(steepest_descent.py:33-138).  After a run that raised, the line searcher is left in
some intermediate state (any state is allowed). -/
inductive SDCall (cfg : Cfg F) (ls : LineSearcher F P E S) (o : LSObj S)
    (pb : Prob F P E) (clk : Clock F) (x : P) (reuse : Bool) :
    Except PyErr (Result F P) → LSObj S → Prop
  | ok {r m} : SDRuns cfg ls pb clk x (o.startMem reuse) (.ok (r, m)) →
      SDCall cfg ls o pb clk x reuse (.ok r) ⟨o.proto, some m⟩
  | err {e m} : SDRuns cfg ls pb clk x (o.startMem reuse) (.error e) →
      SDCall cfg ls o pb clk x reuse (.error e) ⟨o.proto, some m⟩

end

end Verif.Opt
