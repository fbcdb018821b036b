/-
Common parts of the optimizers: `/repo/src/pymanopt/optimizers/optimizer.py`.
-/
import Verif.Base.Loop

namespace Verif.Opt
open PyNum

/-- What optimizers use of a manifold (`manifolds/manifold.py:20-387`) with points
`P`, tangent vectors `E` and scalars `F`: arbitrary total functions.  The vector
operations are those of the tangent vector objects.  Simplification: the methods
are assumed to return (a method that raises ends the run with that exception). -/
structure Mfd (F P E : Type*) where
  dim : ℕ
  norm : P → E → F
  inner : P → E → E → F
  retraction : P → E → P
  transport : P → P → E → E
  log : P → P → E
  pairMean : P → P → P
  zeroVector : P → E
  toTangent : P → E → E
  add : E → E → E
  sub : E → E → E
  neg : E → E
  smul : F → E → E

/-- What optimizers use of a `Problem` (`core/problem.py:19-285`): arbitrary
functions, in particular the gradient need not be the gradient of the cost. -/
structure Prob (F P E : Type*) where
  M : Mfd F P E
  cost : P → F
  grad : P → E
  hess : P → E → E
  precon : P → E → E

/-- Readings of `time.time()`.  Every call site reads the clock at most once per
iteration (and per particle), so a run's readings are a function of the site, the
iteration and the particle number; nothing is assumed about them. -/
structure Clock (F : Type*) where
  start : F
  /-- `run_time = time.time() - start_time` (optimizer.py:95) -/
  check1 : ℤ → ℕ → F
  /-- `if time.time() >= ...` (optimizer.py:97) -/
  check2 : ℤ → ℕ → F
  log : ℤ → F
  final : F

/-- Constructor arguments of `Optimizer` (optimizer.py:41-59). -/
structure Cfg (F : Type*) where
  maxTime : F
  maxIterations : ℤ
  minGradientNorm : F
  minStepSize : F
  maxCostEvaluations : ℤ
  verbosity : ℤ := 2
  logVerbosity : ℤ := 0
  deriving DecidableEq

/-- The five messages of `_check_stopping_criterion` with the values that are
formatted into them (optimizer.py:97-120). -/
inductive StopReason (F : Type*)
  | maxTime (iteration : ℤ)
  | maxIterations (runTime : F)
  | minGradNorm (iteration : ℤ) (runTime : F)
  | minStepSize (iteration : ℤ) (runTime : F)
  | maxCostEvals (runTime : F)
  deriving DecidableEq, Repr

/-- `Optimizer._check_stopping_criterion` (optimizer.py:86-121).  `now1`, `now2`
are the two clock readings of lines 95 and 97; a missing argument has the default
of lines 90-93, where `none` stands for `np.inf`, which is below no threshold. -/
def checkStop {F : Type*} [PyNum F] (cfg : Cfg F) (startTime now1 now2 : F)
    (iteration : ℤ := -1) (gradientNorm stepSize : Option F := none)
    (costEvaluations : ℤ := -1) : Option (StopReason F) :=
  let runTime := sub now1 startTime
  if le (add startTime cfg.maxTime) now2 then some (.maxTime iteration)
  else if iteration ≥ cfg.maxIterations then some (.maxIterations runTime)
  else if gradientNorm.any (lt · cfg.minGradientNorm) then some (.minGradNorm iteration runTime)
  else if stepSize.any (lt · cfg.minStepSize) then some (.minStepSize iteration runTime)
  else if costEvaluations ≥ cfg.maxCostEvaluations then some (.maxCostEvals runTime)
  else none

/-- One entry of the iteration log (optimizer.py:139-147).  Simplification: the
code keeps one list per key, the model one list of entries. -/
structure LogEntry (F P : Type*) where
  time : F
  iteration : ℤ
  point : P
  cost : F
  gradientNorm : F
  deriving DecidableEq

/-- `_initialize_log` (optimizer.py:123-137), the `"iterations"` field. -/
def initLog {F P : Type*} (cfg : Cfg F) : Option (List (LogEntry F P)) :=
  if cfg.logVerbosity ≥ 1 then some [] else none

/-- `_add_log_entry` (optimizer.py:139-147). -/
def addLog {F P : Type*} (cfg : Cfg F) (log : Option (List (LogEntry F P)))
    (e : LogEntry F P) : Option (List (LogEntry F P)) :=
  if cfg.logVerbosity ≤ 0 then log else log.map (· ++ [e])

/-- `int(np.log10(self._max_iterations)) + 1` with verbosity at least 2
(steepest_descent.py:69-70, conjugate_gradient.py:222-223, particle_swarm.py:107-108):
`log10(0) = -inf` makes `int` raise `OverflowError`, `log10` of a negative number is
NaN and makes it raise `ValueError`. -/
def printerSetup {F : Type*} (cfg : Cfg F) : Except PyErr Unit :=
  if cfg.verbosity ≥ 2 then
    if cfg.maxIterations = 0 then .error .overflow
    else if cfg.maxIterations < 0 then .error .valueError
    else .ok ()
  else .ok ()

/-- `OptimizerResult` (optimizer.py:10-20).  `evals` is a ghost field: the points
at which the cost function was called during the run, in order; the step size `none` is a missing
one or `np.nan`. -/
structure Result (F P : Type*) where
  point : P
  cost : F
  iterations : ℤ
  stop : StopReason F
  time : F
  costEvaluations : Option ℤ := none
  stepSize : Option F := none
  gradientNorm : Option F := none
  log : Option (List (LogEntry F P)) := none
  evals : List P
  deriving DecidableEq

end Verif.Opt
