/-
Particle swarm: `/repo/src/pymanopt/optimizers/particle_swarm.py`.
-/
import Verif.Opt.Model.NM

namespace Verif.Opt
open PyNum

/-- A `ParticleSwarm` object (particle_swarm.py:24-41): base class arguments and the three
attributes that a run fills in. -/
structure PSOObj (F : Type*) where
  maxTime : F
  minGradientNorm : F
  minStepSize : F
  verbosity : ℤ
  logVerbosity : ℤ
  maxCostEvaluations : Option ℤ
  maxIterations : Option ℤ
  populationSize : Option ℤ
  nostalgia : F
  social : F

/-- Defaults from the dimension, stored on the object (particle_swarm.py:62-68). -/
def PSOObj.resolve {F : Type*} (o : PSOObj F) (dim : ℕ) : PSOObj F :=
  { o with
    maxCostEvaluations := some (o.maxCostEvaluations.getD (max 5000 (2 * dim)))
    maxIterations := some (o.maxIterations.getD (max 500 (4 * dim)))
    populationSize := some (o.populationSize.getD (min 40 (10 * dim))) }

/-- The limits used by `_check_stopping_criterion` for an object whose limits have been
filled in by `resolve`. -/
def PSOObj.cfg {F : Type*} (o : PSOObj F) : Cfg F :=
  { maxTime := o.maxTime, maxIterations := o.maxIterations.getD 0,
    minGradientNorm := o.minGradientNorm, minStepSize := o.minStepSize,
    maxCostEvaluations := o.maxCostEvaluations.getD 0, verbosity := o.verbosity,
    logVerbosity := o.logVerbosity }

/-- One particle.  Simplification: the parallel lists `x`, `xprev`, `v`, `y`, `fy` are one
list of records; the array `costs` is never read after line 104 and omitted. -/
structure Particle (F P E : Type*) where
  x : P
  xprev : P
  v : E
  y : P
  fy : F

/-- Loop variables of `ParticleSwarm.run`; `evals` and `positions` are ghost lists: points at
which the cost was evaluated, positions the swarm occupied. -/
structure PSOState (F P E : Type*) where
  iteration : ℤ
  swarm : List (Particle F P E)
  fbest : F
  xbest : P
  costEvaluations : ℤ
  evals : List P
  positions : List P

/-- Random numbers of a run: initial velocities (line 95) and the two uniform draws per
iteration and particle (lines 168, 173). -/
structure PSORand (F P E : Type*) where
  velocity : ℕ → P → E
  u1 : ℤ → ℕ → F
  u2 : ℤ → ℕ → F

section
variable {F P E : Type*} [PyNum F]

/-- Choice of the initial population and population size (particle_swarm.py:70-86); the
Boolean tells whether the swarm list is a tuple (immutable). -/
def psoPopulation (o : PSOObj F) : InitArg P → Except PyErr (PSOObj F × List P × Bool)
  | .none draws => .ok (o, (List.range (o.populationSize.getD 0).toNat).map draws, false)
  | .list l => .ok ({ o with populationSize := some l.length }, l, false)
  | .tuple l => .ok ({ o with populationSize := some l.length }, l, true)
  | .other => .error .valueError

/-- `costs.argmin()`: the first minimum, or the first NaN (particle_swarm.py:103-105). -/
def argminPoint : (F × P) → List (F × P) → F × P
  | b, [] => b
  | b, c :: cs =>
    argminPoint (if !isnan b.1 && (isnan c.1 || lt c.1 b.1) then c else b) cs

/-- New velocity of a particle (particle_swarm.py:157-179). -/
def psoVelocity (o : PSOObj F) (M : Mfd F P E) (rnd : PSORand F P E) (iteration : ℤ) (w : F)
    (xbest : P) (i : ℕ) (p : Particle F P E) : Particle F P E :=
  let inertia := M.smul w (M.transport p.xprev p.x p.v)
  let nostalgia := M.smul (mul (rnd.u1 iteration i) o.nostalgia) (M.log p.x p.y)
  let social := M.smul (mul (rnd.u2 iteration i) o.social) (M.log p.x xbest)
  { p with v := M.add (M.add inertia nostalgia) social }

/-- Position update of one particle (particle_swarm.py:182-200): the particle moves, then
the cost of its *previous* position `xi` is evaluated and compared. -/
def psoMove (obj : P → F) (M : Mfd F P E) (best : F × P) (p : Particle F P E) :
    (F × P) × Particle F P E :=
  let xi := p.x
  let fxi := obj xi
  let p' := { p with x := M.retraction xi p.v, xprev := xi }
  if lt fxi p.fy then
    (if lt fxi best.1 then (fxi, xi) else best, { p' with fy := fxi, y := xi })
  else (best, p')

/-- The position loop over the swarm (particle_swarm.py:185-200). -/
def psoMoves (obj : P → F) (M : Mfd F P E) :
    (F × P) → List (Particle F P E) → (F × P) × List (Particle F P E)
  | best, [] => (best, [])
  | best, p :: ps =>
    let (best, p') := psoMove obj M best p
    let (best, ps') := psoMoves obj M best ps
    (best, p' :: ps')

/-- The stopping check for each particle, up to the first that triggers
(particle_swarm.py:138-145). -/
def psoStop (o : PSOObj F) (clk : Clock F) (iteration costEvaluations : ℤ) (n : ℕ) :
    Option (StopReason F) :=
  (List.range n).findSome? fun i =>
    checkStop o.cfg clk.start (clk.check1 iteration i) (clk.check2 iteration i)
      (iteration := iteration) (costEvaluations := costEvaluations)

/-- The loop body of `ParticleSwarm.run` (particle_swarm.py:128-201) with the construction
of the result (203-210) on `break`.  The second component of the result is the final
content of the list `x`.  With a tuple, `x[i] = ...` raises `TypeError`. -/
def psoStep (o : PSOObj F) (isTuple : Bool) (rnd : PSORand F P E) (pb : Prob F P E)
    (clk : Clock F) (s : PSOState F P E) :
    Except PyErr (Ctl (PSOState F P E) (Result F P × List P × List P)) :=
  let iteration := s.iteration + 1
  match psoStop o clk iteration s.costEvaluations s.swarm.length with
  | some reason =>
    .ok (.brk ({ point := s.xbest, cost := s.fbest, iterations := iteration, stop := reason,
                 time := sub clk.final clk.start, costEvaluations := some s.costEvaluations,
                 log := initLog o.cfg, evals := s.evals },
               s.swarm.map Particle.x, s.positions))
  | none =>
    match div (lit (iteration : ℚ)) (lit (o.cfg.maxIterations : ℚ)) with
    | .error e => .error e
    | .ok q =>
      let w := add (lit (2 / 5)) (mul (lit (1 / 2)) (sub (lit 1) q))
      let swarm := s.swarm.mapIdx (psoVelocity o pb.M rnd iteration w s.xbest)
      if isTuple && !swarm.isEmpty then .error .typeError
      else
        let (best, swarm') := psoMoves pb.cost pb.M (s.fbest, s.xbest) swarm
        .ok (.next { iteration := iteration, swarm := swarm', fbest := best.1, xbest := best.2,
                     costEvaluations := s.costEvaluations + o.populationSize.getD 0,
                     evals := s.evals ++ swarm.map Particle.x,
                     positions := s.positions ++ swarm'.map Particle.x })

/-- State at loop entry (particle_swarm.py:88-126). -/
def psoInit (o : PSOObj F) (rnd : PSORand F P E) (pb : Prob F P E) (x0 : P) (xs : List P) :
    PSOState F P E :=
  let best := argminPoint (pb.cost x0, x0) (xs.map fun p => (pb.cost p, p))
  { iteration := 0
    swarm := (x0 :: xs).mapIdx fun i p =>
      { x := p, xprev := p, v := rnd.velocity i p, y := p, fy := pb.cost p }
    fbest := best.1, xbest := best.2, costEvaluations := o.populationSize.getD 0,
    evals := x0 :: xs, positions := x0 :: xs }

/-- `ParticleSwarm.run` (particle_swarm.py:43-210).  An empty population makes `argmin`
raise `ValueError`. -/
def PSORuns (o : PSOObj F) (rnd : PSORand F P E) (pb : Prob F P E) (clk : Clock F)
    (init : InitArg P) (r : Except PyErr (Result F P × List P × List P)) : Prop :=
  match psoPopulation (o.resolve pb.M.dim) init with
  | .error e => r = .error e
  | .ok (_, [], _) => r = .error .valueError
  | .ok (o', x0 :: xs, isTuple) =>
    match printerSetup o'.cfg with
    | .error e => r = .error e
    | .ok _ => Runs (psoStep o' isTuple rnd pb clk) (psoInit o' rnd pb x0 xs) r

end

end Verif.Opt
