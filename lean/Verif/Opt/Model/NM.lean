/-
Nelder-Mead: `/repo/src/pymanopt/optimizers/nelder_mead.py`.
-/
import Verif.Opt.Model.Common

namespace Verif.Opt
open PyNum

/-- A `NelderMead` object (nelder_mead.py:54-69): the base class arguments, and the two
limits that are `None` until a run fills them in. -/
structure NMObj (F : Type*) where
  maxTime : F
  minGradientNorm : F
  minStepSize : F
  verbosity : ℤ
  logVerbosity : ℤ
  maxCostEvaluations : Option ℤ
  maxIterations : Option ℤ
  reflection : F
  expansion : F
  contraction : F

/-- Defaults from the dimension, stored on the object (nelder_mead.py:91-95). -/
def NMObj.resolve {F : Type*} (o : NMObj F) (dim : ℕ) : NMObj F :=
  { o with
    maxCostEvaluations := some (o.maxCostEvaluations.getD (max 1000 (2 * dim)))
    maxIterations := some (o.maxIterations.getD (max 2000 (4 * dim))) }

/-- The limits used by `_check_stopping_criterion` for an object whose limits have been
filled in by `resolve` (a limit that is still `None` does not occur in a run). -/
def NMObj.cfg {F : Type*} (o : NMObj F) : Cfg F :=
  { maxTime := o.maxTime, maxIterations := o.maxIterations.getD 0,
    minGradientNorm := o.minGradientNorm, minStepSize := o.minStepSize,
    maxCostEvaluations := o.maxCostEvaluations.getD 0, verbosity := o.verbosity,
    logVerbosity := o.logVerbosity }

/-- The `initial_point` argument of `NelderMead.run` / `ParticleSwarm.run`: `None` (then
points are drawn), a list, a tuple, or something that is not a sequence (for example a
numpy array, see `tools.is_sequence`, tools/__init__.py:60-63). -/
inductive InitArg (P : Type*)
  | none (draws : ℕ → P)
  | list (l : List P)
  | tuple (l : List P)
  | other

section
variable {F P E : Type*} [PyNum F]

/-- Choice of the initial simplex (nelder_mead.py:97-110). -/
def nmSimplex (dim : ℕ) : InitArg P → Except PyErr (List P)
  | .none draws => .ok ((List.range (dim + 1)).map draws)
  | .list l => if l.length ≠ dim + 1 then .ok l else .error .valueError
  | .tuple l => if l.length ≠ dim + 1 then .ok l else .error .valueError
  | .other => .error .valueError

/-- What one iteration did (the messages printed at nelder_mead.py:170-221). -/
inductive NMAction
  | reflection | expansion | failedExpansion | outsideContraction | insideContraction | shrinkage
  deriving DecidableEq, Repr

/-- Loop variables of `NelderMead.run`.  Simplification: the parallel lists `costs` and
`x` are one list of pairs; `evals` is the ghost list of cost evaluations. -/
structure NMState (F P : Type*) where
  iteration : ℤ
  simplex : List (F × P)
  costEvaluations : ℤ
  evals : List P

/-- `costs[-1] = c; x[-1] = p` (e.g. nelder_mead.py:171-172). -/
def replaceWorst (l : List (F × P)) (v : F × P) : List (F × P) := l.dropLast ++ [v]

/-- Shrinkage (nelder_mead.py:222-226): every vertex with index `1..dim` moves to its pair
mean with the best; an index outside the simplex raises `IndexError`. -/
def nmShrink (obj : P → F) (M : Mfd F P E) (dim : ℕ) (best : F × P)
    (l : List (F × P)) : Except PyErr (List (F × P)) :=
  if l.length ≤ dim then .error .indexError
  else .ok (l.mapIdx fun i v =>
    if 1 ≤ i ∧ i ≤ dim then
      let p := M.pairMean best.2 v.2
      (obj p, p)
    else v)

/-- Outcome of the move part of an iteration: new simplex, evaluated points, counted
evaluations, action. -/
structure NMMove (F P : Type*) where
  simplex : List (F × P)
  evals : List P
  counted : ℤ
  action : NMAction

/-- The shrinkage move after the points in `evals` were tried (nelder_mead.py:219-226). -/
def nmShrinkMove (obj : P → F) (M : Mfd F P E) (dim : ℕ) (best : F × P) (l : List (F × P))
    (evals : List P) : Except PyErr (NMMove F P) :=
  match nmShrink obj M dim best l with
  | .error e => .error e
  | .ok l' =>
    .ok { simplex := l', evals := evals ++ ((l'.drop 1).take dim).map Prod.snd,
          counted := evals.length + dim, action := .shrinkage }

/-- Contraction or shrinkage (nelder_mead.py:193-226): `costs[-2]` raises `IndexError` if
there is only one vertex. -/
def nmContract (o : NMObj F) (obj : P → F) (M : Mfd F P E) (xbar : P) (vec : E) (xr : P)
    (costr : F) (best worst : F × P) (second : Option (F × P)) (l : List (F × P)) :
    Except PyErr (NMMove F P) :=
  match second with
  | none => .error .indexError
  | some second =>
    if le second.1 costr then
      if lt costr worst.1 then
        let xoc := M.retraction xbar (M.smul (neg o.contraction) vec)
        let costoc := obj xoc
        if le costoc costr then
          .ok { simplex := replaceWorst l (costoc, xoc), evals := [xr, xoc], counted := 2,
                action := .outsideContraction }
        else nmShrinkMove obj M M.dim best l [xr, xoc]
      else
        let xic := M.retraction xbar (M.smul o.contraction vec)
        let costic := obj xic
        if le costic worst.1 then
          .ok { simplex := replaceWorst l (costic, xic), evals := [xr, xic], counted := 2,
                action := .insideContraction }
        else nmShrinkMove obj M M.dim best l [xr, xic]
    else nmShrinkMove obj M M.dim best l [xr]

/-- First test of an iteration, `costr >= costs[0] and costr < costs[-2]`
(nelder_mead.py:168); the second conjunct is only evaluated if the first holds. -/
def nmReflectTest (best : F × P) (second : Option (F × P)) (costr : F) : Except PyErr Bool :=
  if le best.1 costr then
    match second with
    | none => .error .indexError
    | some second => .ok (lt costr second.1)
  else .ok false

/-- The moves of one iteration on the sorted simplex `l` (nelder_mead.py:155-226) with
centroid `xbar`. -/
def nmMove (o : NMObj F) (obj : P → F) (M : Mfd F P E) (xbar : P) (l : List (F × P)) :
    Except PyErr (NMMove F P) :=
  match l.getLast?, l.head? with
  | some worst, some best =>
    let second := l.dropLast.getLast?
    let vec := M.log xbar worst.2
    let xr := M.retraction xbar (M.smul (neg o.reflection) vec)
    let costr := obj xr
    match nmReflectTest best second costr with
    | .error e => .error e
    | .ok true =>
      .ok { simplex := replaceWorst l (costr, xr), evals := [xr], counted := 1,
            action := .reflection }
    | .ok false =>
      if lt costr best.1 then
        let xe := M.retraction xbar (M.smul (neg o.expansion) vec)
        let coste := obj xe
        if lt coste costr then
          .ok { simplex := replaceWorst l (coste, xe), evals := [xr, xe], counted := 2,
                action := .expansion }
        else
          .ok { simplex := replaceWorst l (costr, xr), evals := [xr, xe], counted := 2,
                action := .failedExpansion }
      else nmContract o obj M xbar vec xr costr best worst second l
  | _, _ => .error .indexError

/-- The loop body of `NelderMead.run` (nelder_mead.py:130-226) with the construction of
the result (228-237) on `break`.  `o` has its limits filled in, `sort` is sorting by
`np.argsort(costs)`, `centroid it pts` is `compute_centroid(manifold, pts)` in iteration
`it` (a steepest descent run from a random point, here an arbitrary result or
exception). -/
def nmStep (o : NMObj F) (sort : List (F × P) → List (F × P))
    (centroid : ℤ → List P → Except PyErr P) (pb : Prob F P E) (clk : Clock F)
    (s : NMState F P) : Except PyErr (Ctl (NMState F P) (Result F P)) :=
  let iteration := s.iteration + 1
  let simplex := sort s.simplex
  match checkStop o.cfg clk.start (clk.check1 iteration 0) (clk.check2 iteration 0)
      (iteration := iteration) (costEvaluations := s.costEvaluations) with
  | some reason =>
    match simplex.head? with
    | none => .error .indexError
    | some best =>
      .ok (.brk { point := best.2, cost := pb.cost best.2, iterations := iteration,
                  stop := reason, time := sub clk.final clk.start,
                  costEvaluations := some s.costEvaluations, log := initLog o.cfg,
                  evals := s.evals ++ [best.2] })
  | none =>
    match centroid iteration (simplex.dropLast.map Prod.snd) with
    | .error e => .error e
    | .ok xbar =>
      match nmMove o pb.cost pb.M xbar simplex with
      | .error e => .error e
      | .ok m =>
        .ok (.next { iteration := iteration, simplex := m.simplex,
                     costEvaluations := s.costEvaluations + m.counted,
                     evals := s.evals ++ m.evals })

/-- State at loop entry (nelder_mead.py:112-128). -/
def nmInit (sort : List (F × P) → List (F × P)) (pb : Prob F P E) (x : List P) : NMState F P :=
  { iteration := 0, simplex := sort (x.map fun p => (pb.cost p, p)),
    costEvaluations := pb.M.dim + 1, evals := x }

/-- `NelderMead.run` (nelder_mead.py:71-237). -/
def NMRuns (o : NMObj F) (sort : List (F × P) → List (F × P))
    (centroid : ℤ → List P → Except PyErr P) (pb : Prob F P E) (clk : Clock F)
    (init : InitArg P) (r : Except PyErr (Result F P)) : Prop :=
  match nmSimplex pb.M.dim init with
  | .error e => r = .error e
  | .ok x => Runs (nmStep (o.resolve pb.M.dim) sort centroid pb clk) (nmInit sort pb x) r

end

end Verif.Opt
