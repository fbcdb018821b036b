/-
The line searchers: `/repo/src/pymanopt/optimizers/line_search.py`.
-/
import Verif.Opt.Model.Common

namespace Verif.Opt
open PyNum

/-- What a line search returns: `(step_size, newx)`, the searcher's new memory, and
a ghost list of the points at which the objective was evaluated. -/
structure SearchOut (F P S : Type*) where
  stepSize : F
  newx : P
  mem : S
  evals : List P
  deriving DecidableEq

/-- Interface through which SteepestDescent and ConjugateGradient use a line
searcher (`search(objective, manifold, x, d, f0, df0)`); `S` is its mutable state. -/
structure LineSearcher (F P E S : Type*) where
  search : S → (P → F) → Mfd F P E → P → E → F → F → Except PyErr (SearchOut F P S)

/-- Loop variables of the back-tracking loops (line_search.py:47-65, 104-119). -/
structure BTState (F P : Type*) where
  alpha : F
  newx : P
  newf : F
  count : ℤ
  evals : List P

section
variable {F P E : Type*} [PyNum F]

/-- One trial: `newx = manifold.retraction(x, alpha * d); newf = objective(newx)`
(line_search.py:48-50, 62-65 and 104-106, 116-119). -/
def trial (obj : P → F) (M : Mfd F P E) (x : P) (d : E) (alpha : F) (count : ℤ)
    (evals : List P) : BTState F P :=
  let newx := M.retraction x (M.smul alpha d)
  { alpha := alpha, newx := newx, newf := obj newx, count := count, evals := evals ++ [newx] }

/-- The Armijo part of the loop condition,
`newf > f0 + sufficient_decrease * alpha * df0` (line_search.py:54, 109). -/
def armijoFails (c f0 df0 : F) (alpha newf : F) : Bool :=
  lt (add f0 (mul (mul c alpha) df0)) newf

/-- The loop `while newf > f0 + c * alpha * df0 and count <= max_iterations`
(line_search.py:53-65 with `next alpha = contraction_factor * alpha`, and 108-119 with
`next alpha = alpha * contraction_factor`).  The first argument is
`max_iterations + 1 - count`, the number of times the second conjunct can still be
true; see `btLoop_while` for the loop equation of the source. -/
def btLoop (obj : P → F) (M : Mfd F P E) (x : P) (d : E) (f0 df0 c : F) (next : F → F) :
    ℕ → BTState F P → BTState F P
  | 0, s => s
  | n + 1, s =>
    if armijoFails c f0 df0 s.alpha s.newf then
      btLoop obj M x d f0 df0 c next n (trial obj M x d (next s.alpha) (s.count + 1) s.evals)
    else s

/-- `BackTrackingLineSearcher.__init__` arguments (line_search.py:4-18). -/
structure BackTrackingCfg (F : Type*) where
  contractionFactor : F
  optimism : F
  sufficientDecrease : F
  maxIterations : ℤ
  initialStepSize : F

/-- First trial step of `BackTrackingLineSearcher.search` (line_search.py:38-45);
the memory is `self._oldf0`. -/
def backTrackingInit (c : BackTrackingCfg F) (oldf0 : Option F) (f0 df0 normd : F) :
    Except PyErr F :=
  match oldf0 with
  | some o =>
    match div (mul (lit 2) (sub f0 o)) df0 with
    | .error e => .error e
    | .ok a => .ok (toFloat (mul a c.optimism))
  | none =>
    match div c.initialStepSize normd with
    | .error e => .error e
    | .ok a => .ok (toFloat a)

/-- `BackTrackingLineSearcher.search` (line_search.py:20-76). -/
def backTrackingSearch (c : BackTrackingCfg F) (oldf0 : Option F) (obj : P → F)
    (M : Mfd F P E) (x : P) (d : E) (f0 df0 : F) :
    Except PyErr (SearchOut F P (Option F)) :=
  let normd := M.norm x d
  match backTrackingInit c oldf0 f0 df0 normd with
  | .error e => .error e
  | .ok alpha =>
    let s := btLoop obj M x d f0 df0 c.sufficientDecrease (fun a => mul c.contractionFactor a)
      c.maxIterations.toNat (trial obj M x d alpha 1 [])
    if lt f0 s.newf then
      .ok { stepSize := mul (lit 0) normd, newx := x, mem := some f0, evals := s.evals }
    else
      .ok { stepSize := mul s.alpha normd, newx := s.newx, mem := some f0, evals := s.evals }

/-- `BackTrackingLineSearcher` as a line searcher; its mutable state is `_oldf0`. -/
def backTracking (P E : Type*) (c : BackTrackingCfg F) : LineSearcher F P E (Option F) :=
  ⟨fun o obj M x d f0 df0 => backTrackingSearch c o obj M x d f0 df0⟩

/-- `AdaptiveLineSearcher.__init__` arguments (line_search.py:82-93). -/
structure AdaptiveCfg (F : Type*) where
  contractionFactor : F
  sufficientDecrease : F
  maxIterations : ℤ
  initialStepSize : F

/-- First trial step of `AdaptiveLineSearcher.search` (line_search.py:98-102); the
memory is `self._oldalpha`. -/
def adaptiveInit (c : AdaptiveCfg F) (oldalpha : Option F) (normd : F) : Except PyErr F :=
  match oldalpha with
  | some a => .ok (toFloat a)
  | none =>
    match div c.initialStepSize normd with
    | .error e => .error e
    | .ok a => .ok (toFloat a)

/-- `AdaptiveLineSearcher.search` (line_search.py:95-141). -/
def adaptiveSearch (c : AdaptiveCfg F) (oldalpha : Option F) (obj : P → F)
    (M : Mfd F P E) (x : P) (d : E) (f0 df0 : F) :
    Except PyErr (SearchOut F P (Option F)) :=
  let normd := M.norm x d
  match adaptiveInit c oldalpha normd with
  | .error e => .error e
  | .ok alpha =>
    let s := btLoop obj M x d f0 df0 c.sufficientDecrease (fun a => mul a c.contractionFactor)
      c.maxIterations.toNat (trial obj M x d alpha 1 [])
    let (alpha, newx) := if lt f0 s.newf then (lit 0, x) else (s.alpha, s.newx)
    let oldalpha := if s.count = 2 then alpha else mul (lit 2) alpha
    .ok { stepSize := mul alpha normd, newx := newx, mem := some oldalpha, evals := s.evals }

/-- `AdaptiveLineSearcher` as a line searcher; its mutable state is `_oldalpha`. -/
def adaptive (P E : Type*) (c : AdaptiveCfg F) : LineSearcher F P E (Option F) :=
  ⟨fun o obj M x d f0 df0 => adaptiveSearch c o obj M x d f0 df0⟩

end

end Verif.Opt
