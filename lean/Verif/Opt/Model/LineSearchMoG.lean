/-
`LineSearchMoG` of `/repo/examples/notebooks/mixture_of_gaussians.py`: back-tracking that replaces
singular components by random ones.
-/
import Verif.Opt.Model.LineSearch

namespace Verif.Opt
open PyNum

/-- Loop variables of `LineSearchMoG.search` (mixture_of_gaussians.py:262-280); `x` is the content of
the array handed in by the caller, which `_newxnewf` writes to. -/
structure MoGState (F P : Type*) where
  alpha : F
  newx : P
  newf : F
  reset : Bool
  x : P
  evals : List P

/-- What `LineSearchMoG.search` returns, with the content of the caller's array afterwards. -/
structure MoGOut (F P : Type*) where
  out : SearchOut F P (Option F)
  callerX : P

section
variable {F P E : Type*} [PyNum F]

/-- `LineSearchMoG._newxnewf(x, alpha * d, objective, manifold)` (mixture_of_gaussians.py:293-307).
`none` is the `LinAlgError` of the objective, a `ValueError`.  `renew newx x` is `x` after the
assignment that copies components of a random point over those for which `newx` is singular. -/
def mogTrial (obj : P → Option F) (M : Mfd F P E) (renew : P → P → P) (x : P) (d : E) (alpha : F)
    (evals : List P) : Except PyErr (MoGState F P) :=
  let newx := M.retraction x (M.smul alpha d)
  match obj newx with
  | some newf => .ok { alpha := alpha, newx := newx, newf := newf, reset := false, x := x,
                       evals := evals ++ [newx] }
  | none =>
    let x' := renew newx x
    match obj x' with
    | some newf => .ok { alpha := alpha, newx := x', newf := newf, reset := true, x := x',
                         evals := evals ++ [newx, x'] }
    | none => .error .valueError

/-- The loop `while newf > ... and step_count <= max_iterations and not reset`
(mixture_of_gaussians.py:266-280).  The first argument is `max_iterations + 1 - step_count`. -/
def mogLoop (obj : P → Option F) (M : Mfd F P E) (renew : P → P → P) (d : E) (f0 df0 : F)
    (c : BackTrackingCfg F) : ℕ → MoGState F P → Except PyErr (MoGState F P)
  | 0, s => .ok s
  | n + 1, s =>
    if armijoFails c.sufficientDecrease f0 df0 s.alpha s.newf && !s.reset then
      match mogTrial obj M renew s.x d (mul c.contractionFactor s.alpha) s.evals with
      | .error e => .error e
      | .ok s' => mogLoop obj M renew d f0 df0 c n s'
    else .ok s

/-- `LineSearchMoG.search` (mixture_of_gaussians.py:229-291).  The first step size is that of
`BackTrackingLineSearcher` (lines 248-259). -/
def mogSearch (c : BackTrackingCfg F) (oldf0 : Option F) (obj : P → Option F) (M : Mfd F P E)
    (renew : P → P → P) (x : P) (d : E) (f0 df0 : F) : Except PyErr (MoGOut F P) :=
  let normd := M.norm x d
  match backTrackingInit c oldf0 f0 df0 normd with
  | .error e => .error e
  | .ok alpha =>
    match mogTrial obj M renew x d alpha [] with
    | .error e => .error e
    | .ok s =>
      match mogLoop obj M renew d f0 df0 c c.maxIterations.toNat s with
      | .error e => .error e
      | .ok s =>
        if lt f0 s.newf && !s.reset then
          .ok ⟨{ stepSize := mul (lit 0) normd, newx := s.x, mem := some f0, evals := s.evals }, s.x⟩
        else
          .ok ⟨{ stepSize := mul s.alpha normd, newx := s.newx, mem := some f0,
                 evals := s.evals }, s.x⟩

end

end Verif.Opt
