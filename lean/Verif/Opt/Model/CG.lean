/-
Conjugate gradient: `/repo/src/pymanopt/optimizers/conjugate_gradient.py`.
-/
import Verif.Opt.Model.SD

namespace Verif.Opt
open PyNum

/-- Keyword arguments of the beta rules (conjugate_gradient.py:11-26). -/
structure BetaArgs (P E F : Type*) where
  x : P
  newx : P
  grad : E
  newgrad : E
  Pnewgrad : E
  newgradPnewgrad : F
  Pgrad : E
  gradPgrad : F
  gradientNorm : F
  oldgrad : E
  dir : E

section
variable {F P E S : Type*} [PyNum F]

/-- `_beta_fletcher_reeves` (conjugate_gradient.py:11-26). -/
def betaFletcherReeves (_M : Mfd F P E) (a : BetaArgs P E F) : Except PyErr F :=
  div a.newgradPnewgrad a.gradPgrad

/-- `_beta_polak_ribiere` (conjugate_gradient.py:29-45). -/
def betaPolakRibiere (M : Mfd F P E) (a : BetaArgs P E F) : Except PyErr F :=
  let ipDiff := M.inner a.newx a.Pnewgrad (M.sub a.newgrad a.oldgrad)
  match div ipDiff a.gradPgrad with
  | .error e => .error e
  | .ok q => .ok (pymax (lit 0) q)

/-- `_beta_hestenes_stiefel` (conjugate_gradient.py:48-72), with its
`except ZeroDivisionError`. -/
def betaHestenesStiefel (M : Mfd F P E) (a : BetaArgs P E F) : Except PyErr F :=
  let diff := M.sub a.newgrad a.oldgrad
  match div (M.inner a.newx a.Pnewgrad diff) (M.inner a.newx diff a.dir) with
  | .ok q => .ok (pymax (lit 0) q)
  | .error .zeroDivision => .ok (lit 1)
  | .error e => .error e

/-- `_beta_hager_zhang` (conjugate_gradient.py:75-104). -/
def betaHagerZhang (M : Mfd F P E) (a : BetaArgs P E F) : Except PyErr F :=
  let diff := M.sub a.newgrad a.oldgrad
  let Poldgrad := M.transport a.x a.newx a.Pgrad
  let Pdiff := M.sub a.Pnewgrad Poldgrad
  let denominator := M.inner a.newx diff a.dir
  let numerator := M.inner a.newx diff a.Pnewgrad
  match div (mul (mul (lit 2) (M.inner a.newx diff Pdiff)) (M.inner a.newx a.dir a.newgrad))
      denominator with
  | .error e => .error e
  | .ok t =>
    match div (sub numerator t) denominator with
    | .error e => .error e
    | .ok beta =>
      let dirNorm := M.norm a.newx a.dir
      match div (lit (-1)) (mul dirNorm (pymin (lit (1 / 100)) a.gradientNorm)) with
      | .error e => .error e
      | .ok eta => .ok (pymax beta eta)

/-- `_beta_liu_storey` (conjugate_gradient.py:107-127). -/
def betaLiuStorey (M : Mfd F P E) (a : BetaArgs P E F) : Except PyErr F :=
  let diff := M.sub a.newgrad a.oldgrad
  let ipDiff := M.inner a.newx a.Pnewgrad diff
  let denominator := neg (M.inner a.x a.grad a.dir)
  match div ipDiff denominator with
  | .error e => .error e
  | .ok betaLs =>
    match div a.newgradPnewgrad denominator with
    | .error e => .error e
    | .ok betaCd => .ok (pymax (lit 0) (pymin betaLs betaCd))

/-- `BETA_RULES` (conjugate_gradient.py:130-136). -/
inductive BetaRule
  | fletcherReeves | hagerZhang | hestenesStiefel | polakRibiere | liuStorey
  deriving DecidableEq, Repr

/-- Look-up of the rule (conjugate_gradient.py:130-136, 330). -/
def BetaRule.eval (b : BetaRule) (M : Mfd F P E) (a : BetaArgs P E F) : Except PyErr F :=
  match b with
  | .fletcherReeves => betaFletcherReeves M a
  | .hagerZhang => betaHagerZhang M a
  | .hestenesStiefel => betaHestenesStiefel M a
  | .polakRibiere => betaPolakRibiere M a
  | .liuStorey => betaLiuStorey M a

/-- `BETA_RULES[beta_rule]`, a `KeyError` turned into `ValueError`
(conjugate_gradient.py:170-176). -/
def BetaRule.ofName : String → Except PyErr BetaRule
  | "FletcherReeves" => .ok .fletcherReeves
  | "HagerZhang" => .ok .hagerZhang
  | "HestenesStiefel" => .ok .hestenesStiefel
  | "PolakRibiere" => .ok .polakRibiere
  | "LiuStorey" => .ok .liuStorey
  | _ => .error .valueError

/-- Loop variables of `ConjugateGradient.run` (conjugate_gradient.py:236-352); `searches`
is a ghost list of the line search calls `(x, descent_direction, df0)`, `evals` of the
cost evaluations.  The step size `none` stands for `np.nan` (line 256), which is below no
threshold. -/
structure CGState (F P E S : Type*) where
  iteration : ℤ
  stepSize : Option F
  x : P
  cost : F
  grad : E
  Pgrad : E
  gradientNorm : F
  gradPgrad : F
  dir : E
  mem : S
  log : Option (List (LogEntry F P))
  evals : List P
  searches : List (P × E × F)

/-- New search direction (conjugate_gradient.py:315-344): Powell's restart test, else the
beta rule with the transported direction. -/
def cgDirection (M : Mfd F P E) (rule : BetaRule) (orthValue : F) (a : BetaArgs P E F)
    (dir : E) : Except PyErr E :=
  match div (M.inner a.newx a.oldgrad a.Pnewgrad) a.newgradPnewgrad with
  | .error e => .error e
  | .ok orthGrads =>
    if le orthValue (abs orthGrads) then .ok (M.neg a.Pnewgrad)
    else
      let dir := M.transport a.x a.newx dir
      match rule.eval M { a with dir := dir } with
      | .error e => .error e
      | .ok beta => .ok (M.add (M.neg a.Pnewgrad) (M.smul beta dir))

/-- The loop body of `ConjugateGradient.run` (conjugate_gradient.py:259-352) with the
construction of the result (354-363) on `break`. -/
def cgStep (cfg : Cfg F) (rule : BetaRule) (orthValue : F) (ls : LineSearcher F P E S)
    (pb : Prob F P E) (clk : Clock F) (s : CGState F P E S) :
    Except PyErr (Ctl (CGState F P E S) (Result F P × S × List (P × E × F))) :=
  let iteration := s.iteration + 1
  let log := addLog cfg s.log
    { time := clk.log iteration, iteration := iteration, point := s.x, cost := s.cost,
      gradientNorm := s.gradientNorm }
  match checkStop cfg clk.start (clk.check1 iteration 0) (clk.check2 iteration 0)
      (gradientNorm := s.gradientNorm) (iteration := iteration) (stepSize := s.stepSize) with
  | some reason =>
    .ok (.brk ({ point := s.x, cost := s.cost, iterations := iteration, stop := reason,
                 time := sub clk.final clk.start, costEvaluations := some iteration,
                 stepSize := s.stepSize, gradientNorm := some s.gradientNorm,
                 log := log, evals := s.evals }, s.mem, s.searches))
  | none =>
    let df0 := pb.M.inner s.x s.grad s.dir
    let (dir, df0) := if le (lit 0) df0 then (pb.M.neg s.Pgrad, neg s.gradPgrad) else (s.dir, df0)
    match ls.search s.mem pb.cost pb.M s.x dir s.cost df0 with
    | .error e => .error e
    | .ok o =>
      let newx := o.newx
      let newcost := pb.cost newx
      let newgrad := pb.grad newx
      let newgradientNorm := pb.M.norm newx newgrad
      let Pnewgrad := pb.precon newx newgrad
      let newgradPnewgrad := pb.M.inner newx newgrad Pnewgrad
      let oldgrad := pb.M.transport s.x newx s.grad
      match cgDirection pb.M rule orthValue
          { x := s.x, newx := newx, grad := s.grad, newgrad := newgrad, Pnewgrad := Pnewgrad,
            newgradPnewgrad := newgradPnewgrad, Pgrad := s.Pgrad, gradPgrad := s.gradPgrad,
            gradientNorm := s.gradientNorm, oldgrad := oldgrad, dir := dir } dir with
      | .error e => .error e
      | .ok newdir =>
        .ok (.next { iteration := iteration, stepSize := o.stepSize, x := newx,
                     cost := newcost, grad := newgrad, Pgrad := Pnewgrad,
                     gradientNorm := newgradientNorm, gradPgrad := newgradPnewgrad,
                     dir := newdir, mem := o.mem, log := log,
                     evals := s.evals ++ o.evals ++ [newx],
                     searches := s.searches ++ [(s.x, dir, df0)] })

/-- State at loop entry (conjugate_gradient.py:236-257). -/
def cgInit (cfg : Cfg F) (pb : Prob F P E) (x : P) (mem : S) : CGState F P E S :=
  let grad := pb.grad x
  let Pgrad := pb.precon x grad
  { iteration := 0, stepSize := none, x := x, cost := pb.cost x, grad := grad, Pgrad := Pgrad,
    gradientNorm := pb.M.norm x grad, gradPgrad := pb.M.inner x grad Pgrad,
    dir := pb.M.neg Pgrad, mem := mem, log := initLog cfg, evals := [x], searches := [] }

/-- `ConjugateGradient.run` from the choice of the initial point and of the line
searcher memory on (conjugate_gradient.py:213-363). -/
def CGRuns (cfg : Cfg F) (rule : BetaRule) (orthValue : F) (ls : LineSearcher F P E S)
    (pb : Prob F P E) (clk : Clock F) (x : P) (mem : S)
    (r : Except PyErr (Result F P × S × List (P × E × F))) : Prop :=
  match printerSetup cfg with
  | .error e => r = .error e
  | .ok _ => Runs (cgStep cfg rule orthValue ls pb clk) (cgInit cfg pb x mem) r

/-- `ConjugateGradient.run` as a transition of the optimizer object
(conjugate_gradient.py:186-363); see `SDCall`. -/
inductive CGCall (cfg : Cfg F) (rule : BetaRule) (orthValue : F) (ls : LineSearcher F P E S)
    (o : LSObj S) (pb : Prob F P E) (clk : Clock F) (x : P) (reuse : Bool) :
    Except PyErr (Result F P) → LSObj S → Prop
  | ok {r m t} : CGRuns cfg rule orthValue ls pb clk x (o.startMem reuse) (.ok (r, m, t)) →
      CGCall cfg rule orthValue ls o pb clk x reuse (.ok r) ⟨o.proto, some m⟩
  | err {e m} : CGRuns cfg rule orthValue ls pb clk x (o.startMem reuse) (.error e) →
      CGCall cfg rule orthValue ls o pb clk x reuse (.error e) ⟨o.proto, some m⟩

end

end Verif.Opt
