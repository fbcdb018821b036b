/-
The optimizers on problems and manifolds whose methods may raise: the same functions as in
`SD.lean`, `CG.lean`, `TR.lean`, `NM.lean`, `PSO.lean`, `Centroid.lean` and `LineSearch.lean`, with
every call of a method of the manifold, of the problem or of a tangent vector object in the order of
the source and able to end the run with an exception.
-/
import Verif.Opt.Model.CG
import Verif.Opt.Model.TR
import Verif.Opt.Model.PSO
import Verif.Opt.Model.Centroid

namespace Verif.Opt
open PyNum

/-- What optimizers use of a manifold (manifolds/manifold.py:20-387) and of tangent vector objects,
where every method may raise: in particular `NotImplementedError` if a class does not override the
method (manifold.py:9-17, 209-334), `TypeError` for operations a tangent vector object does not
have. -/
structure XMfd (F P E : Type) where
  dim : ℕ
  norm : P → E → Except PyErr F
  inner : P → E → E → Except PyErr F
  retraction : P → E → Except PyErr P
  transport : P → P → E → Except PyErr E
  log : P → P → Except PyErr E
  dist : P → P → Except PyErr F
  pairMean : P → P → Except PyErr P
  zeroVector : P → Except PyErr E
  toTangent : P → E → Except PyErr E
  add : E → E → Except PyErr E
  sub : E → E → Except PyErr E
  neg : E → Except PyErr E
  smul : F → E → Except PyErr E

/-- What optimizers use of a `Problem` (core/problem.py:19-285), where the functions supplied by the
user may raise. -/
structure XProb (F P E : Type) where
  M : XMfd F P E
  cost : P → Except PyErr F
  grad : P → Except PyErr E
  hess : P → E → Except PyErr E
  precon : P → E → Except PyErr E

/-- `LineSearcher` with an objective and a manifold that may raise. -/
structure XLineSearcher (F P E S : Type) where
  search : S → (P → Except PyErr F) → XMfd F P E → P → E → F → F →
    Except PyErr (SearchOut F P S)

section
variable {F P E S : Type} [PyNum F]

/-! ### Line searches -/

/-- One trial (line_search.py:48-50, 62-65 and 104-106, 116-119). -/
def xtrial (obj : P → Except PyErr F) (M : XMfd F P E) (x : P) (d : E) (alpha : F) (count : ℤ)
    (evals : List P) : Except PyErr (BTState F P) := do
  let v ← M.smul alpha d
  let newx ← M.retraction x v
  let newf ← obj newx
  return { alpha := alpha, newx := newx, newf := newf, count := count, evals := evals ++ [newx] }

/-- The back-tracking loop (line_search.py:53-65, 108-119), see `btLoop`. -/
def xbtLoop (obj : P → Except PyErr F) (M : XMfd F P E) (x : P) (d : E) (f0 df0 c : F)
    (next : F → F) : ℕ → BTState F P → Except PyErr (BTState F P)
  | 0, s => .ok s
  | n + 1, s =>
    if armijoFails c f0 df0 s.alpha s.newf then do
      let s' ← xtrial obj M x d (next s.alpha) (s.count + 1) s.evals
      xbtLoop obj M x d f0 df0 c next n s'
    else .ok s

/-- `BackTrackingLineSearcher.search` (line_search.py:20-76). -/
def xbackTrackingSearch (c : BackTrackingCfg F) (oldf0 : Option F) (obj : P → Except PyErr F)
    (M : XMfd F P E) (x : P) (d : E) (f0 df0 : F) : Except PyErr (SearchOut F P (Option F)) := do
  let normd ← M.norm x d
  let alpha ← backTrackingInit c oldf0 f0 df0 normd
  let s ← xtrial obj M x d alpha 1 []
  let s ← xbtLoop obj M x d f0 df0 c.sufficientDecrease (fun a => mul c.contractionFactor a)
    c.maxIterations.toNat s
  if lt f0 s.newf then
    return { stepSize := mul (lit 0) normd, newx := x, mem := some f0, evals := s.evals }
  else
    return { stepSize := mul s.alpha normd, newx := s.newx, mem := some f0, evals := s.evals }

/-- `BackTrackingLineSearcher`. -/
def xbackTracking (P E : Type) (c : BackTrackingCfg F) : XLineSearcher F P E (Option F) :=
  ⟨fun o obj M x d f0 df0 => xbackTrackingSearch c o obj M x d f0 df0⟩

/-- `AdaptiveLineSearcher.search` (line_search.py:95-141). -/
def xadaptiveSearch (c : AdaptiveCfg F) (oldalpha : Option F) (obj : P → Except PyErr F)
    (M : XMfd F P E) (x : P) (d : E) (f0 df0 : F) : Except PyErr (SearchOut F P (Option F)) := do
  let normd ← M.norm x d
  let alpha ← adaptiveInit c oldalpha normd
  let s ← xtrial obj M x d alpha 1 []
  let s ← xbtLoop obj M x d f0 df0 c.sufficientDecrease (fun a => mul a c.contractionFactor)
    c.maxIterations.toNat s
  let (alpha, newx) := if lt f0 s.newf then (lit 0, x) else (s.alpha, s.newx)
  let oldalpha := if s.count = 2 then alpha else mul (lit 2) alpha
  return { stepSize := mul alpha normd, newx := newx, mem := some oldalpha, evals := s.evals }

/-- `AdaptiveLineSearcher`. -/
def xadaptive (P E : Type) (c : AdaptiveCfg F) : XLineSearcher F P E (Option F) :=
  ⟨fun o obj M x d f0 df0 => xadaptiveSearch c o obj M x d f0 df0⟩

/-! ### Steepest descent -/

/-- The part of the loop body of `SteepestDescent.run` up to the end of the line search
(steepest_descent.py:91-117): cost, gradient, its norm and the outcome of the search. -/
def xsdSearch (ls : XLineSearcher F P E S) (pb : XProb F P E) (s : SDState F P S) :
    Except PyErr (F × F × SearchOut F P S) := do
  let cost ← pb.cost s.x
  let grad ← pb.grad s.x
  let gradientNorm ← pb.M.norm s.x grad
  let descDir ← pb.M.neg grad
  let o ← ls.search s.mem pb.cost pb.M s.x descDir cost (neg (pow gradientNorm (lit 2)))
  return (cost, gradientNorm, o)

/-- The loop body of `SteepestDescent.run` (steepest_descent.py:91-127) with the construction of the
result (129-138) on `break`. -/
def xsdStep (cfg : Cfg F) (ls : XLineSearcher F P E S) (pb : XProb F P E) (clk : Clock F)
    (s : SDState F P S) : Except PyErr (Ctl (SDState F P S) (Result F P × S)) := do
  let iteration := s.iteration + 1
  let (cost, gradientNorm, o) ← xsdSearch ls pb s
  let log := addLog cfg s.log
    { time := clk.log iteration, iteration := iteration, point := s.x, cost := cost,
      gradientNorm := gradientNorm }
  match checkStop cfg clk.start (clk.check1 iteration 0) (clk.check2 iteration 0)
      (stepSize := o.stepSize) (gradientNorm := gradientNorm) (iteration := iteration) with
  | none =>
    .ok (.next { iteration := iteration, x := o.newx, mem := o.mem, log := log,
                 evals := s.evals ++ [s.x] ++ o.evals })
  | some reason =>
    let final ← pb.cost o.newx
    .ok (.brk ({ point := o.newx, cost := final, iterations := iteration,
                 stop := reason, time := sub clk.final clk.start,
                 costEvaluations := some iteration, stepSize := some o.stepSize,
                 gradientNorm := some gradientNorm, log := log,
                 evals := s.evals ++ [s.x] ++ o.evals ++ [o.newx] }, o.mem))

/-- `SteepestDescent.run` (steepest_descent.py:61-138), see `SDRuns`. -/
def XSDRuns (cfg : Cfg F) (ls : XLineSearcher F P E S) (pb : XProb F P E) (clk : Clock F)
    (x : P) (mem : S) (r : Except PyErr (Result F P × S)) : Prop :=
  match printerSetup cfg with
  | .error e => r = .error e
  | .ok _ => Runs (xsdStep cfg ls pb clk) (sdInit cfg x mem) r

/-- Memory of `self.line_searcher` when the loop body raises in state `s`: the line searchers assign
it as the last thing in `search` (line_search.py:74, 134-139), so it is the old one unless the search
has returned. -/
def xsdMem (ls : XLineSearcher F P E S) (pb : XProb F P E) (s : SDState F P S) : S :=
  match xsdSearch ls pb s with
  | .error _ => s.mem
  | .ok (_, _, o) => o.mem

/-- `SteepestDescent.run` as a transition of the optimizer object (steepest_descent.py:33-138) when
anything may raise and the run may be interrupted (`KeyboardInterrupt`) at any moment: the attribute
`line_searcher` is set at lines 57-59 before anything can raise, its memory is the one the run
started with, that of the state `t` the loop has reached, or the one the search made from `t` has
left. -/
inductive XSDCall (cfg : Cfg F) (ls : XLineSearcher F P E S) (o : LSObj S) (pb : XProb F P E)
    (clk : Clock F) (x : P) (reuse : Bool) : Option (Result F P) → LSObj S → Prop
  | ok {r m} : XSDRuns cfg ls pb clk x (o.startMem reuse) (.ok (r, m)) →
      XSDCall cfg ls o pb clk x reuse (some r) ⟨o.proto, some m⟩
  | early : XSDCall cfg ls o pb clk x reuse none ⟨o.proto, some (o.startMem reuse)⟩
  | before {t} : Reaches (xsdStep cfg ls pb clk) (sdInit cfg x (o.startMem reuse)) t →
      XSDCall cfg ls o pb clk x reuse none ⟨o.proto, some t.mem⟩
  | after {t} : Reaches (xsdStep cfg ls pb clk) (sdInit cfg x (o.startMem reuse)) t →
      XSDCall cfg ls o pb clk x reuse none ⟨o.proto, some (xsdMem ls pb t)⟩

/-- Objects that arise from `o` by calls of `SteepestDescent.run` with any problems, completed or
not. -/
inductive XSDHistory (cfg : Cfg F) (ls : XLineSearcher F P E S) (o : LSObj S) : LSObj S → Prop
  | start : XSDHistory cfg ls o o
  | run {o1 o2} {pb : XProb F P E} {clk x reuse r} : XSDHistory cfg ls o o1 →
      XSDCall cfg ls o1 pb clk x reuse r o2 → XSDHistory cfg ls o o2

/-! ### Conjugate gradient -/

/-- `_beta_fletcher_reeves` (conjugate_gradient.py:11-26). -/
def xbetaFletcherReeves (_M : XMfd F P E) (a : BetaArgs P E F) : Except PyErr F :=
  div a.newgradPnewgrad a.gradPgrad

/-- `_beta_polak_ribiere` (conjugate_gradient.py:29-45). -/
def xbetaPolakRibiere (M : XMfd F P E) (a : BetaArgs P E F) : Except PyErr F := do
  let diff ← M.sub a.newgrad a.oldgrad
  let ipDiff ← M.inner a.newx a.Pnewgrad diff
  let q ← div ipDiff a.gradPgrad
  return pymax (lit 0) q

/-- `_beta_hestenes_stiefel` (conjugate_gradient.py:48-72): the two calls of `inner_product` are
inside the `try` whose handler catches `ZeroDivisionError`. -/
def xbetaHestenesStiefel (M : XMfd F P E) (a : BetaArgs P E F) : Except PyErr F := do
  let diff ← M.sub a.newgrad a.oldgrad
  let tried : Except PyErr F := do
    let n ← M.inner a.newx a.Pnewgrad diff
    let d ← M.inner a.newx diff a.dir
    let q ← div n d
    return pymax (lit 0) q
  match tried with
  | .ok q => .ok q
  | .error .zeroDivision => .ok (lit 1)
  | .error e => .error e

/-- `_beta_hager_zhang` (conjugate_gradient.py:75-104). -/
def xbetaHagerZhang (M : XMfd F P E) (a : BetaArgs P E F) : Except PyErr F := do
  let diff ← M.sub a.newgrad a.oldgrad
  let Poldgrad ← M.transport a.x a.newx a.Pgrad
  let Pdiff ← M.sub a.Pnewgrad Poldgrad
  let denominator ← M.inner a.newx diff a.dir
  let numerator ← M.inner a.newx diff a.Pnewgrad
  let i1 ← M.inner a.newx diff Pdiff
  let i2 ← M.inner a.newx a.dir a.newgrad
  let t ← div (mul (mul (lit 2) i1) i2) denominator
  let beta ← div (sub numerator t) denominator
  let dirNorm ← M.norm a.newx a.dir
  let eta ← div (lit (-1)) (mul dirNorm (pymin (lit (1 / 100)) a.gradientNorm))
  return pymax beta eta

/-- `_beta_liu_storey` (conjugate_gradient.py:107-127). -/
def xbetaLiuStorey (M : XMfd F P E) (a : BetaArgs P E F) : Except PyErr F := do
  let diff ← M.sub a.newgrad a.oldgrad
  let ipDiff ← M.inner a.newx a.Pnewgrad diff
  let i ← M.inner a.x a.grad a.dir
  let denominator := neg i
  let betaLs ← div ipDiff denominator
  let betaCd ← div a.newgradPnewgrad denominator
  return pymax (lit 0) (pymin betaLs betaCd)

/-- Look-up of the rule (conjugate_gradient.py:130-136, 330). -/
def BetaRule.xeval (b : BetaRule) (M : XMfd F P E) (a : BetaArgs P E F) : Except PyErr F :=
  match b with
  | .fletcherReeves => xbetaFletcherReeves M a
  | .hagerZhang => xbetaHagerZhang M a
  | .hestenesStiefel => xbetaHestenesStiefel M a
  | .polakRibiere => xbetaPolakRibiere M a
  | .liuStorey => xbetaLiuStorey M a

/-- New search direction (conjugate_gradient.py:316-344). -/
def xcgDirection (M : XMfd F P E) (rule : BetaRule) (orthValue : F) (a : BetaArgs P E F)
    (dir : E) : Except PyErr E := do
  let i ← M.inner a.newx a.oldgrad a.Pnewgrad
  let orthGrads ← div i a.newgradPnewgrad
  if le orthValue (abs orthGrads) then M.neg a.Pnewgrad
  else
    let dir ← M.transport a.x a.newx dir
    let beta ← rule.xeval M { a with dir := dir }
    let n ← M.neg a.Pnewgrad
    let d ← M.smul beta dir
    M.add n d

/-- Direction and search of one iteration (conjugate_gradient.py:281-304): the direction searched, its
slope and the outcome. -/
def xcgSearch (ls : XLineSearcher F P E S) (pb : XProb F P E) (s : CGState F P E S) :
    Except PyErr (E × F × SearchOut F P S) := do
  let df0 ← pb.M.inner s.x s.grad s.dir
  let (dir, df0) ← if le (lit 0) df0 then do
      let d ← pb.M.neg s.Pgrad
      pure (d, neg s.gradPgrad)
    else pure (s.dir, df0)
  let o ← ls.search s.mem pb.cost pb.M s.x dir s.cost df0
  return (dir, df0, o)

/-- The loop body of `ConjugateGradient.run` (conjugate_gradient.py:259-352) with the construction of
the result (354-363) on `break`. -/
def xcgStep (cfg : Cfg F) (rule : BetaRule) (orthValue : F) (ls : XLineSearcher F P E S)
    (pb : XProb F P E) (clk : Clock F) (s : CGState F P E S) :
    Except PyErr (Ctl (CGState F P E S) (Result F P × S × List (P × E × F))) :=
  let iteration := s.iteration + 1
  let log := addLog cfg s.log
    { time := clk.log iteration, iteration := iteration, point := s.x, cost := s.cost,
      gradientNorm := s.gradientNorm }
  match checkStop cfg clk.start (clk.check1 iteration 0) (clk.check2 iteration 0)
      (gradientNorm := s.gradientNorm) (iteration := iteration) (stepSize := s.stepSize) with
  | some reason =>
    .ok (.brk ({ point := s.x, cost := s.cost, iterations := iteration, stop := reason,
                 time := sub clk.final clk.start, costEvaluations := some iteration,
                 stepSize := s.stepSize, gradientNorm := some s.gradientNorm,
                 log := log, evals := s.evals }, s.mem, s.searches))
  | none => do
    let (dir, df0, o) ← xcgSearch ls pb s
    let newcost ← pb.cost o.newx
    let newgrad ← pb.grad o.newx
    let newgradientNorm ← pb.M.norm o.newx newgrad
    let Pnewgrad ← pb.precon o.newx newgrad
    let newgradPnewgrad ← pb.M.inner o.newx newgrad Pnewgrad
    let oldgrad ← pb.M.transport s.x o.newx s.grad
    let newdir ← xcgDirection pb.M rule orthValue
      { x := s.x, newx := o.newx, grad := s.grad, newgrad := newgrad, Pnewgrad := Pnewgrad,
        newgradPnewgrad := newgradPnewgrad, Pgrad := s.Pgrad, gradPgrad := s.gradPgrad,
        gradientNorm := s.gradientNorm, oldgrad := oldgrad, dir := dir } dir
    .ok (.next { iteration := iteration, stepSize := o.stepSize, x := o.newx,
                 cost := newcost, grad := newgrad, Pgrad := Pnewgrad,
                 gradientNorm := newgradientNorm, gradPgrad := newgradPnewgrad,
                 dir := newdir, mem := o.mem, log := log,
                 evals := s.evals ++ o.evals ++ [o.newx],
                 searches := s.searches ++ [(s.x, dir, df0)] })

/-- State at loop entry (conjugate_gradient.py:236-257). -/
def xcgInit (cfg : Cfg F) (pb : XProb F P E) (x : P) (mem : S) :
    Except PyErr (CGState F P E S) := do
  let cost ← pb.cost x
  let grad ← pb.grad x
  let gradientNorm ← pb.M.norm x grad
  let Pgrad ← pb.precon x grad
  let gradPgrad ← pb.M.inner x grad Pgrad
  let dir ← pb.M.neg Pgrad
  return { iteration := 0, stepSize := none, x := x, cost := cost, grad := grad, Pgrad := Pgrad,
           gradientNorm := gradientNorm, gradPgrad := gradPgrad, dir := dir, mem := mem,
           log := initLog cfg, evals := [x], searches := [] }

/-- `ConjugateGradient.run` (conjugate_gradient.py:213-363), see `CGRuns`. -/
def XCGRuns (cfg : Cfg F) (rule : BetaRule) (orthValue : F) (ls : XLineSearcher F P E S)
    (pb : XProb F P E) (clk : Clock F) (x : P) (mem : S)
    (r : Except PyErr (Result F P × S × List (P × E × F))) : Prop :=
  match printerSetup cfg with
  | .error e => r = .error e
  | .ok _ =>
    match xcgInit cfg pb x mem with
    | .error e => r = .error e
    | .ok s => Runs (xcgStep cfg rule orthValue ls pb clk) s r

/-- Memory of `self.line_searcher` when the loop body raises in state `s`. -/
def xcgMem (ls : XLineSearcher F P E S) (pb : XProb F P E) (s : CGState F P E S) : S :=
  match xcgSearch ls pb s with
  | .error _ => s.mem
  | .ok (_, _, o) => o.mem

/-- `ConjugateGradient.run` as a transition of the optimizer object (conjugate_gradient.py:186-363),
see `XSDCall`. -/
inductive XCGCall (cfg : Cfg F) (rule : BetaRule) (orthValue : F) (ls : XLineSearcher F P E S)
    (o : LSObj S) (pb : XProb F P E) (clk : Clock F) (x : P) (reuse : Bool) :
    Option (Result F P) → LSObj S → Prop
  | ok {r m t} : XCGRuns cfg rule orthValue ls pb clk x (o.startMem reuse) (.ok (r, m, t)) →
      XCGCall cfg rule orthValue ls o pb clk x reuse (some r) ⟨o.proto, some m⟩
  | early : XCGCall cfg rule orthValue ls o pb clk x reuse none
      ⟨o.proto, some (o.startMem reuse)⟩
  | before {s t} : xcgInit cfg pb x (o.startMem reuse) = .ok s →
      Reaches (xcgStep cfg rule orthValue ls pb clk) s t →
      XCGCall cfg rule orthValue ls o pb clk x reuse none ⟨o.proto, some t.mem⟩
  | after {s t} : xcgInit cfg pb x (o.startMem reuse) = .ok s →
      Reaches (xcgStep cfg rule orthValue ls pb clk) s t →
      XCGCall cfg rule orthValue ls o pb clk x reuse none ⟨o.proto, some (xcgMem ls pb t)⟩

/-- Objects that arise from `o` by calls of `ConjugateGradient.run` with any problems, completed or
not. -/
inductive XCGHistory (cfg : Cfg F) (rule : BetaRule) (orthValue : F) (ls : XLineSearcher F P E S)
    (o : LSObj S) : LSObj S → Prop
  | start : XCGHistory cfg rule orthValue ls o o
  | run {o1 o2} {pb : XProb F P E} {clk x reuse r} : XCGHistory cfg rule orthValue ls o o1 →
      XCGCall cfg rule orthValue ls o1 pb clk x reuse r o2 →
      XCGHistory cfg rule orthValue ls o o2

/-! ### Trust regions -/

/-- `model_fun` (trust_regions.py:489-490). -/
def xmodelFun (pb : XProb F P E) (x : P) (fgradx eta Heta : E) : Except PyErr F := do
  let a ← pb.M.inner x eta fgradx
  let b ← pb.M.inner x eta Heta
  return add a (mul (lit (1 / 2)) b)

/-- Body of the inner loop (trust_regions.py:501-617), iteration `j`. -/
def xtcgBody (c : TRCfg F) (pb : XProb F P E) (x : P) (fgradx : E) (Delta normr0 : F)
    (mininner : ℤ) (j : ℕ) (s : TCGState F E) :
    Except PyErr (Ctl (TCGState F E) (TCGOut E)) := do
  let M := pb.M
  let Hdelta ← pb.hess x s.delta
  let dHd ← M.inner x s.delta Hdelta
  let (alpha, ePeNew) ← (if ne0 dHd then do
      let alpha ← div s.zr dHd
      pure (alpha,
        add (add s.ePe (mul (mul (lit 2) alpha) s.ePd)) (mul (pow alpha (lit 2)) s.dPd))
    else pure (lit 0, s.ePe) : Except PyErr (F × F))
  if le dHd (lit 0) || le (pow Delta (lit 2)) ePeNew then do
    let tau ← div (add (neg s.ePd)
      (sqrt (add (mul s.ePd s.ePd) (mul s.dPd (sub (pow Delta (lit 2)) s.ePe))))) s.dPd
    let v ← M.smul tau s.delta
    let eta ← M.add s.eta v
    let w ← M.smul tau Hdelta
    let Heta ← M.add s.Heta w
    return .brk { eta := eta, Heta := Heta, j := j
                  stop := if le dHd (lit 0) then .negativeCurvature else .exceededTR
                  hessCalls := j + 1 }
  else do
    let v ← M.smul alpha s.delta
    let newEta ← M.add s.eta v
    let w ← M.smul alpha Hdelta
    let newHeta ← M.add s.Heta w
    let newModelValue ← xmodelFun pb x fgradx newEta newHeta
    if le s.modelValue newModelValue then
      return .brk { eta := s.eta, Heta := s.Heta, j := j, stop := .modelIncreased,
                    hessCalls := j + 1 }
    else do
      let u ← M.smul alpha Hdelta
      let r ← M.add s.r u
      let rr ← M.inner x r r
      let normr := sqrt rr
      if (decide (mininner ≤ (j : ℤ))) &&
          le normr (mul normr0 (pymin (pow normr0 c.theta) c.kappa)) then
        return .brk { eta := newEta, Heta := newHeta, j := j,
                      stop := if lt c.kappa (pow normr0 c.theta) then .reachedTargetLinear
                              else .reachedTargetSuperlinear
                      hessCalls := j + 1 }
      else do
        let z ← (if c.useRand then pure r else pb.precon x r : Except PyErr E)
        let zr ← M.inner x z r
        let beta ← div zr s.zr
        let n ← M.neg z
        let t ← M.smul beta s.delta
        let nt ← M.add n t
        let delta ← M.toTangent x nt
        return .next { eta := newEta, Heta := newHeta, r := r, ePe := ePeNew, zr := zr,
                       dPd := add zr (mul (mul beta beta) s.dPd), delta := delta,
                       ePd := mul beta (add s.ePd (mul alpha s.dPd)),
                       modelValue := newModelValue }

/-- `for j in range(int(maxinner))` (trust_regions.py:501), see `tcgLoop`. -/
def xtcgLoop (c : TRCfg F) (pb : XProb F P E) (x : P) (fgradx : E) (Delta normr0 : F)
    (mininner : ℤ) : ℕ → ℕ → TCGState F E → Except PyErr (TCGOut E)
  | 0, 0, _ => .error .unboundLocal
  | 0, j + 1, s => .ok { eta := s.eta, Heta := s.Heta, j := j, stop := .maxInnerIter,
                         hessCalls := j + 1 }
  | n + 1, j, s =>
    match xtcgBody c pb x fgradx Delta normr0 mininner j s with
    | .error e => .error e
    | .ok (.brk o) => .ok o
    | .ok (.next s') => xtcgLoop c pb x fgradx Delta normr0 mininner n (j + 1) s'

/-- Initial state of the inner loop and the norm of its residual (trust_regions.py:449-495). -/
def xtcgInit (c : TRCfg F) (pb : XProb F P E) (x : P) (fgradx eta : E) :
    Except PyErr (TCGState F E × F) := do
  let M := pb.M
  if c.useRand then do
    let Heta ← pb.hess x eta
    let r ← M.add fgradx Heta
    let ePe ← M.inner x eta eta
    let rr ← M.inner x r r
    let zr ← M.inner x r r
    let delta ← M.neg r
    let ePd ← M.inner x eta delta
    let modelValue ← xmodelFun pb x fgradx eta Heta
    return ({ eta := eta, Heta := Heta, r := r, ePe := ePe, zr := zr, dPd := zr, delta := delta,
              ePd := ePd, modelValue := modelValue }, sqrt rr)
  else do
    let Heta ← M.zeroVector x
    let rr ← M.inner x fgradx fgradx
    let z ← pb.precon x fgradx
    let zr ← M.inner x z fgradx
    let delta ← M.neg z
    return ({ eta := eta, Heta := Heta, r := fgradx, ePe := lit 0, zr := zr, dPd := zr,
              delta := delta, ePd := lit 0, modelValue := lit 0 }, sqrt rr)

/-- `_truncated_conjugate_gradient` (trust_regions.py:441-619). -/
def xtcg (c : TRCfg F) (pb : XProb F P E) (x : P) (fgradx eta : E) (Delta : F)
    (mininner maxinner : ℤ) : Except PyErr (TCGOut E) := do
  let (s, normr0) ← xtcgInit c pb x fgradx eta
  xtcgLoop c pb x fgradx Delta normr0 mininner maxinner.toNat 0 s

/-- Comparison with the Cauchy point when `use_rand` is set (trust_regions.py:210-239). -/
def xcauchy (pb : XProb F P E) (x : P) (fx : F) (fgradx : E) (normGrad Delta : F)
    (o : TCGOut E) : Except PyErr (E × E) := do
  let M := pb.M
  let Hg ← pb.hess x fgradx
  let gHg ← M.inner x fgradx Hg
  let tauC ← (if le gHg (lit 0) then pure (lit 1)
    else do
      let q ← div (pow normGrad (lit 3)) (mul Delta gHg)
      pure (pymin q (lit 1)) : Except PyErr F)
  let t ← div (mul (neg tauC) Delta) normGrad
  let etaC ← M.smul t fgradx
  let HetaC ← M.smul t Hg
  let i1 ← M.inner x fgradx o.eta
  let i2 ← M.inner x o.Heta o.eta
  let i3 ← M.inner x fgradx etaC
  let i4 ← M.inner x HetaC etaC
  let mdle := add (add fx i1) (mul (lit (1 / 2)) i2)
  let mdlec := add (add fx i3) (mul (lit (1 / 2)) i4)
  if lt mdlec mdle then return (etaC, HetaC) else return (o.eta, o.Heta)

/-- Quality ratio (trust_regions.py:255-333); the `try` contains the division only. -/
def xtrRatio (c : TRCfg F) (pb : XProb F P E) (x : P) (fx : F) (fgradx : E) (fxProp : F)
    (eta Heta : E) : Except PyErr (F × Bool) := do
  let reg := rhoReg c fx
  let rhonum := add (sub fx fxProp) reg
  let a ← pb.M.inner x fgradx eta
  let b ← pb.M.inner x eta Heta
  let rhoden := add (sub (neg a) (mul (lit (1 / 2)) b)) reg
  let modelDecreased := le (lit 0) rhoden
  match div rhonum rhoden with
  | .ok rho => .ok (rho, modelDecreased)
  | .error .zeroDivision => .ok (nan, modelDecreased)
  | .error e => .error e

/-- The loop body of `TrustRegions.run` (trust_regions.py:171-430) with the construction of the
result (432-439) on `break`. `eta0` is the random start used with `use_rand` (183-187), which may
raise. -/
def xtrStep (cfg : Cfg F) (c : TRCfg F) (pb : XProb F P E) (clk : Clock F)
    (eta0 : ℤ → Except PyErr E) (mininner maxinner : ℤ) (DeltaBar : F) (s : TRState F P E) :
    Except PyErr (Ctl (TRState F P E) (Result F P × List (P × F × F))) := do
  let M := pb.M
  let iteration := s.iteration + 1
  let eta ← (if c.useRand then eta0 iteration else M.zeroVector s.x : Except PyErr E)
  let o ← xtcg c pb s.x s.fgradx eta s.Delta mininner maxinner
  let (eta, Heta) ← (if c.useRand then xcauchy pb s.x s.fx s.fgradx s.normGrad s.Delta o
    else pure (o.eta, o.Heta) : Except PyErr (E × E))
  let xProp ← M.retraction s.x eta
  let fxProp ← pb.cost xProp
  let (rho, modelDecreased) ← xtrRatio c pb s.x s.fx s.fgradx fxProp eta Heta
  let Delta ← trRadius rho modelDecreased o.stop DeltaBar s.Delta
  let history := s.history ++ [(s.x, s.fx, s.Delta)]
  let evals := s.evals ++ [xProp]
  let s' : TRState F P E ← if trAccept c rho modelDecreased then do
      let g ← pb.grad xProp
      let n ← M.norm xProp g
      pure { iteration := iteration, x := xProp, fx := fxProp, fgradx := g, normGrad := n,
             Delta := Delta, evals := evals, history := history }
    else
      pure { s with iteration := iteration, Delta := Delta, evals := evals, history := history }
  match checkStop cfg clk.start (clk.check1 iteration 0) (clk.check2 iteration 0)
      (gradientNorm := s'.normGrad) (iteration := iteration) with
  | none => .ok (.next s')
  | some reason =>
    .ok (.brk ({ point := s'.x, cost := s'.fx, iterations := iteration, stop := reason,
                 time := sub clk.final clk.start, gradientNorm := some s'.normGrad,
                 log := initLog cfg, evals := s'.evals }, s'.history))

/-- Default radii (trust_regions.py:122-131): `NotImplementedError` from `typical_dist` is caught,
other exceptions are not. -/
def xtrRadii (dim : ℕ) (typicalDist : Except PyErr F) (DeltaBar Delta0 : Option F) :
    Except PyErr (F × F) := do
  let DeltaBar ← match DeltaBar with
    | some d => .ok d
    | none => match typicalDist with
      | .ok t => .ok t
      | .error .notImplemented => .ok (sqrt (lit dim))
      | .error e => .error e
  let Delta0 ← match Delta0 with
    | some d => .ok d
    | none => div DeltaBar (lit 8)
  return (DeltaBar, Delta0)

/-- State at loop entry (trust_regions.py:146-156). -/
def xtrInit (pb : XProb F P E) (x : P) (Delta0 : F) : Except PyErr (TRState F P E) := do
  let fx ← pb.cost x
  let g ← pb.grad x
  let n ← pb.M.norm x g
  return { iteration := 0, x := x, fx := fx, fgradx := g, normGrad := n, Delta := Delta0,
           evals := [x], history := [] }

/-- `TrustRegions.run` (trust_regions.py:107-439), see `TRRuns`. -/
def XTRRuns (cfg : Cfg F) (c : TRCfg F) (pb : XProb F P E) (clk : Clock F)
    (eta0 : ℤ → Except PyErr E) (mininner : ℤ) (maxinner : Option ℤ)
    (typicalDist : Except PyErr F) (DeltaBar Delta0 : Option F) (x : P)
    (r : Except PyErr (Result F P × List (P × F × F))) : Prop :=
  match xtrRadii pb.M.dim typicalDist DeltaBar Delta0 with
  | .error e => r = .error e
  | .ok (DeltaBar, Delta0) =>
    match xtrInit pb x Delta0 with
    | .error e => r = .error e
    | .ok s => Runs (xtrStep cfg c pb clk eta0 mininner (maxinner.getD pb.M.dim) DeltaBar) s r

/-! ### Particle swarm -/

/-- New velocity of a particle (particle_swarm.py:157-179). -/
def xpsoVelocity (o : PSOObj F) (M : XMfd F P E) (rnd : PSORand F P E) (iteration : ℤ) (w : F)
    (xbest : P) (i : ℕ) (p : Particle F P E) : Except PyErr (Particle F P E) := do
  let t ← M.transport p.xprev p.x p.v
  let inertia ← M.smul w t
  let l ← M.log p.x p.y
  let nostalgia ← M.smul (mul (rnd.u1 iteration i) o.nostalgia) l
  let l' ← M.log p.x xbest
  let social ← M.smul (mul (rnd.u2 iteration i) o.social) l'
  let a ← M.add inertia nostalgia
  let v ← M.add a social
  return { p with v := v }

/-- The velocity loop over the swarm (particle_swarm.py:157-179), from particle `i` on. -/
def xpsoVelocities (o : PSOObj F) (M : XMfd F P E) (rnd : PSORand F P E) (iteration : ℤ) (w : F)
    (xbest : P) : ℕ → List (Particle F P E) → Except PyErr (List (Particle F P E))
  | _, [] => .ok []
  | i, p :: ps => do
    let p' ← xpsoVelocity o M rnd iteration w xbest i p
    let ps' ← xpsoVelocities o M rnd iteration w xbest (i + 1) ps
    return p' :: ps'

/-- Position update of one particle (particle_swarm.py:185-200). -/
def xpsoMove (obj : P → Except PyErr F) (M : XMfd F P E) (isTuple : Bool) (best : F × P)
    (p : Particle F P E) : Except PyErr ((F × P) × Particle F P E) := do
  let xi := p.x
  let x ← M.retraction xi p.v
  if isTuple then .error .typeError
  else do
    let fxi ← obj xi
    let p' := { p with x := x, xprev := xi }
    if lt fxi p.fy then
      return (if lt fxi best.1 then (fxi, xi) else best, { p' with fy := fxi, y := xi })
    else return (best, p')

/-- The position loop over the swarm (particle_swarm.py:185-200). -/
def xpsoMoves (obj : P → Except PyErr F) (M : XMfd F P E) (isTuple : Bool) :
    (F × P) → List (Particle F P E) → Except PyErr ((F × P) × List (Particle F P E))
  | best, [] => .ok (best, [])
  | best, p :: ps => do
    let (best, p') ← xpsoMove obj M isTuple best p
    let (best, ps') ← xpsoMoves obj M isTuple best ps
    return (best, p' :: ps')

/-- The loop body of `ParticleSwarm.run` (particle_swarm.py:128-201) with the construction of the
result (203-210) on `break`, see `psoStep`. -/
def xpsoStep (o : PSOObj F) (isTuple : Bool) (rnd : PSORand F P E) (pb : XProb F P E)
    (clk : Clock F) (s : PSOState F P E) :
    Except PyErr (Ctl (PSOState F P E) (Result F P × List P × List P)) :=
  let iteration := s.iteration + 1
  match psoStop o clk iteration s.costEvaluations s.swarm.length with
  | some reason =>
    .ok (.brk ({ point := s.xbest, cost := s.fbest, iterations := iteration, stop := reason,
                 time := sub clk.final clk.start, costEvaluations := some s.costEvaluations,
                 log := initLog o.cfg, evals := s.evals },
               s.swarm.map Particle.x, s.positions))
  | none => do
    let q ← div (lit (iteration : ℚ)) (lit (o.cfg.maxIterations : ℚ))
    let w := add (lit (2 / 5)) (mul (lit (1 / 2)) (sub (lit 1) q))
    let swarm ← xpsoVelocities o pb.M rnd iteration w s.xbest 0 s.swarm
    let (best, swarm') ← xpsoMoves pb.cost pb.M isTuple (s.fbest, s.xbest) swarm
    return .next { iteration := iteration, swarm := swarm', fbest := best.1, xbest := best.2,
                   costEvaluations := s.costEvaluations + o.populationSize.getD 0,
                   evals := s.evals ++ swarm.map Particle.x,
                   positions := s.positions ++ swarm'.map Particle.x }

/-- `[objective(xi) for xi in x]` (particle_swarm.py:98, nelder_mead.py:114). -/
def xcosts (obj : P → Except PyErr F) : List P → Except PyErr (List (F × P))
  | [] => .ok []
  | p :: ps => do
    let c ← obj p
    let cs ← xcosts obj ps
    return (c, p) :: cs

/-- State at loop entry (particle_swarm.py:88-126); the initial velocities are drawn before. -/
def xpsoInit (o : PSOObj F) (rnd : PSORand F P E) (pb : XProb F P E) (x0 : P) (xs : List P) :
    Except PyErr (PSOState F P E) := do
  let c0 ← pb.cost x0
  let cs ← xcosts pb.cost xs
  let best := argminPoint (c0, x0) cs
  return { iteration := 0
           swarm := ((c0, x0) :: cs).mapIdx fun i c =>
             { x := c.2, xprev := c.2, v := rnd.velocity i c.2, y := c.2, fy := c.1 }
           fbest := best.1, xbest := best.2, costEvaluations := o.populationSize.getD 0,
           evals := x0 :: xs, positions := x0 :: xs }

/-- `ParticleSwarm.run` (particle_swarm.py:43-210), see `PSORuns`.  Simplification: the points and
velocities drawn by the manifold are arguments, so drawing does not raise. -/
def XPSORuns (o : PSOObj F) (rnd : PSORand F P E) (pb : XProb F P E) (clk : Clock F)
    (init : InitArg P) (r : Except PyErr (Result F P × List P × List P)) : Prop :=
  match psoPopulation (o.resolve pb.M.dim) init with
  | .error e => r = .error e
  | .ok (_, [], _) => r = .error .valueError
  | .ok (o', x0 :: xs, isTuple) =>
    match xpsoInit o' rnd pb x0 xs with
    | .error e => r = .error e
    | .ok s =>
      match printerSetup o'.cfg with
      | .error e => r = .error e
      | .ok _ => Runs (xpsoStep o' isTuple rnd pb clk) s r

/-! ### Nelder-Mead -/

/-- `[manifold.dist(y, point) ** 2 for point in points]` summed from `acc` (nelder_mead.py:18).  Simplification:
the code first forms the list; adding numbers does not raise. -/
def xsumDist (M : XMfd F P E) (y : P) : F → List P → Except PyErr F
  | acc, [] => .ok acc
  | acc, p :: ps => do
    let d ← M.dist y p
    xsumDist M y (add acc (pow d (lit 2))) ps

/-- `[manifold.log(y, point) for point in points]` (nelder_mead.py:25). -/
def xlogs (M : XMfd F P E) (y : P) : List P → Except PyErr (List E)
  | [] => .ok []
  | p :: ps => do
    let l ← M.log y p
    let ls ← xlogs M y ps
    return l :: ls

/-- `sum(vectors, acc)` (nelder_mead.py:24-27). -/
def xsum (M : XMfd F P E) : E → List E → Except PyErr E
  | acc, [] => .ok acc
  | acc, v :: vs => do
    let a ← M.add acc v
    xsum M a vs

/-- The problem solved by `compute_centroid` (nelder_mead.py:14-32).  `wrap` is what
`Problem.riemannian_gradient` does with the value of the user-supplied gradient
(core/problem.py:139-167): nothing, or regrouping into a plain list on product manifolds. -/
def xcentroidProb (M : XMfd F P E) (wrap : E → Except PyErr E) (points : List P) : XProb F P E where
  M := M
  cost y := do
    let s ← xsumDist M y (lit 0) points
    return mul s (lit (1 / 2))
  grad y := do
    let ls ← xlogs M y points
    let z ← M.zeroVector y
    let s ← xsum M z ls
    let n ← M.neg s
    wrap n
  hess _ v := .ok v
  precon _ v := .ok v

/-- `compute_centroid(manifold, points)` (nelder_mead.py:11-33) started at `draw`. -/
def XCentroidRuns (M : XMfd F P E) (wrap : E → Except PyErr E) (clk : Clock F) (draw : P)
    (points : List P) (r : Except PyErr P) : Prop :=
  ∃ r', XSDRuns centroidCfg (xbackTracking P E centroidSearch) (xcentroidProb M wrap points) clk
    draw none r' ∧ r = r'.map fun q => q.1.point

/-- Shrinkage of the vertices with index `1..n` towards `best` (nelder_mead.py:222-226), of which
those in the list are left; an index outside raises `IndexError`. -/
def xnmShrink (obj : P → Except PyErr F) (M : XMfd F P E) (best : F × P) :
    ℕ → List (F × P) → Except PyErr (List (F × P))
  | 0, l => .ok l
  | _ + 1, [] => .error .indexError
  | n + 1, v :: l => do
    let p ← M.pairMean best.2 v.2
    let c ← obj p
    let l' ← xnmShrink obj M best n l
    return (c, p) :: l'

/-- The shrinkage move (nelder_mead.py:219-226). -/
def xnmShrinkMove (obj : P → Except PyErr F) (M : XMfd F P E) (dim : ℕ) (best : F × P)
    (l : List (F × P)) (evals : List P) : Except PyErr (NMMove F P) := do
  let t ← xnmShrink obj M best dim l.tail
  let l' := best :: t
  return { simplex := l', evals := evals ++ ((l'.drop 1).take dim).map Prod.snd,
           counted := evals.length + dim, action := .shrinkage }

/-- Contraction or shrinkage (nelder_mead.py:193-226). -/
def xnmContract (o : NMObj F) (obj : P → Except PyErr F) (M : XMfd F P E) (xbar : P) (vec : E)
    (xr : P) (costr : F) (best worst : F × P) (second : Option (F × P)) (l : List (F × P)) :
    Except PyErr (NMMove F P) :=
  match second with
  | none => .error .indexError
  | some second =>
    if le second.1 costr then
      if lt costr worst.1 then do
        let v ← M.smul (neg o.contraction) vec
        let xoc ← M.retraction xbar v
        let costoc ← obj xoc
        if le costoc costr then
          return { simplex := replaceWorst l (costoc, xoc), evals := [xr, xoc], counted := 2,
                   action := .outsideContraction }
        else xnmShrinkMove obj M M.dim best l [xr, xoc]
      else do
        let v ← M.smul o.contraction vec
        let xic ← M.retraction xbar v
        let costic ← obj xic
        if le costic worst.1 then
          return { simplex := replaceWorst l (costic, xic), evals := [xr, xic], counted := 2,
                   action := .insideContraction }
        else xnmShrinkMove obj M M.dim best l [xr, xic]
    else xnmShrinkMove obj M M.dim best l [xr]

/-- The moves of one iteration on the sorted simplex `l` (nelder_mead.py:155-226). -/
def xnmMove (o : NMObj F) (obj : P → Except PyErr F) (M : XMfd F P E) (xbar : P)
    (l : List (F × P)) : Except PyErr (NMMove F P) :=
  match l.getLast?, l.head? with
  | some worst, some best => do
    let second := l.dropLast.getLast?
    let vec ← M.log xbar worst.2
    let v ← M.smul (neg o.reflection) vec
    let xr ← M.retraction xbar v
    let costr ← obj xr
    let reflect ← nmReflectTest best second costr
    if reflect then
      return { simplex := replaceWorst l (costr, xr), evals := [xr], counted := 1,
               action := .reflection }
    else if lt costr best.1 then do
      let v ← M.smul (neg o.expansion) vec
      let xe ← M.retraction xbar v
      let coste ← obj xe
      if lt coste costr then
        return { simplex := replaceWorst l (coste, xe), evals := [xr, xe], counted := 2,
                 action := .expansion }
      else
        return { simplex := replaceWorst l (costr, xr), evals := [xr, xe], counted := 2,
                 action := .failedExpansion }
    else xnmContract o obj M xbar vec xr costr best worst second l
  | _, _ => .error .indexError

/-- The loop body of `NelderMead.run` (nelder_mead.py:130-226) with the construction of the result
(228-237) on `break`, see `nmStep`. -/
def xnmStep (o : NMObj F) (sort : List (F × P) → List (F × P))
    (centroid : ℤ → List P → Except PyErr P) (pb : XProb F P E) (clk : Clock F)
    (s : NMState F P) : Except PyErr (Ctl (NMState F P) (Result F P)) :=
  let iteration := s.iteration + 1
  let simplex := sort s.simplex
  match checkStop o.cfg clk.start (clk.check1 iteration 0) (clk.check2 iteration 0)
      (iteration := iteration) (costEvaluations := s.costEvaluations) with
  | some reason =>
    match simplex.head? with
    | none => .error .indexError
    | some best => do
      let final ← pb.cost best.2
      return .brk { point := best.2, cost := final, iterations := iteration,
                    stop := reason, time := sub clk.final clk.start,
                    costEvaluations := some s.costEvaluations, log := initLog o.cfg,
                    evals := s.evals ++ [best.2] }
  | none => do
    let xbar ← centroid iteration (simplex.dropLast.map Prod.snd)
    let m ← xnmMove o pb.cost pb.M xbar simplex
    return .next { iteration := iteration, simplex := m.simplex,
                   costEvaluations := s.costEvaluations + m.counted,
                   evals := s.evals ++ m.evals }

/-- State at loop entry (nelder_mead.py:112-128). -/
def xnmInit (sort : List (F × P) → List (F × P)) (pb : XProb F P E) (x : List P) :
    Except PyErr (NMState F P) := do
  let cs ← xcosts pb.cost x
  return { iteration := 0, simplex := sort cs, costEvaluations := pb.M.dim + 1, evals := x }

/-- `NelderMead.run` (nelder_mead.py:71-237), see `NMRuns`; `centroid` is `compute_centroid`, an
arbitrary result or exception. -/
def XNMRuns (o : NMObj F) (sort : List (F × P) → List (F × P))
    (centroid : ℤ → List P → Except PyErr P) (pb : XProb F P E) (clk : Clock F)
    (init : InitArg P) (r : Except PyErr (Result F P)) : Prop :=
  match nmSimplex pb.M.dim init with
  | .error e => r = .error e
  | .ok x =>
    match xnmInit sort pb x with
    | .error e => r = .error e
    | .ok s => Runs (xnmStep (o.resolve pb.M.dim) sort centroid pb clk) s r

end

end Verif.Opt
