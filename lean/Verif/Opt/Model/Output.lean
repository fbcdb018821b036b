/-
What the optimizers print: the `print` calls of
`/repo/src/pymanopt/optimizers/*.py`.

A message is represented by the values that are formatted into it; the layout of the columns is
`Verif.Core.ColumnPrinter`.  Messages that one statement block always prints together (the two
lines of a header, the three lines of a radius warning) are one message.
-/
import Verif.Opt.Model.SD
import Verif.Opt.Model.CG
import Verif.Opt.Model.NM
import Verif.Opt.Model.PSO
import Verif.Opt.Model.TR

namespace Verif.Opt
open PyNum

/-- Messages printed by the optimizers. -/
inductive Message (F : Type*)
  /-- `"Optimizing..."` -/
  | optimizing
  /-- `column_printer.print_header()` -/
  | header
  /-- row of steepest descent and conjugate gradient: iteration, cost, gradient norm -/
  | row (iteration : ℤ) (cost gradientNorm : F)
  /-- row of particle swarm: iteration, cost evaluations, best cost -/
  | swarmRow (iteration costEvaluations : ℤ) (best : F)
  /-- row of Nelder-Mead: cost evaluations, best cost -/
  | simplexRow (costEvaluations : ℤ) (best : F)
  /-- `"Reflection"` etc. -/
  | action (a : NMAction)
  /-- conjugate gradient: reset of an ascent direction -/
  | ascent (df0 : F)
  /-- particle swarm: "The population size was forced ..." -/
  | sizeForced
  /-- trust regions: values at the starting point -/
  | start (cost gradientNorm : F)
  /-- trust regions: "rho is NaN!" -/
  | rhoNan
  /-- trust regions: many consecutive radius decreases, with `Delta_bar` and `Delta0` -/
  | manyDecreases (DeltaBar Delta0 : F)
  /-- trust regions: many consecutive radius increases -/
  | manyIncreases (DeltaBar Delta0 : F)
  /-- row of trust regions: accepted, radius change, iteration, inner iterations, why the inner
  solver stopped, "model did not decrease", cost and gradient norm -/
  | region (accepted : Bool) (radius : Ordering) (iteration : ℤ) (inner : ℕ) (stop : TCGStop)
      (noDecrease : Bool) (cost gradientNorm : F)
  /-- trust regions with verbosity above 2: the ratio -/
  | ratio (rho : F)
  /-- trust regions with verbosity above 2 and `use_rand`: `"USED CAUCHY POINT"` -/
  | usedCauchy
  /-- the stopping criterion and an empty line -/
  | finished (reason : StopReason F)
  deriving DecidableEq

/-- A loop whose body, run from state `s` with print state `a`, prints `(out a s).1` and leaves the
print state `(out a s).2`: the messages printed up to the end of the loop, and its outcome. -/
inductive PrintsIn {S R A L : Type*} (step : S → Except PyErr (Ctl S R))
    (out : A → S → List L × A) : A → S → List L → Except PyErr R → Prop
  | brk {a s r} : step s = .ok (.brk r) → PrintsIn step out a s (out a s).1 (.ok r)
  | err {a s e} : step s = .error e → PrintsIn step out a s (out a s).1 (.error e)
  | next {a s s' l r} : step s = .ok (.next s') → PrintsIn step out (out a s).2 s' l r →
      PrintsIn step out a s ((out a s).1 ++ l) r

section
variable {F P E S : Type*} [PyNum F]

/-- `if self._verbosity >= v: print(m)` -/
def say (verbosity v : ℤ) (m : Message F) : List (Message F) :=
  if verbosity ≥ v then [m] else []

/-- The stopping criterion and the empty line printed before `break`
(steepest_descent.py:124-126, conjugate_gradient.py:279-281, nelder_mead.py:150-152,
particle_swarm.py:147-149, trust_regions.py:427-429). -/
def sayFinished {T : Type*} (verbosity : ℤ) (stop : T → StopReason F) {S' : Type*} :
    Except PyErr (Ctl S' T) → List (Message F)
  | .ok (.brk r) => say verbosity 1 (.finished (stop r))
  | _ => []

/-- Messages of one iteration of steepest descent (steepest_descent.py:91-127). -/
def sdSays (cfg : Cfg F) (ls : LineSearcher F P E S) (pb : Prob F P E) (clk : Clock F)
    (_ : Unit) (s : SDState F P S) : List (Message F) × Unit :=
  (say cfg.verbosity 2 (.row (s.iteration + 1) (pb.cost s.x) (pb.M.norm s.x (pb.grad s.x))) ++
    sayFinished cfg.verbosity (fun r => r.1.stop) (sdStep cfg ls pb clk s), ())

/-- Messages of one iteration of conjugate gradient (conjugate_gradient.py:259-300). -/
def cgSays (cfg : Cfg F) (rule : BetaRule) (orth : F) (ls : LineSearcher F P E S)
    (pb : Prob F P E) (clk : Clock F) (_ : Unit) (s : CGState F P E S) :
    List (Message F) × Unit :=
  (say cfg.verbosity 2 (.row (s.iteration + 1) s.cost s.gradientNorm) ++
    match checkStop cfg clk.start (clk.check1 (s.iteration + 1) 0) (clk.check2 (s.iteration + 1) 0)
        (gradientNorm := s.gradientNorm) (iteration := s.iteration + 1)
        (stepSize := s.stepSize) with
    | some _ => sayFinished cfg.verbosity (fun r => r.1.stop) (cgStep cfg rule orth ls pb clk s)
    | none =>
      let df0 := pb.M.inner s.x s.grad s.dir
      if le (lit 0) df0 then say cfg.verbosity 3 (.ascent df0) else [], ())

/-- Messages of one iteration of Nelder-Mead (nelder_mead.py:130-226).  The row is printed before
the vertices are sorted.  Simplifications: nothing is printed for a simplex without vertices, for
which formatting `costs[0]` raises; `"Shrinkage"` is not printed when the shrinkage raises. -/
def nmSays (o : NMObj F) (sort : List (F × P) → List (F × P))
    (centroid : ℤ → List P → Except PyErr P) (pb : Prob F P E) (clk : Clock F) (_ : Unit)
    (s : NMState F P) : List (Message F) × Unit :=
  ((match s.simplex.head? with
    | some v => say o.verbosity 2 (.simplexRow s.costEvaluations v.1)
    | none => []) ++
   (match checkStop o.cfg clk.start (clk.check1 (s.iteration + 1) 0)
        (clk.check2 (s.iteration + 1) 0) (iteration := s.iteration + 1)
        (costEvaluations := s.costEvaluations) with
    | some reason => say o.verbosity 1 (.finished reason)
    | none =>
      match centroid (s.iteration + 1) ((sort s.simplex).dropLast.map Prod.snd) with
      | .error _ => []
      | .ok xbar =>
        match nmMove o pb.cost pb.M xbar (sort s.simplex) with
        | .error _ => []
        | .ok m => say o.verbosity 2 (.action m.action)), ())

/-- Messages of one iteration of particle swarm (particle_swarm.py:128-150). -/
def psoSays (o : PSOObj F) (isTuple : Bool) (rnd : PSORand F P E) (pb : Prob F P E)
    (clk : Clock F) (_ : Unit) (s : PSOState F P E) : List (Message F) × Unit :=
  (say o.verbosity 2 (.swarmRow (s.iteration + 1) s.costEvaluations s.fbest) ++
    sayFinished o.verbosity (fun r => r.1.stop) (psoStep o isTuple rnd pb clk s), ())

/-- Does the division of trust_regions.py:323 raise `ZeroDivisionError`?  (The numbers are those
of `trRatio`.) -/
def rhoRaises (c : TRCfg F) (pb : Prob F P E) (x : P) (fx : F) (fgradx : E) (fxProp : F)
    (eta Heta : E) : Bool :=
  let M := pb.M
  let reg := rhoReg c fx
  let rhonum := add (sub fx fxProp) reg
  let rhoden := add (sub (neg (M.inner x fgradx eta))
    (mul (lit (1 / 2)) (M.inner x eta Heta))) reg
  match div rhonum rhoden with
  | .error .zeroDivision => true
  | _ => false

/-- The variable `used_cauchy` (trust_regions.py:210-239; the numbers are those of `cauchy`). -/
def cauchyUsed (pb : Prob F P E) (x : P) (fx : F) (fgradx : E) (normGrad Delta : F)
    (o : TCGOut E) : Bool :=
  let M := pb.M
  let Hg := pb.hess x fgradx
  let gHg := M.inner x fgradx Hg
  let tauC : Except PyErr F :=
    if le gHg (lit 0) then .ok (lit 1)
    else
      match div (pow normGrad (lit 3)) (mul Delta gHg) with
      | .error e => .error e
      | .ok q => .ok (pymin q (lit 1))
  match tauC with
  | .error _ => false
  | .ok tauC =>
    match div (mul (neg tauC) Delta) normGrad with
    | .error _ => false
    | .ok t =>
      let etaC := M.smul t fgradx
      let HetaC := M.smul t Hg
      let mdle := add (add fx (M.inner x fgradx o.eta))
        (mul (lit (1 / 2)) (M.inner x o.Heta o.eta))
      let mdlec := add (add fx (M.inner x fgradx etaC))
        (mul (lit (1 / 2)) (M.inner x HetaC etaC))
      lt mdlec mdle

/-- The counters `consecutive_TRminus` and `consecutive_TRplus`; `none` is `-np.inf`
(trust_regions.py:158-161). -/
abbrev RadiusCounters := Option ℤ × Option ℤ

/-- One more consecutive change, with the warning at five (trust_regions.py:343-345, 369-371): the
message if any, and the counter. -/
def countChange (verbosity : ℤ) (m : Message F) (n : Option ℤ) : List (Message F) × Option ℤ :=
  let n := n.map (· + 1)
  if n.any (· ≥ 5) && decide (verbosity ≥ 1) then ([m], none) else ([], n)

/-- Messages of the radius update (trust_regions.py:335-387): how the radius changed, the
messages, the counters. -/
def radiusSays (verbosity : ℤ) (rho : F) (modelDecreased : Bool) (stop : TCGStop)
    (DeltaBar Delta0 : F) (n : RadiusCounters) : Ordering × List (Message F) × RadiusCounters :=
  if lt rho (lit (1 / 4)) || !modelDecreased || isnan rho then
    let r := countChange verbosity (.manyDecreases DeltaBar Delta0) n.1
    (.lt, r.1, (r.2, some 0))
  else if lt (lit (3 / 4)) rho && (stop == .negativeCurvature || stop == .exceededTR) then
    let r := countChange verbosity (.manyIncreases DeltaBar Delta0) n.2
    (.gt, r.1, (some 0, r.2))
  else (.eq, [], (some 0, some 0))

/-- Messages of one iteration of trust regions (trust_regions.py:171-430).  Simplification:
nothing is printed after a message when the rest of the body raises. -/
def trSays (cfg : Cfg F) (c : TRCfg F) (pb : Prob F P E) (clk : Clock F) (eta0 : ℤ → E)
    (mininner maxinner : ℤ) (DeltaBar Delta0 : F) (n : RadiusCounters) (s : TRState F P E) :
    List (Message F) × RadiusCounters :=
  let M := pb.M
  let iteration := s.iteration + 1
  let eta := if c.useRand then eta0 iteration else M.zeroVector s.x
  match tcg c pb s.x s.fgradx eta s.Delta mininner maxinner with
  | .error _ => ([], n)
  | .ok o =>
    match (if c.useRand then cauchy pb s.x s.fx s.fgradx s.normGrad s.Delta o
           else .ok (o.eta, o.Heta)) with
    | .error _ => ([], n)
    | .ok (eta, Heta) =>
      let xProp := M.retraction s.x eta
      let fxProp := pb.cost xProp
      match trRatio c pb s.x s.fx s.fgradx fxProp eta Heta with
      | .error _ => ([], n)
      | .ok (rho, modelDecreased) =>
        let warning := if rhoRaises c pb s.x s.fx s.fgradx fxProp eta Heta then [.rhoNan] else []
        let r := radiusSays cfg.verbosity rho modelDecreased o.stop DeltaBar Delta0 n
        let accepted := trAccept c rho modelDecreased
        let fx := if accepted then fxProp else s.fx
        let normGrad := if accepted then M.norm xProp (pb.grad xProp) else s.normGrad
        (warning ++ r.2.1 ++
          (if c.useRand && cauchyUsed pb s.x s.fx s.fgradx s.normGrad s.Delta o then
            say cfg.verbosity 3 .usedCauchy else []) ++
          say cfg.verbosity 2
            (.region accepted r.1 iteration o.j o.stop (!modelDecreased) fx normGrad) ++
          say cfg.verbosity 3 (.ratio rho) ++
          sayFinished cfg.verbosity (fun r => r.1.stop)
            (trStep cfg c pb clk eta0 mininner maxinner DeltaBar s), r.2.2)

/-- Everything a run of `SteepestDescent` prints, with its outcome
(steepest_descent.py:61-138). -/
def SDPrints (cfg : Cfg F) (ls : LineSearcher F P E S) (pb : Prob F P E) (clk : Clock F)
    (x : P) (mem : S) (l : List (Message F)) (r : Except PyErr (Result F P × S)) : Prop :=
  match printerSetup cfg with
  | .error e => l = say cfg.verbosity 1 .optimizing ∧ r = .error e
  | .ok _ => ∃ l', PrintsIn (sdStep cfg ls pb clk) (sdSays cfg ls pb clk) () (sdInit cfg x mem)
      l' r ∧ l = say cfg.verbosity 1 .optimizing ++ say cfg.verbosity 2 .header ++ l'

/-- Everything a run of `ConjugateGradient` prints, with its outcome
(conjugate_gradient.py:213-363). -/
def CGPrints (cfg : Cfg F) (rule : BetaRule) (orth : F) (ls : LineSearcher F P E S)
    (pb : Prob F P E) (clk : Clock F) (x : P) (mem : S) (l : List (Message F))
    (r : Except PyErr (Result F P × S × List (P × E × F))) : Prop :=
  match printerSetup cfg with
  | .error e => l = say cfg.verbosity 1 .optimizing ∧ r = .error e
  | .ok _ => ∃ l', PrintsIn (cgStep cfg rule orth ls pb clk) (cgSays cfg rule orth ls pb clk) ()
      (cgInit cfg pb x mem) l' r ∧
      l = say cfg.verbosity 1 .optimizing ++ say cfg.verbosity 2 .header ++ l'

/-- Everything a run of `NelderMead` prints, with its outcome (nelder_mead.py:71-237); the
centroids are computed with `verbosity=0` (nelder_mead.py:29). -/
def NMPrints (o : NMObj F) (sort : List (F × P) → List (F × P))
    (centroid : ℤ → List P → Except PyErr P) (pb : Prob F P E) (clk : Clock F)
    (init : InitArg P) (l : List (Message F)) (r : Except PyErr (Result F P)) : Prop :=
  match nmSimplex pb.M.dim init with
  | .error e => l = [] ∧ r = .error e
  | .ok x => PrintsIn (nmStep (o.resolve pb.M.dim) sort centroid pb clk)
      (nmSays (o.resolve pb.M.dim) sort centroid pb clk) () (nmInit sort pb x) l r

/-- The warning about the population size (particle_swarm.py:77-83), printed whatever the
verbosity. -/
def psoWarns (o : PSOObj F) : InitArg P → List (Message F)
  | .list l => if (l.length : ℤ) ≠ o.populationSize.getD 0 then [.sizeForced] else []
  | .tuple l => if (l.length : ℤ) ≠ o.populationSize.getD 0 then [.sizeForced] else []
  | _ => []

/-- Everything a run of `ParticleSwarm` prints, with its outcome (particle_swarm.py:43-210). -/
def PSOPrints (o : PSOObj F) (rnd : PSORand F P E) (pb : Prob F P E) (clk : Clock F)
    (init : InitArg P) (l : List (Message F))
    (r : Except PyErr (Result F P × List P × List P)) : Prop :=
  match psoPopulation (o.resolve pb.M.dim) init with
  | .error e => l = [] ∧ r = .error e
  | .ok (_, [], _) => l = psoWarns (o.resolve pb.M.dim) init ∧ r = .error .valueError
  | .ok (o', x0 :: xs, isTuple) =>
    match printerSetup o'.cfg with
    | .error e => l = psoWarns (o.resolve pb.M.dim) init ∧ r = .error e
    | .ok _ => ∃ l', PrintsIn (psoStep o' isTuple rnd pb clk) (psoSays o' isTuple rnd pb clk) ()
        (psoInit o' rnd pb x0 xs) l' r ∧
        l = psoWarns (o.resolve pb.M.dim) init ++ say o.verbosity 2 .header ++ l'

/-- Everything a run of `TrustRegions` prints, with its outcome (trust_regions.py:107-439). -/
def TRPrints (cfg : Cfg F) (c : TRCfg F) (pb : Prob F P E) (clk : Clock F) (eta0 : ℤ → E)
    (mininner : ℤ) (maxinner : Option ℤ) (typicalDist DeltaBar Delta0 : Option F) (x : P)
    (l : List (Message F)) (r : Except PyErr (Result F P × List (P × F × F))) : Prop :=
  match trRadii pb.M.dim typicalDist DeltaBar Delta0 with
  | .error e => l = [] ∧ r = .error e
  | .ok (DeltaBar, Delta0) =>
    ∃ l', PrintsIn (trStep cfg c pb clk eta0 mininner (maxinner.getD pb.M.dim) DeltaBar)
      (trSays cfg c pb clk eta0 mininner (maxinner.getD pb.M.dim) DeltaBar Delta0)
      (some 0, some 0) (trInit pb x Delta0) l' r ∧
      l = say cfg.verbosity 1 .optimizing ++
        say cfg.verbosity 2 (.start (pb.cost x) (pb.M.norm x (pb.grad x))) ++ l'

end

end Verif.Opt
