/-
Trust regions: `/repo/src/pymanopt/optimizers/trust_regions.py`.
-/
import Verif.Opt.Model.Common

namespace Verif.Opt
open PyNum

/-- tCG stop reasons (trust_regions.py:62-69). -/
inductive TCGStop
  | negativeCurvature | exceededTR | reachedTargetLinear | reachedTargetSuperlinear
  | maxInnerIter | modelIncreased
  deriving DecidableEq, Repr

/-- Constructor arguments of `TrustRegions` (trust_regions.py:80-105); `miniter` is unused
by the code. -/
structure TRCfg (F : Type*) where
  kappa : F
  theta : F
  rhoPrime : F
  useRand : Bool
  rhoRegularization : F

/-- Loop variables of the inner loop (trust_regions.py:449-617). -/
structure TCGState (F E : Type*) where
  eta : E
  Heta : E
  r : E
  ePe : F
  zr : F
  dPd : F
  delta : E
  ePd : F
  modelValue : F

/-- Return value of `_truncated_conjugate_gradient` (trust_regions.py:619); `hessCalls` is a
ghost field, the number of Hessian evaluations in the loop. -/
structure TCGOut (E : Type*) where
  eta : E
  Heta : E
  j : ℕ
  stop : TCGStop
  hessCalls : ℕ

section
variable {F P E : Type*} [PyNum F]

/-- Python `a != 0` -/
def ne0 (a : F) : Bool := !(le a (lit 0) && le (lit 0) a)

/-- `model_fun` (trust_regions.py:489-490). -/
def modelFun (pb : Prob F P E) (x : P) (fgradx eta Heta : E) : F :=
  add (pb.M.inner x eta fgradx) (mul (lit (1 / 2)) (pb.M.inner x eta Heta))

/-- Body of the inner loop (trust_regions.py:501-617), iteration `j`.  `normr0` is the norm
of the initial residual. -/
def tcgBody (c : TRCfg F) (pb : Prob F P E) (x : P) (fgradx : E) (Delta normr0 : F)
    (mininner : ℤ) (j : ℕ) (s : TCGState F E) :
    Except PyErr (Ctl (TCGState F E) (TCGOut E)) :=
  let M := pb.M
  let Hdelta := pb.hess x s.delta
  let dHd := M.inner x s.delta Hdelta
  let pre : Except PyErr (F × F) :=
    if ne0 dHd then
      match div s.zr dHd with
      | .error e => .error e
      | .ok alpha =>
        .ok (alpha, add (add s.ePe (mul (mul (lit 2) alpha) s.ePd)) (mul (pow alpha (lit 2)) s.dPd))
    else .ok (lit 0, s.ePe)
  match pre with
  | .error e => .error e
  | .ok (alpha, ePeNew) =>
    if le dHd (lit 0) || le (pow Delta (lit 2)) ePeNew then
      match div (add (neg s.ePd)
          (sqrt (add (mul s.ePd s.ePd) (mul s.dPd (sub (pow Delta (lit 2)) s.ePe))))) s.dPd with
      | .error e => .error e
      | .ok tau =>
        .ok (.brk { eta := M.add s.eta (M.smul tau s.delta)
                    Heta := M.add s.Heta (M.smul tau Hdelta)
                    j := j
                    stop := if le dHd (lit 0) then .negativeCurvature else .exceededTR
                    hessCalls := j + 1 })
    else
      let newEta := M.add s.eta (M.smul alpha s.delta)
      let newHeta := M.add s.Heta (M.smul alpha Hdelta)
      let newModelValue := modelFun pb x fgradx newEta newHeta
      if le s.modelValue newModelValue then
        .ok (.brk { eta := s.eta, Heta := s.Heta, j := j, stop := .modelIncreased,
                    hessCalls := j + 1 })
      else
        let r := M.add s.r (M.smul alpha Hdelta)
        let normr := sqrt (M.inner x r r)
        if (decide (mininner ≤ (j : ℤ))) &&
            le normr (mul normr0 (pymin (pow normr0 c.theta) c.kappa)) then
          .ok (.brk { eta := newEta, Heta := newHeta, j := j,
                      stop := if lt c.kappa (pow normr0 c.theta) then .reachedTargetLinear
                              else .reachedTargetSuperlinear
                      hessCalls := j + 1 })
        else
          let z := if c.useRand then r else pb.precon x r
          let zr := M.inner x z r
          match div zr s.zr with
          | .error e => .error e
          | .ok beta =>
            let delta := M.toTangent x (M.add (M.neg z) (M.smul beta s.delta))
            .ok (.next { eta := newEta, Heta := newHeta, r := r, ePe := ePeNew, zr := zr,
                         dPd := add zr (mul (mul beta beta) s.dPd), delta := delta,
                         ePd := mul beta (add s.ePd (mul alpha s.dPd)),
                         modelValue := newModelValue })

/-- `for j in range(int(maxinner))` (trust_regions.py:501): `n` iterations are left, the
next has index `j`.  After the last iteration `j` keeps its value; if there was none, the
`return` at line 619 raises `UnboundLocalError`. -/
def tcgLoop (c : TRCfg F) (pb : Prob F P E) (x : P) (fgradx : E) (Delta normr0 : F)
    (mininner : ℤ) : ℕ → ℕ → TCGState F E → Except PyErr (TCGOut E)
  | 0, 0, _ => .error .unboundLocal
  | 0, j + 1, s => .ok { eta := s.eta, Heta := s.Heta, j := j, stop := .maxInnerIter,
                         hessCalls := j + 1 }
  | n + 1, j, s =>
    match tcgBody c pb x fgradx Delta normr0 mininner j s with
    | .error e => .error e
    | .ok (.brk o) => .ok o
    | .ok (.next s') => tcgLoop c pb x fgradx Delta normr0 mininner n (j + 1) s'

/-- Initial state of tCG (trust_regions.py:449-495). -/
def tcgInit (c : TRCfg F) (pb : Prob F P E) (x : P) (fgradx eta : E) : TCGState F E :=
  let M := pb.M
  if c.useRand then
    let Heta := pb.hess x eta
    let r := M.add fgradx Heta
    let z := r
    let delta := M.neg z
    { eta := eta, Heta := Heta, r := r, ePe := M.inner x eta eta, zr := M.inner x z r,
      dPd := M.inner x z r, delta := delta, ePd := M.inner x eta delta,
      modelValue := modelFun pb x fgradx eta Heta }
  else
    let z := pb.precon x fgradx
    { eta := eta, Heta := M.zeroVector x, r := fgradx, ePe := lit 0, zr := M.inner x z fgradx,
      dPd := M.inner x z fgradx, delta := M.neg z, ePd := lit 0, modelValue := lit 0 }

/-- `_truncated_conjugate_gradient` (trust_regions.py:441-619). -/
def tcg (c : TRCfg F) (pb : Prob F P E) (x : P) (fgradx eta : E) (Delta : F)
    (mininner maxinner : ℤ) : Except PyErr (TCGOut E) :=
  let s := tcgInit c pb x fgradx eta
  let normr0 := sqrt (pb.M.inner x s.r s.r)
  tcgLoop c pb x fgradx Delta normr0 mininner maxinner.toNat 0 s

/-- Comparison with the Cauchy point when `use_rand` is set (trust_regions.py:210-239). -/
def cauchy (pb : Prob F P E) (x : P) (fx : F) (fgradx : E) (normGrad Delta : F)
    (o : TCGOut E) : Except PyErr (E × E) :=
  let M := pb.M
  let Hg := pb.hess x fgradx
  let gHg := M.inner x fgradx Hg
  let tauC : Except PyErr F :=
    if le gHg (lit 0) then .ok (lit 1)
    else
      match div (pow normGrad (lit 3)) (mul Delta gHg) with
      | .error e => .error e
      | .ok q => .ok (pymin q (lit 1))
  match tauC with
  | .error e => .error e
  | .ok tauC =>
    match div (mul (neg tauC) Delta) normGrad with
    | .error e => .error e
    | .ok t =>
      let etaC := M.smul t fgradx
      let HetaC := M.smul t Hg
      let mdle := add (add fx (M.inner x fgradx o.eta))
        (mul (lit (1 / 2)) (M.inner x o.Heta o.eta))
      let mdlec := add (add fx (M.inner x fgradx etaC))
        (mul (lit (1 / 2)) (M.inner x HetaC etaC))
      if lt mdlec mdle then .ok (etaC, HetaC) else .ok (o.eta, o.Heta)

/-- `rho_reg` (trust_regions.py:289); `np.spacing(1) = 2 ** -52` is a numpy scalar. -/
def rhoReg (c : TRCfg F) (fx : F) : F :=
  mul (mul (pymax (lit 1) (abs fx)) (toNp (lit (1 / 2 ^ 52)))) c.rhoRegularization

/-- Quality ratio: `(rho, model_decreased)` (trust_regions.py:255-333). -/
def trRatio (c : TRCfg F) (pb : Prob F P E) (x : P) (fx : F) (fgradx : E) (fxProp : F)
    (eta Heta : E) : Except PyErr (F × Bool) :=
  let M := pb.M
  let reg := rhoReg c fx
  let rhonum := add (sub fx fxProp) reg
  let rhoden := add (sub (neg (M.inner x fgradx eta))
    (mul (lit (1 / 2)) (M.inner x eta Heta))) reg
  let modelDecreased := le (lit 0) rhoden
  match div rhonum rhoden with
  | .ok rho => .ok (rho, modelDecreased)
  | .error .zeroDivision => .ok (nan, modelDecreased)
  | .error e => .error e

/-- Radius update (trust_regions.py:335-387). -/
def trRadius (rho : F) (modelDecreased : Bool) (stop : TCGStop) (DeltaBar Delta : F) :
    Except PyErr F :=
  if lt rho (lit (1 / 4)) || !modelDecreased || isnan rho then div Delta (lit 4)
  else if lt (lit (3 / 4)) rho && (stop == .negativeCurvature || stop == .exceededTR) then
    .ok (pymin (mul (lit 2) Delta) DeltaBar)
  else .ok Delta

/-- Acceptance test (trust_regions.py:391). -/
def trAccept (c : TRCfg F) (rho : F) (modelDecreased : Bool) : Bool :=
  modelDecreased && lt c.rhoPrime rho

/-- Loop variables of `TrustRegions.run`; the counters of consecutive radius changes only
influence messages and are omitted.  `history` is a ghost list: iterate, cost and radius
before each iteration. -/
structure TRState (F P E : Type*) where
  iteration : ℤ
  x : P
  fx : F
  fgradx : E
  normGrad : F
  Delta : F
  evals : List P
  history : List (P × F × F)

/-- The loop body of `TrustRegions.run` (trust_regions.py:171-430) with the construction of
the result (432-439) on `break`.  `eta0 it` is the random start used with `use_rand`
(lines 183-187; any start is allowed here, the loop that scales it is `RandomStart`). -/
def trStep (cfg : Cfg F) (c : TRCfg F) (pb : Prob F P E) (clk : Clock F) (eta0 : ℤ → E)
    (mininner maxinner : ℤ) (DeltaBar : F) (s : TRState F P E) :
    Except PyErr (Ctl (TRState F P E) (Result F P × List (P × F × F))) :=
  let M := pb.M
  let iteration := s.iteration + 1
  let eta := if c.useRand then eta0 iteration else M.zeroVector s.x
  match tcg c pb s.x s.fgradx eta s.Delta mininner maxinner with
  | .error e => .error e
  | .ok o =>
    match (if c.useRand then cauchy pb s.x s.fx s.fgradx s.normGrad s.Delta o
           else .ok (o.eta, o.Heta)) with
    | .error e => .error e
    | .ok (eta, Heta) =>
      let xProp := M.retraction s.x eta
      let fxProp := pb.cost xProp
      match trRatio c pb s.x s.fx s.fgradx fxProp eta Heta with
      | .error e => .error e
      | .ok (rho, modelDecreased) =>
        match trRadius rho modelDecreased o.stop DeltaBar s.Delta with
        | .error e => .error e
        | .ok Delta =>
          let history := s.history ++ [(s.x, s.fx, s.Delta)]
          let evals := s.evals ++ [xProp]
          let s' : TRState F P E :=
            if trAccept c rho modelDecreased then
              { iteration := iteration, x := xProp, fx := fxProp, fgradx := pb.grad xProp,
                normGrad := M.norm xProp (pb.grad xProp), Delta := Delta, evals := evals,
                history := history }
            else
              { s with iteration := iteration, Delta := Delta, evals := evals,
                       history := history }
          match checkStop cfg clk.start (clk.check1 iteration 0) (clk.check2 iteration 0)
              (gradientNorm := s'.normGrad) (iteration := iteration) with
          | none => .ok (.next s')
          | some reason =>
            .ok (.brk ({ point := s'.x, cost := s'.fx, iterations := iteration, stop := reason,
                         time := sub clk.final clk.start, gradientNorm := some s'.normGrad,
                         log := initLog cfg, evals := s'.evals }, s'.history))

/-- Default radii (trust_regions.py:122-131); `typicalDist = none` stands for
`NotImplementedError`. -/
def trRadii (dim : ℕ) (typicalDist : Option F) (DeltaBar Delta0 : Option F) :
    Except PyErr (F × F) :=
  let DeltaBar := match DeltaBar with
    | some d => d
    | none => match typicalDist with
      | some t => t
      | none => sqrt (lit dim)
  match Delta0 with
  | some d => .ok (DeltaBar, d)
  | none =>
    match div DeltaBar (lit 8) with
    | .error e => .error e
    | .ok d => .ok (DeltaBar, d)

/-- State at loop entry (trust_regions.py:146-156). -/
def trInit (pb : Prob F P E) (x : P) (Delta0 : F) : TRState F P E :=
  let g := pb.grad x
  { iteration := 0, x := x, fx := pb.cost x, fgradx := g, normGrad := pb.M.norm x g,
    Delta := Delta0, evals := [x], history := [] }

/-- `TrustRegions.run` (trust_regions.py:107-439); `maxinner = none` means `manifold.dim`. -/
def TRRuns (cfg : Cfg F) (c : TRCfg F) (pb : Prob F P E) (clk : Clock F) (eta0 : ℤ → E)
    (mininner : ℤ) (maxinner : Option ℤ) (typicalDist DeltaBar Delta0 : Option F) (x : P)
    (r : Except PyErr (Result F P × List (P × F × F))) : Prop :=
  match trRadii pb.M.dim typicalDist DeltaBar Delta0 with
  | .error e => r = .error e
  | .ok (DeltaBar, Delta0) =>
    Runs (trStep cfg c pb clk eta0 mininner (maxinner.getD pb.M.dim) DeltaBar)
      (trInit pb x Delta0) r

end

end Verif.Opt
