/-
Concrete problems used to show that hypotheses can be met and as counterexamples.
-/
import Verif.Base.Num
import Verif.Opt.Lemmas

namespace Verif.Opt
open PyNum

/-- Scalars with rational finite part: everything below can be evaluated. -/
abbrev Q := Num ℚ

/-- `Euclidean(1)` (manifolds/euclidean.py:7-61): a point is its single entry;
`inner_product` returns a Python float, `norm` a numpy scalar, arrays are numpy. -/
def lineMfd : Mfd Q Q Q where
  dim := 1
  norm _ v := toNp (abs v)
  inner _ a b := toFloat (mul a b)
  retraction x v := toNp (add x v)
  transport _ _ v := v
  log x y := toNp (sub y x)
  pairMean x y := toNp (mul (add x y) (lit (1 / 2)))
  zeroVector _ := .npy 0
  toTangent _ v := v
  add a b := toNp (add a b)
  sub a b := toNp (sub a b)
  neg a := toNp (neg a)
  smul a v := toNp (mul a v)

/-- `Euclidean(1)` with exact real arithmetic (manifolds/euclidean.py:7-61). -/
noncomputable def realMfd : Mfd ℝ ℝ ℝ where
  dim := 1
  norm _ v := |v|
  inner _ a b := a * b
  retraction x v := x + v
  transport _ _ v := v
  log x y := y - x
  pairMean x y := (x + y) / 2
  zeroVector _ := 0
  toTangent _ v := v
  add a b := a + b
  sub a b := a - b
  neg a := -a
  smul a v := a * v

/-- A problem on the line from its cost, derivative and second derivative. -/
def lineProb (f df ddf : Q → Q) : Prob Q Q Q where
  M := lineMfd
  cost := f
  grad x := toNp (df x)
  hess x v := toNp (mul (ddf x) v)
  precon _ v := v

/-- `f(x) = x ** 2` -/
def squareProb : Prob Q Q Q :=
  lineProb (fun x => toNp (mul x x)) (fun x => mul (lit 2) x) (fun _ => .npy 2)

/-- A clock that stands still. -/
def stillClock : Clock Q := ⟨.py 0, fun _ _ => .py 0, fun _ _ => .py 0, fun _ => .py 0, .py 0⟩

/-- The default arguments of `Optimizer` (optimizer.py:43-52). -/
def defaultCfg : Cfg Q :=
  { maxTime := .py 1000, maxIterations := 1000, minGradientNorm := .py (1 / 10 ^ 6),
    minStepSize := .py (1 / 10 ^ 10), maxCostEvaluations := 5000 }

/-- The default arguments of `BackTrackingLineSearcher` (line_search.py:4-11). -/
def defaultBackTracking : BackTrackingCfg Q :=
  { contractionFactor := .py (1 / 2), optimism := .py 2, sufficientDecrease := .py (1 / 10 ^ 4),
    maxIterations := 25, initialStepSize := .py 1 }

/-- The default arguments of `AdaptiveLineSearcher` (line_search.py:82-88). -/
def defaultAdaptive : AdaptiveCfg Q :=
  { contractionFactor := .py (1 / 2), sufficientDecrease := .py (1 / 2), maxIterations := 10,
    initialStepSize := .py 1 }

/-- The run ends within `n` iterations with an outcome satisfying `p`. -/
def checkFuel {S R : Type*} (step : S → Except PyErr (Ctl S R)) (n : ℕ) (s : S)
    (p : Except PyErr R → Bool) : Bool :=
  match runFuel step n s with
  | some r => p r
  | none => false

theorem exists_of_checkFuel {S R : Type*} {step : S → Except PyErr (Ctl S R)} {n : ℕ} {s : S}
    {p : Except PyErr R → Bool} (h : checkFuel step n s p = true) :
    ∃ r, Runs step s r ∧ p r = true := by
  unfold checkFuel at h
  split at h
  · rename_i r hr
    exact ⟨r, runs_of_runFuel hr, h⟩
  · cases h

/-- The outcome is the exception `e`. -/
def isError {R : Type*} (e : PyErr) : Except PyErr R → Bool
  | .error e' => decide (e' = e)
  | .ok _ => false

theorem eq_of_isError {R : Type*} {e : PyErr} {r : Except PyErr R} (h : isError e r = true) :
    r = .error e := by
  cases r with
  | error e' => simp [isError] at h; rw [h]
  | ok => cases h

/-- The outcome is a result satisfying `p`. -/
def isOk {R : Type*} (p : R → Bool) : Except PyErr R → Bool
  | .error _ => false
  | .ok r => p r

theorem exists_of_isOk {R : Type*} {p : R → Bool} {r : Except PyErr R} (h : isOk p r = true) :
    ∃ x, r = .ok x ∧ p x = true := by
  cases r with
  | error e' => cases h
  | ok x => exact ⟨x, rfl, h⟩

theorem sdRuns_of_runFuel {F P E S : Type*} [PyNum F] {cfg : Cfg F} {ls : LineSearcher F P E S}
    {pb : Prob F P E} {clk : Clock F} {x : P} {mem : S} {r} (n : ℕ)
    (hp : printerSetup cfg = .ok ())
    (h : runFuel (sdStep cfg ls pb clk) n (sdInit cfg x mem) = some r) :
    SDRuns cfg ls pb clk x mem r := by
  unfold SDRuns
  rw [hp]
  exact runs_of_runFuel h

theorem cgRuns_of_runFuel {F P E S : Type*} [PyNum F] {cfg : Cfg F} {rule : BetaRule} {orth : F}
    {ls : LineSearcher F P E S}
    {pb : Prob F P E} {clk : Clock F} {x : P} {mem : S} {r} (n : ℕ)
    (hp : printerSetup cfg = .ok ())
    (h : runFuel (cgStep cfg rule orth ls pb clk) n (cgInit cfg pb x mem) = some r) :
    CGRuns cfg rule orth ls pb clk x mem r := by
  unfold CGRuns
  rw [hp]
  exact runs_of_runFuel h

end Verif.Opt
