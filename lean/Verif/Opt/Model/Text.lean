/-
The text that the optimizers print: the format strings of the `print` calls of
`/repo/src/pymanopt/optimizers/*.py` and of the columns of their tables.

`val` gives the value of a number; a message is one of `Verif.Opt.Message`.
-/
import Verif.Opt.Model.Output
import Verif.Core.Model.Tools
import Verif.Base.Format

namespace Verif.Opt
open PyNum Verif.Core

/-- A value in a table: an integer or a float. -/
inductive Cell
  | int (n : ℤ)
  | num (x : XF ℚ)
  deriving DecidableEq

/-- The format string `f"{w}d"` on a value.  Formatting a float with it raises `ValueError`; the
code only gives it integers (steepest_descent.py:99, conjugate_gradient.py:262,
particle_swarm.py:131). -/
def cellD (w : ℕ) : Cell → List Char
  | .int n => formatD w n
  | .num _ => []

/-- The format strings `"+.{prec}e"` and `".{prec}e"` on a value; an integer, which is only the
placeholder `0`, is converted to a float. -/
def cellE (plus : Bool) (prec : ℕ) : Cell → List Char
  | .int n => formatE plus prec (.fin n)
  | .num x => formatE plus prec x

/-- `int(np.log10(max_iterations)) + 1` (steepest_descent.py:70, conjugate_gradient.py:223,
particle_swarm.py:108) for a positive number.  Simplification: the logarithm is not rounded. -/
def iterationWidth (maxIterations : ℤ) : ℕ := Nat.log 10 maxIterations.natAbs + 1

/-- The columns of steepest descent and conjugate gradient (steepest_descent.py:72-76,
conjugate_gradient.py:225-229). -/
def gradientColumns (maxIterations : ℤ) : List (Column Cell) :=
  [⟨"Iteration".toList, cellD (iterationWidth maxIterations)⟩,
    ⟨"Cost".toList, cellE true 16⟩, ⟨"Gradient norm".toList, cellE false 8⟩]

/-- The columns of particle swarm (particle_swarm.py:110-114). -/
def swarmColumns (maxIterations : ℤ) : List (Column Cell) :=
  [⟨"Iteration".toList, cellD (iterationWidth maxIterations)⟩,
    ⟨"Cost evaluations".toList, cellD 7⟩, ⟨"Best cost".toList, cellE true 8⟩]

/-- The printer of a table: `ColumnPrinter(columns=columns)` with the default placeholders and
padding (tools/printer.py:50-79). -/
def tableOf (columns : List (Column Cell)) : ColumnPrinter Cell :=
  { columns := columns, padding := 4,
    widths := columnWidths columns (List.replicate columns.length (.int 0)) 4 }

/-- The messages of `_check_stopping_criterion` (optimizer.py:97-120). -/
def StopReason.text {F : Type*} (val : F → XF ℚ) : StopReason F → List Char
  | .maxTime i =>
    "Terminated - max time reached after ".toList ++ intText i ++ " iterations.".toList
  | .maxIterations t =>
    "Terminated - max iterations reached after ".toList ++ formatF 2 (val t) ++ " seconds.".toList
  | .minGradNorm i t =>
    "Terminated - min grad norm reached after ".toList ++ intText i ++ " iterations, ".toList ++
      formatF 2 (val t) ++ " seconds.".toList
  | .minStepSize i t =>
    "Terminated - min step_size reached after ".toList ++ intText i ++ " iterations, ".toList ++
      formatF 2 (val t) ++ " seconds.".toList
  | .maxCostEvals t =>
    "Terminated - max cost evals reached after ".toList ++ formatF 2 (val t) ++ " seconds.".toList

/-- The words of Nelder-Mead (nelder_mead.py:170-221). -/
def NMAction.text : NMAction → List Char
  | .reflection => "Reflection".toList
  | .expansion => "Expansion".toList
  | .failedExpansion => "Reflection (failed expansion)".toList
  | .outsideContraction => "Outside contraction".toList
  | .insideContraction => "Inside contraction".toList
  | .shrinkage => "Shrinkage".toList

/-- `TCG_STOP_REASONS` (trust_regions.py:70-78). -/
def TCGStop.text : TCGStop → List Char
  | .negativeCurvature => "negative curvature".toList
  | .exceededTR => "exceeded trust region".toList
  | .reachedTargetLinear => "reached target residual-kappa (linear)".toList
  | .reachedTargetSuperlinear => "reached target residual-theta (superlinear)".toList
  | .maxInnerIter => "maximum inner iterations".toList
  | .modelIncreased => "model increased".toList

/-- `accstr` (trust_regions.py:393, 400). -/
def acceptText (accepted : Bool) : List Char := if accepted then "acc".toList else "REJ".toList

/-- `trstr` (trust_regions.py:336, 340, 366). -/
def radiusText : Ordering → List Char
  | .lt => "TR-".toList
  | .gt => "TR+".toList
  | .eq => "   ".toList

/-- `srstr` (trust_regions.py:202, 318). -/
def innerText (stop : TCGStop) (noDecrease : Bool) : List Char :=
  stop.text ++ if noDecrease then ", model did not decrease".toList else []

/-- The line of trust regions for the starting point (trust_regions.py:167). -/
def startText (f g : XF ℚ) : List Char :=
  List.replicate 44 ' ' ++ "f: ".toList ++ formatE true 6 f ++ "   |grad|: ".toList ++
    formatE false 6 g

/-- The line of trust regions for an iteration with verbosity 2 (trust_regions.py:405-408); the
default precision is 6. -/
def regionText (accepted : Bool) (radius : Ordering) (iteration : ℤ) (inner : ℕ) (stop : TCGStop)
    (noDecrease : Bool) (f g : XF ℚ) : List Char :=
  acceptText accepted ++ " ".toList ++ radiusText radius ++ "   k: ".toList ++
    formatD 5 iteration ++ "     num_inner: ".toList ++ formatD 5 inner ++ "     f: ".toList ++
    formatE true 6 f ++ "   |grad|: ".toList ++ formatE false 6 g ++ "   ".toList ++
    innerText stop noDecrease

/-- The lines of trust regions for an iteration with higher verbosity (trust_regions.py:412-416). -/
def regionTexts (accepted : Bool) (radius : Ordering) (iteration : ℤ) (inner : ℕ) (stop : TCGStop)
    (noDecrease : Bool) (f g : XF ℚ) : List (List Char) :=
  [acceptText accepted ++ " ".toList ++ radiusText radius ++ "    k: ".toList ++
      formatD 5 iteration ++ "     num_inner: ".toList ++ formatD 5 inner ++ "     ".toList ++
      innerText stop noDecrease,
    "       f(x) : ".toList ++ formatE true 6 f ++ "     |grad| : ".toList ++ formatE false 6 g]

/-- The line of Nelder-Mead (nelder_mead.py:134-137). -/
def simplexText (costEvaluations : ℤ) (best : XF ℚ) : List Char :=
  "Cost evals: ".toList ++ formatD 7 costEvaluations ++ "\tBest cost: ".toList ++
    formatE true 8 best

/-- The lines of a message, printed with the given verbosity and table. -/
def Message.lines {F : Type*} (val : F → XF ℚ) (verbosity : ℤ) (p : ColumnPrinter Cell) :
    Message F → List (List Char)
  | .optimizing => ["Optimizing...".toList]
  | .header =>
    match p.header with
    | .ok h => [h.1, h.2]
    | .error _ => []
  | .row i f g => [p.row [.int i, .num (val f), .num (val g)]]
  | .swarmRow i n b => [p.row [.int i, .int n, .num (val b)]]
  | .simplexRow n b => [simplexText n (val b)]
  | .action a => [a.text]
  | .ascent d =>
    ["Conjugate gradient info: got an ascent direction (df0 = ".toList ++ formatF 2 (val d) ++
      "), reset to the (preconditioned) steepest descent direction.".toList]
  | .sizeForced =>
    ["The population size was forced to the size of the given initial population".toList]
  | .start f g => [startText (val f) (val g)]
  | .rhoNan => ["rho is NaN! Forcing a radius decrease. This should not happen.".toList]
  | .manyDecreases D D0 =>
    [" +++ Detected many consecutive TR- (radius decreases).".toList,
      " +++ Consider decreasing options.Delta_bar by an order of magnitude.".toList,
      " +++ Current values: Delta_bar = ".toList ++ formatG (val D) ++ " and Delta0 = ".toList ++
        formatG (val D0)]
  | .manyIncreases D D0 =>
    [" +++ Detected many consecutive TR+ (radius increases).".toList,
      " +++ Consider increasing options.Delta_bar by an order of magnitude.".toList,
      " +++ Current values: Delta_bar = ".toList ++ formatG (val D) ++ " and Delta0 = ".toList ++
        formatG (val D0) ++ ".".toList]
  | .region a r i n s m f g =>
    if verbosity = 2 then [regionText a r i n s m (val f) (val g)]
    else regionTexts a r i n s m (val f) (val g)
  | .ratio r => ["        rho : ".toList ++ formatE false 6 (val r)]
  | .usedCauchy => ["USED CAUCHY POINT".toList]
  | .finished r => [r.text val, []]

end Verif.Opt
