/-
The Karcher mean used by Nelder-Mead: `compute_centroid`,
`/repo/src/pymanopt/optimizers/nelder_mead.py:11-33`.
-/
import Verif.Opt.Model.SD

namespace Verif.Opt
open PyNum

section
variable {F P E : Type*} [PyNum F]

/-- `objective` of `compute_centroid` (nelder_mead.py:14-18):
`sum([dist(y, point) ** 2 for point in points]) / 2`; `sum` starts from `0`.  Division by two
is written as multiplication by one half, which is the same number. -/
def centroidCost (dist : P → P → F) (points : List P) (y : P) : F :=
  mul ((points.map fun p => pow (dist y p) (lit 2)).foldl add (lit 0)) (lit (1 / 2))

/-- `gradient` of `compute_centroid` (nelder_mead.py:20-27):
`-sum([log(y, point) for point in points], zero_vector(y))`. -/
def centroidGrad (M : Mfd F P E) (points : List P) (y : P) : E :=
  M.neg ((points.map fun p => M.log y p).foldl M.add (M.zeroVector y))

/-- The problem solved by `compute_centroid` (nelder_mead.py:30-32).  Steepest descent uses
neither Hessian nor preconditioner. -/
def centroidProb (M : Mfd F P E) (dist : P → P → F) (points : List P) : Prob F P E where
  M := M
  cost := centroidCost dist points
  grad := centroidGrad M points
  hess _ v := v
  precon _ v := v

/-- `SteepestDescent(max_iterations=15, verbosity=0)` (nelder_mead.py:29) with the defaults of
optimizer.py:43-52. -/
def centroidCfg : Cfg F :=
  { maxTime := lit 1000, maxIterations := 15, minGradientNorm := lit (1 / 10 ^ 6),
    minStepSize := lit (1 / 10 ^ 10), maxCostEvaluations := 5000, verbosity := 0 }

/-- The default line searcher (steepest_descent.py:26-27, line_search.py:4-11). -/
def centroidSearch : BackTrackingCfg F :=
  { contractionFactor := lit (1 / 2), optimism := lit 2, sufficientDecrease := lit (1 / 10 ^ 4),
    maxIterations := 25, initialStepSize := lit 1 }

/-- `compute_centroid(manifold, points)` (nelder_mead.py:11-33) with initial point `draw`
(`manifold.random_point()`) finishes with outcome `r`. -/
def CentroidRuns (M : Mfd F P E) (dist : P → P → F) (clk : Clock F) (draw : P)
    (points : List P) (r : Except PyErr P) : Prop :=
  ∃ r', SDRuns centroidCfg (backTracking P E centroidSearch) (centroidProb M dist points) clk
    draw none r' ∧ r = r'.map fun q => q.1.point

end

end Verif.Opt
