/-
What the checks of `/repo/src/pymanopt/tools/diagnostics.py` plot.
-/
import Verif.Core.Model.Diagnostics

namespace Verif.Core
open Verif

/-- The styles of the lines: the default one, `linewidth=3`, `linestyle="--"` and
`linestyle=":"`. -/
inductive LineStyle
  | solid
  | thick
  | dashed
  | dotted
  deriving DecidableEq

/-- A line handed to `plt.loglog` or `plt.plot`.  All of a figure is drawn with doubly logarithmic
axes, as `loglog` is called first.  Labels, colours, titles and legends are left out. -/
structure Curve where
  style : LineStyle
  xs : List ℝ
  ys : List ℝ

/-- `h[segment]`; the indices that the checks use exist. -/
def pick (h : List ℝ) (segment : List ℕ) : List ℝ := segment.filterMap fun i => h[i]?

/-- `plt.loglog(h[segment], 10 ** np.polyval(poly, np.log10(h[segment])), linewidth=3)`
(diagnostics.py:158-160, 221-223, 362-366). -/
noncomputable def thickLine (h : List ℝ) (segment : List ℕ) (poly : ℝ × ℝ) : Curve :=
  { style := .thick
    xs := pick h segment
    ys := (pick h segment).map fun t => (10 : ℝ) ^ polyval2 poly.1 poly.2 (Real.logb 10 t) }

/-- The figure of `check_gradient` (diagnostics.py:154-167). -/
noncomputable def gradientFigure (out : DiagOut) : List Curve :=
  [{ style := .solid, xs := out.h, ys := out.error }, thickLine out.h out.segment out.poly,
    { style := .dashed, xs := [1 / 10 ^ 8, 1], ys := [1 / 10 ^ 8, 10 ^ 8] }]

/-- The figure of `check_hessian` (diagnostics.py:217-230). -/
noncomputable def hessianFigure (out : DiagOut) : List Curve :=
  [{ style := .solid, xs := out.h, ys := out.error }, thickLine out.h out.segment out.poly,
    { style := .dashed, xs := [1 / 10 ^ 8, 1], ys := [1 / 10 ^ 16, 10 ^ 8] }]

/-- The figure of `check_retraction` (diagnostics.py:350-373). -/
noncomputable def retractionFigure (out : RetrOut) : List Curve :=
  [{ style := .solid, xs := out.steps, ys := out.errors },
    { style := .dashed, xs := [1 / 10 ^ 12, 1], ys := [1 / 10 ^ 30, 10 ^ 6] },
    { style := .dotted, xs := [1 / 10 ^ 14, 1], ys := [1 / 10 ^ 20, 10 ^ 8] },
    thickLine out.steps out.segment out.poly]

variable {P E : Type*} [AddCommGroup E] [Module ℝ E]

/-- The figure that `check_gradient` shows, if any; it is shown before the gradient is projected
(diagnostics.py:141-167). -/
noncomputable def gradientShows (plt : Bool) (polyfit : PolyFit) (pb : DiagProb P E) (x : Option P)
    (d : Option E) : Option (List Curve) :=
  if !plt then none
  else
    match x, d with
    | none, some _ => none
    | _, _ =>
      let x := x.getD pb.M.randomPoint
      let d := d.getD (pb.M.randomTangent 0 x)
      match checkDirectionalDerivative polyfit pb (some x) (some d) false with
      | .error _ => none
      | .ok out => some (gradientFigure out)

/-- The figure that `check_hessian` shows, if any (diagnostics.py:202-230). -/
noncomputable def hessianShows (plt : Bool) (polyfit : PolyFit) (pb : DiagProb P E) (x : Option P)
    (d : Option E) : Option (List Curve) :=
  if !plt then none
  else
    match x, d with
    | none, some _ => none
    | _, _ =>
      let x := x.getD pb.M.randomPoint
      let d := d.getD (pb.M.randomTangent 0 x)
      match checkDirectionalDerivative polyfit pb (some x) (some d) true with
      | .error _ => none
      | .ok out => some (hessianFigure out)

/-- The figure that `check_retraction` shows, if any: it is the last thing the function does
(diagnostics.py:350-373). -/
noncomputable def retractionShows (plt : Bool) (polyfit : PolyFit) (M : DiagMfd P E) (x : Option P)
    (v : Option E) : Option (List Curve) :=
  match checkRetraction plt polyfit M x v with
  | .error _ => none
  | .ok out => some (retractionFigure out)

end Verif.Core
