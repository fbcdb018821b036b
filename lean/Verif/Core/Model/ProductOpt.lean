/-
Product manifolds as optimizers see them, and the problem `compute_centroid` builds on them
(`/repo/src/pymanopt/manifolds/product.py`, `/repo/src/pymanopt/optimizers/nelder_mead.py:11-33`).
-/
import Verif.Core.Model.Product
import Verif.Base.Num
import Verif.Opt.Model.Raise

namespace Verif.Core
open Verif Verif.Opt

variable {A : Type} [PyArr A]

/-- The methods of `Product` (manifolds/product.py:34-131) and the operators of the objects that
represent its tangent vectors (product.py:134-159 for `_ProductTangentVector`; a plain list has
none of them), as used by the optimizers.  Scalars are exact reals. -/
noncomputable def productXMfd (ms : List (PyMfd A)) : XMfd ℝ (Val A) (Val A) where
  dim := productDim ms
  norm := prodNorm ms
  inner := prodInner ms
  retraction := prodRetraction ms
  transport := prodTransport ms
  log := prodLog ms
  dist := prodDist ms
  pairMean := prodPairMean ms
  zeroVector := prodZeroVector ms
  toTangent := prodToTangentSpace ms
  add := Val.add
  sub := Val.sub
  neg := Val.neg
  smul := Val.smul

/-- What the closures of `compute_centroid` use as the point: the tuple of flattened arguments, or
its only entry if `manifold.num_values == 1` (nelder_mead.py:16-17, 22-23). -/
def centroidPoint (ms : List (PyMfd A)) (args : List (Val A)) : Except PyErr (Val A) :=
  if (productLayout ms).numValues = 1 then
    match args with
    | [y] => .ok y
    | _ => .error .valueError
  else .ok (.seq .tuple args)

/-- `gradient` of `compute_centroid` on a product (nelder_mead.py:20-27). -/
noncomputable def centroidGradFn (ms : List (PyMfd A)) (points : List (Val A)) : Fn A := fun args => do
  let y ← centroidPoint ms args
  let ls ← xlogs (productXMfd ms) y points
  let z ← prodZeroVector ms y
  let s ← xsum (productXMfd ms) z ls
  s.neg

/-- `objective` of `compute_centroid` on a product (nelder_mead.py:14-18) as a function of the
flattened arguments. -/
noncomputable def centroidCostFn (ms : List (PyMfd A)) (points : List (Val A))
    (args : List (Val A)) : Except PyErr ℝ := do
  let y ← centroidPoint ms args
  let s ← xsumDist (productXMfd ms) y 0 points
  return s / 2

/-- A problem on a product whose Riemannian gradient `f` is supplied by the user
(core/problem.py:169-200, 245-259): the gradient optimizers use is the wrapped one.  `cost`, the
Hessian and the preconditioner are arbitrary. -/
noncomputable def userGradientProb (ms : List (PyMfd A)) (cost : Val A → Except PyErr ℝ) (f : Fn A)
    (hess precon : Val A → Val A → Except PyErr (Val A)) : XProb ℝ (Val A) (Val A) where
  M := productXMfd ms
  cost := cost
  grad := wrapGradient (productLayout ms) f
  hess := hess
  precon := precon

/-- The problem of `compute_centroid` on a product (nelder_mead.py:30-32); steepest descent uses
neither its Hessian nor its preconditioner. -/
noncomputable def productCentroidProb (ms : List (PyMfd A)) (points : List (Val A)) :
    XProb ℝ (Val A) (Val A) :=
  userGradientProb ms
    (fun x => do
      let args ← flattenArguments x (ms.map PyMfd.layout)
      centroidCostFn ms points args)
    (centroidGradFn ms points) (fun _ v => .ok v) (fun _ v => .ok v)

/-- `compute_centroid(manifold, points)` (nelder_mead.py:11-33) on a product, started at `draw`. -/
noncomputable def ProductCentroidRuns (ms : List (PyMfd A)) (clk : Clock ℝ) (draw : Val A)
    (points : List (Val A)) (r : Except PyErr (Val A)) : Prop :=
  ∃ r', XSDRuns centroidCfg (xbackTracking (Val A) (Val A) centroidSearch)
    (productCentroidProb ms points) clk draw none r' ∧ r = r'.map fun q => q.1.point

end Verif.Core
