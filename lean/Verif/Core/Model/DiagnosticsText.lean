/-
What the checks of `/repo/src/pymanopt/tools/diagnostics.py` print: one list of characters for each
call of `print`, also when the check raises afterwards.

`val` gives the float that is formatted for a number; the arithmetic before that is exact, as in
`Verif.Core.Model.Diagnostics`.  `name` is `manifold.__class__.__name__`.
-/
import Verif.Core.Model.Diagnostics
import Verif.Base.Format

namespace Verif.Core
open Verif

/-- The sentence of `check_directional_derivative` (diagnostics.py:84-97, 104-118). -/
def derivativeText (useQuadratic exact : Bool) : List Char :=
  if exact then
    if useQuadratic then
      ("Hessian check. It seems the quadratic model is exact: " ++
        "model error is numerically zero for all h.").toList
    else
      ("Directional derivative check. It seems the linear model is exact: " ++
        "model error is numerically zero for all h.").toList
  else
    if useQuadratic then
      ("Hessian check. The slope of the continuous line should match that of the dashed " ++
        "(reference) line over at least a few orders of magnitude for h.").toList
    else
      ("Directional derivative check. The slope of the continuous line should match that of the " ++
        "dashed (reference) line over at least a few orders of magnitude for h.").toList

variable {P E : Type*} [AddCommGroup E] [Module ℝ E]

/-- What `check_directional_derivative` prints (diagnostics.py:36-126).  It does so after the errors
are known and before a line is fitted to them. -/
noncomputable def derivativeSays (pb : DiagProb P E) (x : Option P) (d : Option E)
    (useQuadratic : Bool) : List (List Char) :=
  match x, d with
  | none, some _ => []
  | _, _ =>
    let x := x.getD pb.M.randomPoint
    let d := d.getD (pb.M.randomTangent 0 x)
    let h := logspace (-8) 0 51
    match curveValues pb x d h with
    | .error _ => []
    | .ok value =>
      let error := List.zipWith (fun h v => |taylorModel pb x d useQuadratic h - v|) h value
      [derivativeText useQuadratic (error.all fun e => decide (e < 1 / 10 ^ 12))]

/-- What `check_gradient` prints about the tangent space (diagnostics.py:169-185). -/
def gradientTangentSays (val : ℝ → XF ℚ) (name : List Char) (M : DiagMfd P E) (x : P) (v : E) :
    List (List Char) :=
  match M.toTangent x v with
  | .error .notImplemented =>
    ["Pymanopt was unable to verify that the gradient is indeed a tangent vector since ".toList ++
      name ++ " does not provide a 'to_tangent_space' implementation.".toList]
  | .error _ => []
  | .ok w =>
    ["The residual should be close to 0: ".toList ++ formatG (val (M.norm x (v - w))) ++ ".".toList,
      "If it is far from 0, then the gradient is not in the tangent space.".toList]

/-- What `check_gradient` prints (diagnostics.py:129-185). -/
noncomputable def gradientSays (plt : Bool) (val : ℝ → XF ℚ) (name : List Char) (polyfit : PolyFit)
    (pb : DiagProb P E) (x : Option P) (d : Option E) : List (List Char) :=
  if !plt then []
  else
    match x, d with
    | none, some _ => []
    | _, _ =>
      let x := x.getD pb.M.randomPoint
      let d := d.getD (pb.M.randomTangent 0 x)
      derivativeSays pb (some x) (some d) false ++
        match checkDirectionalDerivative polyfit pb (some x) (some d) false with
        | .error _ => []
        | .ok _ => gradientTangentSays val name pb.M x (pb.grad x)

/-- What `check_hessian` prints about the tangent space (diagnostics.py:232-249). -/
def hessianTangentSays (val : ℝ → XF ℚ) (name : List Char) (M : DiagMfd P E) (x : P) (v : E) :
    List (List Char) :=
  match M.toTangent x v with
  | .error .notImplemented =>
    [("Pymanopt was unable to verify that the Hessian operator indeed yields a tangent vector " ++
      "since ").toList ++ name ++
        " does not provide a 'to_tangent_space' implementation.".toList]
  | .error _ => []
  | .ok w =>
    ["The residual should be 0, or very close. Residual: ".toList ++
        formatG (val (M.norm x (v - w))) ++ ".".toList,
      "If it is far from 0, then the Hessian is not in the tangent space.".toList]

/-- What `check_hessian` prints about the Hessian as an operator (diagnostics.py:250-286). -/
noncomputable def operatorSays (val : ℝ → XF ℚ) (a b : ℝ) (pb : DiagProb P E) (x : P) :
    List (List Char) :=
  let va := pb.M.randomTangent 1 x
  let vb := pb.M.randomTangent 2 x
  let ha := pb.hess x va
  let hb := pb.hess x vb
  let hc := pb.hess x (a • va + b • vb)
  let lc := a • ha + b • hb
  let productA := pb.M.inner x va hb
  let productB := pb.M.inner x ha vb
  [[],
    ("The norm of the residual between H[a*d1 + b*d2] and a*H[d1] + b*H[d2] should be very " ++
      "close to 0: ").toList ++ formatG (val (pb.M.norm x (hc - lc))) ++ ".".toList,
    "If it is far from 0, then the Hessian is not a linear operator.".toList,
    [],
    "The difference <d1, H[d2]> - <H[d1], d2> should be close to zero: ".toList ++
      formatG (val productA) ++ " - ".toList ++ formatG (val productB) ++ " = ".toList ++
      formatG (val (productA - productB)) ++ ".".toList,
    "If it is far from 0 then the Hessian is not a symmetric operator.".toList]

/-- What `check_hessian` prints (diagnostics.py:188-286). -/
noncomputable def hessianSays (plt : Bool) (val : ℝ → XF ℚ) (name : List Char) (polyfit : PolyFit)
    (a b : ℝ) (pb : DiagProb P E) (x : Option P) (d : Option E) : List (List Char) :=
  if !plt then []
  else
    match x, d with
    | none, some _ => []
    | _, _ =>
      let x := x.getD pb.M.randomPoint
      let d := d.getD (pb.M.randomTangent 0 x)
      derivativeSays pb (some x) (some d) true ++
        match checkDirectionalDerivative polyfit pb (some x) (some d) true with
        | .error _ => []
        | .ok _ =>
          hessianTangentSays val name pb.M x (pb.hess x d) ++
            match tangentResidual pb.M x (pb.hess x d) with
            | .error _ => []
            | .ok _ => operatorSays val a b pb x

/-- The text of `check_retraction` (diagnostics.py:340-348), in one `print`; `str` is `str` of a
float. -/
def retractionText (str : XF ℚ → List Char) (slope norm : XF ℚ) : List Char :=
  ("The slope must be at least 2 to have a proper retraction.\n" ++
    "For the retraction to be second order, the slope should be 3.\n" ++
    "It appears the slope is: ").toList ++ str slope ++
  (".\nNote: if the implementation of the exponential map and the\n" ++
    "retraction are identical, this should be zero: ").toList ++ str norm ++
  ".\nIn that case, the slope test is irrelevant.".toList

/-- What `check_retraction` prints (diagnostics.py:289-373). -/
noncomputable def retractionSays (plt : Bool) (val : ℝ → XF ℚ) (str : XF ℚ → List Char)
    (polyfit : PolyFit) (M : DiagMfd P E) (x : Option P) (v : Option E) : List (List Char) :=
  match checkRetraction plt polyfit M x v with
  | .error _ => []
  | .ok out =>
    [retractionText str (val out.poly.1)
      (val (Real.sqrt ((out.errors.map fun e => e ^ 2).sum)))]

end Verif.Core
