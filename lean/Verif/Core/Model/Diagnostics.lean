/-
The numerical checks of `/repo/src/pymanopt/tools/diagnostics.py`, in exact arithmetic.
-/
import Verif.Core.Model.Tools
import Mathlib.Analysis.SpecialFunctions.Log.Base
import Mathlib.Analysis.SpecialFunctions.Pow.Real
import Mathlib.Algebra.Module.Basic

namespace Verif.Core
open Verif

/-- What the checks use of a manifold.  A method may raise, in particular `NotImplementedError` where
the class does not implement it; `inner_product` and `norm` are assumed to return.  `randomPoint` and
`randomTangent k` stand for what the `k`-th draw returns. -/
structure DiagMfd (P E : Type*) where
  exp : P → E → Except PyErr P
  retraction : P → E → Except PyErr P
  dist : P → P → Except PyErr ℝ
  toTangent : P → E → Except PyErr E
  inner : P → E → E → ℝ
  norm : P → E → ℝ
  randomPoint : P
  randomTangent : ℕ → P → E

/-- What the checks use of a `Problem`. -/
structure DiagProb (P E : Type*) where
  M : DiagMfd P E
  cost : P → ℝ
  grad : P → E
  hess : P → E → E

/-- `np.logspace(start, stop, num)` with base 10. -/
noncomputable def logspace (start stop : ℝ) (num : ℕ) : List ℝ :=
  (List.range num).map fun (k : ℕ) => (10 : ℝ) ^ (start + (k : ℝ) * ((stop - start) / (num - 1)))

/-- `np.polyfit(x, y, deg=1, full=True)`: coefficients (highest degree first) and residuals. -/
abbrev PolyFit := List ℝ → List ℝ → (ℝ × ℝ) × List ℝ

/-- `np.polyval([a, b], h)`. -/
def polyval2 (a b h : ℝ) : ℝ := a * h + b

/-- `np.polyval([a, b, c], h)`. -/
def polyval3 (a b c h : ℝ) : ℝ := (a * h + b) * h + c

variable {P E : Type*} [AddCommGroup E] [Module ℝ E]

/-- `manifold.exp`, or `manifold.retraction` where the former is not implemented
(diagnostics.py:63-66). -/
def expOrRetraction (M : DiagMfd P E) (x : P) (v : E) : Except PyErr P :=
  match M.exp x v with
  | .error .notImplemented => M.retraction x v
  | r => r

/-- The values of the cost along the curve, in order (diagnostics.py:60-67). -/
def curveValues (pb : DiagProb P E) (x : P) (d : E) : List ℝ → Except PyErr (List ℝ)
  | [] => .ok []
  | h :: hs =>
    match expOrRetraction pb.M x (h • d) with
    | .error e => .error e
    | .ok y =>
      match curveValues pb x d hs with
      | .error e => .error e
      | .ok vs => .ok (pb.cost y :: vs)

/-- The Taylor model at `h` (diagnostics.py:69-79). -/
noncomputable def taylorModel (pb : DiagProb P E) (x : P) (d : E) (useQuadratic : Bool) (h : ℝ) : ℝ :=
  let f0 := pb.cost x
  let df0 := pb.M.inner x (pb.grad x) d
  if useQuadratic then
    let d2f0 := pb.M.inner x (pb.hess x d) d
    polyval3 (1 / 2 * d2f0) df0 f0 h
  else polyval2 df0 f0 h

/-- Return value of `check_directional_derivative`; `exact` tells which message was printed. -/
structure DiagOut where
  h : List ℝ
  error : List ℝ
  segment : List ℕ
  poly : ℝ × ℝ
  exact : Bool

/-- The slope estimate (diagnostics.py:81-126).  `np.log10` of a nonpositive number is not a real
number; `Real.logb` stands for it. -/
noncomputable def slopeEstimate (polyfit : PolyFit) (h error : List ℝ) : Except PyErr DiagOut :=
  let logh := h.map (Real.logb 10)
  if error.all (fun e => decide (e < 1 / 10 ^ 12)) then
    let poly := (polyfit logh error).1
    .ok { h := h, error := error, segment := List.range h.length,
          poly := (poly.1, Real.logb 10 poly.2), exact := true }
  else
    let loge := error.map fun e => Real.logb 10 (e + 1 / 2 ^ 52)
    match identifyLinearPiece
        (fun k => polyfit ((logh.drop k).take 11) ((loge.drop k).take 11)) Real.sqrt h.length 10 with
    | .error e => .error e
    | .ok (segment, poly) =>
      .ok { h := h, error := error, segment := segment, poly := poly, exact := false }

/-- `check_directional_derivative` (diagnostics.py:36-126). -/
noncomputable def checkDirectionalDerivative (polyfit : PolyFit) (pb : DiagProb P E) (x : Option P)
    (d : Option E) (useQuadratic : Bool) : Except PyErr DiagOut :=
  match x, d with
  | none, some _ => .error .valueError
  | _, _ =>
    let x := x.getD pb.M.randomPoint
    let d := d.getD (pb.M.randomTangent 0 x)
    let h := logspace (-8) 0 51
    match curveValues pb x d h with
    | .error e => .error e
    | .ok value =>
      let error := List.zipWith (fun h v => |taylorModel pb x d useQuadratic h - v|) h value
      slopeEstimate polyfit h error

/-- Norm of the part of a vector that `to_tangent_space` removes; `none` when that method is not
implemented (diagnostics.py:169-185, 232-249). -/
def tangentResidual (M : DiagMfd P E) (x : P) (v : E) : Except PyErr (Option ℝ) :=
  match M.toTangent x v with
  | .error .notImplemented => .ok none
  | .error e => .error e
  | .ok w => .ok (some (M.norm x (v - w)))

/-- `check_gradient` (diagnostics.py:129-185): what is plotted and the residual printed.  `plt` tells
whether matplotlib is installed. -/
noncomputable def checkGradient (plt : Bool) (polyfit : PolyFit) (pb : DiagProb P E) (x : Option P)
    (d : Option E) : Except PyErr (DiagOut × Option ℝ) :=
  if !plt then .error .runtime
  else
    match x, d with
    | none, some _ => .error .valueError
    | _, _ =>
      let x := x.getD pb.M.randomPoint
      let d := d.getD (pb.M.randomTangent 0 x)
      match checkDirectionalDerivative polyfit pb (some x) (some d) false with
      | .error e => .error e
      | .ok out =>
        match tangentResidual pb.M x (pb.grad x) with
        | .error e => .error e
        | .ok residual => .ok (out, residual)

/-- What `check_hessian` reports; `productA` and `productB` are the inner products whose difference is
`symmetry`. -/
structure HessOut where
  out : DiagOut
  residual : Option ℝ
  linearity : ℝ
  productA : ℝ
  productB : ℝ
  symmetry : ℝ

/-- `check_hessian` (diagnostics.py:188-286).  `a`, `b` are the random weights. -/
noncomputable def checkHessian (plt : Bool) (polyfit : PolyFit) (a b : ℝ) (pb : DiagProb P E)
    (x : Option P) (d : Option E) : Except PyErr HessOut :=
  if !plt then .error .runtime
  else
    match x, d with
    | none, some _ => .error .valueError
    | _, _ =>
      let x := x.getD pb.M.randomPoint
      let d := d.getD (pb.M.randomTangent 0 x)
      match checkDirectionalDerivative polyfit pb (some x) (some d) true with
      | .error e => .error e
      | .ok out =>
        match tangentResidual pb.M x (pb.hess x d) with
        | .error e => .error e
        | .ok residual =>
          let va := pb.M.randomTangent 1 x
          let vb := pb.M.randomTangent 2 x
          let ha := pb.hess x va
          let hb := pb.hess x vb
          let hc := pb.hess x (a • va + b • vb)
          let lc := a • ha + b • hb
          let productA := pb.M.inner x va hb
          let productB := pb.M.inner x ha vb
          .ok { out := out, residual := residual, linearity := pb.M.norm x (hc - lc),
                productA := productA, productB := productB, symmetry := productA - productB }

/-- Distances between the exponential and the retraction, in order (diagnostics.py:325-331). -/
def retractionErrors (M : DiagMfd P E) (x : P) (v : E) : List ℝ → Except PyErr (List ℝ)
  | [] => .ok []
  | t :: ts =>
    match M.exp x (t • v) with
    | .error e => .error e
    | .ok y =>
      match M.retraction x (t • v) with
      | .error e => .error e
      | .ok z =>
        match M.dist y z with
        | .error e => .error e
        | .ok r =>
          match retractionErrors M x v ts with
          | .error e => .error e
          | .ok rs => .ok (r :: rs)

/-- What `check_retraction` reports. -/
structure RetrOut where
  steps : List ℝ
  errors : List ℝ
  segment : List ℕ
  poly : ℝ × ℝ

/-- `check_retraction` (diagnostics.py:289-373): when no point is given the tangent vector is drawn
even if one was given; the third `try` calls `retraction` again instead of `dist`.  The logarithm of a
vanishing error is not a real number; `Real.logb` stands for it. -/
noncomputable def checkRetraction (plt : Bool) (polyfit : PolyFit) (M : DiagMfd P E) (x : Option P)
    (v : Option E) : Except PyErr RetrOut :=
  if !plt then .error .runtime
  else
    let (x, v) := match x, v with
      | none, _ => (M.randomPoint, M.randomTangent 0 M.randomPoint)
      | some x, none => (x, M.randomTangent 0 x)
      | some x, some v => (x, v)
    match M.exp x v with
    | .error .notImplemented => .error .runtime
    | .error e => .error e
    | .ok _ =>
      match M.retraction x v with
      | .error .notImplemented => .error .runtime
      | .error e => .error e
      | .ok _ =>
        let t := logspace (-12) 0 251
        match retractionErrors M x v t with
        | .error e => .error e
        | .ok errors =>
          let logt := t.map (Real.logb 10)
          let loge := errors.map (Real.logb 10)
          match identifyLinearPiece
              (fun k => polyfit ((logt.drop k).take 11) ((loge.drop k).take 11)) Real.sqrt t.length
              10 with
          | .error e => .error e
          | .ok (segment, poly) =>
            .ok { steps := t, errors := errors, segment := segment, poly := poly }

end Verif.Core
