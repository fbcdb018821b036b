/-
A concrete array type for the examples: 0-d real arrays.
-/
import Verif.Core.Model.Value

namespace Verif.Core
open Verif

/-- Real numbers as 0-d arrays. -/
noncomputable instance realArr : PyArr ℝ where
  rows _ := none
  neg a := -a
  add a b := .ok (a + b)
  sub a b := .ok (a - b)
  smul c a := c * a
  div a c := a / c

end Verif.Core
