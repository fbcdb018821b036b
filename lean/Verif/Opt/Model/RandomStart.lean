/-
The random start of the trust-region subproblem with `use_rand`
(`/repo/src/pymanopt/optimizers/trust_regions.py`, lines 182-187).
-/
import Verif.Base.Loop
import Verif.Opt.Model.TR

namespace Verif.Opt
open PyNum

variable {F P E : Type*} [PyNum F]

/-- The body of `while manifold.norm(x, eta) > Delta` (trust_regions.py:186-187);
`np.sqrt(np.sqrt(np.spacing(1)))` is `2 ** -13`. -/
def startStep (M : Mfd F P E) (x : P) (Delta : F) (eta : E) : Except PyErr (Ctl E E) :=
  if lt Delta (M.norm x eta) then .ok (.next (M.smul (toNp (lit (1 / 2 ^ 13))) eta))
  else .ok (.brk eta)

/-- `eta` is the start computed from the tangent vector `draw` (trust_regions.py:184-187). -/
def RandomStart (M : Mfd F P E) (x : P) (Delta : F) (draw eta : E) : Prop :=
  Runs (startStep M x Delta) (M.smul (lit (1 / 10 ^ 6)) draw) (.ok eta)

end Verif.Opt
