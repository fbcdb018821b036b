/-
The manifold of matrices of fixed rank as an optimizer sees it.
-/
import Verif.Geo.Model.OptMfd
import Verif.Geo.Model.FixedRank

namespace Verif.Geo
open Matrix Verif.Opt

variable {m n : Type*} {k : ℕ}

/-- `FixedRankEmbedded` (fixed_rank.py:9-203) with a retraction, a function of LAPACK's
factorisations; tangent vectors are added and scaled component by component
(`_FixedRankTangentVector`, fixed_rank.py:206-244).  `log` and
`pair_mean` are not implemented by this class. -/
noncomputable def fixedRankMfd [Fintype m] [Fintype n]
    (retraction : FRPoint m n k → FRTan m n k → FRPoint m n k)
    (log : FRPoint m n k → FRPoint m n k → FRTan m n k)
    (pairMean : FRPoint m n k → FRPoint m n k → FRPoint m n k) :
    Mfd ℝ (FRPoint m n k) (FRTan m n k) where
  dim := (frDim (Fintype.card m) (Fintype.card n) k).toNat
  norm := frNorm
  inner := frInner
  retraction := retraction
  transport := frTransport
  log := log
  pairMean := pairMean
  zeroVector := frZero
  toTangent := frToTangent
  add := (· + ·)
  sub := (· - ·)
  neg := (- ·)
  smul := (· • ·)

/-- `Problem` on `FixedRankEmbedded` (core/problem.py:251-261): the gradient is converted by
`euclidean_to_riemannian_gradient`. Where that divides by zero (`none`), the zero vector stands for
the array of NaNs. The class has no conversion of Hessians, so the Riemannian Hessian, if any, is
the user's. -/
noncomputable def fixedRankProb [Fintype m] [Fintype n]
    (retraction : FRPoint m n k → FRTan m n k → FRPoint m n k)
    (log : FRPoint m n k → FRPoint m n k → FRTan m n k)
    (pairMean : FRPoint m n k → FRPoint m n k → FRPoint m n k) (cost : FRPoint m n k → ℝ)
    (egrad : FRPoint m n k → FRPoint m n k) (hess : FRPoint m n k → FRTan m n k → FRTan m n k) :
    Prob ℝ (FRPoint m n k) (FRTan m n k) where
  M := fixedRankMfd retraction log pairMean
  cost := cost
  grad X := (frE2rg X (egrad X)).getD 0
  hess := hess
  precon _ v := v

end Verif.Geo
