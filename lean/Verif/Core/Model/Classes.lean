/-
The classes of `/repo/src/pymanopt/manifolds/*.py`: base classes, the methods each of them defines
and the methods these call on `self` and `super()`, with Python's method resolution order.
-/
import Verif.Base.PyNum

namespace Verif.Core
open Verif

/-- The classes; the underscored helper bases are those of euclidean.py:7, grassmann.py:7,
group.py:18, positive_definite.py:17, psd.py:7, sphere.py:9, 115.  `Product` is left out: its methods
call those of its factors. -/
inductive Cls
  | manifold | riemannianSubmanifold | retrAsExpMixin
  | euclideanBase | grassmannBase | unitaryBase | positiveDefiniteBase | psdBase | sphereBase
  | sphereSubspaceBase
  | complexCircle | complexGrassmann | elliptope | euclidean | complexEuclidean | fixedRankEmbedded
  | grassmann | hermitianPositiveDefinite | specialHermitianPositiveDefinite | oblique
  | psdFixedRank | psdFixedRankComplex | poincareBall | positive | skewSymmetric
  | specialOrthogonalGroup | sphere | sphereSubspaceComplementIntersection
  | sphereSubspaceIntersection | stiefel | symmetric | symmetricPositiveDefinite | unitaryGroup
  deriving DecidableEq, Repr

/-- Methods and properties of manifolds (manifolds/manifold.py:111-444). -/
inductive Meth
  | typicalDist | innerProduct | projection | norm | randomPoint | randomTangentVector | zeroVector
  | dist | e2rg | e2rh | retraction | exp | log | transport | pairMean | toTangentSpace | embedding
  | weingarten
  deriving DecidableEq, Repr

/-- What is known of the body of a method. -/
inductive Body
  /-- decorated with `raise_not_implemented_error`, or raises `NotImplementedError` itself -/
  | notImplemented
  /-- decorated with `abc.abstractmethod` -/
  | abstract
  /-- code that calls these methods of `self` and of `super()` -/
  | code (self super : List Meth)
  deriving DecidableEq, Repr

namespace Cls

/-- The public classes (manifolds/__init__.py:1-26), without `Product`. -/
def exported : List Cls :=
  [complexCircle, complexGrassmann, elliptope, euclidean, complexEuclidean, fixedRankEmbedded,
   grassmann, hermitianPositiveDefinite, specialHermitianPositiveDefinite, oblique, psdFixedRank,
   psdFixedRankComplex, poincareBall, positive, skewSymmetric, specialOrthogonalGroup, sphere,
   sphereSubspaceComplementIntersection, sphereSubspaceIntersection, stiefel, symmetric,
   symmetricPositiveDefinite, unitaryGroup]

/-- Base classes in the order of the `class` statements (without `object`). -/
def bases : Cls → List Cls
  | manifold => []  -- manifold.py:20
  | retrAsExpMixin => []  -- manifold.py:446
  | riemannianSubmanifold => [manifold]  -- manifold.py:390
  | euclideanBase => [riemannianSubmanifold]  -- euclidean.py:7
  | grassmannBase => [manifold]  -- grassmann.py:7
  | unitaryBase => [riemannianSubmanifold]  -- group.py:18
  | positiveDefiniteBase => [riemannianSubmanifold]  -- positive_definite.py:17
  | psdBase => [manifold]  -- psd.py:7
  | sphereBase => [riemannianSubmanifold]  -- sphere.py:9
  | sphereSubspaceBase => [sphereBase]  -- sphere.py:115
  | complexCircle => [riemannianSubmanifold]  -- complex_circle.py:6
  | complexGrassmann => [grassmannBase]  -- grassmann.py:136
  | elliptope => [manifold, retrAsExpMixin]  -- psd.py:164
  | euclidean => [euclideanBase]  -- euclidean.py:68
  | complexEuclidean => [euclideanBase]  -- euclidean.py:99
  | fixedRankEmbedded => [riemannianSubmanifold]  -- fixed_rank.py:10
  | grassmann => [grassmannBase]  -- grassmann.py:31
  | hermitianPositiveDefinite => [positiveDefiniteBase]  -- positive_definite.py:161
  | specialHermitianPositiveDefinite => [positiveDefiniteBase]  -- positive_definite.py:188
  | oblique => [riemannianSubmanifold]  -- oblique.py:6
  | psdFixedRank => [psdBase]  -- psd.py:73
  | psdFixedRankComplex => [psdBase]  -- psd.py:117
  | poincareBall => [manifold]  -- hyperbolic.py:6
  | positive => [manifold]  -- positive.py:6
  | skewSymmetric => [euclideanBase]  -- euclidean.py:180
  | specialOrthogonalGroup => [unitaryBase]  -- group.py:116
  | sphere => [sphereBase]  -- sphere.py:84
  | sphereSubspaceComplementIntersection => [sphereSubspaceBase]  -- sphere.py:177
  | sphereSubspaceIntersection => [sphereSubspaceBase]  -- sphere.py:150
  | stiefel => [riemannianSubmanifold]  -- stiefel.py:13
  | symmetric => [euclideanBase]  -- euclidean.py:138
  | symmetricPositiveDefinite => [positiveDefiniteBase]  -- positive_definite.py:125
  | unitaryGroup => [unitaryBase]  -- group.py:180

/-- One class and the remaining lists of Python's C3 merge: the first head that occurs in no tail. -/
def mergePick (all : List (List Cls)) : List (List Cls) → Option Cls
  | [] => none
  | [] :: ls => mergePick all ls
  | (h :: _) :: ls => if all.all fun l => !l.tail.contains h then some h else mergePick all ls

/-- Python's C3 merge. -/
def merge : ℕ → List (List Cls) → List Cls
  | 0, _ => []
  | n + 1, ls =>
    match mergePick ls ls with
    | none => []
    | some h => h :: merge n (ls.map fun l => if l.head? = some h then l.tail else l)

/-- `__mro__` without `object`; `n` bounds the depth of the hierarchy. -/
def mroAux : ℕ → Cls → List Cls
  | 0, c => [c]
  | n + 1, c => c :: merge 8 (c.bases.map (mroAux n) ++ [c.bases])

/-- `__mro__` without `object`. -/
def mro (c : Cls) : List Cls := mroAux 5 c

open Meth Body in
/-- The methods defined in the body of each class, with the methods they call.  An alias such as
`to_tangent_space = projection` is bound to the function of the same class body. -/
def own : Cls → Meth → Option Body
  -- manifold.py
  | manifold, typicalDist => some notImplemented
  | manifold, innerProduct => some abstract
  | manifold, projection => some abstract
  | manifold, norm => some abstract
  | manifold, randomPoint => some abstract
  | manifold, randomTangentVector => some abstract
  | manifold, zeroVector => some abstract
  | manifold, dist => some notImplemented
  | manifold, e2rg => some notImplemented
  | manifold, e2rh => some notImplemented
  | manifold, retraction => some notImplemented
  | manifold, exp => some notImplemented
  | manifold, log => some notImplemented
  | manifold, transport => some notImplemented
  | manifold, pairMean => some notImplemented
  | manifold, toTangentSpace => some notImplemented
  | manifold, embedding => some (code [] [])
  | riemannianSubmanifold, weingarten => some notImplemented
  | riemannianSubmanifold, e2rg => some (code [projection] [])
  | riemannianSubmanifold, e2rh => some (code [projection, weingarten] [])
  | retrAsExpMixin, exp => some (code [retraction] [])
  -- complex_circle.py:30-100
  | complexCircle, innerProduct => some (code [] [])
  | complexCircle, norm => some (code [] [])
  | complexCircle, dist => some (code [] [])
  | complexCircle, typicalDist => some (code [] [])
  | complexCircle, projection => some (code [] [])
  | complexCircle, toTangentSpace => some (code [] [])
  | complexCircle, e2rh => some (code [projection] [])
  | complexCircle, exp => some (code [] [])
  | complexCircle, retraction => some (code [] [])
  | complexCircle, log => some (code [projection] [])
  | complexCircle, randomPoint => some (code [] [])
  | complexCircle, randomTangentVector => some (code [norm] [])
  | complexCircle, transport => some (code [projection] [])
  | complexCircle, pairMean => some (code [] [])
  | complexCircle, zeroVector => some (code [] [])
  -- euclidean.py:7-65
  | euclideanBase, typicalDist => some (code [] [])
  | euclideanBase, innerProduct => some (code [] [])
  | euclideanBase, norm => some (code [] [])
  | euclideanBase, dist => some (code [] [])
  | euclideanBase, projection => some (code [] [])
  | euclideanBase, toTangentSpace => some (code [] [])
  | euclideanBase, e2rh => some (code [] [])
  | euclideanBase, exp => some (code [] [])
  | euclideanBase, retraction => some (code [] [])
  | euclideanBase, log => some (code [] [])
  | euclideanBase, randomPoint => some (code [] [])
  | euclideanBase, randomTangentVector => some (code [randomPoint, norm] [])
  | euclideanBase, transport => some (code [] [])
  | euclideanBase, pairMean => some (code [] [])
  | euclideanBase, zeroVector => some (code [] [])
  -- euclidean.py:129-135, 164-178, 206-220
  | complexEuclidean, randomPoint => some (code [] [])
  | complexEuclidean, zeroVector => some (code [] [])
  | symmetric, projection => some (code [] [])
  | symmetric, e2rh => some (code [] [])
  | symmetric, randomPoint => some (code [] [])
  | symmetric, randomTangentVector => some (code [randomPoint, norm] [])
  | skewSymmetric, projection => some (code [] [])
  | skewSymmetric, e2rh => some (code [] [])
  | skewSymmetric, randomPoint => some (code [] [])
  | skewSymmetric, randomTangentVector => some (code [randomPoint, norm] [])
  -- fixed_rank.py:70-203
  | fixedRankEmbedded, typicalDist => some (code [] [])
  | fixedRankEmbedded, innerProduct => some (code [] [])
  | fixedRankEmbedded, projection => some (code [] [])
  | fixedRankEmbedded, e2rg => some (code [] [])
  | fixedRankEmbedded, retraction => some (code [] [])
  | fixedRankEmbedded, norm => some (code [innerProduct] [])
  | fixedRankEmbedded, randomPoint => some (code [] [])
  | fixedRankEmbedded, toTangentSpace => some (code [] [])
  | fixedRankEmbedded, randomTangentVector => some (code [toTangentSpace, norm] [])
  | fixedRankEmbedded, embedding => some (code [] [])
  | fixedRankEmbedded, transport => some (code [projection, embedding] [])
  | fixedRankEmbedded, zeroVector => some (code [] [])
  -- grassmann.py:7-28
  | grassmannBase, typicalDist => some (code [] [])
  | grassmannBase, norm => some (code [] [])
  | grassmannBase, transport => some (code [projection] [])
  | grassmannBase, zeroVector => some (code [] [])
  | grassmannBase, e2rg => some (code [projection] [])
  | grassmannBase, toTangentSpace => some (code [projection] [])
  -- grassmann.py:73-133
  | grassmann, dist => some (code [] [])
  | grassmann, innerProduct => some (code [] [])
  | grassmann, projection => some (code [] [])
  | grassmann, e2rh => some (code [projection] [])
  | grassmann, retraction => some (code [] [])
  | grassmann, randomPoint => some (code [] [])
  | grassmann, randomTangentVector => some (code [projection] [])
  | grassmann, exp => some (code [] [])
  | grassmann, log => some (code [] [])
  -- grassmann.py:177-247
  | complexGrassmann, dist => some (code [] [])
  | complexGrassmann, innerProduct => some (code [] [])
  | complexGrassmann, projection => some (code [] [])
  | complexGrassmann, e2rh => some (code [projection] [])
  | complexGrassmann, retraction => some (code [] [])
  | complexGrassmann, randomPoint => some (code [] [])
  | complexGrassmann, randomTangentVector => some (code [projection] [])
  | complexGrassmann, exp => some (code [] [])
  | complexGrassmann, log => some (code [] [])
  -- group.py:30-94
  | unitaryBase, innerProduct => some (code [] [])
  | unitaryBase, norm => some (code [] [])
  | unitaryBase, typicalDist => some (code [] [])
  | unitaryBase, dist => some (code [norm, log] [])
  | unitaryBase, projection => some (code [] [])
  | unitaryBase, toTangentSpace => some (code [] [])
  | unitaryBase, embedding => some (code [] [])
  | unitaryBase, e2rh => some (code [] [])
  | unitaryBase, retraction => some (code [] [])
  | unitaryBase, exp => some (code [] [])
  | unitaryBase, log => some (code [] [])
  | unitaryBase, zeroVector => some (code [] [])
  | unitaryBase, transport => some (code [] [])
  | unitaryBase, pairMean => some (code [exp, log] [])
  -- group.py:157-177, 221-244
  | specialOrthogonalGroup, randomPoint => some (code [] [])
  | specialOrthogonalGroup, randomTangentVector => some (code [norm] [])
  | unitaryGroup, randomPoint => some (code [] [])
  | unitaryGroup, randomTangentVector => some (code [norm] [])
  -- hyperbolic.py:56-150
  | poincareBall, typicalDist => some (code [] [])
  | poincareBall, innerProduct => some (code [] [])
  | poincareBall, projection => some (code [] [])
  | poincareBall, toTangentSpace => some (code [] [])
  | poincareBall, norm => some (code [innerProduct] [])
  | poincareBall, randomPoint => some (code [] [])
  | poincareBall, randomTangentVector => some (code [norm] [])
  | poincareBall, zeroVector => some (code [] [])
  | poincareBall, dist => some (code [] [])
  | poincareBall, e2rg => some (code [] [])
  | poincareBall, e2rh => some (code [] [])
  | poincareBall, exp => some (code [] [])
  | poincareBall, retraction => some (code [] [])
  | poincareBall, log => some (code [] [])
  | poincareBall, pairMean => some (code [exp, log] [])
  -- oblique.py:28-94
  | oblique, typicalDist => some (code [] [])
  | oblique, innerProduct => some (code [] [])
  | oblique, norm => some (code [] [])
  | oblique, dist => some (code [] [])
  | oblique, projection => some (code [] [])
  | oblique, toTangentSpace => some (code [] [])
  | oblique, e2rh => some (code [projection] [])
  | oblique, exp => some (code [] [])
  | oblique, retraction => some (code [] [])
  | oblique, log => some (code [projection] [])
  | oblique, randomPoint => some (code [] [])
  | oblique, randomTangentVector => some (code [projection, norm] [])
  | oblique, transport => some (code [projection] [])
  | oblique, pairMean => some (code [] [])
  | oblique, zeroVector => some (code [] [])
  -- positive.py:62-128
  | positive, typicalDist => some (code [] [])
  | positive, innerProduct => some (code [] [])
  | positive, projection => some (code [] [])
  | positive, toTangentSpace => some (code [] [])
  | positive, norm => some (code [innerProduct] [])
  | positive, randomPoint => some (code [] [])
  | positive, randomTangentVector => some (code [norm] [])
  | positive, zeroVector => some (code [] [])
  | positive, dist => some (code [] [])
  | positive, e2rg => some (code [] [])
  | positive, e2rh => some (code [] [])
  | positive, exp => some (code [] [])
  | positive, log => some (code [] [])
  | positive, retraction => some (code [] [])
  | positive, transport => some (code [] [])
  -- positive_definite.py:17-122
  | positiveDefiniteBase, typicalDist => some (code [] [])
  | positiveDefiniteBase, dist => some (code [] [])
  | positiveDefiniteBase, innerProduct => some (code [] [])
  | positiveDefiniteBase, projection => some (code [] [])
  | positiveDefiniteBase, toTangentSpace => some (code [] [])
  | positiveDefiniteBase, e2rg => some (code [projection] [])
  | positiveDefiniteBase, e2rh => some (code [] [])
  | positiveDefiniteBase, norm => some (code [innerProduct] [])
  | positiveDefiniteBase, randomPoint => some (code [] [])
  | positiveDefiniteBase, randomTangentVector => some (code [norm] [])
  | positiveDefiniteBase, transport => some (code [] [])
  | positiveDefiniteBase, exp => some (code [] [])
  | positiveDefiniteBase, retraction => some (code [] [])
  | positiveDefiniteBase, log => some (code [] [])
  | positiveDefiniteBase, zeroVector => some (code [] [])
  -- positive_definite.py:157-158, 214-291
  | symmetricPositiveDefinite, randomPoint => some (code [] [randomPoint])
  | specialHermitianPositiveDefinite, randomPoint => some (code [] [randomPoint])
  | specialHermitianPositiveDefinite, randomTangentVector =>
    some (code [projection, norm] [randomTangentVector])
  | specialHermitianPositiveDefinite, projection => some (code [] [projection])
  | specialHermitianPositiveDefinite, e2rg => some (code [projection] [e2rg])
  | specialHermitianPositiveDefinite, e2rh => some notImplemented
  | specialHermitianPositiveDefinite, exp => some (code [] [exp])
  | specialHermitianPositiveDefinite, retraction => some (code [] [retraction])
  | specialHermitianPositiveDefinite, transport => some (code [projection] [projection])
  -- psd.py:7-70
  | psdBase, typicalDist => some (code [] [])
  | psdBase, innerProduct => some (code [] [])
  | psdBase, dist => some (code [norm, log] [])
  | psdBase, norm => some (code [] [])
  | psdBase, projection => some (code [] [])
  | psdBase, toTangentSpace => some (code [] [])
  | psdBase, e2rg => some (code [] [])
  | psdBase, e2rh => some (code [projection] [])
  | psdBase, exp => some (code [] [])
  | psdBase, retraction => some (code [] [])
  | psdBase, log => some (code [] [])
  | psdBase, randomPoint => some (code [] [])
  | psdBase, randomTangentVector => some (code [randomPoint, projection, norm] [])
  | psdBase, transport => some (code [projection] [])
  | psdBase, zeroVector => some (code [] [])
  -- psd.py:158-161
  | psdFixedRankComplex, randomPoint => some (code [] [])
  -- psd.py:219-276
  | elliptope, typicalDist => some (code [] [])
  | elliptope, innerProduct => some (code [] [])
  | elliptope, norm => some (code [innerProduct] [])
  | elliptope, projection => some (code [] [])
  | elliptope, toTangentSpace => some (code [] [])
  | elliptope, retraction => some (code [] [])
  | elliptope, e2rg => some (code [] [])
  | elliptope, e2rh => some (code [projection] [])
  | elliptope, randomPoint => some (code [] [])
  | elliptope, randomTangentVector => some (code [projection, randomPoint, norm] [])
  | elliptope, transport => some (code [projection] [])
  | elliptope, zeroVector => some (code [] [])
  -- sphere.py:17-71
  | sphereBase, typicalDist => some (code [] [])
  | sphereBase, innerProduct => some (code [] [])
  | sphereBase, norm => some (code [] [])
  | sphereBase, dist => some (code [innerProduct] [])
  | sphereBase, projection => some (code [innerProduct] [])
  | sphereBase, toTangentSpace => some (code [innerProduct] [])
  | sphereBase, weingarten => some (code [innerProduct] [])
  | sphereBase, exp => some (code [norm] [])
  | sphereBase, retraction => some (code [] [])
  | sphereBase, log => some (code [projection, dist, norm] [])
  | sphereBase, randomPoint => some (code [] [])
  | sphereBase, randomTangentVector => some (code [projection] [])
  | sphereBase, transport => some (code [projection] [])
  | sphereBase, pairMean => some (code [] [])
  | sphereBase, zeroVector => some (code [] [])
  -- sphere.py:137-147
  | sphereSubspaceBase, projection => some (code [] [projection])
  | sphereSubspaceBase, randomPoint => some (code [] [randomPoint])
  | sphereSubspaceBase, randomTangentVector => some (code [] [randomTangentVector])
  -- stiefel.py:73-148
  | stiefel, typicalDist => some (code [] [])
  | stiefel, innerProduct => some (code [] [])
  | stiefel, projection => some (code [] [])
  | stiefel, toTangentSpace => some (code [] [])
  | stiefel, weingarten => some (code [] [])
  | stiefel, retraction => some (code [] [])
  | stiefel, norm => some (code [] [])
  | stiefel, randomPoint => some (code [] [])
  | stiefel, randomTangentVector => some (code [projection] [])
  | stiefel, transport => some (code [projection] [])
  | stiefel, exp => some (code [] [])
  | stiefel, zeroVector => some (code [] [])
  | _, _ => none

/-- Attribute look-up: the first class of the list that defines the method, and what follows it (where
`super()` continues). -/
def find (m : Meth) : List Cls → Option (Body × List Cls)
  | [] => none
  | c :: l =>
    match c.own m with
    | some b => some (b, l)
    | none => find m l

/-- A call of the method, looked up in the list, on an object of class `c` reaches no
`NotImplementedError`: every method it calls, directly or not, has code. -/
inductive Returns (c : Cls) : List Cls → Meth → Prop
  | code {m l self super rest} : find m l = some (.code self super, rest) →
      (∀ m' ∈ self, Returns c c.mro m') → (∀ m' ∈ super, Returns c rest m') → Returns c l m

/-- A call of the method raises `NotImplementedError`, itself or in a method it calls.  (The calls
recorded in `own` are made on every path through the code.) -/
inductive Raises (c : Cls) : List Cls → Meth → Prop
  | here {m l rest} : find m l = some (.notImplemented, rest) → Raises c l m
  | self {m m' l self super rest} : find m l = some (.code self super, rest) → m' ∈ self →
      Raises c c.mro m' → Raises c l m
  | super {m m' l self super rest} : find m l = some (.code self super, rest) → m' ∈ super →
      Raises c rest m' → Raises c l m

/-- The class provides the method. -/
def Provides (c : Cls) (m : Meth) : Prop := Returns c c.mro m

/-- The class does not implement the method. -/
def Lacks (c : Cls) (m : Meth) : Prop := Raises c c.mro m

end Cls
end Verif.Core
