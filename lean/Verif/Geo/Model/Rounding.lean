/-
Distances, logarithms and normalisations of `/repo/src/pymanopt/manifolds` in an arithmetic that may
round.  Every operation of numpy on numbers is a function of the arithmetic; a result that is not a
finite number (NaN or infinity) is `none`.  Overflow is not modelled.  `exactArith` gives back the
definitions of the other files, see `Verif/Geo/Props/Rounding.lean`; `b64Arith` is binary64.
-/
import Verif.Base.Binary64
import Mathlib.Analysis.SpecialFunctions.Arcosh
import Mathlib.Analysis.SpecialFunctions.Artanh
import Mathlib.Analysis.SpecialFunctions.Log.Basic
import Mathlib.Analysis.SpecialFunctions.Trigonometric.Inverse

namespace Verif.Geo

/-- The operations of an arithmetic.  `sum` is `np.sum` and the sums inside `np.tensordot` and
`np.linalg.norm`, in whatever order.  Outside their domains `div`, `sqrt`, `acos`, `acosh`, `atanh`
and `log` are not used. -/
structure Arith (K : Type*) where
  add : K → K → K
  sub : K → K → K
  mul : K → K → K
  div : K → K → K
  sum : List K → K
  hypot : K → K → K
  sqrt : K → K
  acos : K → K
  acosh : K → K
  atanh : K → K
  log : K → K

/-- Exact real arithmetic. -/
noncomputable def exactArith : Arith ℝ where
  add := (· + ·)
  sub := (· - ·)
  mul := (· * ·)
  div := (· / ·)
  sum := List.sum
  hypot := fun a b => Real.sqrt (a ^ 2 + b ^ 2)
  sqrt := Real.sqrt
  acos := Real.arccos
  acosh := Real.arcosh
  atanh := Real.artanh
  log := Real.log

/-- Sum from left to right in binary64; the first term is not rounded. -/
def b64Sum : List ℚ → ℚ
  | [] => 0
  | x :: l => l.foldl (fun s x => b64 (s + x)) x

/-- Binary64 with correctly rounded `sqrt` and `hypot`, for given implementations of the
transcendental functions. -/
def b64Arith (acos acosh atanh log : ℚ → ℚ) : Arith ℚ where
  add := fun a b => b64 (a + b)
  sub := fun a b => b64 (a - b)
  mul := fun a b => b64 (a * b)
  div := fun a b => b64 (a / b)
  sum := b64Sum
  hypot := fun a b => b64Sqrt (a ^ 2 + b ^ 2)
  sqrt := b64Sqrt
  acos := acos
  acosh := acosh
  atanh := atanh
  log := log

variable {K : Type*} [Field K] [LinearOrder K] (A : Arith K) {m n k : ℕ}

/-- `a / b`; division by zero gives an infinity or NaN. -/
def Arith.divO (a b : K) : Option K := if b = 0 then none else some (A.div a b)

/-- `np.sqrt`; NaN for negative numbers. -/
def Arith.sqrtO (a : K) : Option K := if 0 ≤ a then some (A.sqrt a) else none

/-- `np.arccos`; NaN outside `[-1, 1]`. -/
def Arith.acosO (a : K) : Option K := if -1 ≤ a ∧ a ≤ 1 then some (A.acos a) else none

/-- `np.arccosh`; NaN below 1. -/
def Arith.acoshO (a : K) : Option K := if 1 ≤ a then some (A.acosh a) else none

/-- `np.arctanh`; NaN outside `[-1, 1]`, infinite at the ends. -/
def Arith.atanhO (a : K) : Option K := if -1 < a ∧ a < 1 then some (A.atanh a) else none

/-- `np.log`; NaN for negative numbers, infinite at 0. -/
def Arith.logO (a : K) : Option K := if 0 < a then some (A.log a) else none

/-- An array none of whose entries is NaN. -/
def allSome {α : Type*} (f : Fin n → Option α) : Option (Fin n → α) :=
  if h : ∀ i, (f i).isSome then some fun i => (f i).get (h i) else none

/-- `np.tensordot(a, b, axes=a.ndim)`, for arrays in the order of their entries. -/
def dotFl (a b : Fin n → K) : K := A.sum (List.ofFn fun i => A.mul (a i) (b i))

/-- `np.linalg.norm(a)`. -/
def normFl (a : Fin n → K) : Option K := A.sqrtO (dotFl A a a)

/-- `_SphereBase.dist` (sphere.py:28-30). -/
def sphereDistFl (a b : Fin n → K) : Option K := A.acosO (max (min (dotFl A a b) 1) (-1))

/-- `_SphereBase.projection` (sphere.py:32-33). -/
def sphereProjFl (x v : Fin n → K) : Fin n → K := fun i =>
  A.sub (v i) (A.mul (dotFl A x v) (x i))

/-- `_SphereBase.log` (sphere.py:49-54). -/
def sphereLogFl (eps : K) (a b : Fin n → K) : Option (Fin n → K) :=
  let vector := sphereProjFl A a fun i => A.sub (b i) (a i)
  (sphereDistFl A a b).bind fun distance =>
  (normFl A vector).bind fun norm =>
  (A.divO (A.add distance eps) (A.add norm eps)).map fun factor i => A.mul factor (vector i)

/-- `_SphereBase._normalize` (sphere.py:73-74). -/
def sphereNormalizeFl (a : Fin n → K) : Option (Fin n → K) :=
  (normFl A a).bind fun norm => allSome fun i => A.divO (a i) norm

/-- `(a * b).sum(0)` of matrices (oblique.py:40, 69). -/
def colSumsFl (a b : Fin m → Fin n → K) (j : Fin n) : K :=
  A.sum (List.ofFn fun i => A.mul (a i j) (b i j))

/-- `Oblique.dist` (oblique.py:39-42). -/
def oblDistFl (a b : Fin m → Fin n → K) : Option K :=
  (allSome fun j => A.acosO (if 1 < colSumsFl A a b j then 1 else colSumsFl A a b j)).bind
    fun d => normFl A d

/-- `Oblique.projection` (oblique.py:44-45). -/
def oblProjFl (x v : Fin m → Fin n → K) : Fin m → Fin n → K := fun i j =>
  A.sub (v i j) (A.mul (x i j) (colSumsFl A x v j))

/-- `Oblique.log` (oblique.py:67-75), column by column. -/
def oblLogFl (eps : K) (a b : Fin m → Fin n → K) (j : Fin n) : Option (Fin m → K) :=
  let vector := oblProjFl A a fun i j => A.sub (b i j) (a i j)
  (A.acosO (colSumsFl A a b j)).bind fun distance =>
  (A.sqrtO (colSumsFl A vector vector j)).bind fun norm =>
  (A.divO (A.add distance eps) (A.add norm eps)).map fun factor i => A.mul (vector i j) factor

/-- `Oblique._normalize_columns` (oblique.py:96-97), column by column. -/
def oblNormalizeFl (a : Fin m → Fin n → K) (j : Fin n) : Option (Fin m → K) :=
  (A.sqrtO (colSumsFl A a a j)).bind fun norm => allSome fun i => A.divO (a i j) norm

/-- `(a.conj() * b).real` of complex numbers, pairs of their parts. -/
def reConjMulFl (a b : K × K) : K := A.sub (A.mul a.1 b.1) (A.mul (-a.2) b.2)

/-- `ComplexCircle.dist` (complex_circle.py:36-37). -/
def ccDistFl (a b : Fin n → K × K) : Option K :=
  (allSome fun i => A.acosO (reConjMulFl A (a i) (b i))).bind fun d => normFl A d

/-- `ComplexCircle.projection` (complex_circle.py:43-44) of one entry.  numpy converts the real
factor to a complex number with imaginary part zero; the products with zero are left out. -/
def ccProjFl (z v : K × K) : K × K :=
  (A.sub v.1 (A.mul (reConjMulFl A v z) z.1), A.sub v.2 (A.mul (reConjMulFl A v z) z.2))

/-- `ComplexCircle.log` (complex_circle.py:73-79) of one entry; `tiny` is `1e-6`. -/
def ccLogFl (tiny : K) (a b : K × K) : Option (K × K) :=
  let v := ccProjFl A a (A.sub b.1 a.1, A.sub b.2 a.2)
  (A.acosO (reConjMulFl A a b)).bind fun di =>
  (if di ≤ tiny then some 1 else A.divO di (A.hypot v.1 v.2)).map fun factor =>
    (A.mul v.1 factor, A.mul v.2 factor)

/-- `ComplexCircle._normalize` (complex_circle.py:101-103) of one entry.  The quotient of a complex
and a real number is the product with the reciprocal (Smith's formula in numpy with imaginary part
zero). -/
def ccNormalizeFl (a : K × K) : Option (K × K) :=
  (A.divO 1 (A.hypot a.1 a.2)).map fun s => (A.mul a.1 s, A.mul a.2 s)

/-- `Grassmann.dist` and `ComplexGrassmann.dist` (grassmann.py:73-77, 177-181) for the singular
values `s`. -/
def grDistFl (s : Fin n → K) : Option K :=
  (allSome fun i => A.acosO (if 1 < s i then 1 else s i)).bind fun d => normFl A d

/-- `np.linalg.norm(a) ** 2` of one vector (hyperbolic.py:94-96). -/
def normSqFl (a : Fin n → K) : Option K := (normFl A a).map fun r => A.mul r r

/-- The distance of one vector in `PoincareBall.dist` (hyperbolic.py:94-103). -/
def pbDist1Fl (a b : Fin n → K) : Option K :=
  (normSqFl A a).bind fun na =>
  (normSqFl A b).bind fun nb =>
  (normSqFl A fun i => A.sub (a i) (b i)).bind fun nd =>
  (A.divO (A.mul 2 nd) (A.mul (A.sub 1 na) (A.sub 1 nb))).bind fun q =>
  A.acoshO (A.add 1 q)

/-- `PoincareBall.dist` (hyperbolic.py:93-104). -/
def pbDistFl (a b : Fin k → Fin n → K) : Option K :=
  (allSome fun l => pbDist1Fl A (a l) (b l)).bind fun d => normFl A d

/-- `PoincareBall.mobius_addition` (hyperbolic.py:165-172) of one vector. -/
def pbMobiusFl (a b : Fin n → K) : Option (Fin n → K) :=
  let c := A.add 1 (A.mul 2 (dotFl A a b))
  let den := A.add c (A.mul (dotFl A a a) (dotFl A b b))
  allSome fun i => A.divO (A.add (A.mul (a i) (A.add c (dotFl A b b)))
    (A.mul (b i) (A.sub 1 (dotFl A a a)))) den

/-- `PoincareBall.log` (hyperbolic.py:143-147) of one vector. -/
def pbLog1Fl (a b : Fin n → K) : Option (Fin n → K) :=
  (pbMobiusFl A (fun i => -a i) b).bind fun w =>
  (normFl A w).bind fun nw =>
  (A.divO 2 (A.sub 1 (dotFl A a a))).bind fun factor =>
  (A.atanhO nw).bind fun t =>
  allSome fun i => (A.divO (A.mul t (w i)) nw).bind fun q => A.divO q (A.div factor 2)

/-- `Positive.dist` (positive.py:95-97). -/
def posDistFl (a b : Fin n → K) : Option K :=
  (allSome fun i => (A.logO (a i)).bind fun x => (A.logO (b i)).map fun y => A.sub x y).bind
    fun r => A.sqrtO (dotFl A r r)

/-- `Positive.log` (positive.py:113-114). -/
def posLogFl (a b : Fin n → K) : Option (Fin n → K) :=
  allSome fun i => (A.logO (b i)).bind fun y => (A.logO (a i)).map fun x => A.mul (a i) (A.sub y x)

/-- `Positive.retraction` (positive.py:116-117). -/
def posRetractFl (p v : Fin n → K) : Option (Fin n → K) :=
  allSome fun i => (A.divO (A.mul (v i) (v i)) (p i)).map fun q =>
    A.add (A.add (p i) (v i)) (A.div q 2)

/-- `_SphereBase.retraction` (sphere.py:46-47). -/
def sphereRetractionFl (x v : Fin n → K) : Option (Fin n → K) :=
  sphereNormalizeFl A fun i => A.add (x i) (v i)

/-- `_SphereBase.pair_mean` (sphere.py:67-68). -/
def spherePairMeanFl (a b : Fin n → K) : Option (Fin n → K) :=
  sphereNormalizeFl A fun i => A.add (a i) (b i)

/-- `Oblique.retraction` (oblique.py:64-65), column by column. -/
def oblRetractionFl (x v : Fin m → Fin n → K) (j : Fin n) : Option (Fin m → K) :=
  oblNormalizeFl A (fun i j => A.add (x i j) (v i j)) j

/-- `Elliptope._normalize_rows` (psd.py:268-269), row by row. -/
def ellNormalizeFl (a : Fin m → Fin n → K) (i : Fin m) : Option (Fin n → K) :=
  (normFl A (a i)).bind fun norm => allSome fun j => A.divO (a i j) norm

/-- `Elliptope.retraction` (psd.py:241-242), row by row. -/
def ellRetractionFl (y v : Fin m → Fin n → K) (i : Fin m) : Option (Fin n → K) :=
  ellNormalizeFl A (fun i j => A.add (y i j) (v i j)) i

/-- `ComplexCircle.retraction` (complex_circle.py:70-71) of one entry. -/
def ccRetractionFl (z v : K × K) : Option (K × K) :=
  ccNormalizeFl A (A.add z.1 v.1, A.add z.2 v.2)

/-- `PoincareBall.exp` and `retraction` (hyperbolic.py:129-141) of one vector, for an implementation
of `tanh`. -/
def pbExp1Fl (tanh : K → K) (x v : Fin n → K) : Option (Fin n → K) :=
  (normFl A v).bind fun nv =>
  (A.divO 2 (A.sub 1 (dotFl A x x))).bind fun factor =>
  (A.divO (tanh (A.div (A.mul nv factor) 2)) (A.add nv (if nv = 0 then 1 else 0))).bind fun c =>
  pbMobiusFl A x fun i => A.mul (v i) c

/-- `multisym` (multi.py:39), and `multiherm` (multi.py:42-43) of real matrices, of one matrix:
`0.5 * (A + multitransp(A))`. -/
def multisymFl (half : K) (a : Fin n → Fin n → K) : Fin n → Fin n → K := fun i j =>
  A.mul half (A.add (a i j) (a j i))

/-- `multiskew` (multi.py:53) of one matrix: `0.5 * (A - multitransp(A))`. -/
def multiskewFl (half : K) (a : Fin n → Fin n → K) : Fin n → Fin n → K := fun i j =>
  A.mul half (A.sub (a i j) (a j i))

end Verif.Geo
