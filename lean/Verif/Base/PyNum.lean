/-
Python scalars and exceptions.

The optimizers of pymanopt work on Python / numpy scalars.  `PyNum F` is an
abstract interface with *uninterpreted* arithmetic, Boolean comparisons and a
division that may raise.  `LawfulPyNum F` lists the only facts about
comparisons that the order-theoretic theorems use; all of them hold for IEEE
doubles (with NaN and infinities) as well as for exact reals.
-/
import Mathlib.Data.Rat.Defs

namespace Verif

/-- Python exceptions that the modelled code can raise. -/
inductive PyErr
  | zeroDivision
  | valueError
  | typeError
  | indexError
  | unboundLocal
  | overflow
  | attributeError
  | assertion
  | notImplemented
  | runtime
  | key
  deriving DecidableEq, Repr

/-- Python scalars, operations used by `optimizers/*.py`. -/
class PyNum (F : Type*) where
  /-- a literal -/
  lit : ℚ → F
  /-- `np.inf` -/
  inf : F
  /-- `np.nan` -/
  nan : F
  add : F → F → F
  sub : F → F → F
  mul : F → F → F
  neg : F → F
  abs : F → F
  /-- `x ** y` -/
  pow : F → F → F
  /-- `np.sqrt` -/
  sqrt : F → F
  /-- `a / b`: may raise `ZeroDivisionError` for Python floats -/
  div : F → F → Except PyErr F
  /-- `np.float64(x)` -/
  toNp : F → F
  /-- `float(x)` -/
  toFloat : F → F
  lt : F → F → Bool
  le : F → F → Bool
  /-- `np.isnan` -/
  isnan : F → Bool

namespace PyNum
variable {F : Type*} [PyNum F]

/-- Python's builtin `max(a, b)`: the first argument unless the second is greater. -/
def pymax (a b : F) : F := if lt a b then b else a

/-- Python's builtin `min(a, b)`: the first argument unless the second is smaller. -/
def pymin (a b : F) : F := if lt b a then b else a

end PyNum

/-- Facts about comparisons used by the theorems; valid for IEEE doubles. -/
class LawfulPyNum (F : Type*) [PyNum F] : Prop where
  lt_irrefl : ∀ a : F, PyNum.lt a a = false
  lt_trans : ∀ a b c : F, PyNum.lt a b = true → PyNum.lt b c = true → PyNum.lt a c = true
  /-- without NaN, `≤` is the negation of `>` -/
  le_iff : ∀ a b : F, PyNum.isnan a = false → PyNum.isnan b = false →
    (PyNum.le a b = true ↔ PyNum.lt b a = false)
  /-- without NaN, comparisons are those of a linear preorder -/
  lt_cotrans : ∀ a b c : F, PyNum.isnan b = false → PyNum.lt a c = true →
    PyNum.lt a b = true ∨ PyNum.lt b c = true
  /-- comparisons with NaN are false -/
  lt_nan_left : ∀ a b : F, PyNum.isnan a = true → PyNum.lt a b = false
  lt_nan_right : ∀ a b : F, PyNum.isnan b = true → PyNum.lt a b = false
  le_nan_left : ∀ a b : F, PyNum.isnan a = true → PyNum.le a b = false
  le_nan_right : ∀ a b : F, PyNum.isnan b = true → PyNum.le a b = false
  isnan_lit : ∀ q, PyNum.isnan (PyNum.lit q : F) = false
  lt_lit : ∀ p q : ℚ, PyNum.lt (PyNum.lit p : F) (PyNum.lit q) = true ↔ p < q
  /-- negation is exact -/
  neg_pos : ∀ a : F, PyNum.lt (PyNum.lit 0) a = true → PyNum.lt (PyNum.neg a) (PyNum.lit 0) = true

/-- The scalar type really has a NaN (not the case for exact reals). -/
class HasNaN (F : Type*) [PyNum F] : Prop where
  isnan_nan : PyNum.isnan (PyNum.nan : F) = true

namespace LawfulPyNum
variable {F : Type*} [PyNum F] [LawfulPyNum F]
open PyNum

theorem le_refl (a : F) (h : isnan a = false) : le a a = true :=
  (le_iff a a h h).2 (lt_irrefl a)

theorem not_lt_trans {a b c : F} (hb : isnan b = false) (h1 : lt b a = false)
    (h2 : lt c b = false) : lt c a = false := by
  by_contra h
  have h : lt c a = true := by simpa using h
  rcases lt_cotrans c b a hb h with h' | h'
  · simp [h'] at h2
  · simp [h'] at h1

theorem le_trans {a b c : F} (ha : isnan a = false) (hb : isnan b = false)
    (hc : isnan c = false) (h1 : le a b = true) (h2 : le b c = true) : le a c = true := by
  rw [le_iff _ _ ha hb] at h1
  rw [le_iff _ _ hb hc] at h2
  rw [le_iff _ _ ha hc]
  exact not_lt_trans hb h1 h2

theorem lt_asymm {a b : F} (h : lt a b = true) : lt b a = false := by
  by_contra h'
  have h' : lt b a = true := by simpa using h'
  have := lt_trans a b a h h'
  simp [lt_irrefl] at this

theorem not_nan_of_lt_left {a b : F} (h : lt a b = true) : isnan a = false := by
  by_contra h'
  have := lt_nan_left a b (by simpa using h')
  simp [h] at this

theorem not_nan_of_lt_right {a b : F} (h : lt a b = true) : isnan b = false := by
  by_contra h'
  have := lt_nan_right a b (by simpa using h')
  simp [h] at this

theorem le_of_lt {a b : F} (h : lt a b = true) : le a b = true :=
  (le_iff a b (not_nan_of_lt_left h) (not_nan_of_lt_right h)).2 (lt_asymm h)

theorem le_total (a b : F) (ha : isnan a = false) (hb : isnan b = false) :
    le a b = true ∨ le b a = true := by
  by_cases h : lt b a = true
  · exact Or.inr (le_of_lt h)
  · exact Or.inl ((le_iff a b ha hb).2 (by simpa using h))

end LawfulPyNum

end Verif
