/-
Instances of the scalar interface:

* `ℝ`: exact reals, used for functions that never touch `np.nan`/`np.inf`.
  Division by zero is an error: it stands for every non-finite outcome
  (Python's `ZeroDivisionError`, numpy's `nan`/`inf`).
* `Num K`: Python and numpy scalars with NaN and infinities and exact finite
  arithmetic in an ordered field `K` (`ℚ` for runnable witnesses, `ℝ` for
  theorems).  Division of two Python floats by zero raises
  `ZeroDivisionError`; as soon as a numpy scalar is involved it returns
  `inf`/`nan`.  Simplifications: zero is unsigned, no overflow or rounding;
  over `ℚ`, `sqrt` of a non-square and non-integer powers are approximations.
-/
import Verif.Base.PyNum
import Mathlib.Analysis.SpecialFunctions.Pow.Real
import Mathlib.Analysis.Real.Sqrt
import Mathlib.Algebra.Order.Field.Rat

namespace Verif

noncomputable instance : PyNum ℝ where
  lit q := (q : ℝ)
  inf := 0
  nan := 0
  add a b := a + b
  sub a b := a - b
  mul a b := a * b
  neg a := -a
  abs a := |a|
  pow a b := a ^ b
  sqrt a := Real.sqrt a
  div a b := open Classical in if b = 0 then .error .zeroDivision else .ok (a / b)
  toNp a := a
  toFloat a := a
  lt a b := open Classical in decide (a < b)
  le a b := open Classical in decide (a ≤ b)
  isnan _ := false

/-- The values of a float with finite part `K`. -/
inductive XF (K : Type*)
  | nan
  | ninf
  | pinf
  | fin (q : K)
  deriving DecidableEq, Repr

/-- An ordered field with decidable order, a square root and a power. -/
class NumField (K : Type*) extends Field K, LinearOrder K, IsStrictOrderedRing K where
  sqrt : K → K
  pow : K → K → K

/-- Rationals: root exact for squares, power exact for natural exponents. -/
instance : NumField ℚ where
  sqrt q :=
    if Nat.sqrt q.num.natAbs * Nat.sqrt q.num.natAbs = q.num.natAbs ∧
        Nat.sqrt q.den * Nat.sqrt q.den = q.den then
      (Nat.sqrt q.num.natAbs : ℚ) / (Nat.sqrt q.den : ℚ)
    else (Nat.sqrt (q.num.natAbs * q.den * 10 ^ 20) : ℚ) / ((q.den : ℚ) * 10 ^ 10)
  pow a b := if b.den = 1 ∧ 0 ≤ b then a ^ b.num.natAbs else a

noncomputable instance : NumField ℝ where
  sqrt := Real.sqrt
  pow a b := a ^ b

namespace XF
variable {K : Type*} [NumField K]

def neg : XF K → XF K
  | nan => nan
  | ninf => pinf
  | pinf => ninf
  | fin q => fin (-q)

def add : XF K → XF K → XF K
  | nan, _ => nan
  | _, nan => nan
  | pinf, ninf => nan
  | ninf, pinf => nan
  | pinf, _ => pinf
  | _, pinf => pinf
  | ninf, _ => ninf
  | _, ninf => ninf
  | fin a, fin b => fin (a + b)

/-- `q * x` for infinite `x` -/
def sgn (q : K) (x : XF K) : XF K := if q = 0 then nan else if 0 < q then x else x.neg

def mul : XF K → XF K → XF K
  | nan, _ => nan
  | _, nan => nan
  | pinf, pinf => pinf
  | pinf, ninf => ninf
  | ninf, pinf => ninf
  | ninf, ninf => pinf
  | pinf, fin q => sgn q pinf
  | fin q, pinf => sgn q pinf
  | ninf, fin q => sgn q ninf
  | fin q, ninf => sgn q ninf
  | fin a, fin b => fin (a * b)

def div : XF K → XF K → XF K
  | nan, _ => nan
  | _, nan => nan
  | pinf, pinf => nan
  | pinf, ninf => nan
  | ninf, pinf => nan
  | ninf, ninf => nan
  | pinf, fin q => if q < 0 then ninf else pinf
  | ninf, fin q => if q < 0 then pinf else ninf
  | fin _, pinf => fin 0
  | fin _, ninf => fin 0
  | fin a, fin b =>
    if b = 0 then (if a = 0 then nan else if 0 < a then pinf else ninf) else fin (a / b)

def abs : XF K → XF K
  | nan => nan
  | ninf => pinf
  | pinf => pinf
  | fin q => fin (if q < 0 then -q else q)

def lt : XF K → XF K → Bool
  | nan, _ => false
  | _, nan => false
  | ninf, ninf => false
  | ninf, _ => true
  | _, ninf => false
  | pinf, _ => false
  | _, pinf => true
  | fin a, fin b => decide (a < b)

def le : XF K → XF K → Bool
  | nan, _ => false
  | _, nan => false
  | ninf, _ => true
  | _, ninf => false
  | _, pinf => true
  | pinf, _ => false
  | fin a, fin b => decide (a ≤ b)

def isnan : XF K → Bool
  | nan => true
  | _ => false

def sqrt : XF K → XF K
  | nan => nan
  | ninf => nan
  | pinf => pinf
  | fin q => if q < 0 then nan else fin (NumField.sqrt q)

/-- power; for infinite arguments only roughly modelled -/
def pow : XF K → XF K → XF K
  | nan, _ => nan
  | _, nan => nan
  | fin a, fin b => fin (NumField.pow a b)
  | a, _ => a

end XF

/-- A Python (`np = false`) or numpy (`np = true`) scalar. -/
structure Num (K : Type*) where
  np : Bool
  v : XF K
  deriving DecidableEq, Repr

namespace Num
/-- finite Python scalar -/
def py {K : Type*} (q : K) : Num K := ⟨false, .fin q⟩
/-- finite numpy scalar -/
def npy {K : Type*} (q : K) : Num K := ⟨true, .fin q⟩
end Num

instance {K : Type*} [NumField K] : PyNum (Num K) where
  lit q := ⟨false, .fin (q : K)⟩
  inf := ⟨false, .pinf⟩
  nan := ⟨false, .nan⟩
  add a b := ⟨a.np || b.np, a.v.add b.v⟩
  sub a b := ⟨a.np || b.np, a.v.add b.v.neg⟩
  mul a b := ⟨a.np || b.np, a.v.mul b.v⟩
  neg a := ⟨a.np, a.v.neg⟩
  abs a := ⟨a.np, a.v.abs⟩
  pow a b := ⟨a.np || b.np, a.v.pow b.v⟩
  sqrt a := ⟨true, a.v.sqrt⟩
  div a b :=
    if a.np = false ∧ b.np = false ∧ b.v = .fin 0 then .error .zeroDivision
    else .ok ⟨a.np || b.np, a.v.div b.v⟩
  toNp a := ⟨true, a.v⟩
  toFloat a := ⟨false, a.v⟩
  lt a b := a.v.lt b.v
  le a b := a.v.le b.v
  isnan a := a.v.isnan

instance : LawfulPyNum ℝ where
  lt_irrefl a := by simp [PyNum.lt]
  lt_trans a b c := by simp only [PyNum.lt, decide_eq_true_eq]; exact _root_.lt_trans
  le_iff a b _ _ := by simp [PyNum.lt, PyNum.le]
  lt_cotrans a b c _ := by
    simp only [PyNum.lt, decide_eq_true_eq]
    intro h
    by_cases h' : a < b
    · exact Or.inl h'
    · exact Or.inr (lt_of_le_of_lt (not_lt.1 h') h)
  lt_nan_left a b h := by simp [PyNum.isnan] at h
  lt_nan_right a b h := by simp [PyNum.isnan] at h
  le_nan_left a b h := by simp [PyNum.isnan] at h
  le_nan_right a b h := by simp [PyNum.isnan] at h
  isnan_lit q := rfl
  lt_lit p q := by simp [PyNum.lt, PyNum.lit]
  neg_pos a := by simp [PyNum.lt, PyNum.lit, PyNum.neg]

instance {K : Type*} [NumField K] : LawfulPyNum (Num K) where
  lt_irrefl a := by
    obtain ⟨_, _ | _ | _ | a⟩ := a <;> simp [PyNum.lt, XF.lt]
  lt_trans a b c := by
    obtain ⟨_, _ | _ | _ | a⟩ := a <;> obtain ⟨_, _ | _ | _ | b⟩ := b <;>
      obtain ⟨_, _ | _ | _ | c⟩ := c <;> simp [PyNum.lt, XF.lt]
    exact fun h h' => _root_.lt_trans h h'
  le_iff a b := by
    obtain ⟨_, _ | _ | _ | a⟩ := a <;> obtain ⟨_, _ | _ | _ | b⟩ := b <;>
      simp [PyNum.lt, XF.lt, PyNum.le, XF.le, PyNum.isnan, XF.isnan]
  lt_cotrans a b c := by
    obtain ⟨_, _ | _ | _ | a⟩ := a <;> obtain ⟨_, _ | _ | _ | b⟩ := b <;>
      obtain ⟨_, _ | _ | _ | c⟩ := c <;> simp [PyNum.lt, XF.lt, PyNum.isnan, XF.isnan]
    intro h
    by_cases h' : a < b
    · exact Or.inl h'
    · exact Or.inr (lt_of_le_of_lt (not_lt.1 h') h)
  lt_nan_left a b h := by
    obtain ⟨_, _ | _ | _ | a⟩ := a <;> simp_all [PyNum.lt, XF.lt, PyNum.isnan, XF.isnan]
  lt_nan_right a b h := by
    obtain ⟨_, _ | _ | _ | b⟩ := b <;> obtain ⟨_, _ | _ | _ | a⟩ := a <;>
      simp_all [PyNum.lt, XF.lt, PyNum.isnan, XF.isnan]
  le_nan_left a b h := by
    obtain ⟨_, _ | _ | _ | a⟩ := a <;> simp_all [PyNum.le, XF.le, PyNum.isnan, XF.isnan]
  le_nan_right a b h := by
    obtain ⟨_, _ | _ | _ | b⟩ := b <;> obtain ⟨_, _ | _ | _ | a⟩ := a <;>
      simp_all [PyNum.le, XF.le, PyNum.isnan, XF.isnan]
  isnan_lit q := rfl
  lt_lit p q := by simp [PyNum.lt, XF.lt, PyNum.lit]
  neg_pos a := by
    obtain ⟨_, _ | _ | _ | a⟩ := a <;> simp [PyNum.lt, XF.lt, PyNum.lit, PyNum.neg, XF.neg]

instance {K : Type*} [NumField K] : HasNaN (Num K) where
  isnan_nan := rfl

end Verif
