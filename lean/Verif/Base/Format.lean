/-
Python's formatting of numbers, for the format codes that pymanopt uses: `d` with a width, `e` with
a precision and optionally the sign `+`, `f` with a precision, and `g`.  Strings are lists of
characters.  The digits are those of the exact value of the float, correctly rounded with ties to
even, as CPython's `format` computes them.  Simplification: there is no negative zero.
-/
import Verif.Base.Num
import Verif.Base.Binary64
import Mathlib.Data.Int.Log

namespace Verif

/-- The last `w` decimal digits of `n`, with leading zeros. -/
def fixedDigits : ℕ → ℕ → List Char
  | 0, _ => []
  | w + 1, n => fixedDigits w (n / 10) ++ [Nat.digitChar (n % 10)]

/-- `str(n)` for a natural number. -/
def natText (n : ℕ) : List Char := fixedDigits (Nat.log 10 n + 1) n

/-- `str(n)` for an integer. -/
def intText (n : ℤ) : List Char := if n < 0 then '-' :: natText n.natAbs else natText n.natAbs

/-- `f"{n:{w}d}"`: an integer, aligned to the right in at least `w` characters. -/
def formatD (w : ℕ) (n : ℤ) : List Char :=
  List.replicate (w - (intText n).length) ' ' ++ intText n

/-- The sign: `-`, and with the option `+` also a `+`. -/
def signText (plus negative : Bool) : List Char :=
  if negative then ['-'] else if plus then ['+'] else []

/-- Rounding of a non-negative number to `prec + 1` significant decimal digits: the digits as an
integer, and the exponent of the first of them. -/
def significant (prec : ℕ) (a : ℚ) : ℕ × ℤ :=
  if a = 0 then (0, 0)
  else
    let e := Int.log 10 a
    let m := (roundEven (a / 10 ^ (e - prec))).toNat
    if m = 10 ^ (prec + 1) then (10 ^ prec, e + 1) else (m, e)

/-- The exponent: its sign and at least two digits. -/
def exponentText (e : ℤ) : List Char :=
  'e' :: (if e < 0 then '-' else '+') :: fixedDigits (max 2 (Nat.log 10 e.natAbs + 1)) e.natAbs

/-- `f"{x:.{prec}e}"`, with `plus` also `f"{x:+.{prec}e}"`, for a positive precision. -/
def formatE (plus : Bool) (prec : ℕ) : XF ℚ → List Char
  | .nan => signText plus false ++ ['n', 'a', 'n']
  | .pinf => signText plus false ++ ['i', 'n', 'f']
  | .ninf => signText plus true ++ ['i', 'n', 'f']
  | .fin q =>
    let d := significant prec |q|
    signText plus (decide (q < 0)) ++
      (Nat.digitChar (d.1 / 10 ^ prec) :: '.' :: fixedDigits prec (d.1 % 10 ^ prec)) ++
      exponentText d.2

/-- `f"{x:.{prec}f}"` for a positive precision. -/
def formatF (prec : ℕ) : XF ℚ → List Char
  | .nan => ['n', 'a', 'n']
  | .pinf => ['i', 'n', 'f']
  | .ninf => ['-', 'i', 'n', 'f']
  | .fin q =>
    let m := (roundEven (|q| * 10 ^ prec)).toNat
    signText false (decide (q < 0)) ++ natText (m / 10 ^ prec) ++
      '.' :: fixedDigits prec (m % 10 ^ prec)

/-- Without the zeros at the end, and without a point before them. -/
def stripZeros (l : List Char) : List Char :=
  let r := l.reverse.dropWhile (· = '0')
  (if r.head? = some '.' then r.tail else r).reverse

/-- `f"{x:g}"`: six significant digits, with an exponent when it is below -4 or above 5. -/
def formatG : XF ℚ → List Char
  | .nan => ['n', 'a', 'n']
  | .pinf => ['i', 'n', 'f']
  | .ninf => ['-', 'i', 'n', 'f']
  | .fin q =>
    let d := significant 5 |q|
    signText false (decide (q < 0)) ++
      if -4 ≤ d.2 ∧ d.2 < 6 then
        let k := (5 - d.2).toNat
        stripZeros (natText (d.1 / 10 ^ k) ++ '.' :: fixedDigits k (d.1 % 10 ^ k))
      else
        stripZeros (Nat.digitChar (d.1 / 10 ^ 5) :: '.' :: fixedDigits 5 (d.1 % 10 ^ 5)) ++
          exponentText d.2

/-! ### Reading numbers -/

/-- The value of a digit. -/
def digitValue (c : Char) : ℕ := c.toNat - 48

/-- The number that a list of digits denotes. -/
def readDigits (l : List Char) : ℕ := l.foldl (fun a c => 10 * a + digitValue c) 0

/-- The number that digits with a sign denote. -/
def readSigned : List Char → ℤ
  | '-' :: l => -readDigits l
  | '+' :: l => readDigits l
  | l => readDigits l

/-- The number that digits with a decimal point denote. -/
def readPoint (l : List Char) : ℚ :=
  let int := l.takeWhile (· ≠ '.')
  let frac := (l.dropWhile (· ≠ '.')).tail
  readDigits (int ++ frac) / 10 ^ frac.length

/-- The number that digits with a decimal point and an exponent denote. -/
def readUnsigned (l : List Char) : ℚ :=
  readPoint (l.takeWhile (· ≠ 'e')) * 10 ^ readSigned (l.dropWhile (· ≠ 'e')).tail

/-- The number that a text in scientific or decimal notation denotes (exactly, as
`fractions.Fraction(text)`). -/
def readNumber : List Char → ℚ
  | '-' :: l => -readUnsigned l
  | '+' :: l => readUnsigned l
  | l => readUnsigned l

end Verif
