/-
`/repo/src/pymanopt/tools/printer.py` and `identify_linear_piece` of
`/repo/src/pymanopt/tools/diagnostics.py`.
-/
import Verif.Base.PyNum
import Mathlib.Data.List.Basic

namespace Verif.Core
open Verif

/-! ### Printer.  Strings are lists of characters. -/

/-- `" " * n` for an integer `n`: the empty string for `n ≤ 0`. -/
def spaces (n : ℤ) : List Char := List.replicate n.toNat ' '

/-- A column: its name and its format string, the latter as the formatting function
`formatter.format(value=…)` it denotes. -/
structure Column (V : Type*) where
  name : List Char
  format : V → List Char

/-- A `ColumnPrinter` (tools/printer.py:29-55). -/
structure ColumnPrinter (V : Type*) where
  columns : List (Column V)
  padding : ℤ
  widths : List ℤ

variable {V : Type*}

/-- Column widths (tools/printer.py:66-79). -/
def columnWidths (columns : List (Column V)) (placeholders : List V) (padding : ℤ) : List ℤ :=
  (columns.zip placeholders).map fun p =>
    max (p.1.name.length : ℤ) ((p.1.format p.2).length : ℤ) + padding

/-- `ColumnPrinter.__init__` (tools/printer.py:50-79): `map(tuple, zip(*columns))` cannot be
unpacked into two names when `columns` is empty (`ValueError`).  `zero` is the default
placeholder `0`. -/
def ColumnPrinter.mk? (columns : List (Column V)) (placeholders : Option (List V)) (zero : V)
    (padding : ℤ) : Except PyErr (ColumnPrinter V) :=
  if columns = [] then .error .valueError
  else
    let ph := placeholders.getD (List.replicate columns.length zero)
    .ok { columns := columns, padding := padding, widths := columnWidths columns ph padding }

/-- The two lines of `ColumnPrinter.print_header` (tools/printer.py:81-95); `zip(*segments)` raises
`ValueError` when there is no segment. -/
def ColumnPrinter.header (p : ColumnPrinter V) : Except PyErr (List Char × List Char) :=
  let segments := (p.columns.zip p.widths).map fun c =>
    (c.1.name ++ spaces (c.2 - c.1.name.length),
      List.replicate (c.2 - p.padding).toNat '-' ++ spaces p.padding)
  if segments = [] then .error .valueError
  else .ok ((segments.map Prod.fst).flatten, (segments.map Prod.snd).flatten)

/-- The line of `ColumnPrinter.print_row` (tools/printer.py:97-110). -/
def ColumnPrinter.row (p : ColumnPrinter V) (values : List V) : List Char :=
  ((p.columns.zip (p.widths.zip values)).map fun c =>
    c.1.format c.2.2 ++ spaces (c.2.1 - (c.1.format c.2.2).length)).flatten

/-! ### Linear-piece detection -/

/-- Index of the first least element, as `np.argmin` (no NaN): scan with the best index so far. -/
def argminAux {R : Type*} [LT R] [DecidableLT R] : List R → ℕ → ℕ → R → ℕ
  | [], _, best, _ => best
  | r :: rs, i, best, b => if r < b then argminAux rs (i + 1) i r else argminAux rs (i + 1) best b

/-- `np.argmin` raises `ValueError` for an empty array. -/
def argmin {R : Type*} [LT R] [DecidableLT R] : List R → Except PyErr ℕ
  | [] => .error .valueError
  | r :: rs => .ok (argminAux rs 1 0 r)

/-- Fits of the windows `k, k+1, …` (tools/diagnostics.py:23-29).  `fit k` is what `np.polyfit`
returns on `x[k : k+window_length+1]`, `y[…]`: the polynomial and the list of residuals, which is
empty when the least-squares problem is rank deficient or has no more data than unknowns; storing
an empty array into `residues[k]` raises `ValueError`. -/
def fitWindows {P R : Type*} (fit : ℕ → P × List R) (root : R → R) :
    ℕ → ℕ → Except PyErr (List (P × R))
  | 0, _ => .ok []
  | n + 1, k =>
    match (fit k).2 with
    | [r] =>
      match fitWindows fit root n (k + 1) with
      | .error e => .error e
      | .ok l => .ok (((fit k).1, root r) :: l)
    | _ => .error .valueError

/-- `identify_linear_piece` (tools/diagnostics.py:10-33) for data of length `n`: the first index of
the segment, whose indices are `best, …, best + window_length`, and the polynomial.
`np.zeros(len(x) - window_length)` raises `ValueError` for a negative length. -/
def identifyLinearPiece {P R : Type*} [LT R] [DecidableLT R] (fit : ℕ → P × List R) (root : R → R)
    (n windowLength : ℕ) : Except PyErr (List ℕ × P) :=
  if n < windowLength then .error .valueError
  else
    match fitWindows fit root (n - windowLength) 0 with
    | .error e => .error e
    | .ok fits =>
      match argmin (fits.map Prod.snd) with
      | .error e => .error e
      | .ok best =>
        match fits[best]? with
        | none => .error .indexError
        | some f => .ok (List.range' best (windowLength + 1), f.1)

end Verif.Core
