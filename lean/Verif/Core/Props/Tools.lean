/-
C48, C49: column printer and linear-piece detection.
-/
import Verif.Core.Model.Tools
import Mathlib.Algebra.BigOperators.Group.List.Basic
import Mathlib.Algebra.Order.BigOperators.Group.List
import Mathlib.Data.List.GetD
import Mathlib.Data.Real.Basic
import Mathlib.Tactic.Linarith

namespace Verif.Core
open Verif

variable {V : Type*}

/-! ### C48 -/

/-- `line` consists of the cells `cells`, cell `i` padded with blanks to width `widths i` and
starting at the sum of the widths before it. -/
def Aligned (line : List Char) (cells : List (List Char)) (widths : List ℤ) : Prop :=
  (line.length : ℤ) = widths.sum ∧ cells.length = widths.length ∧
  ∀ (i : ℕ) (s : List Char) (w : ℤ), cells[i]? = some s → widths[i]? = some w →
    (line.drop (widths.take i).sum.toNat).take w.toNat =
      s ++ List.replicate (w.toNat - s.length) ' '

theorem aligned_flatten (cells : List (List Char)) (widths : List ℤ)
    (hlen : cells.length = widths.length)
    (hfit : ∀ (i : ℕ) (s : List Char) (w : ℤ), cells[i]? = some s → widths[i]? = some w →
      (s.length : ℤ) ≤ w) :
    Aligned (((cells.zip widths).map fun c => c.1 ++ spaces (c.2 - c.1.length)).flatten)
      cells widths := by
  induction cells generalizing widths with
  | nil =>
    cases widths with
    | nil => exact ⟨rfl, rfl, by simp⟩
    | cons => simp at hlen
  | cons s cells ih =>
    cases widths with
    | nil => simp at hlen
    | cons w widths =>
      obtain ⟨h1, h2, h3⟩ := ih widths (by simpa using hlen)
        (fun i s' w' hs hw => hfit (i + 1) s' w' (by simpa using hs) (by simpa using hw))
      have hsw : (s.length : ℤ) ≤ w := hfit 0 s w (by simp) (by simp)
      have hw0 : 0 ≤ w := le_trans (Int.natCast_nonneg _) hsw
      have hwid : ∀ x ∈ widths, 0 ≤ x := by
        intro x hx
        obtain ⟨i, hi⟩ := List.mem_iff_getElem?.mp hx
        have hi' : i < cells.length := by
          have := (List.getElem?_eq_some_iff.mp hi).1
          simp at hlen; omega
        exact le_trans (Int.natCast_nonneg _)
          (hfit (i + 1) cells[i] x (by simp [hi']) (by simpa using hi))
      have hcell : (s ++ spaces (w - s.length)).length = w.toNat := by
        simp [spaces]; omega
      refine ⟨?_, hlen, ?_⟩
      · simp only [List.zip_cons_cons, List.map_cons, List.flatten_cons, List.length_append (bs := List.flatten _),
          hcell, List.sum_cons]
        push_cast
        rw [h1, Int.toNat_of_nonneg hw0]
      · intro i s' w' hs hw
        cases i with
        | zero =>
          simp only [List.getElem?_cons_zero, Option.some.injEq] at hs hw
          subst hs; subst hw
          simp only [List.zip_cons_cons, List.map_cons, List.flatten_cons, List.take_zero,
            List.sum_nil, Int.toNat_zero, List.drop_zero]
          rw [← hcell, List.take_left]
          simp only [spaces]
          congr 2
          simp
        | succ i =>
          simp only [List.getElem?_cons_succ] at hs hw
          have hsum : 0 ≤ (widths.take i).sum :=
            List.sum_nonneg fun x hx => hwid x (List.mem_of_mem_take hx)
          simp only [List.zip_cons_cons, List.map_cons, List.flatten_cons, List.take_succ_cons,
            List.sum_cons]
          rw [Int.toNat_add hw0 hsum, ← hcell, ← List.drop_drop, List.drop_left]
          exact h3 i s' w' hs hw

theorem columnWidths_length (columns : List (Column V)) (ph : List V)
    (h : ph.length = columns.length) (padding : ℤ) :
    (columnWidths columns ph padding).length = columns.length := by
  simp [columnWidths, h]

theorem columnWidths_get (columns : List (Column V)) (ph : List V) (padding : ℤ)
    (i : ℕ) (w : ℤ) (hw : (columnWidths columns ph padding)[i]? = some w) :
    ∃ c v, columns[i]? = some c ∧ ph[i]? = some v ∧
      w = max (c.name.length : ℤ) (c.format v).length + padding := by
  simp only [columnWidths, List.getElem?_map, Option.map_eq_some_iff] at hw
  obtain ⟨⟨c, v⟩, hcv, rfl⟩ := hw
  obtain ⟨h1, h2⟩ := List.getElem?_zip_eq_some.mp hcv
  exact ⟨c, v, h1, h2, rfl⟩

/-- C48, widths: one per column, at least as wide as the name and the formatted placeholder plus
the padding, and no wider than the longer of the two plus the padding. -/
theorem C48_widths (columns : List (Column V)) (placeholders : Option (List V)) (zero : V)
    (padding : ℤ) (p : ColumnPrinter V)
    (hp : ColumnPrinter.mk? columns placeholders zero padding = .ok p)
    (hph : ∀ l, placeholders = some l → l.length = columns.length) :
    p.columns = columns ∧ p.padding = padding ∧ p.widths.length = columns.length ∧
    ∀ (i : ℕ) (c : Column V) (w : ℤ) (v : V), columns[i]? = some c → p.widths[i]? = some w →
      (placeholders.getD (List.replicate columns.length zero))[i]? = some v →
      (c.name.length : ℤ) + padding ≤ w ∧ ((c.format v).length : ℤ) + padding ≤ w ∧
        (w = c.name.length + padding ∨ w = (c.format v).length + padding) := by
  unfold ColumnPrinter.mk? at hp
  split at hp
  · cases hp
  · injection hp with hp
    subst hp
    have hl : (placeholders.getD (List.replicate columns.length zero)).length = columns.length := by
      cases placeholders with
      | none => simp
      | some l => exact hph l rfl
    refine ⟨rfl, rfl, columnWidths_length _ _ hl _, ?_⟩
    intro i c w v hc hw hv
    obtain ⟨c', v', h1, h2, rfl⟩ := columnWidths_get _ _ _ i w hw
    rw [hc] at h1; injection h1 with h1; subst h1
    rw [hv] at h2; injection h2 with h2; subst h2
    refine ⟨by linarith [le_max_left (c.name.length : ℤ) (c.format v).length],
      by linarith [le_max_right (c.name.length : ℤ) (c.format v).length], ?_⟩
    rcases max_choice (c.name.length : ℤ) (c.format v).length with h | h <;> rw [h] <;> simp

/-- C48, header: with non-negative padding both header lines have the sum of the column widths as
length, the first one with the column names, the second one with dashes below them, at the offsets
of the columns. -/
theorem C48_header (columns : List (Column V)) (placeholders : Option (List V)) (zero : V)
    (padding : ℤ) (hpad : 0 ≤ padding) (p : ColumnPrinter V)
    (hp : ColumnPrinter.mk? columns placeholders zero padding = .ok p)
    (hph : ∀ l, placeholders = some l → l.length = columns.length) :
    ∃ h u, p.header = .ok (h, u) ∧ Aligned h (columns.map Column.name) p.widths ∧
      Aligned u (p.widths.map fun w => List.replicate (w - padding).toNat '-') p.widths := by
  have hw := C48_widths columns placeholders zero padding p hp hph
  obtain ⟨hcols, hpd, hlen, hwid⟩ := hw
  have hne : columns ≠ [] := by
    rintro rfl
    simp [ColumnPrinter.mk?] at hp
  have hl : (placeholders.getD (List.replicate columns.length zero)).length = columns.length := by
    cases placeholders with
    | none => simp
    | some l => exact hph l rfl
  have hbound : ∀ (i : ℕ) (c : Column V) (w : ℤ), columns[i]? = some c → p.widths[i]? = some w →
      (c.name.length : ℤ) + padding ≤ w := by
    intro i c w hc hw
    have hi : i < columns.length := (List.getElem?_eq_some_iff.mp hc).1
    exact (hwid i c w _ hc hw (List.getElem?_eq_getElem (by omega))).1
  have a1 := aligned_flatten (columns.map Column.name) p.widths (by simp [hlen]) (by
    intro i s w hs hw
    simp only [List.getElem?_map, Option.map_eq_some_iff] at hs
    obtain ⟨c, hc, rfl⟩ := hs
    linarith [hbound i c w hc hw])
  have hw0 : ∀ w ∈ p.widths, padding ≤ w := by
    intro w hw
    obtain ⟨i, hi⟩ := List.mem_iff_getElem?.mp hw
    have hi' : i < columns.length := by
      have := (List.getElem?_eq_some_iff.mp hi).1
      omega
    have := hbound i columns[i] w (List.getElem?_eq_getElem hi') hi
    omega
  have a2 := aligned_flatten (p.widths.map fun w => List.replicate (w - padding).toNat '-') p.widths
    (by simp) (by
    intro i s w hs hw
    simp only [List.getElem?_map, hw, Option.map_some, Option.some.injEq] at hs
    subst hs
    have := hw0 w (List.mem_of_getElem? hw)
    simp; omega)
  have e1 : (((columns.map Column.name).zip p.widths).map fun c => c.1 ++ spaces (c.2 - c.1.length))
      = ((columns.zip p.widths).map fun c => c.1.name ++ spaces (c.2 - c.1.name.length)) := by
    rw [List.zip_map_left]
    simp [List.map_map, Function.comp_def]
  have e2 : (((p.widths.map fun w => List.replicate (w - padding).toNat '-').zip p.widths).map
        fun c => c.1 ++ spaces (c.2 - c.1.length))
      = ((columns.zip p.widths).map fun c =>
          List.replicate (c.2 - padding).toNat '-' ++ spaces padding) := by
    apply List.ext_getElem
    · simp [hlen]
    · intro i h1 h2
      simp only [List.getElem_map, List.getElem_zip, List.length_replicate]
      congr 2
      have : padding ≤ p.widths[i]'(by simp at h2; omega) := hw0 _ (List.getElem_mem _)
      omega
  rw [e1] at a1
  rw [e2] at a2
  refine ⟨_, _, ?_, a1, a2⟩
  unfold ColumnPrinter.header
  have hz : (columns.zip p.widths) ≠ [] := by
    intro h
    have := congrArg List.length h
    simp [hlen] at this
    exact hne this
  simp [hcols, hpd, hz, List.map_map, Function.comp_def]

/-- C48, rows: a row with as many values as columns, each formatted value no longer than its
column, has the sum of the column widths as length and each cell at its column's offset. -/
theorem C48_row (columns : List (Column V)) (placeholders : Option (List V)) (zero : V)
    (padding : ℤ) (p : ColumnPrinter V)
    (hp : ColumnPrinter.mk? columns placeholders zero padding = .ok p)
    (hph : ∀ l, placeholders = some l → l.length = columns.length)
    (values : List V) (hv : values.length = columns.length)
    (hfit : ∀ (i : ℕ) (c : Column V) (w : ℤ) (v : V), columns[i]? = some c →
      p.widths[i]? = some w → values[i]? = some v → ((c.format v).length : ℤ) ≤ w) :
    Aligned (p.row values) ((columns.zip values).map fun c => c.1.format c.2) p.widths := by
  obtain ⟨hcols, -, hlen, -⟩ := C48_widths columns placeholders zero padding p hp hph
  have a := aligned_flatten ((columns.zip values).map fun c => c.1.format c.2) p.widths
    (by simp [hlen, hv]) (by
      intro i s w hs hw
      simp only [List.getElem?_map, Option.map_eq_some_iff] at hs
      obtain ⟨⟨c, v⟩, hcv, rfl⟩ := hs
      obtain ⟨h1, h2⟩ := List.getElem?_zip_eq_some.mp hcv
      exact hfit i c w v h1 hw h2)
  have e : ((((columns.zip values).map fun c => c.1.format c.2).zip p.widths).map
      fun c => c.1 ++ spaces (c.2 - c.1.length)) =
      ((p.columns.zip (p.widths.zip values)).map fun c =>
        c.1.format c.2.2 ++ spaces (c.2.1 - (c.1.format c.2.2).length)) := by
    apply List.ext_getElem
    · simp [hlen, hv, hcols]
    · intro i h1 h2
      simp [hcols]
  rw [e] at a
  exact a

/-- Hypotheses of C48 with two columns, the iteration and the cost. -/
example : ∃ p, ColumnPrinter.mk? (V := ℕ)
    [⟨"Iteration".toList, fun n => (toString n).toList⟩, ⟨"Cost".toList, fun n => List.replicate (n + 5) '9'⟩]
    none 0 4 = .ok p ∧ p.widths = [13, 9] ∧
    ∃ h u, p.header = .ok (h, u) ∧ h = "Iteration    Cost     ".toList ∧
      u = "---------    -----    ".toList := by
  refine ⟨_, rfl, by decide +kernel, _, _, rfl, by decide +kernel, by decide +kernel⟩

/-! ### C49 -/

variable {P R : Type*} [LinearOrder R]

theorem argminAux_spec (rs : List R) (i best : ℕ) (b : R) (full : List R)
    (hfull : full.drop i = rs) (hb : full[best]? = some b)
    (hmin : ∀ j r, j < i → full[j]? = some r → b ≤ r) :
    ∃ b', full[argminAux rs i best b]? = some b' ∧ ∀ r ∈ full, b' ≤ r := by
  induction rs generalizing i best b with
  | nil =>
    refine ⟨b, hb, fun r hr => ?_⟩
    obtain ⟨j, hj⟩ := List.mem_iff_getElem?.mp hr
    have := List.drop_eq_nil_iff.mp hfull
    exact hmin j r (lt_of_lt_of_le (List.getElem?_eq_some_iff.mp hj).1 this) hj
  | cons r rs ih =>
    have hi : full[i]? = some r := by
      rw [← List.head?_drop, hfull]; rfl
    have hd : full.drop (i + 1) = rs := by
      rw [← List.tail_drop, hfull]; rfl
    simp only [argminAux]
    split
    · next hlt =>
      apply ih (i + 1) i r hd hi
      intro j r' hj hr'
      rcases Nat.lt_succ_iff_lt_or_eq.mp hj with hj | rfl
      · exact (le_of_lt hlt).trans (hmin j r' hj hr')
      · rw [hi] at hr'; injection hr' with hr'; exact hr'.le
    · next hlt =>
      apply ih (i + 1) best b hd hb
      intro j r' hj hr'
      rcases Nat.lt_succ_iff_lt_or_eq.mp hj with hj | rfl
      · exact hmin j r' hj hr'
      · rw [hi] at hr'; injection hr' with hr'; exact hr' ▸ not_lt.mp hlt

omit [LinearOrder R] in
theorem fitWindows_ok (fit : ℕ → P × List R) (root : R → R) (n k : ℕ) (l : List (P × R)) :
    fitWindows fit root n k = .ok l ↔
      l.length = n ∧ ∀ j, j < n → ∃ r, (fit (k + j)).2 = [r] ∧
        l[j]? = some ((fit (k + j)).1, root r) := by
  induction n generalizing k l with
  | zero => cases l <;> simp [fitWindows]
  | succ n ih =>
    simp only [fitWindows]
    constructor
    · intro h
      split at h
      · next r hr =>
        split at h
        · cases h
        · next l' hl' =>
          injection h with h
          subst h
          obtain ⟨h1, h2⟩ := (ih (k + 1) l').mp hl'
          refine ⟨by simp [h1], fun j hj => ?_⟩
          cases j with
          | zero => exact ⟨r, hr, rfl⟩
          | succ j =>
            obtain ⟨r', h3, h4⟩ := h2 j (by omega)
            rw [show k + 1 + j = k + (j + 1) by omega] at h3 h4
            exact ⟨r', h3, by simpa using h4⟩
      · cases h
    · rintro ⟨h1, h2⟩
      obtain ⟨r, hr, hl⟩ := h2 0 (by omega)
      simp only [Nat.add_zero] at hr hl
      cases l with
      | nil => simp at h1
      | cons x l =>
        have hl' : fitWindows fit root n (k + 1) = .ok l := by
          refine (ih (k + 1) l).mpr ⟨by simpa using h1, fun j hj => ?_⟩
          obtain ⟨r', h3, h4⟩ := h2 (j + 1) (by omega)
          rw [show k + (j + 1) = k + 1 + j by omega] at h3 h4
          exact ⟨r', h3, by simpa using h4⟩
        simp only [List.getElem?_cons_zero, Option.some.injEq] at hl
        subst hl
        simp [hr, hl']

/-- C49: what is returned is a window of `window_length + 1` consecutive indices inside the data,
with that window's polynomial, whose residual is the least among all windows. -/
theorem C49_best_window (fit : ℕ → P × List R) (root : R → R) (n windowLength : ℕ)
    (segment : List ℕ) (poly : P)
    (h : identifyLinearPiece fit root n windowLength = .ok (segment, poly)) :
    ∃ best r, (∀ i, i ∈ segment ↔ best ≤ i ∧ i ≤ best + windowLength) ∧
      segment.length = windowLength + 1 ∧ segment.Pairwise (· < ·) ∧ (∀ i ∈ segment, i < n) ∧
      fit best = (poly, [r]) ∧
      ∀ k, k + windowLength < n → ∃ r', (fit k).2 = [r'] ∧ root r ≤ root r' := by
  unfold identifyLinearPiece at h
  split at h
  · cases h
  · next hn =>
    cases hf : fitWindows fit root (n - windowLength) 0 with
    | error e => rw [hf] at h; cases h
    | ok fits =>
      rw [hf] at h
      simp only at h
      obtain ⟨hlen, hall⟩ := (fitWindows_ok fit root _ 0 fits).mp hf
      cases hm : fits.map Prod.snd with
      | nil => rw [hm] at h; simp [argmin] at h
      | cons m ms =>
        rw [hm] at h
        simp only [argmin] at h
        obtain ⟨b, hb, hmin⟩ := argminAux_spec ms 1 0 m (m :: ms) rfl rfl (by
          intro j r hj hr
          have : j = 0 := by omega
          subst this
          simp at hr
          exact hr.le)
        set best := argminAux ms 1 0 m
        rw [← hm] at hb hmin
        simp only [List.getElem?_map, Option.map_eq_some_iff] at hb
        obtain ⟨⟨P0, b'⟩, hfb, rfl⟩ := hb
        rw [hfb] at h
        simp only [Except.ok.injEq, Prod.mk.injEq] at h
        obtain ⟨rfl, rfl⟩ := h
        have hbn : best < n - windowLength := by
          have := (List.getElem?_eq_some_iff.mp hfb).1
          omega
        obtain ⟨r, hr1, hr2⟩ := hall best hbn
        rw [hfb] at hr2
        simp only [Nat.zero_add, Option.some.injEq, Prod.mk.injEq] at hr1 hr2
        refine ⟨best, r, ?_, by simp, List.pairwise_lt_range', ?_, ?_, ?_⟩
        · intro i; simp [List.mem_range'_1]; omega
        · intro i hi; simp [List.mem_range'_1] at hi; omega
        · rw [hr2.1, ← hr1]
        · intro k hk
          obtain ⟨r', h1, h2⟩ := hall k (by omega)
          simp only [Nat.zero_add] at h1 h2
          refine ⟨r', h1, ?_⟩
          rw [← hr2.2]
          apply hmin
          rw [List.mem_map]
          exact ⟨_, List.mem_of_getElem? h2, rfl⟩

/-- C49: it succeeds whenever there are more data than the window length and every window's fit
gives a residual. -/
theorem C49_succeeds (fit : ℕ → P × List R) (root : R → R) (n windowLength : ℕ)
    (hn : windowLength < n)
    (hfit : ∀ k, k + windowLength < n → ∃ r, (fit k).2 = [r]) :
    ∃ out, identifyLinearPiece fit root n windowLength = .ok out := by
  have hex : ∃ fits, fitWindows fit root (n - windowLength) 0 = .ok fits := by
    obtain ⟨r0, -⟩ := hfit 0 (by omega)
    have : Nonempty R := ⟨r0⟩
    choose! r hr using hfit
    refine ⟨List.ofFn fun k : Fin (n - windowLength) => ((fit k).1, root (r k)),
      (fitWindows_ok fit root _ 0 _).mpr ⟨by simp, fun j hj => ⟨r j, ?_, ?_⟩⟩⟩
    · rw [Nat.zero_add]; exact hr j (by omega)
    · simp [hj]
  obtain ⟨fits, hf⟩ := hex
  obtain ⟨hlen, -⟩ := (fitWindows_ok fit root _ 0 fits).mp hf
  unfold identifyLinearPiece
  rw [if_neg (by omega), hf]
  simp only
  cases hm : fits.map Prod.snd with
  | nil =>
    have := congrArg List.length hm
    simp at this
    subst this
    simp at hlen; omega
  | cons m ms =>
    obtain ⟨b, hb, -⟩ := argminAux_spec ms 1 0 m (m :: ms) rfl rfl (by
      intro j r hj hr
      have : j = 0 := by omega
      subst this
      simp at hr
      exact hr.le)
    rw [← hm] at hb
    simp only [List.getElem?_map, Option.map_eq_some_iff] at hb
    obtain ⟨f, hfb, -⟩ := hb
    simp [argmin, hfb]

/-- C49: data not longer than the window length raise `ValueError`. -/
theorem C49_short_data (fit : ℕ → P × List R) (root : R → R) (n windowLength : ℕ)
    (hn : n ≤ windowLength) :
    identifyLinearPiece fit root n windowLength = .error .valueError := by
  unfold identifyLinearPiece
  split
  · rfl
  · have : n - windowLength = 0 := by omega
    simp [this, fitWindows, argmin]

/-- Windows of at most two points: a line fits them exactly, `np.polyfit` returns no residual, and
every call raises `ValueError`. -/
theorem C49_short_window (fit : ℕ → P × List R) (root : R → R) (n windowLength : ℕ)
    (hfit : windowLength + 1 ≤ 2 → ∀ k, (fit k).2 = []) (hw : windowLength ≤ 1) :
    identifyLinearPiece fit root n windowLength = .error .valueError := by
  have h0 := hfit (by omega)
  rcases Nat.lt_or_ge windowLength n with hn | hn
  · unfold identifyLinearPiece
    rw [if_neg (by omega)]
    obtain ⟨m, hm⟩ : ∃ m, n - windowLength = m + 1 := ⟨n - windowLength - 1, by omega⟩
    simp [hm, fitWindows, h0]
  · exact C49_short_data fit root n windowLength hn

/-- Hypotheses of C49: four data, windows of three points, residuals 2 and 1. -/
example : identifyLinearPiece (P := ℕ) (R := ℕ) (fun k => (k + 10, [2 - k])) id 4 2 =
    .ok ([1, 2, 3], 11) := by
  decide +kernel

end Verif.Core
