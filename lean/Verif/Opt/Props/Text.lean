/-
C159: the text of the tables that the optimizers print.
-/
import Verif.Opt.Model.Text
import Verif.Opt.Props.Output
import Verif.Opt.Props.Work
import Verif.Core.Props.Tools
import Verif.Base.FormatLemmas

namespace Verif.Opt
open PyNum Verif.Core

/-- The words of a line: `line.split(" ")` without the empty ones. -/
def words (l : List Char) : List (List Char) := (l.splitOn ' ').filter (· ≠ [])

theorem words_nil : words [] = [] := by simp [words]

theorem words_space (l : List Char) : words (' ' :: l) = words l := by
  have := List.splitOnP_append_cons_of_forall_mem (p := (· == ' ')) (xs := []) (by simp) ' ' (by simp) l
  simp only [List.nil_append] at this
  simp [words, List.splitOn, this]

theorem words_spaces (n : ℕ) (l : List Char) : words (List.replicate n ' ' ++ l) = words l := by
  induction n with
  | zero => rfl
  | succ n ih => rw [List.replicate_succ, List.cons_append, words_space, ih]

theorem words_cell {s : List Char} (hs : s ≠ []) (hsp : ' ' ∉ s) {n : ℕ} (hn : 0 < n)
    (l : List Char) : words (s ++ List.replicate n ' ' ++ l) = s :: words l := by
  obtain ⟨n, rfl⟩ : ∃ k, n = k + 1 := ⟨n - 1, by omega⟩
  rw [List.replicate_succ, List.append_assoc, List.cons_append, ← words_spaces n l]
  have := List.splitOnP_append_cons_of_forall_mem (p := (· == ' ')) (xs := s)
    (fun x hx => by simp only [beq_eq_false_iff_ne]; rintro rfl; exact hsp hx) ' ' (by simp)
    (List.replicate n ' ' ++ l)
  simp [words, List.splitOn, this, hs]

theorem intText_no_space (n : ℤ) : ' ' ∉ intText n := by
  intro h
  unfold intText at h
  split at h
  · rcases List.mem_cons.1 h with h | h
    · revert h; decide
    · exact natText_not_mark h (by simp [isMark])
  · exact natText_not_mark h (by simp [isMark])

theorem intText_ne_nil (n : ℤ) : intText n ≠ [] := by
  unfold intText
  split
  · simp
  · exact natText_ne_nil _

theorem formatE_ne_nil (plus : Bool) (prec : ℕ) (v : XF ℚ) : formatE plus prec v ≠ [] := by
  cases v <;> simp [formatE]

theorem formatE_no_space (plus : Bool) (prec : ℕ) (v : XF ℚ) : ' ' ∉ formatE plus prec v := by
  have hsign : ∀ b, ' ' ∉ signText plus b := by
    intro b; cases plus <;> cases b <;> simp [signText]
  cases v with
  | nan => cases plus <;> simp [formatE, signText]
  | pinf => cases plus <;> simp [formatE, signText]
  | ninf => simp [formatE, signText]
  | fin q =>
    have hlt : (significant prec |q|).1 / 10 ^ prec < 10 := by
      rw [Nat.div_lt_iff_lt_mul (by positivity), ← pow_succ']
      by_cases h : q = 0
      · simp [h, significant_zero]
      · exact (significant_spec prec (abs_pos.2 h)).2.1
    intro h
    simp only [formatE, List.mem_append, List.mem_cons] at h
    rcases h with (h | h | h | h) | h
    · exact hsign _ h
    · exact digitChar_not_mark hlt (by rw [← h]; simp [isMark])
    · revert h; decide
    · exact fixedDigits_not_mark h (by simp [isMark])
    · simp only [exponentText, List.mem_cons] at h
      rcases h with h | h | h
      · revert h; decide
      · split at h <;> revert h <;> decide
      · exact fixedDigits_not_mark h (by simp [isMark])

/-! ### Numbers -/

/-- **C159**, numbers: what is printed with `prec` digits after the point is a number with a relative
error of at most half a unit of the last of them. -/
theorem C159_accuracy (plus : Bool) (prec : ℕ) (q : ℚ) :
    |readNumber (formatE plus prec (.fin q)) - q| ≤ |q| / (2 * 10 ^ prec) :=
  readNumber_relative plus prec q

/-- **C159**, costs: a binary64 number printed with at least 16 digits after the point is read back
exactly. -/
theorem C159_roundtrip (plus : Bool) {prec : ℕ} (hp : 16 ≤ prec) {q : ℚ} (hq : b64 q = q) :
    b64 (readNumber (formatE plus prec (.fin q))) = q := by
  by_cases h0 : q = 0
  · subst h0; rw [readNumber_formatE_zero, b64_zero]
  refine b64_near hq h0 ?_
  have h1 := readNumber_relative plus prec q
  have habs : 0 < |q| := abs_pos.2 h0
  have h2 : |q| / (2 * 10 ^ prec) ≤ |q| / (2 * 10 ^ 16) := by
    refine div_le_div_of_nonneg_left habs.le (by norm_num) ?_
    have : (10 : ℚ) ^ 16 ≤ 10 ^ prec := pow_le_pow_right₀ (by norm_num) hp
    linarith
  have h3 : |q| / (2 * 10 ^ 16) * 2 ^ 54 < |q| := by
    rw [div_mul_eq_mul_div, div_lt_iff₀ (by norm_num)]
    nlinarith
  exact lt_of_le_of_lt (mul_le_mul_of_nonneg_right (h1.trans h2) (by norm_num)) h3

/-- Two different costs have different texts. -/
theorem C159_distinct (plus : Bool) {prec : ℕ} (hp : 16 ≤ prec) {q q' : ℚ} (hq : b64 q = q)
    (hq' : b64 q' = q') (h : formatE plus prec (.fin q) = formatE plus prec (.fin q')) : q = q' := by
  rw [← C159_roundtrip plus hp hq, h, C159_roundtrip plus hp hq']

/-- **C159**, times: what is printed with `prec` digits after the point and no exponent differs from
the number by at most half a unit of the last of them. -/
theorem C159_fixed (prec : ℕ) (q : ℚ) :
    |readNumber (formatF prec (.fin q)) - q| ≤ 1 / (2 * 10 ^ prec) :=
  readNumber_formatF prec q

/-- One third rounded is such a number; its text. -/
example : b64 (6004799503160661 / 2 ^ 54) = 6004799503160661 / 2 ^ 54 ∧
    formatE true 16 (.fin (6004799503160661 / 2 ^ 54)) = "+3.3333333333333331e-01".toList ∧
    b64 (readNumber "+3.3333333333333331e-01".toList) = 6004799503160661 / 2 ^ 54 := by
  decide +kernel

/-- Radii as in the warnings of trust regions. -/
example : formatG (.fin (5 / 2)) = "2.5".toList ∧ formatG (.fin 1000000) = "1e+06".toList ∧
    formatG (.fin 100) = "100".toList ∧ formatG (.fin (-1 / 8000000)) = "-1.25e-07".toList ∧
    formatG (.fin (1 / 3)) = "0.333333".toList ∧ formatG (.fin 0) = "0".toList := by
  decide +kernel

/-- **C159**, negation for gradient norms, which are printed with 8 digits after the point: two
different binary64 numbers have the same text. -/
theorem C159_negation_norm : ∃ q q' : ℚ, q ≠ q' ∧ b64 q = q ∧ b64 q' = q' ∧
    formatE false 8 (.fin q) = formatE false 8 (.fin q') := by
  refine ⟨1, 1 + 1 / 2 ^ 52, ?_, ?_, ?_, ?_⟩ <;> decide +kernel

/-! ### Tables -/

/-- `ColumnPrinter` accepts the columns, and this is the printer. -/
theorem tableOf_mk {columns : List (Column Cell)} (h : columns ≠ []) :
    ColumnPrinter.mk? columns none (.int 0) 4 = .ok (tableOf columns) := by
  simp [ColumnPrinter.mk?, h, tableOf]

/-- A row of three columns, each value shorter than its column. -/
theorem row_three {c1 c2 c3 : Column Cell} {v1 v2 v3 : Cell} {w1 w2 w3 : ℤ} {pd : ℤ} :
    ColumnPrinter.row ⟨[c1, c2, c3], pd, [w1, w2, w3]⟩ [v1, v2, v3] =
      c1.format v1 ++ spaces (w1 - (c1.format v1).length) ++
      (c2.format v2 ++ spaces (w2 - (c2.format v2).length) ++
      (c3.format v3 ++ spaces (w3 - (c3.format v3).length) ++ [])) := by
  simp [ColumnPrinter.row]

theorem length_intText_of_le {i m : ℤ} (h1 : 1 ≤ i) (h2 : i ≤ m) :
    (intText i).length ≤ iterationWidth m := by
  rw [length_intText_of_nonneg (by omega)]
  unfold iterationWidth
  have : Nat.log 10 i.natAbs ≤ Nat.log 10 m.natAbs := Nat.log_mono_right (by omega)
  omega

theorem length_zeroText : (intText 0).length = 1 := by decide

/-- Widths of the columns of steepest descent and conjugate gradient. -/
theorem gradient_widths (m : ℤ) : (tableOf (gradientColumns m)).widths =
    [max 9 (iterationWidth m : ℤ) + 4, 27, 18] := by
  have h1 : (formatD (iterationWidth m) 0).length = iterationWidth m := by
    rw [length_formatD, length_zeroText]
    unfold iterationWidth
    omega
  have h2 : (formatE true 16 (.fin 0)).length = 23 := by decide +kernel
  have h3 : (formatE false 8 (.fin 0)).length = 14 := by decide +kernel
  simp [tableOf, gradientColumns, columnWidths, cellD, cellE, h1, h2, h3]

theorem swarm_widths (m : ℤ) : (tableOf (swarmColumns m)).widths =
    [max 9 (iterationWidth m : ℤ) + 4, 20, 19] := by
  have h1 : (formatD (iterationWidth m) 0).length = iterationWidth m := by
    rw [length_formatD, length_zeroText]
    unfold iterationWidth
    omega
  have h2 : (formatD 7 0).length = 7 := by decide +kernel
  have h3 : (formatE true 8 (.fin 0)).length = 15 := by decide +kernel
  simp [tableOf, swarmColumns, columnWidths, cellD, cellE, h1, h2, h3]

/-- A row has this layout when it has the length of both lines of the header, when the columns of
the header start where the cells of the row do, and when its words are the given ones. -/
def RowFits (p : ColumnPrinter Cell) (line : List Char) (cells ws : List (List Char)) : Prop :=
  (∃ h u, p.header = .ok (h, u) ∧ h.length = line.length ∧ u.length = line.length) ∧
  Aligned line cells p.widths ∧ words line = ws

theorem rowFits {columns : List (Column Cell)} (hne : columns ≠ []) {values : List Cell}
    (hl : values.length = columns.length)
    (hfit : ∀ (i : ℕ) (c : Column Cell) (w : ℤ) (v : Cell), columns[i]? = some c →
      (tableOf columns).widths[i]? = some w → values[i]? = some v →
      ((c.format v).length : ℤ) ≤ w) {ws : List (List Char)}
    (hw : words ((tableOf columns).row values) = ws) :
    RowFits (tableOf columns) ((tableOf columns).row values)
      ((columns.zip values).map fun c => c.1.format c.2) ws := by
  obtain ⟨h, u, e, a1, a2⟩ := C48_header columns none (.int 0) 4 (by norm_num) _ (tableOf_mk hne)
    (by simp)
  have a3 := C48_row columns none (.int 0) 4 _ (tableOf_mk hne) (by simp) values hl hfit
  refine ⟨⟨h, u, e, ?_, ?_⟩, a3, hw⟩
  · have := a1.1.trans a3.1.symm; omega
  · have := a2.1.trans a3.1.symm; omega

theorem words_formatD {w : ℕ} {n : ℤ} {k : ℕ} (hk : 0 < k) (l : List Char) :
    words (formatD w n ++ List.replicate k ' ' ++ l) = intText n :: words l := by
  unfold formatD
  rw [List.append_assoc, List.append_assoc, words_spaces, ← List.append_assoc,
    words_cell (intText_ne_nil n) (intText_no_space n) hk]

/-- **C159** for the tables of `SteepestDescent` and `ConjugateGradient`: for every iteration up to
the maximum and all values of binary64 (also infinite ones and NaN) the row has the length of the
header, its cells start below their titles, and its words are the iteration, the cost and the
gradient norm. -/
theorem C159_gradientTable {m i : ℤ} (h1 : 1 ≤ i) (h2 : i ≤ m) {f g : XF ℚ} (hf : InRangeX f)
    (hg : InRangeX g) :
    RowFits (tableOf (gradientColumns m))
      ((tableOf (gradientColumns m)).row [.int i, .num f, .num g])
      [formatD (iterationWidth m) i, formatE true 16 f, formatE false 8 g]
      [intText i, formatE true 16 f, formatE false 8 g] := by
  have l1 : (formatD (iterationWidth m) i).length = iterationWidth m := by
    rw [length_formatD]
    have := length_intText_of_le h1 h2
    omega
  have l2 := length_formatE true 16 hf
  have l3 := length_formatE false 8 hg
  refine rowFits (columns := gradientColumns m) (by simp [gradientColumns]) rfl ?_ ?_
  · intro j c w v hc hw hv
    rw [gradient_widths] at hw
    match j with
    | 0 =>
      simp only [gradientColumns, List.getElem?_cons_zero, Option.some.injEq] at hc hw hv
      subst hc; subst hw; subst hv
      simp only [cellD, l1]
      omega
    | 1 =>
      simp only [gradientColumns, List.getElem?_cons_succ, List.getElem?_cons_zero,
        Option.some.injEq] at hc hw hv
      subst hc; subst hw; subst hv
      simp only [cellE]
      omega
    | 2 =>
      simp only [gradientColumns, List.getElem?_cons_succ, List.getElem?_cons_zero,
        Option.some.injEq] at hc hw hv
      subst hc; subst hw; subst hv
      simp only [cellE]
      omega
    | j + 3 => simp [gradientColumns] at hc
  · have hw := gradient_widths m
    have : tableOf (gradientColumns m) = ⟨gradientColumns m, 4,
        [max 9 (iterationWidth m : ℤ) + 4, 27, 18]⟩ := by rw [← hw]; rfl
    rw [this]
    unfold gradientColumns
    rw [row_three]
    simp only [cellD, cellE, spaces]
    rw [words_formatD (by omega), words_cell (formatE_ne_nil _ _ _) (formatE_no_space _ _ _)
      (by omega), words_cell (formatE_ne_nil _ _ _) (formatE_no_space _ _ _) (by omega), words_nil]

/-- **C159** for the table of `ParticleSwarm`, for fewer than `10 ^ 19` evaluations of the cost. -/
theorem C159_swarmTable {m i n : ℤ} (h1 : 1 ≤ i) (h2 : i ≤ m) (h3 : 0 ≤ n) (h4 : n < 10 ^ 19)
    {f : XF ℚ} (hf : InRangeX f) :
    RowFits (tableOf (swarmColumns m))
      ((tableOf (swarmColumns m)).row [.int i, .int n, .num f])
      [formatD (iterationWidth m) i, formatD 7 n, formatE true 8 f]
      [intText i, intText n, formatE true 8 f] := by
  have l1 : (formatD (iterationWidth m) i).length = iterationWidth m := by
    rw [length_formatD]
    have := length_intText_of_le h1 h2
    omega
  have l2 : (formatD 7 n).length ≤ 19 := by
    rw [length_formatD]
    have : (intText n).length ≤ 19 := by
      unfold intText
      rw [if_neg (by omega)]
      refine length_natText_le (by norm_num) ?_
      zify
      rwa [abs_of_nonneg h3]
    omega
  have l3 := length_formatE true 8 hf
  clear h3 h4
  refine rowFits (columns := swarmColumns m) (by simp [swarmColumns]) rfl ?_ ?_
  · intro j c w v hc hw hv
    rw [swarm_widths] at hw
    rcases j with _ | _ | _ | j
    · simp only [swarmColumns, List.getElem?_cons_zero, Option.some.injEq] at hc hw hv
      subst hc; subst hw; subst hv
      simp only [cellD, l1]
      omega
    · simp only [swarmColumns, List.getElem?_cons_succ, List.getElem?_cons_zero,
        Option.some.injEq] at hc hw hv
      subst hc; subst hw; subst hv
      simp only [cellD]
      omega
    · simp only [swarmColumns, List.getElem?_cons_succ, List.getElem?_cons_zero,
        Option.some.injEq] at hc hw hv
      subst hc; subst hw; subst hv
      simp only [cellE]
      omega
    · simp [swarmColumns] at hc
  · have hw := swarm_widths m
    have : tableOf (swarmColumns m) = ⟨swarmColumns m, 4,
        [max 9 (iterationWidth m : ℤ) + 4, 20, 19]⟩ := by rw [← hw]; rfl
    rw [this]
    unfold swarmColumns
    rw [row_three]
    simp only [cellD, cellE, spaces]
    rw [words_formatD (by omega), words_formatD (by omega),
      words_cell (formatE_ne_nil _ _ _) (formatE_no_space _ _ _) (by omega), words_nil]

/-- A table with a row. -/
example :
    (tableOf (gradientColumns 1000)).row [.int 7, .num (.fin (-5 / 2)), .num (.fin (1 / 2 ^ 400))] =
      "   7         -2.5000000000000000e+00    3.87259191e-121   ".toList ∧
    (tableOf (gradientColumns 1000)).header = .ok
      ("Iteration    Cost                       Gradient norm     ".toList,
       "---------    -----------------------    --------------    ".toList) := by
  decide +kernel

/-! ### Trust regions and Nelder-Mead -/

theorem length_formatD_small {w : ℕ} {n : ℤ} (h0 : 0 ≤ n) (hw : 0 < w) (h : n < 10 ^ w) :
    (formatD w n).length = w := by
  rw [length_formatD]
  have : (intText n).length ≤ w := by
    unfold intText
    rw [if_neg (by omega)]
    refine length_natText_le hw ?_
    zify
    rwa [abs_of_nonneg h0]
  omega

/-- **C159** for `TrustRegions`: up to 99999 iterations and inner iterations, the costs of the
iterations start in the same column as the cost of the starting point, the 48th, after `f: `. -/
theorem C159_trustRegions (accepted : Bool) (radius : Ordering) {iteration : ℤ} {inner : ℕ}
    (h0 : 0 ≤ iteration) (h1 : iteration < 100000) (h2 : inner < 100000) (stop : TCGStop)
    (noDecrease : Bool) (f g f' g' : XF ℚ) :
    (∃ pre rest, startText f g = pre ++ "f: ".toList ++ formatE true 6 f ++ rest ∧
      pre.length = 44) ∧
    ∃ pre rest, regionText accepted radius iteration inner stop noDecrease f' g' =
      pre ++ "f: ".toList ++ formatE true 6 f' ++ rest ∧ pre.length = 44 := by
  refine ⟨⟨_, _, by rw [startText, List.append_assoc _ _ (formatE false 6 g)], by simp⟩, ?_⟩
  refine ⟨acceptText accepted ++ " ".toList ++ radiusText radius ++ "   k: ".toList ++
    formatD 5 iteration ++ "     num_inner: ".toList ++ formatD 5 inner ++ "     ".toList,
    "   |grad|: ".toList ++ formatE false 6 g' ++ "   ".toList ++ innerText stop noDecrease,
    ?_, ?_⟩
  · have : "     f: ".toList = "     ".toList ++ "f: ".toList := by decide
    simp only [regionText, this, List.append_assoc]
  · have l1 := length_formatD_small (w := 5) h0 (by norm_num) (by omega)
    have l2 := length_formatD_small (w := 5) (n := (inner : ℤ)) (by omega) (by norm_num) (by omega)
    have l3 : (acceptText accepted).length = 3 := by cases accepted <;> decide
    have l4 : (radiusText radius).length = 3 := by cases radius <;> decide
    simp only [List.length_append, l1, l2, l3, l4]
    decide

/-- **C159** for `NelderMead`: up to `10 ^ 7` evaluations of the cost, the best costs start in the
same column. -/
theorem C159_nelderMead {n : ℤ} (h0 : 0 ≤ n) (h1 : n < 10 ^ 7) (f : XF ℚ) :
    ∃ pre, simplexText n f = pre ++ formatE true 8 f ∧ pre.length = 31 := by
  refine ⟨_, rfl, ?_⟩
  simp only [List.length_append, length_formatD_small (w := 7) h0 (by norm_num) h1]
  decide

/-! ### Reasons to stop -/

/-- The kind of a reason to stop. -/
def StopReason.kind {F : Type*} : StopReason F → Fin 5
  | .maxTime _ => 0
  | .maxIterations _ => 1
  | .minGradNorm _ _ => 2
  | .minStepSize _ _ => 3
  | .maxCostEvals _ => 4

theorem stop_prefix {F : Type*} (val : F → XF ℚ) (r : StopReason F) :
    (r.text val).take 22 = match r.kind with
      | 0 => "Terminated - max time ".toList
      | 1 => "Terminated - max itera".toList
      | 2 => "Terminated - min grad ".toList
      | 3 => "Terminated - min step_".toList
      | 4 => "Terminated - max cost ".toList := by
  cases r <;> rfl

/-- **C159**, reasons to stop: the text tells which criterion stopped the run. -/
theorem C159_reason {F : Type*} (val : F → XF ℚ) {r r' : StopReason F}
    (h : r.text val = r'.text val) : r.kind = r'.kind := by
  have h1 := stop_prefix val r
  have h2 := stop_prefix val r'
  rw [h, h2] at h1
  revert h1
  generalize r.kind = k
  generalize r'.kind = k'
  revert k k'
  decide

example : (StopReason.text (F := Num ℚ) (·.v) (.minGradNorm 12 (.py (1 / 3)))) =
    "Terminated - min grad norm reached after 12 iterations, 0.33 seconds.".toList := by
  decide +kernel

/-! ### Runs -/

section runs
variable {F P E S : Type*} [PyNum F]

/-- The text of a table with gradient norms: a first line, two lines of header, one line per point
of `xs`, the reason to stop and an empty line.  All lines of the table have the same length; each
line of a point consists of the number of the iteration, a number that is rounded to the cost if
that is a binary64 number, and a number that differs from the gradient norm by at most half a unit
of the ninth significant digit. -/
def IsTable (cost norm : P → XF ℚ) (xs : List P) (reason : List Char)
    (lines : List (List Char)) : Prop :=
  ∃ h u : List Char, ∃ rows : List (List Char),
    lines = ["Optimizing...".toList, h, u] ++ rows ++ [reason, []] ∧
    words h = ["Iteration".toList, "Cost".toList, "Gradient".toList, "norm".toList] ∧
    u.length = h.length ∧ rows.length = xs.length ∧
    ∀ (i : ℕ) (p : P), xs[i]? = some p → ∃ line, rows[i]? = some line ∧ line.length = h.length ∧
      ∃ a b c, words line = [a, b, c] ∧ readSigned a = (i : ℤ) + 1 ∧
        (∀ q, cost p = .fin q → b64 q = q → b64 (readNumber b) = q) ∧
        (∀ q, norm p = .fin q → |readNumber c - q| ≤ |q| / (2 * 10 ^ 8))

theorem words_header (m : ℤ) : ∃ h u, (tableOf (gradientColumns m)).header = .ok (h, u) ∧
    words h = ["Iteration".toList, "Cost".toList, "Gradient".toList, "norm".toList] := by
  have hw := gradient_widths m
  have : tableOf (gradientColumns m) = ⟨gradientColumns m, 4,
      [max 9 (iterationWidth m : ℤ) + 4, 27, 18]⟩ := by rw [← hw]; rfl
  rw [this]
  refine ⟨_, _, rfl, ?_⟩
  simp only [gradientColumns, List.zip_cons_cons, List.zip_nil_right, List.map_cons, List.map_nil,
    List.flatten_cons, List.flatten_nil, spaces]
  have e : "Gradient norm".toList = "Gradient".toList ++ List.replicate 1 ' ' ++ "norm".toList := by
    decide
  have l1 : ("Iteration".toList.length : ℤ) = 9 := by decide
  have l2 : ("Cost".toList.length : ℤ) = 4 := by decide
  have l3 : ("Gradient norm".toList.length : ℤ) = 13 := by decide
  rw [l1, l2, l3, words_cell (by decide) (by decide) (by omega),
    words_cell (by decide) (by decide) (by decide), e]
  simp only [List.append_assoc]
  rw [← List.append_assoc, words_cell (by decide) (by decide) (by decide), ← List.append_assoc,
    words_cell (by decide) (by decide) (by decide), words_nil]

omit [PyNum F] in
theorem isTable_of_messages {val : F → XF ℚ} {v : ℤ} {m : ℤ} {pb : Prob F P E} {xs : List P}
    (hval : ∀ p ∈ xs, InRangeX (val (pb.cost p)) ∧ InRangeX (val (pb.M.norm p (pb.grad p))))
    (hm : (xs.length : ℤ) ≤ m) (stop : StopReason F) :
    IsTable (fun p => val (pb.cost p)) (fun p => val (pb.M.norm p (pb.grad p))) xs (stop.text val)
      (([.optimizing, .header] ++
        xs.mapIdx (fun i p => .row (i + 1) (pb.cost p) (pb.M.norm p (pb.grad p))) ++
        [.finished stop] : List (Message F)).flatMap
        (Message.lines val v (tableOf (gradientColumns m)))) := by
  obtain ⟨h, u, hh, hwords⟩ := words_header m
  have hlen : u.length = h.length := by
    obtain ⟨h', u', e, a1, a2⟩ := C48_header (gradientColumns m) none (.int 0) 4 (by norm_num) _
      (tableOf_mk (by simp [gradientColumns])) (by simp)
    rw [hh] at e
    cases e
    have := a1.1.trans a2.1.symm
    omega
  refine ⟨h, u, xs.mapIdx fun i p => (tableOf (gradientColumns m)).row
    [.int (i + 1), .num (val (pb.cost p)), .num (val (pb.M.norm p (pb.grad p)))], ?_, hwords, hlen,
    by simp, ?_⟩
  · simp only [List.flatMap_append, List.flatMap_cons, List.flatMap_nil, Message.lines, hh,
      List.append_nil]
    congr 2
    rw [List.mapIdx_eq_zipIdx_map, List.mapIdx_eq_zipIdx_map, List.flatMap_map]
    simp only [Message.lines]
    exact List.flatMap_pure_eq_map _ _
  · intro i p hp
    have hi := (List.getElem?_eq_some_iff.1 hp).1
    obtain ⟨hf, hg⟩ := hval p (List.mem_of_getElem? hp)
    refine ⟨_, by rw [List.getElem?_mapIdx, hp]; rfl, ?_⟩
    obtain ⟨⟨h', u', e, l1, -⟩, -, hw⟩ := C159_gradientTable (m := m) (i := (i : ℤ) + 1) (by omega)
      (by omega) hf hg
    rw [hh] at e
    cases e
    refine ⟨l1.symm, _, _, _, hw, readSigned_intText _, ?_, ?_⟩
    · intro q hq hb
      beta_reduce at hq
      rw [hq]
      exact C159_roundtrip true (by norm_num) hb
    · intro q hq
      beta_reduce at hq
      rw [hq]
      exact C159_accuracy false 8 q

/-- **C159** for runs of `SteepestDescent` that print tables: the lines printed up to the end. -/
theorem C159_steepestDescent {cfg : Cfg F} (hv : 2 ≤ cfg.verbosity) {ls : LineSearcher F P E S}
    {pb : Prob F P E} {clk : Clock F} {x : P} {mem : S} {l : List (Message F)} {r : Result F P}
    {m : S} (h : SDPrints cfg ls pb clk x mem l (.ok (r, m))) (val : F → XF ℚ)
    (hval : ∀ i f g, Message.row i f g ∈ l → InRangeX (val f) ∧ InRangeX (val g)) :
    ∃ xs : List P, (xs.length : ℤ) = r.iterations ∧ xs.head? = some x ∧
      (1 ≤ cfg.logVerbosity → r.log.map (List.map LogEntry.point) = some xs) ∧
      IsTable (fun p => val (pb.cost p)) (fun p => val (pb.M.norm p (pb.grad p))) xs
        (r.stop.text val)
        (l.flatMap (Message.lines val cfg.verbosity (tableOf (gradientColumns cfg.maxIterations)))) := by
  obtain ⟨xs, rfl, hlen, hhead, hlog⟩ := C139_rows_steepestDescent hv h
  refine ⟨xs, hlen, hhead, hlog, isTable_of_messages (fun p hp => ?_) ?_ _⟩
  · obtain ⟨i, hi⟩ := List.mem_iff_getElem?.1 hp
    refine hval (i + 1) _ _ ?_
    simp only [List.mem_append]
    exact Or.inl (Or.inr (List.mem_iff_getElem?.2 ⟨i, by rw [List.getElem?_mapIdx, hi]; rfl⟩))
  rw [hlen]
  unfold SDPrints at h
  split at h
  · cases h.2
  · rename_i hset
    obtain ⟨l', h, -⟩ := h
    have hmax : 1 ≤ cfg.maxIterations := by
      unfold printerSetup at hset
      rw [if_pos hv] at hset
      split_ifs at hset
      omega
    have := h.runs.invariant (fun s => s.iteration = 0 ∨ s.iteration < cfg.maxIterations)
      (fun r => r.1.iterations ≤ cfg.maxIterations) ?_ ?_ ?_
    · exact this
    · intro s s' _ hst
      obtain ⟨o, -, hc, rfl⟩ := sdStep_next hst
      exact Or.inr (checkStop_none_lt hc)
    · intro s r h0 hst
      obtain ⟨o, reason, -, -, rfl⟩ := sdStep_brk hst
      simp only
      omega
    · simp [sdInit]

/-- **C159** for runs of `ConjugateGradient` with the default verbosity. -/
theorem C159_conjugateGradient {cfg : Cfg F} (hv : cfg.verbosity = 2) {rule : BetaRule} {orth : F}
    {ls : LineSearcher F P E S} {pb : Prob F P E} {clk : Clock F} {x : P} {mem : S}
    {l : List (Message F)} {r : Result F P} {m : S} {t : List (P × E × F)}
    (h : CGPrints cfg rule orth ls pb clk x mem l (.ok (r, m, t))) (val : F → XF ℚ)
    (hval : ∀ i f g, Message.row i f g ∈ l → InRangeX (val f) ∧ InRangeX (val g)) :
    ∃ xs : List P, (xs.length : ℤ) = r.iterations ∧ xs.head? = some x ∧
      xs.getLast? = some r.point ∧
      (1 ≤ cfg.logVerbosity → r.log.map (List.map LogEntry.point) = some xs) ∧
      IsTable (fun p => val (pb.cost p)) (fun p => val (pb.M.norm p (pb.grad p))) xs
        (r.stop.text val)
        (l.flatMap (Message.lines val cfg.verbosity (tableOf (gradientColumns cfg.maxIterations)))) := by
  obtain ⟨xs, hrows, hlen, hhead, hlast, hall, hlog⟩ := C139_rows_conjugateGradient hv.ge h
  refine ⟨xs, hlen, hhead, hlast, hlog, ?_⟩
  have hl : l = [.optimizing, .header] ++
      xs.mapIdx (fun i p => .row (i + 1) (pb.cost p) (pb.M.norm p (pb.grad p))) ++
      [.finished r.stop] := by
    conv_lhs => rw [hall hv]
    rw [hrows]
    congr 2
    apply List.ext_getElem?
    intro i
    simp [List.getElem?_mapIdx, Function.comp_def]
  rw [hl] at hval ⊢
  refine isTable_of_messages (fun p hp => ?_) ?_ _
  · obtain ⟨i, hi⟩ := List.mem_iff_getElem?.1 hp
    refine hval (i + 1) _ _ ?_
    simp only [List.mem_append]
    exact Or.inl (Or.inr (List.mem_iff_getElem?.2 ⟨i, by rw [List.getElem?_mapIdx, hi]; rfl⟩))
  rw [hlen]
  unfold CGPrints at h
  split at h
  · cases h.2
  · rename_i hset
    obtain ⟨l', h, -⟩ := h
    have hmax : 1 ≤ cfg.maxIterations := by
      unfold printerSetup at hset
      rw [if_pos hv.ge] at hset
      split_ifs at hset
      omega
    have := h.runs.invariant (fun s => s.iteration = 0 ∨ s.iteration < cfg.maxIterations)
      (fun r => r.1.iterations ≤ cfg.maxIterations) ?_ ?_ ?_
    · exact this
    · intro s s' _ hst
      obtain ⟨o, newdir, hc, -, -, rfl⟩ := cgStep_next hst
      exact Or.inr (checkStop_none_lt hc)
    · intro s r h0 hst
      obtain ⟨reason, -, rfl⟩ := cgStep_brk hst
      simp only
      omega
    · simp [cgInit]

/-- A run of `SteepestDescent` whose values are in the range, with `val` the value of a number. -/
example : ∃ l r m, SDPrints { defaultCfg with maxIterations := 3 } (adaptive Q Q defaultAdaptive)
    squareProb stillClock (.npy 1) none l (.ok (r, m)) ∧ 4 ≤ l.length ∧
    ∀ i f g, Message.row i f g ∈ l → InRangeX f.v ∧ InRangeX g.v := by
  obtain ⟨l, r, hr, he⟩ := exists_of_checkPrints (n := 4) (a := ())
    (p := fun l r => decide (2 ≤ l.length) && l.all (fun m => match m with
      | .row _ f g => decide (InRangeX f.v) && decide (InRangeX g.v)
      | _ => true) && isOk (fun _ => true) r)
    (step := sdStep { defaultCfg with maxIterations := 3 } (adaptive Q Q defaultAdaptive)
      squareProb stillClock)
    (out := sdSays { defaultCfg with maxIterations := 3 } (adaptive Q Q defaultAdaptive)
      squareProb stillClock)
    (s := sdInit { defaultCfg with maxIterations := 3 } (.npy 1) none) (by decide +kernel)
  rw [Bool.and_eq_true, Bool.and_eq_true] at he
  obtain ⟨⟨r, m⟩, rfl, -⟩ := exists_of_isOk he.2
  refine ⟨_, r, m, ⟨l, hr, rfl⟩, ?_, ?_⟩
  · have := of_decide_eq_true he.1.1
    simp only [say, defaultCfg]
    simp
    omega
  · intro i f g hm
    simp only [say, defaultCfg] at hm
    simp at hm
    have := List.all_eq_true.1 he.1.2 _ hm
    simpa using this

end runs

end Verif.Opt
