/-
C159: the text that runs of `NelderMead` print.
-/
import Verif.Opt.Props.Text

namespace Verif.Opt
open PyNum Verif.Core

/-- A line with a number of evaluations and a best cost, to nine significant digits. -/
def IsSimplexLine (n : ℤ) (v : XF ℚ) (line : List Char) : Prop :=
  ∃ t u, line = "Cost evals: ".toList ++ t ++ "\tBest cost: ".toList ++ u ∧
    readSigned (t.dropWhile (· = ' ')) = n ∧
    ∀ q, v = .fin q → |readNumber u - q| ≤ |q| / (2 * 10 ^ 8)

theorem isSimplexLine (n : ℤ) (v : XF ℚ) : IsSimplexLine n v (simplexText n v) := by
  refine ⟨formatD 7 n, formatE true 8 v, rfl, ?_, fun q hq => by rw [hq]; exact C159_accuracy true 8 q⟩
  unfold formatD
  rw [List.dropWhile_append_of_pos (by intro c hc; simp [List.eq_of_mem_replicate hc])]
  have : (intText n).dropWhile (fun c => decide (c = ' ')) = intText n := by
    obtain ⟨c, l, h⟩ := List.exists_cons_of_ne_nil (intText_ne_nil n)
    have hc : c ≠ ' ' := by
      rintro rfl
      exact intText_no_space n (by rw [h]; simp)
    rw [h, List.dropWhile_cons_of_neg (by simpa using hc)]
  rw [this, readSigned_intText]

/-- The text of a move tells which move it was. -/
theorem C159_action {a a' : NMAction} (h : a.text = a'.text) : a = a' := by
  cases a <;> cases a' <;> first | rfl | exact absurd h (by decide)

section
variable {F P E : Type*} [PyNum F]

/-- The messages of a run that returns: for every iteration but the last a row and a move, then a row
and the reason to stop. -/
theorem nmMessages {o : NMObj F} (hv : 2 ≤ o.verbosity)
    {sort : List (F × P) → List (F × P)} (hsort : ∀ l, (sort l).Perm l)
    {centroid : ℤ → List P → Except PyErr P} {pb : Prob F P E} {clk : Clock F} {init : InitArg P}
    {l : List (Message F)} {r : Result F P}
    (h : NMPrints o sort centroid pb clk init l (.ok r)) :
    ∃ (recs : List (ℤ × F × NMAction)) (n : ℤ) (b : F),
      l = recs.flatMap (fun q => [.simplexRow q.1 q.2.1, .action q.2.2]) ++
        [.simplexRow n b, .finished r.stop] ∧
      (recs.length : ℤ) + 1 = r.iterations ∧ r.costEvaluations = some n ∧
      ((recs.map fun q => q.1) ++ [n]).head? = some ((pb.M.dim : ℤ) + 1) := by
  have hv' : 2 ≤ (o.resolve pb.M.dim).verbosity := hv
  unfold NMPrints at h
  split at h
  · cases h.2
  · have key := h.invariant
      (fun l _ s => ∃ recs : List (ℤ × F × NMAction),
        l = recs.flatMap (fun q => [.simplexRow q.1 q.2.1, .action q.2.2]) ∧
        (recs.length : ℤ) = s.iteration ∧
        ((recs.map fun q => q.1) ++ [s.costEvaluations]).head? = some ((pb.M.dim : ℤ) + 1))
      (fun l r => ∀ q, r = .ok q → ∃ (recs : List (ℤ × F × NMAction)) (n : ℤ) (b : F),
        l = recs.flatMap (fun q => [.simplexRow q.1 q.2.1, .action q.2.2]) ++
          [.simplexRow n b, .finished q.stop] ∧
        (recs.length : ℤ) + 1 = q.iterations ∧ q.costEvaluations = some n ∧
        ((recs.map fun q => q.1) ++ [n]).head? = some ((pb.M.dim : ℤ) + 1))
      ?_ ?_ ?_ [] ?_
    · simpa using key _ rfl
    · rintro l a s s' ⟨recs, rfl, h1, h2⟩ hst
      obtain ⟨xbar, m, hc, hx, hm, rfl⟩ := nmStep_next hst
      have hhead : ∃ v, s.simplex.head? = some v := by
        cases hs : s.simplex with
        | nil =>
          have := hsort s.simplex
          rw [hs] at this hm
          rw [this.eq_nil] at hm
          simp [nmMove] at hm
        | cons v t => exact ⟨v, rfl⟩
      obtain ⟨v, hv0⟩ := hhead
      simp only [nmSays, hv0, hc, hx, hm, say_of_le hv']
      refine ⟨recs ++ [(s.costEvaluations, v.1, m.action)], by simp, by simp [h1], ?_⟩
      rw [List.map_append, List.head?_append_of_ne_nil _ (by simp)]
      exact h2
    · rintro l a s r ⟨recs, rfl, h1, h2⟩ hst q hq
      cases hq
      obtain ⟨reason, best, hc, hb, rfl⟩ := nmStep_brk hst
      have hhead : ∃ v, s.simplex.head? = some v := by
        cases hs : s.simplex with
        | nil =>
          have := hsort s.simplex
          rw [hs] at this hb
          rw [this.eq_nil] at hb
          cases hb
        | cons v t => exact ⟨v, rfl⟩
      obtain ⟨v, hv0⟩ := hhead
      simp only [nmSays, hv0, hc, say_of_le hv',
        say_of_le (show 1 ≤ (o.resolve pb.M.dim).verbosity by omega)]
      exact ⟨recs, s.costEvaluations, v.1, by simp, by simp [h1], rfl, h2⟩
    · intro l a s e _ _ q hq
      cases hq
    · exact ⟨[], rfl, by simp [nmInit], by simp [nmInit]⟩

/-- **C159** for runs of `NelderMead` with verbosity 2 or more: the lines printed up to the end are,
for every iteration but the last, a row and the text of the move, and then a row, the reason to stop
and an empty line.  The first row has `dim + 1` evaluations and the last the number in the result. -/
theorem C159_nelderMead_run {o : NMObj F} (hv : 2 ≤ o.verbosity)
    {sort : List (F × P) → List (F × P)} (hsort : ∀ l, (sort l).Perm l)
    {centroid : ℤ → List P → Except PyErr P} {pb : Prob F P E} {clk : Clock F} {init : InitArg P}
    {l : List (Message F)} {r : Result F P}
    (h : NMPrints o sort centroid pb clk init l (.ok r)) (val : F → XF ℚ) (p : ColumnPrinter Cell) :
    ∃ (recs : List (ℤ × F × NMAction)) (n : ℤ) (b : F) (rows : List (List Char)) (last : List Char),
      (recs.length : ℤ) + 1 = r.iterations ∧ r.costEvaluations = some n ∧
      ((recs.map fun q => q.1) ++ [n]).head? = some ((pb.M.dim : ℤ) + 1) ∧
      rows.length = recs.length ∧
      l.flatMap (Message.lines val o.verbosity p) =
        (List.zipWith (fun row q => [row, NMAction.text q.2.2]) rows recs).flatten ++
          [last, r.stop.text val, []] ∧
      (∀ (i : ℕ) row q, rows[i]? = some row → recs[i]? = some q →
        IsSimplexLine q.1 (val q.2.1) row) ∧
      IsSimplexLine n (val b) last := by
  obtain ⟨recs, n, b, rfl, h1, h2, h3⟩ := nmMessages hv hsort h
  refine ⟨recs, n, b, recs.map fun q => simplexText q.1 (val q.2.1), simplexText n (val b), h1, h2, h3,
    by simp, ?_, ?_, isSimplexLine _ _⟩
  · have : ∀ recs : List (ℤ × F × NMAction),
        (recs.flatMap fun q => [Message.simplexRow q.1 q.2.1, Message.action q.2.2]).flatMap
          (Message.lines val o.verbosity p) =
        (List.zipWith (fun row q => [row, NMAction.text q.2.2])
          (recs.map fun q => simplexText q.1 (val q.2.1)) recs).flatten := by
      intro recs
      induction recs with
      | nil => rfl
      | cons q recs ih =>
        rw [List.flatMap_cons, List.flatMap_append, ih]
        rfl
    rw [List.flatMap_append, this]
    rfl
  · intro i row q hrow hq
    rw [List.getElem?_map, hq] at hrow
    cases hrow
    exact isSimplexLine _ _

/-- Two steps of a simplex on the line (`C140_negation` has the messages). -/
example : ∃ l r, NMPrints twoSteps npSort firstPoint squareProb stillClock
    (.none fun i => if i = 0 then .npy 10 else .npy 9) l (.ok r) ∧ 2 ≤ twoSteps.verbosity ∧
    ∀ l, (npSort l).Perm l := by
  obtain ⟨hs, l, r, h, -⟩ := C140_negation
  exact ⟨l, r, h, by decide, fun l => (hs l).1⟩

end

end Verif.Opt
