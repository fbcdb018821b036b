/-
C159: the text that runs of `TrustRegions` print.
-/
import Verif.Opt.Props.Text
import Verif.Opt.Props.RadiusWarnings

namespace Verif.Opt
open PyNum Verif.Core

/-- A line that begins with `acc` or `REJ`. -/
def isRegionLine (line : List Char) : Bool :=
  decide (line.take 3 = "acc".toList) || decide (line.take 3 = "REJ".toList)

/-- A line of an iteration: whether the step was accepted, the number of the iteration, the cost and
the gradient norm, both to seven significant digits. -/
def IsRegionLine (accepted : Bool) (i : ℤ) (f g : XF ℚ) (line : List Char) : Prop :=
  line.take 3 = (if accepted then "acc".toList else "REJ".toList) ∧
  ∃ pre k mid tf tg rest, line = pre ++ "   k: ".toList ++ k ++ "     num_inner: ".toList ++ mid ++
      "     f: ".toList ++ tf ++ "   |grad|: ".toList ++ tg ++ "   ".toList ++ rest ∧
    pre.length = 7 ∧ readSigned (k.dropWhile (· = ' ')) = i ∧
    ' ' ∉ tf ∧ ' ' ∉ tg ∧
    (∀ q, f = .fin q → |readNumber tf - q| ≤ |q| / (2 * 10 ^ 6)) ∧
    ∀ q, g = .fin q → |readNumber tg - q| ≤ |q| / (2 * 10 ^ 6)

theorem take_acceptText (a : Bool) (l : List Char) :
    (acceptText a ++ l).take 3 = if a then "acc".toList else "REJ".toList := by
  cases a <;> rfl

theorem readSigned_formatD (w : ℕ) (n : ℤ) :
    readSigned ((formatD w n).dropWhile fun c => decide (c = ' ')) = n := by
  unfold formatD
  rw [List.dropWhile_append_of_pos (by intro c hc; simp [List.eq_of_mem_replicate hc])]
  have : (intText n).dropWhile (fun c => decide (c = ' ')) = intText n := by
    obtain ⟨c, l, h⟩ := List.exists_cons_of_ne_nil (intText_ne_nil n)
    have hc : c ≠ ' ' := by
      rintro rfl
      exact intText_no_space n (by rw [h]; simp)
    rw [h, List.dropWhile_cons_of_neg (by simpa using hc)]
  rw [this, readSigned_intText]

theorem isRegionLine_text (a : Bool) (r : Ordering) (i : ℤ) (n : ℕ) (s : TCGStop) (d : Bool)
    (f g : XF ℚ) : IsRegionLine a i f g (regionText a r i n s d f g) := by
  refine ⟨?_, acceptText a ++ " ".toList ++ radiusText r, formatD 5 i, formatD 5 n, formatE true 6 f,
    formatE false 6 g, innerText s d, rfl, ?_, readSigned_formatD 5 i, formatE_no_space _ _ _,
    formatE_no_space _ _ _, fun q hq => by rw [hq]; exact C159_accuracy true 6 q,
    fun q hq => by rw [hq]; exact C159_accuracy false 6 q⟩
  · unfold regionText
    simp only [List.append_assoc]
    exact take_acceptText a _
  · cases a <;> cases r <;> rfl

section
variable {F P E : Type*} [PyNum F]

/-- The messages of trust regions. -/
def isTRMessage : Message F → Bool
  | .optimizing | .start _ _ | .rhoNan | .manyDecreases _ _ | .manyIncreases _ _ |
    .region _ _ _ _ _ _ _ _ | .ratio _ | .usedCauchy | .finished _ => true
  | _ => false

omit [PyNum F] in
theorem isTR_say {v k : ℤ} {m : Message F} (hm : isTRMessage m = true) :
    ∀ m' ∈ say v k m, isTRMessage m' = true := by
  unfold say
  split
  · simpa using hm
  · simp

omit [PyNum F] in
theorem isTR_finished {T S' : Type*} {v : ℤ} {f : T → StopReason F} {c : Except PyErr (Ctl S' T)} :
    ∀ m ∈ sayFinished v f c, isTRMessage m = true := by
  unfold sayFinished
  split
  · exact isTR_say rfl
  · simp

omit [PyNum F] in
theorem isTR_countChange {v : ℤ} {m : Message F} (hm : isTRMessage m = true) {n : Option ℤ} :
    ∀ m' ∈ (countChange v m n).1, isTRMessage m' = true := by
  unfold countChange
  simp only
  split
  · simpa using hm
  · simp

theorem isTR_radiusSays {v : ℤ} {rho : F} {md : Bool} {stop : TCGStop} {D D0 : F}
    {n : RadiusCounters} : ∀ m ∈ (radiusSays v rho md stop D D0 n).2.1, isTRMessage m = true := by
  unfold radiusSays
  split
  · exact isTR_countChange rfl
  · split
    · exact isTR_countChange rfl
    · simp

theorem isTR_trSays {cfg : Cfg F} {c : TRCfg F} {pb : Prob F P E} {clk : Clock F} {eta0 : ℤ → E}
    {mininner maxinner : ℤ} {DeltaBar Delta0 : F} {n : RadiusCounters} {s : TRState F P E} :
    ∀ m ∈ (trSays cfg c pb clk eta0 mininner maxinner DeltaBar Delta0 n s).1,
      isTRMessage m = true := by
  unfold trSays
  simp only
  split
  · simp
  split
  · simp
  split
  · simp
  intro m hm
  simp only [List.mem_append] at hm
  rcases hm with ((((hm | hm) | hm) | hm) | hm) | hm
  · split at hm
    · rw [List.mem_singleton.1 hm]; rfl
    · simp at hm
  · exact isTR_radiusSays m hm
  · split at hm
    · exact isTR_say rfl m hm
    · simp at hm
  · exact isTR_say rfl m hm
  · exact isTR_say rfl m hm
  · exact isTR_finished m hm

omit [PyNum F] in
/-- Exactly the messages of iterations have lines that begin with `acc` or `REJ`. -/
theorem filter_lines (val : F → XF ℚ) (p : ColumnPrinter Cell) {m : Message F}
    (hm : isTRMessage m = true) :
    (m.lines val 2 p).filter isRegionLine = match m with
      | .region a r i n s d f g => [regionText a r i n s d (val f) (val g)]
      | _ => [] := by
  cases m <;> try cases hm
  · rfl
  · rfl
  · rfl
  · rfl
  · rfl
  · rename_i a r i n s d f g
    simp only [Message.lines, if_true]
    refine List.filter_eq_self.2 ?_
    intro l hl
    rw [List.mem_singleton.1 hl]
    have := (isRegionLine_text a r i n s d (val f) (val g)).1
    unfold isRegionLine
    rw [this]
    cases a <;> rfl
  · rfl
  · rfl
  · rename_i r
    cases r <;> rfl

omit [PyNum F] in
theorem rows_forall (val : F → XF ℚ) (p : ColumnPrinter Cell) (l : List (Message F))
    (hl : ∀ m ∈ l, isTRMessage m = true) :
    List.Forall₂ (fun row (q : ℤ × Bool × F × F) => IsRegionLine q.2.1 q.1 (val q.2.2.1) (val q.2.2.2) row)
      ((l.flatMap (Message.lines val 2 p)).filter isRegionLine) (regionsOf l) := by
  induction l with
  | nil => exact .nil
  | cons m l ih =>
    have ih := ih fun m' h => hl m' (List.mem_cons_of_mem _ h)
    rw [List.flatMap_cons, List.filter_append, filter_lines val p (hl m (by simp))]
    cases m <;> first | exact ih | skip
    exact .cons (isRegionLine_text _ _ _ _ _ _ _ _) ih

/-- **C159** for runs of `TrustRegions` with verbosity 2: among the lines printed, those that begin
with `acc` or `REJ` belong to the iterations, in order; they tell whether the step was accepted, the
number of the iteration, and the cost and gradient norm of the iterate to seven significant digits;
the last one shows the point of the result. -/
theorem C159_trustRegions_run {cfg : Cfg F} (hv : cfg.verbosity = 2) {c : TRCfg F}
    {pb : Prob F P E} {clk : Clock F} {eta0 : ℤ → E} {mininner : ℤ} {maxinner : Option ℤ}
    {td DeltaBar Delta0 : Option F} {x : P} {l : List (Message F)} {r : Result F P} {t}
    (h : TRPrints cfg c pb clk eta0 mininner maxinner td DeltaBar Delta0 x l (.ok (r, t)))
    (val : F → XF ℚ) (p : ColumnPrinter Cell) :
    ∃ (xs : List (Bool × P)) (rows : List (List Char)),
      (l.flatMap (Message.lines val cfg.verbosity p)).filter isRegionLine = rows ∧
      rows.length = xs.length ∧ (xs.length : ℤ) = r.iterations ∧
      (xs.map Prod.snd).getLast? = some r.point ∧
      ((false, x) :: xs).IsChain (fun p q => q.1 = false → q.2 = p.2) ∧
      ∀ (i : ℕ) row a y, rows[i]? = some row → xs[i]? = some (a, y) →
        IsRegionLine a ((i : ℤ) + 1) (val (pb.cost y)) (val (pb.M.norm y (pb.grad y))) row := by
  obtain ⟨xs, h1, h2, h3, h4⟩ := C139_rows_trustRegions hv.ge h
  have hl : ∀ m ∈ l, isTRMessage m = true := by
    unfold TRPrints at h
    split at h
    · cases h.2
    · obtain ⟨l', h, rfl⟩ := h
      have key := h.invariant (fun l _ _ => ∀ m ∈ l, isTRMessage m = true)
        (fun l _ => ∀ m ∈ l, isTRMessage m = true) ?_ ?_ ?_ [] (by simp)
      · intro m hm
        simp only [List.mem_append] at hm
        rcases hm with (hm | hm) | hm
        · exact isTR_say rfl m hm
        · exact isTR_say rfl m hm
        · exact key m (by simpa using hm)
      all_goals
        intro l a s _ hi _ m hm
        rcases List.mem_append.1 hm with hm | hm
        · exact hi m hm
        · exact isTR_trSays m hm
  have hf := rows_forall val p l hl
  rw [hv]
  refine ⟨xs, _, rfl, ?_, h2, h3, h4, ?_⟩
  · rw [hf.length_eq, h1, List.length_mapIdx]
  · intro i row a y hrow hx
    have hq : (regionsOf l)[i]? = some ((i : ℤ) + 1, a, pb.cost y, pb.M.norm y (pb.grad y)) := by
      rw [h1, List.getElem?_mapIdx, hx]
      rfl
    obtain ⟨hi, e1⟩ := List.getElem?_eq_some_iff.1 hrow
    obtain ⟨hj, e2⟩ := List.getElem?_eq_some_iff.1 hq
    have := List.Forall₂.get hf hi hj
    simp only [List.get_eq_getElem, e1, e2] at this
    exact this

end

/-- A run of seven rejected steps: seven of its lines begin with `REJ`. -/
example : ∃ l r t, TRPrints sevenSteps defaultTR wrongSign stillClock (fun _ => .npy 0) 1 none
    none (some (.py 1)) (some (.py (1 / 8))) (.npy 1) l (.ok (r, t)) ∧ sevenSteps.verbosity = 2 ∧
    (regionsOf l).length = 7 ∧ 11 ≤ l.length := by
  obtain ⟨l, r, hr, he⟩ := exists_of_checkPrints (n := 8) (a := (some 0, some 0))
    (p := fun l r => decide ((regionsOf l).length = 7) && decide (9 ≤ l.length) &&
      isOk (fun _ => true) r)
    (step := trStep sevenSteps defaultTR wrongSign stillClock (fun _ => .npy 0) 1 1 (.py 1))
    (out := trSays sevenSteps defaultTR wrongSign stillClock (fun _ => .npy 0) 1 1
      (.py 1) (.py (1 / 8)))
    (s := trInit wrongSign (.npy 1) (.py (1 / 8))) (by decide +kernel)
  rw [Bool.and_eq_true, Bool.and_eq_true] at he
  obtain ⟨⟨r, t⟩, rfl, -⟩ := exists_of_isOk he.2
  refine ⟨_, r, t, ⟨l, hr, rfl⟩, by decide, ?_, ?_⟩
  · have := of_decide_eq_true he.1.1
    simpa [regionsOf, List.filterMap_append, say, sevenSteps, defaultCfg] using this
  · have := of_decide_eq_true he.1.2
    simp [say, sevenSteps, defaultCfg]
    omega

end Verif.Opt
