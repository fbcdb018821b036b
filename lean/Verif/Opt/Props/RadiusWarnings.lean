/-
C142: the warnings of trust regions about consecutive changes of the radius.
-/
import Verif.Opt.Props.Output
import Verif.Opt.Props.TR
import Verif.Opt.Props.TCG

namespace Verif.Opt
open PyNum

/-- What a line of trust regions says about the radius: a warning about many decreases or many
increases, or a row with a change of the radius. -/
inductive RadiusLine
  | decreases
  | increases
  | row (change : Ordering)
  deriving DecidableEq

/-- The lines among the messages that concern the radius. -/
def radiusLines {F : Type*} (l : List (Message F)) : List RadiusLine :=
  l.filterMap fun
    | .manyDecreases _ _ => some .decreases
    | .manyIncreases _ _ => some .increases
    | .region _ o _ _ _ _ _ _ => some (.row o)
    | _ => none

/-- The number of consecutive changes of kind `o` at the end of a history of changes. -/
def streak (o : Ordering) (os : List Ordering) : ℕ := (os.reverse.takeWhile (· = o)).length

/-- The lines expected for a history of changes: each row preceded by a warning if it is the fifth
consecutive change of its kind. -/
def expectedLines (os : List Ordering) : List RadiusLine :=
  (List.range os.length).flatMap fun i =>
    (if streak .lt (os.take (i + 1)) = 5 then [.decreases] else []) ++
    (if streak .gt (os.take (i + 1)) = 5 then [.increases] else []) ++
    (os[i]?.toList.map .row)

theorem streak_concat (o a : Ordering) (os : List Ordering) :
    streak o (os ++ [a]) = if a = o then streak o os + 1 else 0 := by
  unfold streak
  rw [List.reverse_append]
  simp only [List.reverse_singleton, List.singleton_append, List.takeWhile_cons]
  by_cases h : a = o
  · simp [h]
  · simp [h]

theorem expectedLines_concat (os : List Ordering) (a : Ordering) :
    expectedLines (os ++ [a]) = expectedLines os ++
      ((if streak .lt (os ++ [a]) = 5 then [.decreases] else []) ++
        (if streak .gt (os ++ [a]) = 5 then [.increases] else []) ++ [.row a]) := by
  unfold expectedLines
  rw [List.length_append, List.length_singleton, List.range_succ, List.flatMap_append]
  congr 1
  · refine List.flatMap_congr fun i hi => ?_
    have hi : i < os.length := List.mem_range.1 hi
    rw [List.take_append_of_le_length (by omega), List.getElem?_append_left hi]
  · have : (os ++ [a]).take (os.length + 1) = os ++ [a] :=
      List.take_of_length_le (by simp)
    simp [this]

/-- The counters as functions of the history of changes. -/
def counterOf (o : Ordering) (os : List Ordering) : Option ℤ :=
  if streak o os < 5 then some (streak o os) else none

section
variable {F P E : Type*} [PyNum F]

omit [PyNum F] in
theorem countChange_streak {v : ℤ} (hv : 1 ≤ v) (m : Message F) {o : Ordering}
    {os : List Ordering} :
    countChange v m (counterOf o os) =
      (if streak o (os ++ [o]) = 5 then [m] else [], counterOf o (os ++ [o])) := by
  rw [counterOf, counterOf, streak_concat, if_pos rfl]
  unfold countChange
  rcases lt_trichotomy (streak o os) 4 with h | h | h
  · rw [if_pos (show streak o os < 5 by omega), if_neg (show ¬streak o os + 1 = 5 by omega),
      if_pos (show streak o os + 1 < 5 by omega)]
    have : ¬(5 : ℤ) ≤ (streak o os : ℤ) + 1 := by omega
    simp [this]
  · rw [h]
    simp [hv]
  · rw [if_neg (show ¬streak o os < 5 by omega), if_neg (show ¬streak o os + 1 = 5 by omega),
      if_neg (show ¬streak o os + 1 < 5 by omega)]
    simp

theorem radiusSays_spec {v : ℤ} (hv : 1 ≤ v) (rho : F) (md : Bool) (stop : TCGStop) (db d0 : F)
    (os : List Ordering) :
    ∃ a, (radiusSays v rho md stop db d0 (counterOf .lt os, counterOf .gt os)).1 = a ∧
      radiusLines (radiusSays v rho md stop db d0 (counterOf .lt os, counterOf .gt os)).2.1 =
        (if streak .lt (os ++ [a]) = 5 then [.decreases] else []) ++
        (if streak .gt (os ++ [a]) = 5 then [.increases] else []) ∧
      (radiusSays v rho md stop db d0 (counterOf .lt os, counterOf .gt os)).2.2 =
        (counterOf .lt (os ++ [a]), counterOf .gt (os ++ [a])) := by
  have hz : ∀ o a : Ordering, a ≠ o → counterOf o (os ++ [a]) = some 0 ∧
      streak o (os ++ [a]) ≠ 5 := by
    intro o a h
    rw [counterOf, streak_concat, if_neg h]
    simp
  refine ⟨_, rfl, ?_⟩
  unfold radiusSays
  simp only
  split
  · rw [countChange_streak hv]
    simp only
    rw [(hz .gt .lt (by decide)).1, if_neg (hz .gt .lt (by decide)).2]
    refine ⟨?_, rfl⟩
    split <;> rfl
  · split
    · rw [countChange_streak hv]
      simp only
      rw [(hz .lt .gt (by decide)).1, if_neg (hz .lt .gt (by decide)).2]
      refine ⟨?_, rfl⟩
      split <;> rfl
    · simp only
      rw [(hz .lt .eq (by decide)).1, if_neg (hz .lt .eq (by decide)).2,
        (hz .gt .eq (by decide)).1, if_neg (hz .gt .eq (by decide)).2]
      exact ⟨rfl, rfl⟩

omit [PyNum F] in
theorem radiusLines_append (l₁ l₂ : List (Message F)) :
    radiusLines (l₁ ++ l₂) = radiusLines l₁ ++ radiusLines l₂ := by
  simp [radiusLines]

/-- How the radius changes from `D` to `D'` with maximal radius `db`: a quarter, the same, or twice
as large but not above the maximum. -/
def RadiusChange (db : F) (o : Ordering) (D D' : F) : Prop :=
  match o with
  | .lt => div D (lit 4) = .ok D'
  | .eq => D' = D
  | .gt => D' = pymin (mul (lit 2) D) db

theorem trSays_radius {cfg : Cfg F} (hv : 2 ≤ cfg.verbosity) {c : TRCfg F}
    {pb : Prob F P E} {clk : Clock F} {eta0 : ℤ → E} {mininner maxinner : ℤ} {db d0 : F}
    (os : List Ordering) (s : TRState F P E) :
    (radiusLines (trSays cfg c pb clk eta0 mininner maxinner db d0
        (counterOf .lt os, counterOf .gt os) s).1 = [] ∧
      ∀ v, trStep cfg c pb clk eta0 mininner maxinner db s ≠ .ok v) ∨
    ∃ o, radiusLines (trSays cfg c pb clk eta0 mininner maxinner db d0
          (counterOf .lt os, counterOf .gt os) s).1 =
        (if streak .lt (os ++ [o]) = 5 then [.decreases] else []) ++
        (if streak .gt (os ++ [o]) = 5 then [.increases] else []) ++ [.row o] ∧
      (trSays cfg c pb clk eta0 mininner maxinner db d0 (counterOf .lt os, counterOf .gt os) s).2 =
        (counterOf .lt (os ++ [o]), counterOf .gt (os ++ [o])) ∧
      ∀ s', trStep cfg c pb clk eta0 mininner maxinner db s = .ok (.next s') →
        RadiusChange db o s.Delta s'.Delta := by
  have hfin : ∀ (e : Except PyErr (Ctl (TRState F P E) (Result F P × List (P × F × F)))),
      radiusLines (sayFinished cfg.verbosity (fun r => r.1.stop) e) = [] := by
    intro e
    unfold sayFinished
    split
    · unfold say
      split <;> rfl
    · rfl
  have hratio : ∀ rho : F, radiusLines (say cfg.verbosity 3 (.ratio rho)) = [] := by
    intro rho
    unfold say
    split <;> rfl
  have hwarn : ∀ b : Bool, radiusLines (if b then [.rhoNan] else [] : List (Message F)) = [] := by
    intro b
    cases b <;> rfl
  have hcauchy : ∀ b : Bool, radiusLines
      (if b then say cfg.verbosity 3 .usedCauchy else [] : List (Message F)) = [] := by
    intro b
    unfold say
    cases b
    · rfl
    · by_cases h : cfg.verbosity ≥ 3 <;> simp [h, radiusLines]
  unfold trSays
  simp only
  cases h1 : tcg c pb s.x s.fgradx (if c.useRand then eta0 (s.iteration + 1)
      else pb.M.zeroVector s.x) s.Delta mininner maxinner with
  | error e =>
    refine Or.inl ⟨rfl, fun v hst => ?_⟩
    unfold trStep at hst
    simp only [h1] at hst
    cases hst
  | ok o =>
    simp only
    cases h2 : (if c.useRand then cauchy pb s.x s.fx s.fgradx s.normGrad s.Delta o
           else .ok (o.eta, o.Heta)) with
    | error e =>
      refine Or.inl ⟨rfl, fun v hst => ?_⟩
      unfold trStep at hst
      simp only [h1, h2] at hst
      cases hst
    | ok q =>
      obtain ⟨eta, Heta⟩ := q
      simp only
      cases h3 : trRatio c pb s.x s.fx s.fgradx (pb.cost (pb.M.retraction s.x eta)) eta Heta with
      | error e =>
        refine Or.inl ⟨rfl, fun v hst => ?_⟩
        unfold trStep at hst
        simp only [h1, h2, h3] at hst
        cases hst
      | ok q =>
        obtain ⟨rho, md⟩ := q
        simp only
        obtain ⟨a, ha, hl, hc⟩ := radiusSays_spec (show 1 ≤ cfg.verbosity by omega) rho md o.stop
          db d0 os
        refine Or.inr ⟨a, ?_, hc, ?_⟩
        · rw [radiusLines_append, radiusLines_append, radiusLines_append, radiusLines_append,
            radiusLines_append, hfin, hratio, hcauchy, hwarn, hl, say_of_le hv, ha]
          simp [radiusLines]
        · intro s' hst
          obtain ⟨o', eta', Heta', rho', md', D, h1', h2', h3', h4', h5'⟩ := trStep_inv hst
          rw [h1] at h1'
          cases h1'
          rw [h2] at h2'
          cases h2'
          rw [h3] at h3'
          cases h3'
          have hD : s'.Delta = D := by
            rcases h5' with ⟨-, h⟩ | ⟨_, -, h⟩
            · cases h
              unfold trAfter
              split <;> rfl
            · cases h
          rw [hD]
          unfold trRadius at h4'
          unfold radiusSays at ha
          simp only at ha
          split at ha
          · rename_i hc
            rw [if_pos hc] at h4'
            rw [← ha]
            exact h4'
          · rename_i hc
            rw [if_neg hc] at h4'
            split at ha
            · rename_i hc
              rw [if_pos hc] at h4'
              rw [← ha]
              cases h4'
              rfl
            · rename_i hc
              rw [if_neg hc] at h4'
              rw [← ha]
              cases h4'
              rfl

/-- **C142** With verbosity 2 (or more), whatever the outcome of a run of trust regions: a warning
about many decreases (increases) of the radius stands exactly before each row that is the fifth of
consecutive decreases (increases), so there is one for each series of five or more.  For a run that
returns, the changes in the rows are those of the radius (`t` lists the radii). -/
theorem C142_warnings {cfg : Cfg F} (hv : 2 ≤ cfg.verbosity) {c : TRCfg F}
    {pb : Prob F P E} {clk : Clock F} {eta0 : ℤ → E} {mininner : ℤ} {maxinner : Option ℤ}
    {td DeltaBar Delta0 : Option F} {x : P} {l : List (Message F)}
    {r : Except PyErr (Result F P × List (P × F × F))}
    (h : TRPrints cfg c pb clk eta0 mininner maxinner td DeltaBar Delta0 x l r) :
    ∃ os : List Ordering, radiusLines l = expectedLines os ∧
      ∀ q t, r = .ok (q, t) → os.length = t.length ∧ ∃ db d0,
        trRadii pb.M.dim td DeltaBar Delta0 = .ok (db, d0) ∧
        ∀ (i : ℕ) o D D', os[i]? = some o → (t.map (·.2.2))[i]? = some D →
          (t.map (·.2.2))[i + 1]? = some D' → RadiusChange db o D D' := by
  unfold TRPrints at h
  split at h
  · rw [h.1]
    refine ⟨[], rfl, fun q t hr => ?_⟩
    rw [h.2] at hr
    cases hr
  · rename_i db d0 hrad
    obtain ⟨l', h, rfl⟩ := h
    have hist : ∀ {s : TRState F P E} {v}, trStep cfg c pb clk eta0 mininner
        (maxinner.getD pb.M.dim) db s = .ok v →
        (∀ s', v = .next s' → s'.history.map (·.2.2) = s.history.map (·.2.2) ++ [s.Delta]) ∧
        ∀ q t, v = .brk (q, t) → t.map (·.2.2) = s.history.map (·.2.2) ++ [s.Delta] := by
      intro s v hst
      obtain ⟨o, eta, Heta, rho, md, D, -, -, -, -, h5⟩ := trStep_inv hst
      have ha : ∀ acc, (trAfter pb s acc eta D).history = s.history ++ [(s.x, s.fx, s.Delta)] := by
        intro acc
        unfold trAfter
        split <;> rfl
      refine ⟨?_, ?_⟩
      · rintro s' rfl
        rcases h5 with ⟨-, h⟩ | ⟨_, -, h⟩
        · cases h
          rw [ha]
          simp
        · cases h
      · rintro q t rfl
        rcases h5 with ⟨-, h⟩ | ⟨_, -, h⟩
        · cases h
        · cases h
          rw [ha]
          simp
    have key := h.invariant
      (fun l a s => ∃ os, radiusLines l = expectedLines os ∧
        a = (counterOf .lt os, counterOf .gt os) ∧ os.length = s.history.length ∧
        ∀ (i : ℕ) o D D', os[i]? = some o → (s.history.map (·.2.2) ++ [s.Delta])[i]? = some D →
          (s.history.map (·.2.2) ++ [s.Delta])[i + 1]? = some D' → RadiusChange db o D D')
      (fun l r => ∃ os, radiusLines l = expectedLines os ∧
        ∀ q t, r = .ok (q, t) → os.length = t.length ∧
        ∀ (i : ℕ) o D D', os[i]? = some o → (t.map (·.2.2))[i]? = some D →
          (t.map (·.2.2))[i + 1]? = some D' → RadiusChange db o D D')
      ?_ ?_ ?_ [] ⟨[], rfl, rfl, rfl, by simp⟩
    · obtain ⟨os, hos, hq⟩ := key
      refine ⟨os, ?_, fun q t hr => ⟨(hq q t hr).1, db, d0, hrad, (hq q t hr).2⟩⟩
      rw [radiusLines_append, radiusLines_append, ← hos, List.nil_append, say_of_le (by omega),
        say_of_le (by omega)]
      rfl
    · rintro l a s s' ⟨os, h1, rfl, hlen, hch⟩ hst
      rcases trSays_radius hv os s with ⟨-, hn⟩ | ⟨o, h2, h3, h4⟩
      · exact absurd hst (hn _)
      · have hh := (hist hst).1 s' rfl
        have hl' : s'.history.length = s.history.length + 1 := by
          simpa using congrArg List.length hh
        refine ⟨os ++ [o], by rw [radiusLines_append, h1, h2, expectedLines_concat], h3,
          by simp [hlen, hl'], ?_⟩
        intro i o' D D' ho hD hD'
        rw [hh] at hD hD'
        rcases Nat.lt_or_ge i os.length with hi | hi
        · rw [List.getElem?_append_left hi] at ho
          rw [List.getElem?_append_left (by simp; omega)] at hD hD'
          exact hch i o' D D' ho hD hD'
        · have hi' : i = os.length := by
            by_contra hne
            rw [List.getElem?_eq_none (by simp; omega)] at ho
            cases ho
          subst hi'
          rw [List.getElem?_append_right (le_refl _)] at ho
          rw [List.getElem?_append_left (by simp; omega),
            List.getElem?_append_right (by simp; omega)] at hD
          rw [List.getElem?_append_right (by simp; omega)] at hD'
          simp [hlen] at ho hD hD'
          subst ho hD hD'
          exact h4 _ hst
    · rintro l a s r ⟨os, h1, rfl, hlen, hch⟩ hst
      rcases trSays_radius hv os s with ⟨-, hn⟩ | ⟨o, h2, -, -⟩
      · exact absurd hst (hn _)
      · refine ⟨os ++ [o], by rw [radiusLines_append, h1, h2, expectedLines_concat], ?_⟩
        rintro q t hr
        cases hr
        have hh := (hist hst).2 q t rfl
        have hl' : t.length = s.history.length + 1 := by
          simpa using congrArg List.length hh
        refine ⟨by simp [hlen, hl'], ?_⟩
        intro i o' D D' ho hD hD'
        rw [hh] at hD hD'
        have hi : i < os.length := by
          by_contra hne
          rw [List.getElem?_eq_none (by simp; omega)] at hD'
          cases hD'
        rw [List.getElem?_append_left hi] at ho
        exact hch i o' D D' ho hD hD'
    · rintro l a s e ⟨os, h1, rfl, -, -⟩ hst
      rcases trSays_radius (db := db) hv os s with ⟨h2, -⟩ | ⟨o, h2, -, -⟩
      · exact ⟨os, by rw [radiusLines_append, h1, h2, List.append_nil], by rintro q t ⟨⟩⟩
      · exact ⟨os ++ [o], by rw [radiusLines_append, h1, h2, expectedLines_concat],
          by rintro q t ⟨⟩⟩

end

/-- Six decreases and an unchanged radius: one warning, before the fifth row. -/
example : expectedLines [.lt, .lt, .lt, .lt, .lt, .lt, .eq] =
    [.row .lt, .row .lt, .row .lt, .row .lt, .decreases, .row .lt, .row .lt, .row .eq] := by decide

/-- The problem of minimizing `-x ** 2` with a gradient of the wrong sign. -/
def wrongSign : Prob Q Q Q := { squareProb with cost := fun x => neg (squareProb.cost x) }

/-- The default configuration with at most seven iterations. -/
def sevenSteps : Cfg Q := { defaultCfg with maxIterations := 7 }

/-- Seven rejected steps with a gradient of the wrong sign: the radius shrinks, with one warning. -/
example : ∃ l r, TRPrints sevenSteps defaultTR
    wrongSign stillClock (fun _ => .npy 0) 1 none
    none (some (.py 1)) (some (.py (1 / 8))) (.npy 1) l (.ok r) ∧ 2 ≤ defaultCfg.verbosity ∧
    radiusLines l = expectedLines (List.replicate 7 .lt) := by
  obtain ⟨l, r, hr, he⟩ := exists_of_checkPrints (n := 8) (a := (some 0, some 0))
    (p := fun l r => decide (radiusLines l = expectedLines (List.replicate 7 .lt)) &&
      isOk (fun _ => true) r)
    (step := trStep sevenSteps defaultTR
      wrongSign stillClock (fun _ => .npy 0) 1 1
      (.py 1))
    (out := trSays sevenSteps defaultTR
      wrongSign stillClock (fun _ => .npy 0) 1 1
      (.py 1) (.py (1 / 8)))
    (s := trInit wrongSign (.npy 1)
      (.py (1 / 8))) (by decide +kernel)
  rw [Bool.and_eq_true] at he
  obtain ⟨r, rfl, -⟩ := exists_of_isOk he.2
  refine ⟨_, r, ⟨l, hr, rfl⟩, by decide, ?_⟩
  rw [radiusLines_append, radiusLines_append, of_decide_eq_true he.1]
  rfl

/-- C139_cauchy_line is about something: from the random start `(0, 1 / 10)` with one inner
iteration the Cauchy point is better and the line is printed; with verbosity 2 it is not. -/
example :
    (∃ s', trStep { defaultCfg with verbosity := 3 } { defaultTR with useRand := true }
      (planeQuad 1 100 2 0) stillClock (fun _ => (.npy 0, .npy (1 / 10))) 1 1 (.py 8)
      (trInit (planeQuad 1 100 2 0) (.npy 0, .npy 0) (.py 4)) = .ok s') ∧
    .usedCauchy ∈ (trSays { defaultCfg with verbosity := 3 } { defaultTR with useRand := true }
      (planeQuad 1 100 2 0) stillClock (fun _ => (.npy 0, .npy (1 / 10))) 1 1 (.py 8) (.py 4)
      (some 0, some 0) (trInit (planeQuad 1 100 2 0) (.npy 0, .npy 0) (.py 4))).1 ∧
    .usedCauchy ∉ (trSays defaultCfg { defaultTR with useRand := true }
      (planeQuad 1 100 2 0) stillClock (fun _ => (.npy 0, .npy (1 / 10))) 1 1 (.py 8) (.py 4)
      (some 0, some 0) (trInit (planeQuad 1 100 2 0) (.npy 0, .npy 0) (.py 4))).1 := by
  obtain ⟨s', h, -⟩ := exists_of_isOk (p := fun _ => true)
    (r := trStep { defaultCfg with verbosity := 3 } { defaultTR with useRand := true }
      (planeQuad 1 100 2 0) stillClock (fun _ => (.npy 0, .npy (1 / 10))) 1 1 (.py 8)
      (trInit (planeQuad 1 100 2 0) (.npy 0, .npy 0) (.py 4))) (by decide +kernel)
  exact ⟨⟨s', h⟩, by decide +kernel, by decide +kernel⟩

end Verif.Opt
