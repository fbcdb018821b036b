/-
C139: what the optimizers print at each verbosity.
C140: the best cost Nelder-Mead and particle swarm print.
-/
import Verif.Opt.Model.Output
import Verif.Opt.Props.NM
import Verif.Opt.Props.PSO
import Verif.Opt.Props.Counts

namespace Verif.Opt
open PyNum

/-! ### Loops that print -/

section
variable {S R A L : Type*} {step : S → Except PyErr (Ctl S R)} {out : A → S → List L × A}

theorem PrintsIn.runs {a : A} {s : S} {l : List L} {r : Except PyErr R}
    (h : PrintsIn step out a s l r) : Runs step s r := by
  induction h with
  | brk hs => exact ⟨1, .brk hs⟩
  | err hs => exact ⟨1, .err hs⟩
  | next hs _ ih =>
    obtain ⟨n, hn⟩ := ih
    exact ⟨n + 1, .next hs hn⟩

theorem runs_prints {s : S} {r : Except PyErr R} (h : Runs step s r) (a : A) :
    ∃ l, PrintsIn step out a s l r := by
  obtain ⟨n, h⟩ := h
  induction h generalizing a with
  | brk hs => exact ⟨_, .brk hs⟩
  | err hs => exact ⟨_, .err hs⟩
  | next hs _ ih =>
    obtain ⟨l, hl⟩ := ih (out a _).2
    exact ⟨_, .next hs hl⟩

theorem PrintsIn.det {a : A} {s : S} {l l' : List L} {r r' : Except PyErr R}
    (h : PrintsIn step out a s l r) (h' : PrintsIn step out a s l' r') : l = l' ∧ r = r' := by
  induction h generalizing l' r' with
  | brk hs => cases h' <;> simp_all
  | err hs => cases h' <;> simp_all
  | next hs hr ih =>
    cases h' with
    | brk h2 => rw [hs] at h2; cases h2
    | err h2 => rw [hs] at h2; cases h2
    | next h2 h3 =>
      rw [hs] at h2
      cases h2
      obtain ⟨rfl, rfl⟩ := ih h3
      exact ⟨rfl, rfl⟩

/-- Invariants about what has been printed so far. -/
theorem PrintsIn.invariant (Inv : List L → A → S → Prop) (Post : List L → Except PyErr R → Prop)
    (hnext : ∀ l a s s', Inv l a s → step s = .ok (.next s') →
      Inv (l ++ (out a s).1) (out a s).2 s')
    (hbrk : ∀ l a s r, Inv l a s → step s = .ok (.brk r) → Post (l ++ (out a s).1) (.ok r))
    (herr : ∀ l a s e, Inv l a s → step s = .error e → Post (l ++ (out a s).1) (.error e))
    {a : A} {s : S} {l : List L} {r : Except PyErr R} (h : PrintsIn step out a s l r)
    (l₀ : List L) (h0 : Inv l₀ a s) : Post (l₀ ++ l) r := by
  induction h generalizing l₀ with
  | brk hs => exact hbrk _ _ _ _ h0 hs
  | err hs => exact herr _ _ _ _ h0 hs
  | next hs _ ih =>
    rw [← List.append_assoc]
    exact ih _ (hnext _ _ _ _ h0 hs)

/-- A loop whose body never prints prints nothing. -/
theorem PrintsIn.silent (hs : ∀ a s, (out a s).1 = []) {a : A} {s : S} {l : List L}
    {r : Except PyErr R} (h : PrintsIn step out a s l r) : l = [] := by
  have := h.invariant (fun l _ _ => l = []) (fun l _ => l = [])
    (fun l a s s' h _ => by simp [h, hs]) (fun l a s r h _ => by simp [h, hs])
    (fun l a s e h _ => by simp [h, hs]) [] rfl
  simpa using this

theorem runs_iff_prints (a : A) (s : S) (r : Except PyErr R) (p : List L) :
    Runs step s r ↔ ∃! l, ∃ l', PrintsIn step out a s l' r ∧ l = p ++ l' := by
  constructor
  · intro h
    obtain ⟨l, hl⟩ := runs_prints (out := out) h a
    refine ⟨_, ⟨l, hl, rfl⟩, ?_⟩
    rintro _ ⟨l', hl', rfl⟩
    rw [(hl.det hl').1]
  · rintro ⟨_, ⟨l, hl, -⟩, -⟩
    exact hl.runs

theorem raises_iff_prints (r : Except PyErr R) (e : PyErr) (p : List L) :
    r = .error e ↔ ∃! l, l = p ∧ r = .error e := by
  constructor
  · rintro rfl
    exact ⟨p, ⟨rfl, rfl⟩, fun _ h => h.1⟩
  · rintro ⟨_, ⟨-, h⟩, -⟩
    exact h

end

/-! ### C139 -/

section
variable {F P E S : Type*} [PyNum F]

omit [PyNum F] in
theorem say_of_lt {v k : ℤ} (h : v < k) (m : Message F) : say v k m = [] := by
  simp [say, not_le.mpr h]

omit [PyNum F] in
theorem say_of_le {v k : ℤ} (h : k ≤ v) (m : Message F) : say v k m = [m] := by
  simp [say, h]

omit [PyNum F] in
theorem sayFinished_of_lt {T S' : Type*} {v : ℤ} (h : v < 1) (f : T → StopReason F)
    (c : Except PyErr (Ctl S' T)) : sayFinished v f c = [] := by
  unfold sayFinished
  split
  · exact say_of_lt h _
  · rfl

/-- **C139** The outcomes of the printing runs are those of the runs (C106 compares these across
verbosities), and what a run prints is determined by its arguments. -/
theorem C139_prints (cfg : Cfg F) (pb : Prob F P E) (clk : Clock F) :
    (∀ (ls : LineSearcher F P E S) x mem r, SDRuns cfg ls pb clk x mem r ↔
      ∃! l, SDPrints cfg ls pb clk x mem l r) ∧
    (∀ rule orth (ls : LineSearcher F P E S) x mem r, CGRuns cfg rule orth ls pb clk x mem r ↔
      ∃! l, CGPrints cfg rule orth ls pb clk x mem l r) ∧
    (∀ (o : NMObj F) sort centroid init r, NMRuns o sort centroid pb clk init r ↔
      ∃! l, NMPrints o sort centroid pb clk init l r) ∧
    (∀ (o : PSOObj F) rnd init r, PSORuns o rnd pb clk init r ↔
      ∃! l, PSOPrints o rnd pb clk init l r) ∧
    (∀ c eta0 mininner maxinner td DeltaBar Delta0 x r,
      TRRuns cfg c pb clk eta0 mininner maxinner td DeltaBar Delta0 x r ↔
      ∃! l, TRPrints cfg c pb clk eta0 mininner maxinner td DeltaBar Delta0 x l r) := by
  refine ⟨?_, ?_, ?_, ?_, ?_⟩
  · intro ls x mem r
    unfold SDRuns SDPrints
    cases printerSetup cfg with
    | error e => exact raises_iff_prints _ _ _
    | ok _ => exact runs_iff_prints () _ _ _
  · intro rule orth ls x mem r
    unfold CGRuns CGPrints
    cases printerSetup cfg with
    | error e => exact raises_iff_prints _ _ _
    | ok _ => exact runs_iff_prints () _ _ _
  · intro o sort centroid init r
    unfold NMRuns NMPrints
    cases nmSimplex pb.M.dim init with
    | error e => exact raises_iff_prints _ _ _
    | ok x =>
      refine (runs_iff_prints (out := nmSays (o.resolve pb.M.dim) sort centroid pb clk) () _ _ []).trans ?_
      simp
  · intro o rnd init r
    unfold PSORuns PSOPrints
    rcases psoPopulation (o.resolve pb.M.dim) init with e | ⟨o', l, b⟩
    · exact raises_iff_prints _ _ _
    · cases l with
      | nil => exact raises_iff_prints _ _ _
      | cons x0 xs =>
        simp only
        cases printerSetup o'.cfg with
        | error e => exact raises_iff_prints _ _ _
        | ok _ => exact runs_iff_prints () _ _ _
  · intro c eta0 mininner maxinner td DeltaBar Delta0 x r
    unfold TRRuns TRPrints
    rcases trRadii pb.M.dim td DeltaBar Delta0 with e | ⟨DeltaBar, Delta0⟩
    · exact raises_iff_prints _ _ _
    · exact runs_iff_prints _ _ _ _

/-- **C139** With verbosity 0 (or less) a run prints nothing, whatever its outcome: for steepest
descent, conjugate gradient and Nelder-Mead; for particle swarm when no initial population is given
or it has the configured size; for trust regions with Python and numpy scalars.  Missing: particle
swarm with an initial population of another size (`C139_negation`). -/
theorem C139_silent_partial {cfg : Cfg F} (hv : cfg.verbosity ≤ 0) {pb : Prob F P E}
    {clk : Clock F} :
    (∀ (ls : LineSearcher F P E S) x mem l r, SDPrints cfg ls pb clk x mem l r → l = []) ∧
    (∀ rule orth (ls : LineSearcher F P E S) x mem l r,
      CGPrints cfg rule orth ls pb clk x mem l r → l = []) ∧
    (∀ (o : NMObj F), o.verbosity ≤ 0 → ∀ sort centroid init l r,
      NMPrints o sort centroid pb clk init l r → l = []) ∧
    (∀ (o : PSOObj F), o.verbosity ≤ 0 → ∀ rnd init l r,
      (∀ x, init = .list x ∨ init = .tuple x →
        (x.length : ℤ) = o.populationSize.getD (min 40 (10 * pb.M.dim))) →
      PSOPrints o rnd pb clk init l r → l = []) := by
  refine ⟨?_, ?_, ?_, ?_⟩
  · intro ls x mem l r h
    unfold SDPrints at h
    split at h
    · rw [h.1, say_of_lt (by omega)]
    · obtain ⟨l', h, rfl⟩ := h
      rw [say_of_lt (by omega), say_of_lt (by omega), h.silent]
      · rfl
      · intro _ s
        simp only [sdSays]
        rw [say_of_lt (by omega), sayFinished_of_lt (by omega)]
        rfl
  · intro rule orth ls x mem l r h
    unfold CGPrints at h
    split at h
    · rw [h.1, say_of_lt (by omega)]
    · obtain ⟨l', h, rfl⟩ := h
      rw [say_of_lt (by omega), say_of_lt (by omega), h.silent]
      · rfl
      · intro _ s
        simp only [cgSays]
        rw [say_of_lt (by omega)]
        split
        · rw [sayFinished_of_lt (by omega)]
          rfl
        · split
          · rw [say_of_lt (by omega)]
            rfl
          · rfl
  · intro o ho sort centroid init l r h
    have hr : (o.resolve pb.M.dim).verbosity = o.verbosity := rfl
    unfold NMPrints at h
    split at h
    · exact h.1
    · refine h.silent ?_
      intro _ s
      simp only [nmSays]
      rw [List.append_eq_nil_iff]
      constructor
      · split
        · exact say_of_lt (by omega) _
        · rfl
      · split
        · exact say_of_lt (by omega) _
        · split
          · rfl
          · split
            · rfl
            · exact say_of_lt (by omega) _
  · intro o ho rnd init l r hi h
    have hw : psoWarns (o.resolve pb.M.dim) init = ([] : List (Message F)) := by
      cases init with
      | none draws => rfl
      | list x =>
        have := hi x (Or.inl rfl)
        simp [psoWarns, PSOObj.resolve, this]
      | tuple x =>
        have := hi x (Or.inr rfl)
        simp [psoWarns, PSOObj.resolve, this]
      | other => rfl
    unfold PSOPrints at h
    split at h
    · exact h.1
    · rw [h.1, hw]
    · rename_i o' x0 xs isT hpop
      have ho' : o'.verbosity = o.verbosity := by
        cases init <;> simp only [psoPopulation, Except.ok.injEq, Prod.mk.injEq] at hpop
        · rw [← hpop.1]; rfl
        · rw [← hpop.1]; rfl
        · rw [← hpop.1]; rfl
        · cases hpop
      split at h
      · rw [h.1, hw]
      · obtain ⟨l', h, rfl⟩ := h
        rw [hw, say_of_lt (by omega), h.silent]
        · rfl
        · intro _ s
          simp only [psoSays]
          rw [say_of_lt (by omega), sayFinished_of_lt (by omega)]
          rfl

/-- **C139** for trust regions: with verbosity 0 (or less) at most the warning about the ratio is
printed, and not even that if no division by zero raises. -/
theorem C139_silent_trustRegions {cfg : Cfg F} (hv : cfg.verbosity ≤ 0) {c : TRCfg F}
    {pb : Prob F P E} {clk : Clock F} {eta0 : ℤ → E} {mininner : ℤ} {maxinner : Option ℤ}
    {td DeltaBar Delta0 : Option F} {x : P} {l : List (Message F)} {r}
    (h : TRPrints cfg c pb clk eta0 mininner maxinner td DeltaBar Delta0 x l r) :
    (∀ m ∈ l, m = .rhoNan) ∧
    ((∀ x fx g fx' eta Heta, rhoRaises c pb x fx g fx' eta Heta = false) → l = []) := by
  unfold TRPrints at h
  split at h
  · rw [h.1]
    simp
  · rename_i db d0 hrad
    obtain ⟨l', h, rfl⟩ := h
    rw [say_of_lt (by omega), say_of_lt (by omega)]
    simp only [List.nil_append]
    have hc : ∀ (m : Message F) n, (countChange cfg.verbosity m n).1 = [] := by
      intro m n
      simp [countChange, show ¬ 1 ≤ cfg.verbosity by omega]
    have hr : ∀ rho md stop n,
        (radiusSays cfg.verbosity rho md stop db d0 n).2.1 = ([] : List (Message F)) := by
      intro rho md stop n
      unfold radiusSays
      simp only
      split
      · exact hc _ _
      · split
        · exact hc _ _
        · rfl
    have hs : ∀ n s, (trSays cfg c pb clk eta0 mininner (maxinner.getD pb.M.dim) db d0 n s).1 = [] ∨
        ((trSays cfg c pb clk eta0 mininner (maxinner.getD pb.M.dim) db d0 n s).1 = [.rhoNan] ∧
          ∃ x fx g fx' eta Heta, rhoRaises c pb x fx g fx' eta Heta = true) := by
      intro n s
      unfold trSays
      simp only
      split
      · exact Or.inl rfl
      · split
        · exact Or.inl rfl
        · split
          · exact Or.inl rfl
          · simp only
            rw [hr, say_of_lt (by omega), say_of_lt (by omega), say_of_lt (by omega),
              sayFinished_of_lt (by omega), ite_self]
            split
            · rename_i hx
              exact Or.inr ⟨rfl, _, _, _, _, _, _, hx⟩
            · exact Or.inl rfl
    constructor
    · have := h.invariant (fun l _ _ => ∀ m ∈ l, m = .rhoNan) (fun l _ => ∀ m ∈ l, m = .rhoNan)
        ?_ ?_ ?_ [] (by simp)
      · simpa using this
      all_goals
        intro l a s _ hl _ m hm
        rcases List.mem_append.1 hm with hm | hm
        · exact hl m hm
        · rcases hs a s with h0 | ⟨h0, -⟩
          · rw [h0] at hm
            cases hm
          · rw [h0] at hm
            simpa using hm
    · intro hno
      refine h.silent fun a s => ?_
      rcases hs a s with h0 | ⟨-, x, fx, g, fx', eta, Heta, h1⟩
      · exact h0
      · rw [hno] at h1
        cases h1

/-- **C139** for trust regions with Python and numpy scalars: the regularization of the ratio makes
it a numpy scalar, so that the division never raises and nothing is printed. -/
theorem C139_silent_trustRegions_numpy {K : Type*} [NumField K] {cfg : Cfg (Num K)}
    (hv : cfg.verbosity ≤ 0) {c : TRCfg (Num K)} {pb : Prob (Num K) P E} {clk : Clock (Num K)}
    {eta0 : ℤ → E} {mininner : ℤ} {maxinner : Option ℤ} {td DeltaBar Delta0 : Option (Num K)}
    {x : P} {l : List (Message (Num K))} {r}
    (h : TRPrints cfg c pb clk eta0 mininner maxinner td DeltaBar Delta0 x l r) : l = [] := by
  refine (C139_silent_trustRegions hv h).2 ?_
  intro x fx g fx' eta Heta
  unfold rhoRaises
  simp only
  rw [show ∀ a b : Num K, div (add a (rhoReg c fx)) b =
    .ok ⟨(add a (rhoReg c fx)).np || b.np, (add a (rhoReg c fx)).v.div b.v⟩ from ?_]
  intro a b
  have : (add a (rhoReg c fx)).np = true := by
    simp [PyNum.add, rhoReg, PyNum.mul, PyNum.toNp]
  simp only [PyNum.div, this]
  simp

/-- **C139** With verbosity 1 a run that returns prints the start message (where there is one) and
the reason for which it stopped, which is the one in the result, and nothing else. -/
theorem C139_brief {cfg : Cfg F} (hv : cfg.verbosity = 1) {pb : Prob F P E} {clk : Clock F} :
    (∀ (ls : LineSearcher F P E S) x mem l r m, SDPrints cfg ls pb clk x mem l (.ok (r, m)) →
      l = [.optimizing, .finished r.stop]) ∧
    (∀ rule orth (ls : LineSearcher F P E S) x mem l r m t,
      CGPrints cfg rule orth ls pb clk x mem l (.ok (r, m, t)) →
      l = [.optimizing, .finished r.stop]) ∧
    (∀ (o : NMObj F), o.verbosity = 1 → ∀ sort centroid init l r,
      NMPrints o sort centroid pb clk init l (.ok r) → l = [.finished r.stop]) ∧
    (∀ (o : PSOObj F), o.verbosity = 1 → ∀ rnd init l r t,
      PSOPrints o rnd pb clk init l (.ok (r, t)) →
      l = psoWarns (o.resolve pb.M.dim) init ++ [.finished r.stop]) := by
  refine ⟨?_, ?_, ?_, ?_⟩
  · intro ls x mem l r m h
    unfold SDPrints at h
    split at h
    · cases h.2
    · obtain ⟨l', h, rfl⟩ := h
      rw [say_of_le (by omega), say_of_lt (by omega)]
      have := h.invariant (fun l _ _ => l = [])
        (fun l r => ∀ q, r = .ok q → l = [.finished q.1.stop]) ?_ ?_ ?_ [] rfl
      · rw [show l' = _ from this _ rfl]
        rfl
      · rintro l a s s' rfl hst
        simp [sdSays, say_of_lt (show cfg.verbosity < 2 by omega), sayFinished, hst]
      · rintro l a s r rfl hst q hq
        cases hq
        simp [sdSays, say_of_lt (show cfg.verbosity < 2 by omega), sayFinished, hst,
          say_of_le (show 1 ≤ cfg.verbosity by omega)]
      · intro l a s e _ _ q hq
        cases hq
  · intro rule orth ls x mem l r m t h
    unfold CGPrints at h
    split at h
    · cases h.2
    · obtain ⟨l', h, rfl⟩ := h
      rw [say_of_le (by omega), say_of_lt (by omega)]
      have := h.invariant (fun l _ _ => l = [])
        (fun l r => ∀ q, r = .ok q → l = [.finished q.1.stop]) ?_ ?_ ?_ [] rfl
      · rw [show l' = _ from this _ rfl]
        rfl
      · rintro l a s s' rfl hst
        obtain ⟨o, nd, hc, -⟩ := cgStep_next hst
        simp only [cgSays, say_of_lt (show cfg.verbosity < 2 by omega), hc,
          say_of_lt (show cfg.verbosity < 3 by omega)]
        simp
      · rintro l a s r rfl hst q hq
        cases hq
        obtain ⟨reason, hc, -⟩ := cgStep_brk hst
        simp only [cgSays, say_of_lt (show cfg.verbosity < 2 by omega), hc, sayFinished, hst,
          say_of_le (show 1 ≤ cfg.verbosity by omega)]
        simp
      · intro l a s e _ _ q hq
        cases hq
  · intro o ho sort centroid init l r h
    have hr : (o.resolve pb.M.dim).verbosity = 1 := ho
    unfold NMPrints at h
    split at h
    · cases h.2
    · have := h.invariant (fun l _ _ => l = [])
        (fun l r => ∀ q, r = .ok q → l = [.finished q.stop]) ?_ ?_ ?_ [] rfl
      · simpa using this _ rfl
      · rintro l a s s' rfl hst
        obtain ⟨xbar, m, hc, hx, hm, -⟩ := nmStep_next hst
        simp only [nmSays, say_of_lt (show (o.resolve pb.M.dim).verbosity < 2 by omega), hc, hx, hm]
        split <;> simp
      · rintro l a s r rfl hst q hq
        cases hq
        obtain ⟨reason, best, hc, hb, rfl⟩ := nmStep_brk hst
        simp only [nmSays, say_of_lt (show (o.resolve pb.M.dim).verbosity < 2 by omega), hc,
          say_of_le (show 1 ≤ (o.resolve pb.M.dim).verbosity by omega)]
        split <;> simp
      · intro l a s e _ _ q hq
        cases hq
  · intro o ho rnd init l r t h
    unfold PSOPrints at h
    split at h
    · cases h.2
    · cases h.2
    · rename_i o' x0 xs isT hpop
      have ho' : o'.verbosity = 1 := by
        rw [← ho]
        cases init <;> simp only [psoPopulation, Except.ok.injEq, Prod.mk.injEq] at hpop
        · rw [← hpop.1]; rfl
        · rw [← hpop.1]; rfl
        · rw [← hpop.1]; rfl
        · cases hpop
      split at h
      · cases h.2
      · obtain ⟨l', h, rfl⟩ := h
        rw [say_of_lt (by omega)]
        have := h.invariant (fun l _ _ => l = [])
          (fun l r => ∀ q, r = .ok q → l = [.finished q.1.stop]) ?_ ?_ ?_ [] rfl
        · have := this _ rfl
          simp only [List.nil_append] at this
          rw [this]
          simp
        · rintro l a s s' rfl hst
          simp [psoSays, say_of_lt (show o'.verbosity < 2 by omega), sayFinished, hst]
        · rintro l a s r rfl hst q hq
          cases hq
          simp [psoSays, say_of_lt (show o'.verbosity < 2 by omega), sayFinished, hst,
            say_of_le (show 1 ≤ o'.verbosity by omega)]
        · intro l a s e _ _ q hq
          cases hq

/-! #### Rows -/

/-- The rows of steepest descent and conjugate gradient among the messages. -/
def rowsOf (l : List (Message F)) : List (ℤ × F × F) :=
  l.filterMap fun
    | .row i c g => some (i, c, g)
    | _ => none

/-- The rows of particle swarm among the messages. -/
def swarmRowsOf (l : List (Message F)) : List (ℤ × ℤ × F) :=
  l.filterMap fun
    | .swarmRow i n b => some (i, n, b)
    | _ => none

/-- The rows of Nelder-Mead among the messages. -/
def simplexRowsOf (l : List (Message F)) : List (ℤ × F) :=
  l.filterMap fun
    | .simplexRow n b => some (n, b)
    | _ => none

/-- The moves of Nelder-Mead among the messages. -/
def actionsOf (l : List (Message F)) : List NMAction :=
  l.filterMap fun
    | .action a => some a
    | _ => none

/-- The rows of trust regions among the messages: iteration, accepted, cost, gradient norm. -/
def regionsOf (l : List (Message F)) : List (ℤ × Bool × F × F) :=
  l.filterMap fun
    | .region a _ k _ _ _ c g => some (k, a, c, g)
    | _ => none

/-- **C139** With verbosity 2 (or more) a run of steepest descent that returns prints the start
message, the header, one row per iteration and the reason for which it stopped.  The rows are
numbered from 1, the first belongs to the starting point, and each shows the cost and the gradient
norm of one point; with logging these are the logged points. -/
theorem C139_rows_steepestDescent {cfg : Cfg F} (hv : 2 ≤ cfg.verbosity)
    {ls : LineSearcher F P E S} {pb : Prob F P E} {clk : Clock F} {x : P} {mem : S}
    {l : List (Message F)} {r : Result F P} {m : S}
    (h : SDPrints cfg ls pb clk x mem l (.ok (r, m))) :
    ∃ xs : List P,
      l = [.optimizing, .header] ++
        xs.mapIdx (fun i p => .row (i + 1) (pb.cost p) (pb.M.norm p (pb.grad p))) ++
        [.finished r.stop] ∧
      (xs.length : ℤ) = r.iterations ∧ xs.head? = some x ∧
      (1 ≤ cfg.logVerbosity → r.log.map (List.map LogEntry.point) = some xs) := by
  unfold SDPrints at h
  split at h
  · cases h.2
  · obtain ⟨l', h, rfl⟩ := h
    rw [say_of_le (by omega), say_of_le (by omega)]
    have key := h.invariant
      (fun l _ s => ∃ xs : List P,
        l = xs.mapIdx (fun i p => .row (i + 1) (pb.cost p) (pb.M.norm p (pb.grad p))) ∧
        (xs.length : ℤ) = s.iteration ∧ (xs ++ [s.x]).head? = some x ∧
        (1 ≤ cfg.logVerbosity → s.log.map (List.map LogEntry.point) = some xs))
      (fun l r => ∀ q, r = .ok q → ∃ xs : List P,
        l = xs.mapIdx (fun i p => .row (i + 1) (pb.cost p) (pb.M.norm p (pb.grad p))) ++
          [.finished q.1.stop] ∧
        (xs.length : ℤ) = q.1.iterations ∧ xs.head? = some x ∧
        (1 ≤ cfg.logVerbosity → q.1.log.map (List.map LogEntry.point) = some xs))
      ?_ ?_ ?_ [] ?_
    · obtain ⟨xs, h1, h2⟩ := key _ rfl
      refine ⟨xs, ?_, h2⟩
      rw [List.nil_append] at h1
      rw [h1]
      simp
    · rintro l a s s' ⟨xs, rfl, h2, h3, h4⟩ hst
      refine ⟨xs ++ [s.x], ?_, ?_, ?_, ?_⟩
      · rw [List.mapIdx_concat, h2]
        simp [sdSays, say_of_le hv, sayFinished, hst]
      all_goals obtain ⟨o, ho, -, rfl⟩ := sdStep_next hst
      · simp [h2]
      · rw [List.head?_append, h3]
        rfl
      · intro hl
        have := h4 hl
        simp only [addLog, show ¬ cfg.logVerbosity ≤ 0 by omega, if_false]
        cases hs : s.log with
        | none => rw [hs] at this; cases this
        | some L =>
          rw [hs] at this
          simp only [Option.map_some, Option.some.injEq] at this
          simp [this]
    · rintro l a s r ⟨xs, rfl, h2, h3, h4⟩ hst q hq
      cases hq
      refine ⟨xs ++ [s.x], ?_, ?_, h3, ?_⟩
      · rw [List.mapIdx_concat, h2]
        simp [sdSays, say_of_le hv, sayFinished, hst, say_of_le (show 1 ≤ cfg.verbosity by omega)]
      all_goals obtain ⟨o, reason, ho, -, rfl⟩ := sdStep_brk hst
      · simp [h2]
      · intro hl
        have := h4 hl
        simp only [addLog, show ¬ cfg.logVerbosity ≤ 0 by omega, if_false]
        cases hs : s.log with
        | none => rw [hs] at this; cases this
        | some L =>
          rw [hs] at this
          simp only [Option.map_some, Option.some.injEq] at this
          simp [this]
    · intro l a s e _ _ q hq
      cases hq
    · refine ⟨[], rfl, rfl, rfl, fun hl => ?_⟩
      simp [sdInit, initLog, hl]

/-- **C139** for conjugate gradient (which from verbosity 3 on also reports resets to the steepest
descent direction between the rows). -/
theorem C139_rows_conjugateGradient {cfg : Cfg F} (hv : 2 ≤ cfg.verbosity) {rule : BetaRule}
    {orth : F} {ls : LineSearcher F P E S} {pb : Prob F P E} {clk : Clock F} {x : P} {mem : S}
    {l : List (Message F)} {r : Result F P} {m : S} {t : List (P × E × F)}
    (h : CGPrints cfg rule orth ls pb clk x mem l (.ok (r, m, t))) :
    ∃ xs : List P,
      rowsOf l =
        xs.mapIdx (fun i p => ((i : ℤ) + 1, pb.cost p, pb.M.norm p (pb.grad p))) ∧
      (xs.length : ℤ) = r.iterations ∧ xs.head? = some x ∧ xs.getLast? = some r.point ∧
      (cfg.verbosity = 2 → l = [.optimizing, .header] ++
        (rowsOf l).map (fun v => .row v.1 v.2.1 v.2.2) ++ [.finished r.stop]) ∧
      (1 ≤ cfg.logVerbosity → r.log.map (List.map LogEntry.point) = some xs) := by
  unfold CGPrints at h
  split at h
  · cases h.2
  · obtain ⟨l', h, rfl⟩ := h
    rw [say_of_le (by omega), say_of_le (by omega)]
    have key := h.invariant
      (fun l _ s => ∃ xs : List P,
        rowsOf l = xs.mapIdx (fun i p => ((i : ℤ) + 1, pb.cost p, pb.M.norm p (pb.grad p))) ∧
        (xs.length : ℤ) = s.iteration ∧ (xs ++ [s.x]).head? = some x ∧
        (cfg.verbosity = 2 → l = (rowsOf l).map (fun v => .row v.1 v.2.1 v.2.2)) ∧
        (1 ≤ cfg.logVerbosity → s.log.map (List.map LogEntry.point) = some xs) ∧
        s.cost = pb.cost s.x ∧ s.gradientNorm = pb.M.norm s.x (pb.grad s.x))
      (fun l r => ∀ q, r = .ok q → ∃ xs : List P,
        rowsOf l = xs.mapIdx (fun i p => ((i : ℤ) + 1, pb.cost p, pb.M.norm p (pb.grad p))) ∧
        (xs.length : ℤ) = q.1.iterations ∧ xs.head? = some x ∧ xs.getLast? = some q.1.point ∧
        (cfg.verbosity = 2 → l = (rowsOf l).map (fun v => .row v.1 v.2.1 v.2.2) ++
          [.finished q.1.stop]) ∧
        (1 ≤ cfg.logVerbosity → q.1.log.map (List.map LogEntry.point) = some xs))
      ?_ ?_ ?_ [] ?_
    · obtain ⟨xs, h1, h2, h3, h4, h5, h6⟩ := key _ rfl
      rw [List.nil_append] at h1 h5
      refine ⟨xs, ?_, h2, h3, h4, ?_, h6⟩
      · simpa [rowsOf] using h1
      · intro hv2
        have := h5 hv2
        simpa [rowsOf] using this
    · rintro l a s s' ⟨xs, h1, h2, h3, h4, h5, h6, h7⟩ hst
      obtain ⟨o, nd, hc, ho, -, rfl⟩ := cgStep_next hst
      have hsay : rowsOf (cgSays cfg rule orth ls pb clk a s).1 =
          [(s.iteration + 1, s.cost, s.gradientNorm)] := by
        simp only [cgSays, hc, say_of_le hv]
        split
        · unfold say
          split <;> simp [rowsOf]
        · simp [rowsOf]
      have hsay2 : cfg.verbosity = 2 → (cgSays cfg rule orth ls pb clk a s).1 =
          [.row (s.iteration + 1) s.cost s.gradientNorm] := by
        intro hv2
        simp only [cgSays, hc, say_of_le hv, say_of_lt (show cfg.verbosity < 3 by omega)]
        simp
      have happ : rowsOf (l ++ (cgSays cfg rule orth ls pb clk a s).1) =
          rowsOf l ++ [(s.iteration + 1, s.cost, s.gradientNorm)] := by
        rw [← hsay]
        simp [rowsOf]
      refine ⟨xs ++ [s.x], ?_, by simp [h2], ?_, ?_, ?_, rfl, rfl⟩
      · rw [happ, List.mapIdx_concat, h1, h2, h6, h7]
      · rw [List.head?_append, h3]
        rfl
      · intro hv2
        rw [happ, List.map_append, ← h4 hv2, hsay2 hv2]
        rfl
      · intro hl
        have := h5 hl
        simp only [addLog, show ¬ cfg.logVerbosity ≤ 0 by omega, if_false]
        cases hs : s.log with
        | none => rw [hs] at this; cases this
        | some L =>
          rw [hs] at this
          simp only [Option.map_some, Option.some.injEq] at this
          simp [this]
    · rintro l a s r ⟨xs, h1, h2, h3, h4, h5, h6, h7⟩ hst q hq
      cases hq
      have hfin : sayFinished cfg.verbosity (fun r => r.1.stop) (cgStep cfg rule orth ls pb clk s) =
          [.finished r.1.stop] := by
        simp [sayFinished, hst, say_of_le (show 1 ≤ cfg.verbosity by omega)]
      obtain ⟨reason, hc, rfl⟩ := cgStep_brk hst
      have hsay : (cgSays cfg rule orth ls pb clk a s).1 =
          [.row (s.iteration + 1) s.cost s.gradientNorm, .finished reason] := by
        simp only [cgSays, hc, say_of_le hv, hfin]
        simp
      rw [hsay]
      have happ : rowsOf (l ++ [.row (s.iteration + 1) s.cost s.gradientNorm, .finished reason]) =
          rowsOf l ++ [(s.iteration + 1, s.cost, s.gradientNorm)] := by
        simp [rowsOf]
      refine ⟨xs ++ [s.x], ?_, by simp [h2], h3, by simp, ?_, ?_⟩
      · rw [happ, List.mapIdx_concat, h1, h2, h6, h7]
      · intro hv2
        rw [happ, List.map_append, ← h4 hv2]
        simp
      · intro hl
        have := h5 hl
        simp only [addLog, show ¬ cfg.logVerbosity ≤ 0 by omega, if_false]
        cases hs : s.log with
        | none => rw [hs] at this; cases this
        | some L =>
          rw [hs] at this
          simp only [Option.map_some, Option.some.injEq] at this
          simp [this]
    · intro l a s e _ _ q hq
      cases hq
    · refine ⟨[], rfl, rfl, rfl, fun _ => rfl, fun hl => ?_, rfl, rfl⟩
      simp [cgInit, initLog, hl]

/-- **C139** With verbosity 2 (or more) a run of trust regions that returns prints one row per
iteration, numbered from 1.  After an accepted step it shows the cost and the gradient norm of the
new iterate, and so does the last row for the result. -/
theorem C139_rows_trustRegions {cfg : Cfg F} (hv : 2 ≤ cfg.verbosity) {c : TRCfg F}
    {pb : Prob F P E} {clk : Clock F} {eta0 : ℤ → E} {mininner : ℤ} {maxinner : Option ℤ}
    {td DeltaBar Delta0 : Option F} {x : P} {l : List (Message F)} {r : Result F P} {t}
    (h : TRPrints cfg c pb clk eta0 mininner maxinner td DeltaBar Delta0 x l (.ok (r, t))) :
    ∃ xs : List (Bool × P),
      regionsOf l =
        xs.mapIdx (fun i p => ((i : ℤ) + 1, p.1, pb.cost p.2, pb.M.norm p.2 (pb.grad p.2))) ∧
      (xs.length : ℤ) = r.iterations ∧
      (xs.map Prod.snd).getLast? = some r.point ∧
      ((false, x) :: xs).IsChain (fun p q => q.1 = false → q.2 = p.2) := by
  unfold TRPrints at h
  split at h
  · cases h.2
  · rename_i db d0 hrad
    obtain ⟨l', h, rfl⟩ := h
    rw [say_of_le (by omega), say_of_le (by omega)]
    have hfin : ∀ (e : Except PyErr (Ctl (TRState F P E) (Result F P × List (P × F × F)))),
        regionsOf (sayFinished cfg.verbosity (fun r => r.1.stop) e) = [] := by
      intro e
      unfold sayFinished
      split
      · unfold say
        split <;> rfl
      · rfl
    have hcc : ∀ (m : Message F) n, (∀ a b k i s d c g, m ≠ .region a b k i s d c g) →
        regionsOf (countChange cfg.verbosity m n).1 = [] := by
      intro m n hm
      unfold countChange
      simp only
      split
      · cases m <;> first | rfl | exact absurd rfl (hm _ _ _ _ _ _ _ _)
      · rfl
    have hrad : ∀ rho md stop n, regionsOf
        (radiusSays cfg.verbosity rho md stop db d0 n).2.1 = ([] : List (ℤ × Bool × F × F)) := by
      intro rho md stop n
      unfold radiusSays
      simp only
      split
      · exact hcc _ _ (by simp)
      · split
        · exact hcc _ _ (by simp)
        · rfl
    have happ : ∀ l₁ l₂ : List (Message F), regionsOf (l₁ ++ l₂) = regionsOf l₁ ++ regionsOf l₂ := by
      intro l₁ l₂
      simp [regionsOf]
    -- one body
    have body : ∀ n s e, trStep cfg c pb clk eta0 mininner (maxinner.getD pb.M.dim) db s = .ok e →
        s.fx = pb.cost s.x → s.normGrad = pb.M.norm s.x (pb.grad s.x) →
        ∃ acc y, (acc = false → y = s.x) ∧
          regionsOf (trSays cfg c pb clk eta0 mininner (maxinner.getD pb.M.dim) db d0 n s).1 =
            [(s.iteration + 1, acc, pb.cost y, pb.M.norm y (pb.grad y))] ∧
          (∀ s', e = .next s' → s'.iteration = s.iteration + 1 ∧ s'.x = y ∧ s'.fx = pb.cost y ∧
            s'.normGrad = pb.M.norm y (pb.grad y)) ∧
          (∀ r, e = .brk r → r.1.iterations = s.iteration + 1 ∧ r.1.point = y) := by
      intro n s e hst hfx hng
      have hfin' := hfin (trStep cfg c pb clk eta0 mininner (maxinner.getD pb.M.dim) db s)
      obtain ⟨o, eta, Heta, rho, md, Delta, h1, h2, h3, h4, h5⟩ := trStep_inv hst
      refine ⟨trAccept c rho md, if trAccept c rho md then pb.M.retraction s.x eta else s.x, ?_,
        ?_, ?_, ?_⟩
      · intro ha
        simp [ha]
      · unfold trSays
        simp only [h1, h2, h3]
        rw [happ, happ, happ, happ, happ, hfin', hrad, say_of_le hv]
        have hw : ∀ b : Bool, regionsOf (if b then [(.rhoNan : Message F)] else []) = [] := by
          intro b
          cases b <;> rfl
        rw [hw]
        have h3' : regionsOf (say cfg.verbosity 3 (.ratio rho : Message F)) = [] := by
          unfold say
          split <;> rfl
        have h4' : ∀ b : Bool, regionsOf
            (if b then say cfg.verbosity 3 (.usedCauchy : Message F) else []) = [] := by
          intro b
          unfold say
          cases b
          · rfl
          · by_cases h : cfg.verbosity ≥ 3 <;> simp [h, regionsOf]
        rw [h3', h4']
        cases trAccept c rho md <;> simp [regionsOf, hfx, hng]
      · rintro s' rfl
        rcases h5 with ⟨-, h5⟩ | ⟨_, -, h5⟩
        · cases h5
          cases trAccept c rho md <;> simp [trAfter, hfx, hng]
        · cases h5
      · rintro r rfl
        rcases h5 with ⟨-, h5⟩ | ⟨_, -, h5⟩
        · cases h5
        · cases h5
          cases trAccept c rho md <;> simp [trAfter]
    have key := h.invariant
      (fun l _ s => ∃ xs : List (Bool × P),
        regionsOf l =
          xs.mapIdx (fun i p => ((i : ℤ) + 1, p.1, pb.cost p.2, pb.M.norm p.2 (pb.grad p.2))) ∧
        (xs.length : ℤ) = s.iteration ∧
        (((false, x) :: xs).map Prod.snd).getLast? = some s.x ∧
        ((false, x) :: xs).IsChain (fun p q => q.1 = false → q.2 = p.2) ∧
        s.fx = pb.cost s.x ∧ s.normGrad = pb.M.norm s.x (pb.grad s.x))
      (fun l r => ∀ q, r = .ok q → ∃ xs : List (Bool × P),
        regionsOf l =
          xs.mapIdx (fun i p => ((i : ℤ) + 1, p.1, pb.cost p.2, pb.M.norm p.2 (pb.grad p.2))) ∧
        (xs.length : ℤ) = q.1.iterations ∧
        (xs.map Prod.snd).getLast? = some q.1.point ∧
        ((false, x) :: xs).IsChain (fun p q => q.1 = false → q.2 = p.2))
      ?_ ?_ ?_ [] ?_
    · obtain ⟨xs, h1, h2⟩ := key _ rfl
      rw [List.nil_append] at h1
      refine ⟨xs, ?_, h2⟩
      rw [← h1]
      simp [regionsOf]
    · rintro l a s s' ⟨xs, h1, h2, h3, h4, h5, h6⟩ hst
      obtain ⟨acc, y, hy, hs, hn, -⟩ := body a s _ hst h5 h6
      obtain ⟨n1, n2, n3, n4⟩ := hn s' rfl
      refine ⟨xs ++ [(acc, y)], ?_, by simp [h2, n1], ?_, ?_, by rw [n3, n2],
        by rw [n4, n2]⟩
      · rw [happ, hs, List.mapIdx_concat, h1, h2]
      · rw [← List.cons_append, List.map_append, List.getLast?_append]
        simp [n2]
      · rw [← List.cons_append]
        refine List.isChain_append.2 ⟨h4, by simp, ?_⟩
        intro p hp q hq
        simp only [List.head?_cons, Option.mem_def, Option.some.injEq] at hq
        subst hq
        intro ha
        rw [hy ha]
        rw [List.getLast?_map, hp] at h3
        simpa using h3.symm
    · rintro l a s r ⟨xs, h1, h2, h3, h4, h5, h6⟩ hst q hq
      cases hq
      obtain ⟨acc, y, hy, hs, -, hn⟩ := body a s _ hst h5 h6
      obtain ⟨n1, n2⟩ := hn r rfl
      refine ⟨xs ++ [(acc, y)], ?_, by simp [h2, n1], by simp [n2], ?_⟩
      · rw [happ, hs, List.mapIdx_concat, h1, h2]
      · rw [← List.cons_append]
        refine List.isChain_append.2 ⟨h4, by simp, ?_⟩
        intro p hp q hq
        simp only [List.head?_cons, Option.mem_def, Option.some.injEq] at hq
        subst hq
        intro ha
        rw [hy ha]
        rw [List.getLast?_map, hp] at h3
        simpa using h3.symm
    · intro l a s e _ _ q hq
      cases hq
    · exact ⟨[], rfl, rfl, rfl, by simp, rfl, rfl⟩

/-- **C139** In an iteration of trust regions that does not raise, the line about the Cauchy point
is printed exactly from verbosity 3 on and if `use_rand` is set and the step the iteration proposes
has a smaller model value than the one found by the inner solver; the step is then a multiple of
the gradient. -/
theorem C139_cauchy_line [LawfulPyNum F] {cfg : Cfg F} {c : TRCfg F}
    {pb : Prob F P E} {clk : Clock F} {eta0 : ℤ → E} {mininner maxinner : ℤ} {db d0 : F}
    {n : RadiusCounters} {s : TRState F P E} {e}
    (hst : trStep cfg c pb clk eta0 mininner maxinner db s = .ok e) :
    ∃ (o : TCGOut E) (eta Heta : E),
      tcg c pb s.x s.fgradx (if c.useRand then eta0 (s.iteration + 1) else pb.M.zeroVector s.x)
        s.Delta mininner maxinner = .ok o ∧
      (∀ s', e = .next s' → s'.x = s.x ∨ s'.x = pb.M.retraction s.x eta) ∧
      (∀ r, e = .brk r → r.1.point = s.x ∨ r.1.point = pb.M.retraction s.x eta) ∧
      (.usedCauchy ∈ (trSays cfg c pb clk eta0 mininner maxinner db d0 n s).1 ↔
        3 ≤ cfg.verbosity ∧ c.useRand = true ∧
        lt (add (add s.fx (pb.M.inner s.x s.fgradx eta))
            (mul (lit (1 / 2)) (pb.M.inner s.x Heta eta)))
          (add (add s.fx (pb.M.inner s.x s.fgradx o.eta))
            (mul (lit (1 / 2)) (pb.M.inner s.x o.Heta o.eta))) = true) ∧
      (.usedCauchy ∈ (trSays cfg c pb clk eta0 mininner maxinner db d0 n s).1 →
        ∃ t, eta = pb.M.smul t s.fgradx ∧ Heta = pb.M.smul t (pb.hess s.x s.fgradx)) := by
  have hirr : ∀ a : F, lt a a = false := LawfulPyNum.lt_irrefl
  obtain ⟨o, eta, Heta, rho, md, Delta, h1, h2, h3, h4, h5⟩ := trStep_inv hst
  have hin : (.usedCauchy ∈ (trSays cfg c pb clk eta0 mininner maxinner db d0 n s).1 ↔
      3 ≤ cfg.verbosity ∧ c.useRand = true ∧
        cauchyUsed pb s.x s.fx s.fgradx s.normGrad s.Delta o = true) := by
    have hfin : .usedCauchy ∉ sayFinished cfg.verbosity
        (fun r : Result F P × List (P × F × F) => r.1.stop)
        (trStep cfg c pb clk eta0 mininner maxinner db s) := by
      unfold sayFinished say
      split
      · split <;> simp
      · simp
    have hcc : ∀ (m : Message F) n, m ≠ .usedCauchy →
        .usedCauchy ∉ (countChange cfg.verbosity m n).1 := by
      intro m n hm
      unfold countChange
      simp only
      split
      · simpa using hm.symm
      · simp
    have hrad : .usedCauchy ∉ (radiusSays cfg.verbosity rho md o.stop db d0 n).2.1 := by
      unfold radiusSays
      simp only
      split
      · exact hcc _ _ (by simp)
      · split
        · exact hcc _ _ (by simp)
        · simp
    unfold trSays
    simp only [h1, h2, h3, List.mem_append, hfin, hrad, or_false]
    by_cases hc : c.useRand && cauchyUsed pb s.x s.fx s.fgradx s.normGrad s.Delta o
    · have hc' := hc
      simp only [Bool.and_eq_true] at hc'
      by_cases hv : 3 ≤ cfg.verbosity <;>
        by_cases hr : rhoRaises c pb s.x s.fx s.fgradx (pb.cost (pb.M.retraction s.x eta)) eta Heta
          <;> simp [say, hv, hr, hc']
    · have hc' : ¬ (c.useRand = true ∧
          cauchyUsed pb s.x s.fx s.fgradx s.normGrad s.Delta o = true) := by
        simpa [Bool.and_eq_true] using hc
      simp only [hc, hc', and_false, iff_false]
      by_cases hv : 3 ≤ cfg.verbosity <;>
        by_cases hr : rhoRaises c pb s.x s.fx s.fgradx (pb.cost (pb.M.retraction s.x eta)) eta Heta
          <;> simp [say, hv, hr]
  have hkey : c.useRand = true → (cauchyUsed pb s.x s.fx s.fgradx s.normGrad s.Delta o = true ↔
      lt (add (add s.fx (pb.M.inner s.x s.fgradx eta))
            (mul (lit (1 / 2)) (pb.M.inner s.x Heta eta)))
          (add (add s.fx (pb.M.inner s.x s.fgradx o.eta))
            (mul (lit (1 / 2)) (pb.M.inner s.x o.Heta o.eta))) = true) ∧
      (cauchyUsed pb s.x s.fx s.fgradx s.normGrad s.Delta o = true →
        ∃ t, eta = pb.M.smul t s.fgradx ∧ Heta = pb.M.smul t (pb.hess s.x s.fgradx)) := by
    intro hu
    rw [hu, if_pos rfl] at h2
    unfold cauchy at h2
    unfold cauchyUsed
    simp only at h2 ⊢
    by_cases hle : le (pb.M.inner s.x s.fgradx (pb.hess s.x s.fgradx)) (lit 0) = true
    · simp only [hle, if_true] at h2 ⊢
      cases ht : div (mul (neg (lit 1)) s.Delta) s.normGrad with
      | error e => simp only [ht] at h2; cases h2
      | ok t =>
        simp only [ht] at h2 ⊢
        split at h2
        · rename_i hlt
          cases h2
          exact ⟨iff_of_true hlt hlt, fun _ => ⟨t, rfl, rfl⟩⟩
        · rename_i hlt
          cases h2
          exact ⟨iff_of_false hlt (by rw [hirr]; simp), fun h => absurd h hlt⟩
    · cases hd : div (pow s.normGrad (lit 3)) (mul s.Delta
        (pb.M.inner s.x s.fgradx (pb.hess s.x s.fgradx))) with
      | error e => simp only [hle, hd, if_false, Bool.false_eq_true] at h2; cases h2
      | ok q =>
        simp only [hle, hd, if_false, Bool.false_eq_true] at h2 ⊢
        cases ht : div (mul (neg (pymin q (lit 1))) s.Delta) s.normGrad with
        | error e => simp only [ht] at h2; cases h2
        | ok t =>
          simp only [ht] at h2 ⊢
          split at h2
          · rename_i hlt
            cases h2
            exact ⟨iff_of_true hlt hlt, fun _ => ⟨t, rfl, rfl⟩⟩
          · rename_i hlt
            cases h2
            exact ⟨iff_of_false hlt (by rw [hirr]; simp), fun h => absurd h hlt⟩
  refine ⟨o, eta, Heta, h1, ?_, ?_, ?_, ?_⟩
  · rintro s' rfl
    rcases h5 with ⟨-, h5⟩ | ⟨_, -, h5⟩
    · cases h5
      cases trAccept c rho md <;> simp [trAfter]
    · cases h5
  · rintro r rfl
    rcases h5 with ⟨-, h5⟩ | ⟨_, -, h5⟩
    · cases h5
    · cases h5
      cases trAccept c rho md <;> simp [trAfter]
  · rw [hin]
    constructor
    · rintro ⟨hv, hu, hc⟩
      exact ⟨hv, hu, (hkey hu).1.1 hc⟩
    · rintro ⟨hv, hu, hc⟩
      exact ⟨hv, hu, (hkey hu).1.2 hc⟩
  · intro h
    obtain ⟨-, hu, hc⟩ := hin.1 h
    exact (hkey hu).2 hc

/-- **C139** With verbosity 2 (or more) a run of Nelder-Mead that returns prints one row per
iteration, and one line with the move of every iteration but the last, which only stops. -/
theorem C139_rows_nelderMead {o : NMObj F} (hv : 2 ≤ o.verbosity)
    {sort : List (F × P) → List (F × P)} (hsort : ∀ l, (sort l).Perm l)
    {centroid : ℤ → List P → Except PyErr P} {pb : Prob F P E} {clk : Clock F} {init : InitArg P}
    {l : List (Message F)} {r : Result F P}
    (h : NMPrints o sort centroid pb clk init l (.ok r)) :
    ((simplexRowsOf l).length : ℤ) = r.iterations ∧
    ((actionsOf l).length : ℤ) = r.iterations - 1 ∧ l.getLast? = some (.finished r.stop) := by
  have hv' : 2 ≤ (o.resolve pb.M.dim).verbosity := hv
  unfold NMPrints at h
  split at h
  · cases h.2
  · have key := h.invariant
      (fun l _ s => ((simplexRowsOf l).length : ℤ) = s.iteration ∧
        ((actionsOf l).length : ℤ) = s.iteration)
      (fun l r => ∀ q, r = .ok q → ((simplexRowsOf l).length : ℤ) = q.iterations ∧
        ((actionsOf l).length : ℤ) = q.iterations - 1 ∧ l.getLast? = some (.finished q.stop))
      ?_ ?_ ?_ [] ?_
    · simpa using key _ rfl
    · rintro l a s s' ⟨h1, h2⟩ hst
      obtain ⟨xbar, m, hc, hx, hm, rfl⟩ := nmStep_next hst
      have hhead : ∃ v, s.simplex.head? = some v := by
        cases hs : s.simplex with
        | nil =>
          have := hsort s.simplex
          rw [hs] at this hm
          rw [this.eq_nil] at hm
          simp [nmMove] at hm
        | cons v t => exact ⟨v, rfl⟩
      obtain ⟨v, hv0⟩ := hhead
      simp only [nmSays, hv0, hc, hx, hm, say_of_le hv']
      simp [simplexRowsOf, actionsOf] at h1 h2 ⊢
      omega
    · rintro l a s r ⟨h1, h2⟩ hst q hq
      cases hq
      obtain ⟨reason, best, hc, hb, rfl⟩ := nmStep_brk hst
      have hhead : ∃ v, s.simplex.head? = some v := by
        cases hs : s.simplex with
        | nil =>
          have := hsort s.simplex
          rw [hs] at this hb
          rw [this.eq_nil] at hb
          cases hb
        | cons v t => exact ⟨v, rfl⟩
      obtain ⟨v, hv0⟩ := hhead
      simp only [nmSays, hv0, hc, say_of_le hv',
        say_of_le (show 1 ≤ (o.resolve pb.M.dim).verbosity by omega)]
      simp [simplexRowsOf, actionsOf] at h1 h2 ⊢
      omega
    · intro l a s e _ _ q hq
      cases hq
    · simp [nmInit, simplexRowsOf, actionsOf]

/-! ### C140 -/

theorem psoMoves_best_mem (obj : P → F) (M : Mfd F P E) (b : F × P)
    (l : List (Particle F P E)) :
    (psoMoves obj M b l).1 = b ∨ ∃ p ∈ l, (psoMoves obj M b l).1.2 = p.x := by
  induction l generalizing b with
  | nil => exact Or.inl rfl
  | cons p l ih =>
    simp only [psoMoves]
    have h1 : (psoMove obj M b p).1 = b ∨ (psoMove obj M b p).1.2 = p.x := by
      unfold psoMove
      simp only
      split
      · split
        · exact Or.inr rfl
        · exact Or.inl rfl
      · exact Or.inl rfl
    rcases ih (psoMove obj M b p).1 with h | ⟨q, hq, h⟩
    · rw [h]
      rcases h1 with h1 | h1
      · exact Or.inl h1
      · exact Or.inr ⟨p, by simp, h1⟩
    · exact Or.inr ⟨q, by simp [hq], h⟩

/-- **C140** for particle swarm: a run that returns prints one row per iteration, numbered from 1;
the number of evaluations in a row counts the evaluations of the cost so far, and the best cost in
the row is the least cost found by these evaluations. -/
theorem C140_particleSwarm [LawfulPyNum F] {o : PSOObj F} (hv : 2 ≤ o.verbosity)
    {rnd : PSORand F P E} {pb : Prob F P E} {clk : Clock F}
    (hnan : ∀ p, isnan (pb.cost p) = false) {init : InitArg P} {l : List (Message F)}
    {r : Result F P} {t : List P × List P} (h : PSOPrints o rnd pb clk init l (.ok (r, t))) :
    ((swarmRowsOf l).length : ℤ) = r.iterations ∧
    ∀ (i : ℕ) k n b, (swarmRowsOf l)[i]? = some (k, n, b) → k = (i : ℤ) + 1 ∧
      ∃ m : ℕ, n = m ∧ m ≤ r.evals.length ∧ (∀ p ∈ r.evals.take m, le b (pb.cost p) = true) ∧
        ∃ p ∈ r.evals.take m, b = pb.cost p := by
  unfold PSOPrints at h
  split at h
  · cases h.2
  · cases h.2
  · rename_i o' x0 xs isT hpop
    have hsize : o'.populationSize.getD 0 = ((x0 :: xs).length : ℤ) ∧ o'.verbosity = o.verbosity := by
      cases init with
      | none draws =>
        simp only [psoPopulation, Except.ok.injEq, Prod.mk.injEq] at hpop
        obtain ⟨rfl, hl, -⟩ := hpop
        have := congrArg List.length hl
        simp only [List.length_map, List.length_range, List.length_cons] at this
        simp only [List.length_cons]
        exact ⟨by omega, rfl⟩
      | list l =>
        simp only [psoPopulation, Except.ok.injEq, Prod.mk.injEq] at hpop
        obtain ⟨rfl, rfl, -⟩ := hpop
        exact ⟨rfl, rfl⟩
      | tuple l =>
        simp only [psoPopulation, Except.ok.injEq, Prod.mk.injEq] at hpop
        obtain ⟨rfl, rfl, -⟩ := hpop
        exact ⟨rfl, rfl⟩
      | other => simp [psoPopulation] at hpop
    obtain ⟨hsize, hverb⟩ := hsize
    have hv' : 2 ≤ o'.verbosity := by omega
    split at h
    · cases h.2
    · obtain ⟨l', h, rfl⟩ := h
      have hw : swarmRowsOf (psoWarns (o.resolve pb.M.dim) init ++ say o.verbosity 2 .header ++ l') =
          swarmRowsOf l' := by
        rw [say_of_le hv]
        have : swarmRowsOf (psoWarns (o.resolve pb.M.dim) init : List (Message F)) = [] := by
          unfold psoWarns
          split
          · split <;> rfl
          · split <;> rfl
          · rfl
        simp only [swarmRowsOf, List.filterMap_append] at this ⊢
        rw [this]
        rfl
      rw [hw]
      let Good : List P → List (Message F) → Prop := fun ev l =>
        ∀ (i : ℕ) k n b, (swarmRowsOf l)[i]? = some (k, n, b) → k = (i : ℤ) + 1 ∧
          ∃ m : ℕ, n = m ∧ m ≤ ev.length ∧ (∀ p ∈ ev.take m, le b (pb.cost p) = true) ∧
            ∃ p ∈ ev.take m, b = pb.cost p
      have grow : ∀ ev ev' l, Good ev l → Good (ev ++ ev') l := by
        intro ev ev' l hg i k n b hi
        obtain ⟨h1, m, h2, h3, h4, h5⟩ := hg i k n b hi
        refine ⟨h1, m, h2, by simp; omega, ?_, ?_⟩
        · rwa [List.take_append_of_le_length h3]
        · rwa [List.take_append_of_le_length h3]
      have hrow : ∀ (l : List (Message F)) (s : PSOState F P E) (fin : List (Message F)),
          swarmRowsOf fin = [] → Good s.evals l → ((swarmRowsOf l).length : ℤ) = s.iteration →
          PSOInv pb s → s.xbest ∈ s.evals → s.costEvaluations = (s.evals.length : ℤ) →
          Good s.evals (l ++ (.swarmRow (s.iteration + 1) s.costEvaluations s.fbest :: fin)) ∧
          ((swarmRowsOf (l ++ (.swarmRow (s.iteration + 1) s.costEvaluations s.fbest ::
            fin))).length : ℤ) = s.iteration + 1 := by
        intro l s fin hfin hg hlen hinv hmem hev
        have happ : swarmRowsOf (l ++ (.swarmRow (s.iteration + 1) s.costEvaluations s.fbest ::
            fin)) = swarmRowsOf l ++ [(s.iteration + 1, s.costEvaluations, s.fbest)] := by
          simp only [swarmRowsOf, List.filterMap_append, List.filterMap_cons] at hfin ⊢
          rw [hfin]
        refine ⟨?_, by rw [happ]; simp [hlen]⟩
        intro i k n b hi
        rw [happ] at hi
        rcases Nat.lt_or_ge i (swarmRowsOf l).length with hlt | hge
        · rw [List.getElem?_append_left hlt] at hi
          exact hg i k n b hi
        · rw [List.getElem?_append_right hge] at hi
          have hi0 : i - (swarmRowsOf l).length = 0 := by
            by_contra hne
            rw [List.getElem?_eq_none (by simp; omega)] at hi
            cases hi
          rw [hi0] at hi
          simp only [List.getElem?_cons_zero, Option.some.injEq, Prod.mk.injEq] at hi
          obtain ⟨rfl, rfl, rfl⟩ := hi
          refine ⟨by omega, s.evals.length, hev, le_refl _, ?_, s.xbest, by simpa using hmem,
            hinv.best⟩
          intro p hp
          exact hinv.evals p (by simpa using hp)
      have key := h.invariant
        (fun l _ s => Good s.evals l ∧ ((swarmRowsOf l).length : ℤ) = s.iteration ∧
          PSOInv pb s ∧ s.xbest ∈ s.evals ∧ s.costEvaluations = (s.evals.length : ℤ) ∧
          s.swarm.length = (x0 :: xs).length)
        (fun l r => ∀ q, r = .ok q → ((swarmRowsOf l).length : ℤ) = q.1.iterations ∧
          Good q.1.evals l) ?_ ?_ ?_ [] ?_
      · simpa using key _ rfl
      · rintro l a s s' ⟨h1, h2, h3, h4, h5, h6⟩ hst
        have hinv := (psoInv_step hnan h3 hst).1
        have hout : (psoSays o' isT rnd pb clk a s).1 =
            [.swarmRow (s.iteration + 1) s.costEvaluations s.fbest] := by
          simp [psoSays, say_of_le hv', sayFinished, hst]
        obtain ⟨r1, r2⟩ := hrow l s [] rfl h1 h2 h3 h4 h5
        rw [hout]
        obtain ⟨w, swarm, -, hsw, -, rfl⟩ := psoStep_next hst
        refine ⟨grow _ _ _ r1, r2, hinv, ?_, ?_, ?_⟩
        · simp only [List.mem_append]
          rcases psoMoves_best_mem pb.cost pb.M (s.fbest, s.xbest) swarm with h | ⟨p, hp, h⟩
          · rw [h]
            exact Or.inl h4
          · rw [h]
            exact Or.inr (List.mem_map.2 ⟨p, hp, rfl⟩)
        · simp only [List.length_append, List.length_map, hsw, List.length_mapIdx]
          rw [h5, hsize, h6]
          push_cast
          rfl
        · simp only [psoMoves_length, hsw, List.length_mapIdx]
          exact h6
      · rintro l a s r ⟨h1, h2, h3, h4, h5, h6⟩ hst q hq
        cases hq
        have hout : (psoSays o' isT rnd pb clk a s).1 =
            [.swarmRow (s.iteration + 1) s.costEvaluations s.fbest, .finished r.1.stop] := by
          simp [psoSays, say_of_le hv', sayFinished, hst,
            say_of_le (show 1 ≤ o'.verbosity by omega)]
        obtain ⟨r1, r2⟩ := hrow l s [.finished r.1.stop] rfl h1 h2 h3 h4 h5
        rw [hout]
        obtain ⟨_, -, rfl⟩ := psoStep_brk hst
        exact ⟨r2, r1⟩
      · intro l a s e _ _ q hq
        cases hq
      · refine ⟨?_, rfl, psoInv_init _ _ _ hnan _ _, ?_, hsize, by simp [psoInit]⟩
        · intro i k n b hi
          simp [swarmRowsOf] at hi
        · have := (argminPoint_spec (pb.cost x0, x0) (xs.map fun p => (pb.cost p, p)) (by
            intro v hv
            rcases List.mem_cons.1 hv with h | h
            · rw [h]; exact hnan _
            · obtain ⟨p, -, rfl⟩ := List.mem_map.1 h
              exact hnan _)).1
          simp only [psoInit]
          rcases List.mem_cons.1 this with h | h
          · rw [h]; simp
          · obtain ⟨p, hp, h⟩ := List.mem_map.1 h
            rw [← h]
            exact List.mem_cons_of_mem _ hp

/-- A move keeps the first vertex of a sorted simplex of at least two vertices in its place. -/
theorem nmMove_head {o : NMObj F} {obj : P → F} {M : Mfd F P E} {xbar : P} {l : List (F × P)}
    (hl : 2 ≤ l.length) {m : NMMove F P} (h : nmMove o obj M xbar l = .ok m) :
    m.simplex.head? = l.head? := by
  have hrep : ∀ v, (replaceWorst l v).head? = l.head? := by
    intro v
    match l, hl with
    | a :: b :: t, _ => simp [replaceWorst]
  have hshr : ∀ best ev m, nmShrinkMove obj M M.dim best l ev = .ok m →
      m.simplex.head? = l.head? := fun _ _ _ h => (nmShrinkMove_spec h).2.2.1
  unfold nmMove at h
  split at h
  swap
  · cases h
  simp only at h
  split at h
  · cases h
  · cases h
    exact hrep _
  · split at h
    · split at h
      · cases h
        exact hrep _
      · cases h
        exact hrep _
    · unfold nmContract at h
      split at h
      · cases h
      · split at h
        · split at h
          · simp only at h
            split at h
            · cases h
              exact hrep _
            · exact hshr _ _ _ h
          · simp only at h
            split at h
            · cases h
              exact hrep _
            · exact hshr _ _ _ h
        · exact hshr _ _ _ h

/-- **C140** for Nelder-Mead, what holds: the best cost in a row is the least cost of the vertices
the simplex had *one iteration before* (in the first row: of the initial simplex), so no vertex of
the present simplex need have it, but some vertex is at least as good.  Missing: that it is the
least cost of the present simplex, which is false (`C140_negation`). -/
theorem C140_nelderMead_partial [LawfulPyNum F] {o : NMObj F} (hv : 2 ≤ o.verbosity)
    {sort : List (F × P) → List (F × P)} (hsort : SortsByCost sort)
    {centroid : ℤ → List P → Except PyErr P} {pb : Prob F P E} {clk : Clock F}
    (hnan : ∀ p, isnan (pb.cost p) = false) {x : List P} (hx : 2 ≤ x.length) :
    (∃ b, (nmSays o sort centroid pb clk () (nmInit sort pb x)).1.head? =
        some (.simplexRow (pb.M.dim + 1) b) ∧ (∃ p ∈ x, b = pb.cost p) ∧
        ∀ p ∈ x, le b (pb.cost p) = true) ∧
    ∀ s s', Reaches (nmStep o sort centroid pb clk) (nmInit sort pb x) s →
      nmStep o sort centroid pb clk s = .ok (.next s') →
      ∃ b, (nmSays o sort centroid pb clk () s').1.head? =
          some (.simplexRow s'.costEvaluations b) ∧
        (∃ v ∈ s.simplex, b = v.1) ∧ (∀ v ∈ s.simplex, le b v.1 = true) ∧
        ∃ v ∈ s'.simplex, le v.1 b = true := by
  have least : ∀ l : List (F × P), (∀ v ∈ l, isnan v.1 = false) → ∀ b, (sort l).head? = some b →
      b ∈ l ∧ ∀ v ∈ l, le b.1 v.1 = true := by
    intro l hn b hb
    have hp := (hsort l).2 hn
    have hm := (hsort l).1
    cases hs : sort l with
    | nil => rw [hs] at hb; cases hb
    | cons c t =>
      rw [hs] at hb hp hm
      cases hb
      have hbm : b ∈ l := hm.mem_iff.1 (by simp)
      refine ⟨hbm, fun v hv => ?_⟩
      rcases List.mem_cons.1 (hm.mem_iff.2 hv) with h | h
      · rw [h]; exact LawfulPyNum.le_refl _ (hn b hbm)
      · exact List.rel_of_pairwise_cons hp h
  constructor
  · have hn : ∀ v ∈ x.map (fun p => (pb.cost p, p)), isnan v.1 = false := by
      intro v hv
      obtain ⟨p, -, rfl⟩ := List.mem_map.1 hv
      exact hnan _
    cases hb : (sort (x.map fun p => (pb.cost p, p))).head? with
    | none =>
      have := (hsort (x.map fun p => (pb.cost p, p))).1.length_eq
      rw [List.head?_eq_none_iff] at hb
      rw [hb] at this
      simp only [List.length_nil, List.length_map] at this
      omega
    | some b =>
      obtain ⟨h1, h2⟩ := least _ hn b hb
      obtain ⟨p, hp, rfl⟩ := List.mem_map.1 h1
      refine ⟨pb.cost p, ?_, ⟨p, hp, rfl⟩, fun q hq => h2 _ (List.mem_map.2 ⟨q, hq, rfl⟩)⟩
      simp [nmSays, nmInit, hb, say_of_le hv]
  · intro s s' hs hst
    have hlen : 2 ≤ s.simplex.length := by
      refine hs.invariant (fun s => 2 ≤ s.simplex.length) ?_ ?_
      · intro s s' h2 hst
        obtain ⟨xbar, m, -, -, hm, rfl⟩ := nmStep_next hst
        simp only
        rw [(nmMove_spec hm).1, (hsort _).1.length_eq]
        exact h2
      · simp only [nmInit]
        rw [(hsort _).1.length_eq]
        simpa using hx
    have hc := nmReaches_costs hsort hs (nmInit_costs hsort pb x)
    have hn : ∀ v ∈ s.simplex, isnan v.1 = false := fun v hv => by rw [hc v hv]; exact hnan _
    obtain ⟨v', hv', hle⟩ := C16_best_never_increases hsort hnan hs hst
    obtain ⟨xbar, m, -, -, hm, rfl⟩ := nmStep_next hst
    have hhead := nmMove_head (by rw [(hsort _).1.length_eq]; exact hlen) hm
    cases hb : (sort s.simplex).head? with
    | none =>
      have := (hsort s.simplex).1.length_eq
      rw [List.head?_eq_none_iff] at hb
      rw [hb] at this
      simp only [List.length_nil] at this
      omega
    | some b =>
      obtain ⟨h1, h2⟩ := least _ hn b hb
      rw [hb] at hhead
      refine ⟨b.1, ?_, ⟨b, h1, rfl⟩, h2, v', hv', hle b h1⟩
      simp [nmSays, hhead, say_of_le hv]

end

/-! ### Concrete output -/

/-- Executable approximation of printing loops, used to exhibit concrete output. -/
def printFuel {S R A L : Type*} (step : S → Except PyErr (Ctl S R)) (out : A → S → List L × A) :
    ℕ → A → S → Option (List L × Except PyErr R)
  | 0, _, _ => none
  | n + 1, a, s =>
    match step s with
    | .error e => some ((out a s).1, .error e)
    | .ok (.brk r) => some ((out a s).1, .ok r)
    | .ok (.next s') => (printFuel step out n (out a s).2 s').map fun p => ((out a s).1 ++ p.1, p.2)

theorem prints_of_printFuel {S R A L : Type*} {step : S → Except PyErr (Ctl S R)}
    {out : A → S → List L × A} {n : ℕ} {a : A} {s : S} {p : List L × Except PyErr R}
    (h : printFuel step out n a s = some p) : PrintsIn step out a s p.1 p.2 := by
  induction n generalizing a s p with
  | zero => cases h
  | succ n ih =>
    unfold printFuel at h
    split at h
    · rename_i e he
      cases h
      exact .err he
    · rename_i r hr
      cases h
      exact .brk hr
    · rename_i s' hs
      obtain ⟨q, hq, rfl⟩ := Option.map_eq_some_iff.1 h
      exact .next hs (ih hq)

/-- The output of the loop within `n` iterations satisfies `p`. -/
def checkPrints {S R A L : Type*} (step : S → Except PyErr (Ctl S R)) (out : A → S → List L × A)
    (n : ℕ) (a : A) (s : S) (p : List L → Except PyErr R → Bool) : Bool :=
  match printFuel step out n a s with
  | some q => p q.1 q.2
  | none => false

theorem exists_of_checkPrints {S R A L : Type*} {step : S → Except PyErr (Ctl S R)}
    {out : A → S → List L × A} {n : ℕ} {a : A} {s : S} {p : List L → Except PyErr R → Bool}
    (h : checkPrints step out n a s p = true) :
    ∃ l r, PrintsIn step out a s l r ∧ p l r = true := by
  unfold checkPrints at h
  split at h
  · rename_i q hq
    exact ⟨q.1, q.2, prints_of_printFuel hq, h⟩
  · cases h

/-- **C139** is false for particle swarm: with verbosity 0 and an initial population of one
particle where ten are configured by default, it prints. -/
theorem C139_negation : ∃ l r,
    PSOPrints { oneParticle with populationSize := none, verbosity := 0 } oneRand squareProb
      stillClock (.list [.npy 3]) l (.ok r) ∧ l = [.sizeForced] := by
  obtain ⟨l, r, hr, he⟩ := exists_of_checkPrints (n := 3) (a := ())
    (p := fun l r => decide (l = []) && isOk (fun _ => true) r)
    (step := psoStep { ({ oneParticle with populationSize := none, verbosity := 0 } :
      PSOObj Q).resolve 1 with populationSize := some 1 } false oneRand squareProb stillClock)
    (out := psoSays { ({ oneParticle with populationSize := none, verbosity := 0 } :
      PSOObj Q).resolve 1 with populationSize := some 1 } false oneRand squareProb stillClock)
    (s := psoInit { ({ oneParticle with populationSize := none, verbosity := 0 } :
      PSOObj Q).resolve 1 with populationSize := some 1 } oneRand squareProb (.npy 3) [])
    (by decide +kernel)
  rw [Bool.and_eq_true] at he
  obtain ⟨r, rfl, -⟩ := exists_of_isOk he.2
  obtain rfl : l = [] := of_decide_eq_true he.1
  exact ⟨_, r, ⟨_, hr, rfl⟩, rfl⟩

/-- `np.argsort` as a sort of the vertices: NaN last. -/
def npSort (l : List (Q × Q)) : List (Q × Q) :=
  l.insertionSort fun a b => (le a.1 b.1 || isnan b.1) = true

theorem npSort_sorts : SortsByCost npSort := by
  intro l
  refine ⟨List.perm_insertionSort _ l, fun hn => ?_⟩
  have tot : Std.Total (fun a b : Q × Q => (le a.1 b.1 || isnan b.1) = true) := by
    refine ⟨fun a b => ?_⟩
    cases hb : isnan b.1
    · cases ha : isnan a.1
      · simpa using LawfulPyNum.le_total a.1 b.1 ha hb
      · simp
    · simp
  have tr : IsTrans (Q × Q) (fun a b => (le a.1 b.1 || isnan b.1) = true) := by
    refine ⟨fun a b c h1 h2 => ?_⟩
    cases hc : isnan c.1
    · rw [hc, Bool.or_false] at h2
      rw [Bool.or_false]
      have hb : isnan b.1 = false := by
        by_contra hb
        rw [LawfulPyNum.le_nan_left _ _ (by simpa using hb)] at h2
        cases h2
      rw [hb, Bool.or_false] at h1
      have ha : isnan a.1 = false := by
        by_contra ha
        rw [LawfulPyNum.le_nan_left _ _ (by simpa using ha)] at h1
        cases h1
      exact LawfulPyNum.le_trans ha hb hc h1 h2
    · simp
  have := List.pairwise_insertionSort (fun a b : Q × Q => (le a.1 b.1 || isnan b.1) = true) l
  refine this.imp_of_mem fun {a b} _ hb h => ?_
  have hb' := hn b ((List.perm_insertionSort _ l).mem_iff.1 hb)
  simpa [hb'] using h

/-- A Nelder-Mead object with the default parameters (nelder_mead.py:54-69) and an iteration
limit of 2. -/
def twoSteps : NMObj Q :=
  { maxTime := .py 1000, minGradientNorm := .py 0, minStepSize := .py 0, verbosity := 2,
    logVerbosity := 0, maxCostEvaluations := none, maxIterations := some 2, reflection := .py 1,
    expansion := .py 2, contraction := .py (1 / 2) }

/-- The centroid of a single point. -/
def firstPoint (_ : ℤ) : List Q → Except PyErr Q
  | p :: _ => .ok p
  | [] => .error .valueError

/-- **C140** is false for Nelder-Mead: minimizing `x ** 2` from the vertices 10 and 9, the second
row shows the best cost 81, although the vertex 7 of cost 49 has just been found. -/
theorem C140_negation : SortsByCost npSort ∧ ∃ l r,
    NMPrints twoSteps npSort firstPoint squareProb stillClock
      (.none fun i => if i = 0 then .npy 10 else .npy 9) l (.ok r) ∧
    l = [.simplexRow 2 (.npy 81), .action .expansion, .simplexRow 4 (.npy 81),
      .finished r.stop] ∧ r.cost = .npy 49 := by
  refine ⟨npSort_sorts, ?_⟩
  obtain ⟨l, r, hr, he⟩ := exists_of_checkPrints (n := 3) (a := ())
    (p := fun l r => isOk (fun r : Result Q Q => decide (l = [.simplexRow 2 (.npy 81), .action .expansion,
      .simplexRow 4 (.npy 81), .finished r.stop]) && decide (r.cost = .npy 49)) r)
    (step := nmStep (twoSteps.resolve 1) npSort firstPoint squareProb stillClock)
    (out := nmSays (twoSteps.resolve 1) npSort firstPoint squareProb stillClock)
    (s := nmInit npSort squareProb [.npy 10, .npy 9]) (by decide +kernel)
  obtain ⟨r, rfl, hq⟩ := exists_of_isOk he
  rw [Bool.and_eq_true] at hq
  exact ⟨l, r, hr, of_decide_eq_true hq.1, of_decide_eq_true hq.2⟩

/-- Steepest descent on `x ** 2` from 1 with the default line searcher and verbosity 2 prints a
header, rows and the reason. -/
example : ∃ l r m, SDPrints { defaultCfg with maxIterations := 3 } (adaptive Q Q defaultAdaptive)
    squareProb stillClock (.npy 1) none l (.ok (r, m)) ∧ 2 ≤ defaultCfg.verbosity ∧
    4 ≤ l.length := by
  obtain ⟨l, r, hr, he⟩ := exists_of_checkPrints (n := 4) (a := ())
    (p := fun l r => decide (2 ≤ l.length) && isOk (fun _ => true) r)
    (step := sdStep { defaultCfg with maxIterations := 3 } (adaptive Q Q defaultAdaptive)
      squareProb stillClock)
    (out := sdSays { defaultCfg with maxIterations := 3 } (adaptive Q Q defaultAdaptive)
      squareProb stillClock)
    (s := sdInit { defaultCfg with maxIterations := 3 } (.npy 1) none) (by decide +kernel)
  rw [Bool.and_eq_true] at he
  obtain ⟨⟨r, m⟩, rfl, -⟩ := exists_of_isOk he.2
  refine ⟨_, r, m, ⟨l, hr, rfl⟩, by decide, ?_⟩
  have := of_decide_eq_true he.1
  simp only [say, defaultCfg, List.length_append]
  simp
  omega

end Verif.Opt
