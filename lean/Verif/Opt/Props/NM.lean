/-
Nelder-Mead: C16 (best vertex), C17 (accepted simplices), C18 (decision table), and the
dimension-derived defaults of Nelder-Mead and particle swarm, C15.
-/
import Verif.Opt.Witness

namespace Verif.Opt
open PyNum

/-! ### C15: defaults from the dimension -/

section
variable {F : Type*}

/-- A `NelderMead` object after runs on manifolds of dimensions `dims` (oldest first): every
run stores its limits on the object (nelder_mead.py:91-95). -/
def nmHistory (o : NMObj F) (dims : List ℕ) : NMObj F := dims.foldl NMObj.resolve o

/-- A `ParticleSwarm` object after runs on manifolds of given dimension, each with the
length of the initial population passed, or `none` (particle_swarm.py:62-86). -/
def psoHistory (o : PSOObj F) (runs : List (ℕ × Option ℕ)) : PSOObj F :=
  runs.foldl (fun o r => match r.2 with
    | none => o.resolve r.1
    | some k => { o.resolve r.1 with populationSize := some (k : ℤ) }) o

theorem nmHistory_limits (o : NMObj F) (d : ℕ) (dims : List ℕ) :
    (nmHistory o (d :: dims)).maxCostEvaluations =
      some (o.maxCostEvaluations.getD (max 1000 (2 * d))) ∧
    (nmHistory o (d :: dims)).maxIterations =
      some (o.maxIterations.getD (max 2000 (4 * d))) := by
  unfold nmHistory
  have key : ∀ (l : List ℕ) (o : NMObj F) a b, o.maxCostEvaluations = some a →
      o.maxIterations = some b → (l.foldl NMObj.resolve o).maxCostEvaluations = some a ∧
        (l.foldl NMObj.resolve o).maxIterations = some b := by
    intro l
    induction l with
    | nil => intro o a b h1 h2; exact ⟨h1, h2⟩
    | cons e l ih =>
      intro o a b h1 h2
      exact ih _ a b (by simp [NMObj.resolve, h1]) (by simp [NMObj.resolve, h2])
  exact key dims _ _ _ rfl rfl

/-- **C15** is false for `NelderMead`: whatever happened before, once an object with limits
`None` has been used on a manifold of dimension `d`, every later run, on a manifold of any
dimension `e`, uses the limits computed from `d`; for suitable `d`, `e` these are not the
limits of `e`. -/
theorem C15_nelderMead_stale (o : NMObj F) (h1 : o.maxCostEvaluations = none)
    (h2 : o.maxIterations = none) (d : ℕ) (dims : List ℕ) (e : ℕ) :
    ((nmHistory o (d :: dims)).resolve e).cfg.maxCostEvaluations = max 1000 (2 * d) ∧
    ((nmHistory o (d :: dims)).resolve e).cfg.maxIterations = max 2000 (4 * d) ∧
    (1000 < 2 * d → e < d →
      ((nmHistory o (d :: dims)).resolve e).cfg.maxCostEvaluations ≠ max 1000 (2 * e) ∧
      ((nmHistory o (d :: dims)).resolve e).cfg.maxIterations ≠ max 2000 (4 * e)) := by
  have h := nmHistory_limits o d dims
  have a1 : ((nmHistory o (d :: dims)).resolve e).cfg.maxCostEvaluations = max 1000 (2 * d) := by
    simp [NMObj.cfg, NMObj.resolve, h.1, h1]
  have a2 : ((nmHistory o (d :: dims)).resolve e).cfg.maxIterations = max 2000 (4 * d) := by
    simp [NMObj.cfg, NMObj.resolve, h.2, h2]
  refine ⟨a1, a2, fun hd he => ?_⟩
  rw [a1, a2]
  constructor <;> omega

/-- **C15**, what holds for `NelderMead`: limits given to the constructor are used in every
run, and the limits left at `None` follow the dimension as long as all runs of the object are
on manifolds of the same dimension (in particular in its first run).  Missing: histories with
different dimensions, where it is false (`C15_nelderMead_stale`). -/
theorem C15_nelderMead_partial (o : NMObj F) (d : ℕ) (dims : List ℕ) (h : ∀ e ∈ dims, e = d) :
    ((nmHistory o dims).resolve d).cfg.maxCostEvaluations =
      o.maxCostEvaluations.getD (max 1000 (2 * d)) ∧
    ((nmHistory o dims).resolve d).cfg.maxIterations =
      o.maxIterations.getD (max 2000 (4 * d)) := by
  cases dims with
  | nil => simp [nmHistory, NMObj.cfg, NMObj.resolve]
  | cons e dims =>
    obtain rfl := h e (by simp)
    have h := nmHistory_limits o e dims
    simp [NMObj.cfg, NMObj.resolve, h.1, h.2]

theorem psoHistory_keeps (l : List (ℕ × Option ℕ)) (o : PSOObj F) (a b : ℤ)
    (h1 : o.maxCostEvaluations = some a) (h2 : o.maxIterations = some b) :
    (psoHistory o l).maxCostEvaluations = some a ∧ (psoHistory o l).maxIterations = some b := by
  induction l generalizing o with
  | nil => exact ⟨h1, h2⟩
  | cons e l ih =>
    rcases e with ⟨e, _ | k⟩
    · refine ih (o.resolve e) ?_ ?_ <;> simp [PSOObj.resolve, h1, h2]
    · refine ih { o.resolve e with populationSize := some (k : ℤ) } ?_ ?_ <;>
        simp [PSOObj.resolve, h1, h2]

theorem psoHistory_limits (o : PSOObj F) (d : ℕ) (k : Option ℕ) (runs : List (ℕ × Option ℕ)) :
    (psoHistory o ((d, k) :: runs)).maxCostEvaluations =
      some (o.maxCostEvaluations.getD (max 5000 (2 * d))) ∧
    (psoHistory o ((d, k) :: runs)).maxIterations =
      some (o.maxIterations.getD (max 500 (4 * d))) := by
  cases k with
  | none =>
    have e : psoHistory o ((d, none) :: runs) = psoHistory (o.resolve d) runs := rfl
    rw [e]
    exact psoHistory_keeps runs (o.resolve d) _ _ (by simp only [PSOObj.resolve])
      (by simp only [PSOObj.resolve])
  | some k =>
    have e : psoHistory o ((d, some k) :: runs) =
      psoHistory { o.resolve d with populationSize := some (k : ℤ) } runs := rfl
    rw [e]
    exact psoHistory_keeps runs { o.resolve d with populationSize := some (k : ℤ) } _ _
      (by simp only [PSOObj.resolve]) (by simp only [PSOObj.resolve])

/-- **C15** is false for `ParticleSwarm`: the limits stay those of the first manifold, and the
population size stays the length of the last population passed explicitly (or the default of
the first manifold). -/
theorem C15_particleSwarm_stale (o : PSOObj F) (h1 : o.maxCostEvaluations = none)
    (h2 : o.maxIterations = none) (h3 : o.populationSize = none) (d e k : ℕ) (i : Option ℕ)
    (runs : List (ℕ × Option ℕ)) :
    ((psoHistory o ((d, i) :: runs)).resolve e).cfg.maxCostEvaluations = max 5000 (2 * (d : ℤ)) ∧
    ((psoHistory o ((d, i) :: runs)).resolve e).cfg.maxIterations = max 500 (4 * (d : ℤ)) ∧
    ((psoHistory o [(d, none)]).resolve e).populationSize = some (min 40 (10 * (d : ℤ))) ∧
    ((psoHistory o (runs ++ [(d, some k)])).resolve e).populationSize = some (k : ℤ) ∧
    (e < d → e < 4 → ((psoHistory o [(d, none)]).resolve e).populationSize ≠
      some (min 40 (10 * (e : ℤ)))) := by
  have h := psoHistory_limits o d i runs
  rw [h1, h2] at h
  have e3 : ((psoHistory o [(d, none)]).resolve e).populationSize =
      some (min 40 (10 * (d : ℤ))) := by
    have e1 : psoHistory o [(d, none)] = o.resolve d := rfl
    have e2 : (o.resolve d).populationSize = some (o.populationSize.getD (min 40 (10 * d))) := rfl
    have e4 : ∀ q : PSOObj F, ∀ a, q.populationSize = some a →
        (q.resolve e).populationSize = some a := by
      intro q a h
      unfold PSOObj.resolve
      rw [h]
      rfl
    rw [e1]
    apply e4
    rw [e2, h3, Option.getD_none]
  refine ⟨?_, ?_, e3, ?_, ?_⟩
  · simp only [PSOObj.cfg, PSOObj.resolve, h.1, Option.getD]
  · simp only [PSOObj.cfg, PSOObj.resolve, h.2, Option.getD]
  · simp only [psoHistory, PSOObj.resolve, List.foldl_append, List.foldl, Option.getD]
  · intro h4 h5
    rw [e3]
    simp only [ne_eq, Option.some.injEq]
    omega

/-- **C15**, what holds for `ParticleSwarm`: as long as all runs of an object are on manifolds
of the same dimension without an explicit population, every run uses the constructor's
arguments or the defaults of that dimension.  Missing: mixed histories (false). -/
theorem C15_particleSwarm_partial (o : PSOObj F) (d : ℕ) (runs : List (ℕ × Option ℕ))
    (h : ∀ e ∈ runs, e = (d, none)) :
    ((psoHistory o runs).resolve d).cfg.maxCostEvaluations =
      o.maxCostEvaluations.getD (max 5000 (2 * d)) ∧
    ((psoHistory o runs).resolve d).cfg.maxIterations = o.maxIterations.getD (max 500 (4 * d)) ∧
    ((psoHistory o runs).resolve d).populationSize =
      some (o.populationSize.getD (min 40 (10 * d))) := by
  have key : ∀ runs : List (ℕ × Option ℕ), (∀ e ∈ runs, e = (d, none)) → ∀ o : PSOObj F,
      ((psoHistory o runs).resolve d) = o.resolve d := by
    intro runs
    induction runs with
    | nil => intro _ o; rfl
    | cons e runs ih =>
      intro h o
      obtain rfl := h e (by simp)
      change ((psoHistory (o.resolve d) runs).resolve d) = _
      rw [ih (fun e he => h e (by simp [he]))]
      simp [PSOObj.resolve]
  rw [key runs h]
  simp [PSOObj.cfg, PSOObj.resolve]

end

/-! ### C17: accepted simplices -/

section
variable {F P E : Type*} [PyNum F]

/-- **C17** is false: a sequence of exactly `dim + 1` points is what `NelderMead.run` rejects. -/
theorem C17_rejects_simplex (o : NMObj F) (sort : List (F × P) → List (F × P))
    (centroid : ℤ → List P → Except PyErr P) (pb : Prob F P E) (clk : Clock F) (l : List P)
    (hl : l.length = pb.M.dim + 1) (r : Except PyErr (Result F P)) :
    (NMRuns o sort centroid pb clk (.list l) r ↔ r = .error .valueError) ∧
    (NMRuns o sort centroid pb clk (.tuple l) r ↔ r = .error .valueError) := by
  simp [NMRuns, nmSimplex, hl]

/-- ... and sequences of any other length are accepted: the run starts with them. -/
theorem C17_accepts_other (o : NMObj F) (sort : List (F × P) → List (F × P))
    (centroid : ℤ → List P → Except PyErr P) (pb : Prob F P E) (clk : Clock F) (l : List P)
    (hl : l.length ≠ pb.M.dim + 1) (r : Except PyErr (Result F P)) :
    (NMRuns o sort centroid pb clk (.list l) r ↔
      Runs (nmStep (o.resolve pb.M.dim) sort centroid pb clk) (nmInit sort pb l) r) ∧
    (NMRuns o sort centroid pb clk (.tuple l) r ↔
      Runs (nmStep (o.resolve pb.M.dim) sort centroid pb clk) (nmInit sort pb l) r) := by
  simp [NMRuns, nmSimplex, hl]

/-- A two-point list is accepted on a one-dimensional manifold's wrong side: three points run
to a result, two points are refused. -/
example : ∃ o : NMObj Q, ∃ centroid,
    (∃ r, NMRuns o id centroid squareProb stillClock (.list [.npy 1, .npy 2, .npy 3]) (.ok r)) ∧
    NMRuns o id centroid squareProb stillClock (.list [.npy 1, .npy 2]) (.error .valueError) := by
  refine ⟨⟨.py 1000, .py 0, .py 0, 0, 0, none, some 1, .py 1, .py 2, .py (1 / 2)⟩,
    fun _ _ => .ok (.npy 0), ?_, (C17_rejects_simplex _ _ _ _ _ _ rfl _).1.2 rfl⟩
  obtain ⟨r, hr, he⟩ := exists_of_checkFuel (n := 2) (p := isOk fun _ => true)
    (step := nmStep (NMObj.resolve ⟨.py 1000, .py 0, .py 0, 0, 0, none, some 1, .py 1, .py 2,
      .py (1 / 2)⟩ 1) id (fun _ _ => .ok (.npy 0)) squareProb stillClock)
    (s := nmInit id squareProb [.npy 1, .npy 2, .npy 3]) (by decide +kernel)
  obtain ⟨r, rfl, -⟩ := exists_of_isOk he
  exact ⟨r, hr⟩

/-- **C17**, what holds: without an initial simplex, `dim + 1` drawn points are used; an
argument that is not a list or tuple is refused.  Missing: list and tuple arguments, for which
the claim is false (`C17_rejects_simplex`, `C17_accepts_other`). -/
theorem C17_partial (o : NMObj F) (sort : List (F × P) → List (F × P))
    (centroid : ℤ → List P → Except PyErr P) (pb : Prob F P E) (clk : Clock F) (draws : ℕ → P)
    (r : Except PyErr (Result F P)) :
    (∃ l : List P, l.length = pb.M.dim + 1 ∧ (∀ p ∈ l, ∃ i, p = draws i) ∧
      (NMRuns o sort centroid pb clk (.none draws) r ↔
        Runs (nmStep (o.resolve pb.M.dim) sort centroid pb clk) (nmInit sort pb l) r)) ∧
    (NMRuns o sort centroid pb clk .other r ↔ r = .error .valueError) := by
  refine ⟨⟨(List.range (pb.M.dim + 1)).map draws, by simp, ?_, Iff.rfl⟩, Iff.rfl⟩
  intro p hp
  obtain ⟨i, -, rfl⟩ := List.mem_map.1 hp
  exact ⟨i, rfl⟩

/-! ### C18: the decision table -/

/-- Which move the published method makes, from the costs of the best, second worst and worst
vertex, the reflected, expanded, outside and inside contracted point. -/
inductive NMTable (c0 cs cw cr ce co ci : F) : NMAction → Prop
  | reflection : lt cr c0 = false → lt cr cs = true → NMTable c0 cs cw cr ce co ci .reflection
  | expansion : lt cr c0 = true → lt ce cr = true → NMTable c0 cs cw cr ce co ci .expansion
  | failedExpansion : lt cr c0 = true → lt ce cr = false →
      NMTable c0 cs cw cr ce co ci .failedExpansion
  | outside : lt cr cs = false → lt cr cw = true → le co cr = true →
      NMTable c0 cs cw cr ce co ci .outsideContraction
  | inside : lt cr cw = false → le ci cw = true → NMTable c0 cs cw cr ce co ci .insideContraction
  | shrinkOutside : lt cr cs = false → lt cr cw = true → le co cr = false →
      NMTable c0 cs cw cr ce co ci .shrinkage
  | shrinkInside : lt cr cw = false → le ci cw = false → NMTable c0 cs cw cr ce co ci .shrinkage

/-- The coefficient of `log(centroid, worst)` that gives the new vertex of a move. -/
def nmCoefficient (o : NMObj F) : NMAction → F
  | .reflection => neg o.reflection
  | .expansion => neg o.expansion
  | .failedExpansion => neg o.reflection
  | .outsideContraction => neg o.contraction
  | .insideContraction => o.contraction
  | .shrinkage => lit 0

variable [LawfulPyNum F]

/-- **C18** Nelder-Mead's iteration on a sorted simplex `best, mid..., second, worst` of
`dim + 1 ≥ 2` points (here `mid` may be empty, and for `dim = 1` the second worst vertex is the
best one) with NaN-free costs: it raises nothing, the move follows the table, a move other than
shrinkage replaces exactly the worst vertex by the documented point, whose cost is not greater
than that of the vertex it replaces, and shrinkage keeps the best vertex and moves every other
one to its pair mean with the best. -/
theorem C18_nelderMead (o : NMObj F) (obj : P → F) (M : Mfd F P E) (xbar : P)
    (hnan : ∀ p, isnan (obj p) = false) (best second worst : F × P) (l : List (F × P))
    (hbest : l.head? = some best) (hsecond : l.getLast? = some second)
    (hlen : l.length = M.dim) (hn : ∀ v ∈ l ++ [worst], isnan v.1 = false)
    (hsorted : (l ++ [worst]).Pairwise fun a b => le a.1 b.1 = true) :
    let pt := fun c => M.retraction xbar (M.smul c (M.log xbar worst.2))
    ∃ m, nmMove o obj M xbar (l ++ [worst]) = .ok m ∧
      NMTable best.1 second.1 worst.1 (obj (pt (neg o.reflection))) (obj (pt (neg o.expansion)))
        (obj (pt (neg o.contraction))) (obj (pt o.contraction)) m.action ∧
      m.simplex.length = (l ++ [worst]).length ∧
      (m.action ≠ .shrinkage →
        m.simplex = l ++ [(obj (pt (nmCoefficient o m.action)), pt (nmCoefficient o m.action))] ∧
        le (obj (pt (nmCoefficient o m.action))) worst.1 = true) ∧
      (m.action = .shrinkage →
        m.simplex = best :: ((l ++ [worst]).tail.map fun v =>
          (obj (M.pairMean best.2 v.2), M.pairMean best.2 v.2))) := by
  intro pt
  obtain ⟨t, rfl⟩ : ∃ t, l = best :: t := by
    cases l with
    | nil => simp at hbest
    | cons b t => simp at hbest; exact ⟨t, by rw [hbest]⟩
  have hmem : second ∈ best :: t := List.mem_of_getLast? hsecond
  have nb : isnan best.1 = false := hn best (by simp)
  have nw : isnan worst.1 = false := hn worst (by simp)
  have ns : isnan second.1 = false := hn second (List.mem_append_left _ hmem)
  have hsw : le second.1 worst.1 = true :=
    (List.pairwise_append.1 hsorted).2.2 second hmem worst (by simp)
  have hbw : le best.1 worst.1 = true :=
    (List.pairwise_append.1 hsorted).2.2 best (by simp) worst (by simp)
  have hbs : le best.1 second.1 = true := by
    rcases List.mem_cons.1 hmem with h | h
    · rw [h]; exact LawfulPyNum.le_refl _ nb
    · exact List.rel_of_pairwise_cons (List.pairwise_append.1 hsorted).1 h
  have shrink : ∀ ev, ∃ m, nmShrinkMove obj M M.dim best (best :: t ++ [worst]) ev = .ok m ∧
      m.action = .shrinkage ∧ m.simplex = best :: ((best :: t ++ [worst]).tail.map fun v =>
          (obj (M.pairMean best.2 v.2), M.pairMean best.2 v.2)) := by
    intro ev
    have e1 : ¬ (best :: t ++ [worst]).length ≤ M.dim := by simp at hlen ⊢; omega
    simp only [nmShrinkMove, nmShrink, e1, if_false]
    refine ⟨_, rfl, rfl, ?_⟩
    simp only [List.cons_append, List.mapIdx_cons, List.tail_cons]
    simp only [nonpos_iff_eq_zero, one_ne_zero, false_and, if_false,
      List.cons.injEq, true_and]
    refine List.ext_getElem (by simp) fun i h1 h2 => ?_
    simp only [List.length_mapIdx] at h1
    simp only [List.getElem_mapIdx, List.getElem_map]
    rw [if_pos]
    simp at hlen h1
    omega
  have e1 : (best :: t ++ [worst]).getLast? = some worst := List.getLast?_concat
  have e2 : (best :: t ++ [worst]).head? = some best := by simp
  have e3 : (best :: t ++ [worst]).dropLast = best :: t := by
    rw [List.dropLast_concat]
  have nr := hnan (pt (neg o.reflection))
  unfold nmMove
  simp only [e1, e2, e3, hsecond, nmReflectTest, replaceWorst]
  change ∃ m, (match (if le best.1 (obj (pt (neg o.reflection))) = true then
    Except.ok (lt (obj (pt (neg o.reflection))) second.1) else Except.ok false) with
    | .error e => Except.error e
    | .ok true => Except.ok <| NMMove.mk (best :: t ++ [(obj (pt (neg o.reflection)), pt (neg o.reflection))])
        [pt (neg o.reflection)] 1 .reflection
    | .ok false =>
      if lt (obj (pt (neg o.reflection))) best.1 = true then
        if lt (obj (pt (neg o.expansion))) (obj (pt (neg o.reflection))) = true then
          Except.ok <| NMMove.mk (best :: t ++ [(obj (pt (neg o.expansion)), pt (neg o.expansion))])
            [pt (neg o.reflection), pt (neg o.expansion)] 2 .expansion
        else
          Except.ok <| NMMove.mk (best :: t ++ [(obj (pt (neg o.reflection)), pt (neg o.reflection))])
            [pt (neg o.reflection), pt (neg o.expansion)] 2 .failedExpansion
      else nmContract o obj M xbar (M.log xbar worst.2) (pt (neg o.reflection))
        (obj (pt (neg o.reflection))) best worst (some second) (best :: t ++ [worst])) = _ ∧ _
  have lerb := LawfulPyNum.le_iff best.1 _ nb nr
  have lers := LawfulPyNum.le_iff second.1 _ ns nr
  have lenapp : ∀ v : F × P, (best :: t ++ [v]).length = (best :: t ++ [worst]).length := by simp
  by_cases h0 : lt (obj (pt (neg o.reflection))) best.1 = true
  · have g0 : ¬ le best.1 (obj (pt (neg o.reflection))) = true := by rw [lerb]; simp [h0]
    have rw' : le (obj (pt (neg o.reflection))) worst.1 = true :=
      LawfulPyNum.le_trans nr nb nw (LawfulPyNum.le_of_lt h0) hbw
    simp only [if_neg g0, if_pos h0]
    by_cases h1 : lt (obj (pt (neg o.expansion))) (obj (pt (neg o.reflection))) = true
    · simp only [if_pos h1]
      refine ⟨_, rfl, .expansion h0 h1, lenapp _, fun _ => ⟨rfl, ?_⟩, by simp⟩
      exact LawfulPyNum.le_trans (hnan _) nr nw (LawfulPyNum.le_of_lt h1) rw'
    · simp only [if_neg h1]
      exact ⟨_, rfl, .failedExpansion h0 (by simpa using h1), lenapp _, fun _ => ⟨rfl, rw'⟩,
        by simp⟩
  · have h0' : lt (obj (pt (neg o.reflection))) best.1 = false := by simpa using h0
    have g0 : le best.1 (obj (pt (neg o.reflection))) = true := lerb.2 h0'
    simp only [if_pos g0, if_neg h0]
    by_cases h1 : lt (obj (pt (neg o.reflection))) second.1 = true
    · simp only [h1]
      refine ⟨_, rfl, .reflection h0' h1, lenapp _, fun _ => ⟨rfl, ?_⟩, by simp⟩
      exact LawfulPyNum.le_trans nr ns nw (LawfulPyNum.le_of_lt h1) hsw
    · have h1' : lt (obj (pt (neg o.reflection))) second.1 = false := by simpa using h1
      have g1 : le second.1 (obj (pt (neg o.reflection))) = true := lers.2 h1'
      simp only [h1', nmContract, if_pos g1]
      change ∃ m, (if lt (obj (pt (neg o.reflection))) worst.1 = true then
        if le (obj (pt (neg o.contraction))) (obj (pt (neg o.reflection))) = true then
          Except.ok ⟨replaceWorst (best :: t ++ [worst]) (obj (pt (neg o.contraction)),
            pt (neg o.contraction)), [pt (neg o.reflection), pt (neg o.contraction)], 2,
            .outsideContraction⟩
        else nmShrinkMove obj M M.dim best (best :: t ++ [worst])
          [pt (neg o.reflection), pt (neg o.contraction)]
        else if le (obj (pt o.contraction)) worst.1 = true then
          Except.ok ⟨replaceWorst (best :: t ++ [worst]) (obj (pt o.contraction),
            pt o.contraction), [pt (neg o.reflection), pt o.contraction], 2, .insideContraction⟩
        else nmShrinkMove obj M M.dim best (best :: t ++ [worst])
          [pt (neg o.reflection), pt o.contraction]) = _ ∧ _
      simp only [replaceWorst, e3]
      by_cases h2 : lt (obj (pt (neg o.reflection))) worst.1 = true
      · simp only [if_pos h2]
        by_cases h3 : le (obj (pt (neg o.contraction))) (obj (pt (neg o.reflection))) = true
        · simp only [if_pos h3]
          refine ⟨_, rfl, .outside h1' h2 h3, lenapp _, fun _ => ⟨rfl, ?_⟩, by simp⟩
          exact LawfulPyNum.le_trans (hnan _) nr nw h3 (LawfulPyNum.le_of_lt h2)
        · simp only [if_neg h3]
          obtain ⟨m, hm, ha, hs⟩ := shrink [pt (neg o.reflection), pt (neg o.contraction)]
          refine ⟨m, hm, ?_, ?_, fun h => absurd ha h, fun _ => hs⟩
          · rw [ha]; exact .shrinkOutside h1' h2 (by simpa using h3)
          · rw [hs]; simp
      · simp only [if_neg h2]
        by_cases h3 : le (obj (pt o.contraction)) worst.1 = true
        · simp only [if_pos h3]
          exact ⟨_, rfl, .inside (by simpa using h2) h3, lenapp _, fun _ => ⟨rfl, h3⟩, by simp⟩
        · simp only [if_neg h3]
          obtain ⟨m, hm, ha, hs⟩ := shrink [pt (neg o.reflection), pt o.contraction]
          refine ⟨m, hm, ?_, ?_, fun h => absurd ha h, fun _ => hs⟩
          · rw [ha]; exact .shrinkInside (by simpa using h2) (by simpa using h3)
          · rw [hs]; simp

/-- The hypotheses are met by the simplex `{2, 3}` on the real line with the cost `x ^ 2`. -/
example : (∀ p : ℝ, isnan (p ^ 2) = false) ∧
    [((4 : ℝ), (2 : ℝ))].head? = some (4, 2) ∧ [((4 : ℝ), (2 : ℝ))].getLast? = some (4, 2) ∧
    [((4 : ℝ), (2 : ℝ))].length = realMfd.dim ∧
    (∀ v ∈ [((4 : ℝ), (2 : ℝ))] ++ [(9, 3)], isnan v.1 = false) ∧
    ([((4 : ℝ), (2 : ℝ))] ++ [(9, 3)]).Pairwise
      fun a b : ℝ × ℝ => le a.1 b.1 = true := by
  refine ⟨fun _ => rfl, rfl, rfl, rfl, fun _ _ => rfl, ?_⟩
  simp [PyNum.le]
  norm_num

/-! ### C16: the best vertex -/

/-- What is assumed of sorting by `np.argsort(costs)`: a permutation, ordered by cost if no
cost is NaN. -/
def SortsByCost (sort : List (F × P) → List (F × P)) : Prop :=
  ∀ l, (sort l).Perm l ∧
    ((∀ v ∈ l, isnan v.1 = false) → (sort l).Pairwise fun a b => le a.1 b.1 = true)

section
omit [LawfulPyNum F]
variable {o : NMObj F} {obj : P → F} {M : Mfd F P E} {xbar : P}

omit [PyNum F] in
theorem nmShrinkMove_spec {best : F × P} {l : List (F × P)} {ev : List P} {dim : ℕ}
    {m : NMMove F P} (h : nmShrinkMove obj M dim best l ev = .ok m) :
    dim < l.length ∧ m.simplex.length = l.length ∧ m.simplex.head? = l.head? ∧
    (∀ v ∈ m.simplex, v ∈ l ∨ v.1 = obj v.2) ∧ m.counted = m.evals.length := by
  unfold nmShrinkMove at h
  split at h
  · cases h
  · rename_i l' hl'
    unfold nmShrink at hl'
    split at hl'
    · cases hl'
    · rename_i hlen
      simp only [Except.ok.injEq] at h hl'
      subst h
      subst hl'
      refine ⟨by omega, by simp, ?_, ?_, ?_⟩
      · cases l <;> simp
      · intro v hv
        simp only [List.mem_mapIdx] at hv
        obtain ⟨i, hi, rfl⟩ := hv
        split
        · exact Or.inr rfl
        · exact Or.inl (List.getElem_mem hi)
      · simp only [List.length_append, List.length_map, List.length_take, List.length_drop,
          List.length_mapIdx]
        push_cast
        omega

/-- Facts about every successful move. -/
theorem nmMove_spec {l : List (F × P)} {m : NMMove F P}
    (h : nmMove o obj M xbar l = .ok m) :
    m.simplex.length = l.length ∧ m.counted = m.evals.length ∧
    (∀ v ∈ m.simplex, v ∈ l ∨ v.1 = obj v.2) ∧
    ∃ best, l.head? = some best ∧ ∃ v ∈ m.simplex, v = best ∨ lt v.1 best.1 = true ∨
      ∃ c, lt c best.1 = true ∧ lt v.1 c = true := by
  unfold nmMove at h
  split at h
  swap
  · cases h
  rename_i worst best hlast hhead
  obtain ⟨l', rfl⟩ : ∃ l', l = l' ++ [worst] := ⟨l.dropLast, (List.dropLast_append_getLast? worst
    (by simpa using hlast)).symm⟩
  simp only at h
  have keep : ∀ second, (l' ++ [worst]).dropLast.getLast? = some second → ∀ w : F × P,
      best ∈ l' ++ [w] := by
    intro second hs w
    rw [List.dropLast_concat] at hs
    cases l' with
    | nil => simp at hs
    | cons b t => simp at hhead; simp [hhead]
  have newmem : ∀ p : P, ∀ v ∈ l' ++ [(obj p, p)], v ∈ l' ++ [worst] ∨ v.1 = obj v.2 := by
    intro p v hv
    rcases List.mem_append.1 hv with h | h
    · exact Or.inl (List.mem_append_left _ h)
    · simp at h
      subst h
      exact Or.inr rfl
  have hrep : ∀ w : F × P, replaceWorst (l' ++ [worst]) w = l' ++ [w] := by
    intro w
    simp [replaceWorst]
  have shr : ∀ ev, nmShrinkMove obj M M.dim best (l' ++ [worst]) ev = .ok m →
      m.simplex.length = (l' ++ [worst]).length ∧ m.counted = m.evals.length ∧
      (∀ v ∈ m.simplex, v ∈ l' ++ [worst] ∨ v.1 = obj v.2) ∧
      ∃ best, (l' ++ [worst]).head? = some best ∧ ∃ v ∈ m.simplex, v = best ∨
        lt v.1 best.1 = true ∨ ∃ c, lt c best.1 = true ∧ lt v.1 c = true := by
    intro ev he
    obtain ⟨-, h1, h2, h3, h4⟩ := nmShrinkMove_spec he
    exact ⟨h1, h4, h3, best, hhead, best, List.mem_of_head? (by rw [h2, hhead]), Or.inl rfl⟩
  split at h
  · cases h
  · rename_i hrt
    simp only [Except.ok.injEq] at h
    subst h
    obtain ⟨second, hs⟩ : ∃ second, (l' ++ [worst]).dropLast.getLast? = some second := by
      unfold nmReflectTest at hrt
      split at hrt
      · split at hrt
        · cases hrt
        · rename_i second hs
          exact ⟨second, hs⟩
      · simp at hrt
    simp only [hrep]
    exact ⟨by simp, rfl, newmem _, best, hhead, best, keep _ hs _, Or.inl rfl⟩
  · split at h
    · rename_i hlt
      split at h
      · rename_i hlt2
        simp only [Except.ok.injEq] at h
        subst h
        simp only [hrep]
        exact ⟨by simp, rfl, newmem _, best, hhead, _,
          List.mem_append_right _ (List.mem_singleton.2 rfl), Or.inr (Or.inr ⟨_, hlt, hlt2⟩)⟩
      · simp only [Except.ok.injEq] at h
        subst h
        simp only [hrep]
        exact ⟨by simp, rfl, newmem _, best, hhead, _,
          List.mem_append_right _ (List.mem_singleton.2 rfl), Or.inr (Or.inl hlt)⟩
    · unfold nmContract at h
      split at h
      · cases h
      · rename_i second hs
        split at h
        · split at h
          · simp only at h
            split at h
            · simp only [Except.ok.injEq] at h
              subst h
              simp only [hrep]
              exact ⟨by simp, rfl, newmem _, best, hhead, best, keep _ hs _, Or.inl rfl⟩
            · exact shr _ h
          · simp only at h
            split at h
            · simp only [Except.ok.injEq] at h
              subst h
              simp only [hrep]
              exact ⟨by simp, rfl, newmem _, best, hhead, best, keep _ hs _, Or.inl rfl⟩
            · exact shr _ h
        · exact shr _ h

end

omit [LawfulPyNum F] in
/-- In every state of a run every vertex carries its cost. -/
theorem nmReaches_costs {o : NMObj F} {sort : List (F × P) → List (F × P)}
    {centroid : ℤ → List P → Except PyErr P} {pb : Prob F P E} {clk : Clock F}
    (hsort : SortsByCost sort) {s t : NMState F P}
    (h : Reaches (nmStep o sort centroid pb clk) s t)
    (h0 : ∀ v ∈ s.simplex, v.1 = pb.cost v.2) : ∀ v ∈ t.simplex, v.1 = pb.cost v.2 := by
  refine h.invariant (fun s => ∀ v ∈ s.simplex, v.1 = pb.cost v.2) ?_ h0
  intro s s' hs hst v hv
  obtain ⟨xbar, m, -, -, hm, rfl⟩ := nmStep_next hst
  rcases (nmMove_spec hm).2.2.1 v hv with h | h
  · exact hs v ((hsort _).1.mem_iff.1 h)
  · exact h

omit [LawfulPyNum F] in
theorem nmInit_costs {sort : List (F × P) → List (F × P)} (hsort : SortsByCost sort)
    (pb : Prob F P E) (x : List P) : ∀ v ∈ (nmInit sort pb x).simplex, v.1 = pb.cost v.2 := by
  intro v hv
  have := (hsort _).1.mem_iff.1 hv
  obtain ⟨p, -, rfl⟩ := List.mem_map.1 this
  rfl

/-- **C16** The best cost in the simplex never increases: after an iteration, for every vertex
there was before, there is one that is no worse. -/
theorem C16_best_never_increases {o : NMObj F} {sort : List (F × P) → List (F × P)}
    {centroid : ℤ → List P → Except PyErr P} {pb : Prob F P E} {clk : Clock F}
    (hsort : SortsByCost sort) (hnan : ∀ p, isnan (pb.cost p) = false) {x : List P}
    {s s' : NMState F P} (h : Reaches (nmStep o sort centroid pb clk) (nmInit sort pb x) s)
    (hst : nmStep o sort centroid pb clk s = .ok (.next s')) :
    ∃ v' ∈ s'.simplex, ∀ v ∈ s.simplex, le v'.1 v.1 = true := by
  have hc := nmReaches_costs hsort h (nmInit_costs hsort pb x)
  have hc' := nmReaches_costs hsort (h.tail hst) (nmInit_costs hsort pb x)
  have hn : ∀ v ∈ s.simplex, isnan v.1 = false := fun v hv => by rw [hc v hv]; exact hnan _
  have hn' : ∀ v ∈ s'.simplex, isnan v.1 = false := fun v hv => by rw [hc' v hv]; exact hnan _
  obtain ⟨xbar, m, -, -, hm, rfl⟩ := nmStep_next hst
  obtain ⟨-, -, -, best, hb, v', hv', hle⟩ := nmMove_spec hm
  have hbmem : best ∈ s.simplex := (hsort _).1.mem_iff.1 (List.mem_of_head? hb)
  have hbest : ∀ v ∈ s.simplex, le best.1 v.1 = true := by
    intro v hv
    have hv2 := (hsort s.simplex).1.mem_iff.2 hv
    have hp := (hsort s.simplex).2 hn
    cases hs : sort s.simplex with
    | nil => rw [hs] at hb; simp at hb
    | cons b t =>
      rw [hs] at hb hv2 hp
      simp only [List.head?_cons, Option.some.injEq] at hb
      subst hb
      rcases List.mem_cons.1 hv2 with h | h
      · rw [h]; exact LawfulPyNum.le_refl _ (hn b hbmem)
      · exact List.rel_of_pairwise_cons hp h
  have hvb : le v'.1 best.1 = true := by
    rcases hle with rfl | h | ⟨c, h1, h2⟩
    · exact LawfulPyNum.le_refl _ (hn' _ hv')
    · exact LawfulPyNum.le_of_lt h
    · exact LawfulPyNum.le_of_lt (LawfulPyNum.lt_trans _ _ _ h2 h1)
  exact ⟨v', hv', fun v hv => LawfulPyNum.le_trans (hn' _ hv') (hn _ hbmem) (hn _ hv) hvb
    (hbest v hv)⟩

/-- **C16** The result of a Nelder-Mead run is no worse than any vertex the simplex had at the
beginning or at any later iteration, and its cost is the cost of its point. -/
theorem C16_nelderMead {o : NMObj F} {sort : List (F × P) → List (F × P)}
    {centroid : ℤ → List P → Except PyErr P} {pb : Prob F P E} {clk : Clock F}
    (hsort : SortsByCost sort) (hnan : ∀ p, isnan (pb.cost p) = false) {init : InitArg P}
    {x : List P} (hx : nmSimplex pb.M.dim init = .ok x) {r : Result F P}
    (h : NMRuns o sort centroid pb clk init (.ok r)) :
    r.cost = pb.cost r.point ∧ (∀ p ∈ x, le r.cost (pb.cost p) = true) ∧
    ∀ s, Reaches (nmStep (o.resolve pb.M.dim) sort centroid pb clk) (nmInit sort pb x) s →
      ∀ v ∈ s.simplex, v.1 = pb.cost v.2 ∧ le r.cost v.1 = true := by
  unfold NMRuns at h
  rw [hx] at h
  simp only at h
  have main : ∀ s, Reaches (nmStep (o.resolve pb.M.dim) sort centroid pb clk)
      (nmInit sort pb x) s → r.cost = pb.cost r.point ∧ ∀ v ∈ s.simplex, le r.cost v.1 = true := by
    intro s hs
    have hc := nmReaches_costs hsort hs (nmInit_costs hsort pb x)
    have hrun := h.of_reaches hs
    refine hrun.invariant (fun t => Reaches (nmStep (o.resolve pb.M.dim) sort centroid pb clk)
      (nmInit sort pb x) t ∧ ∃ w ∈ t.simplex, ∀ v ∈ s.simplex, le w.1 v.1 = true)
      (fun r => r.cost = pb.cost r.point ∧ ∀ v ∈ s.simplex, le r.cost v.1 = true) ?_ ?_ ?_
    · rintro t t' ⟨h1, w, hw, hw2⟩ hst
      obtain ⟨w', hw', h3⟩ := C16_best_never_increases hsort hnan h1 hst
      have ct := nmReaches_costs hsort h1 (nmInit_costs hsort pb x)
      have ct' := nmReaches_costs hsort (h1.tail hst) (nmInit_costs hsort pb x)
      refine ⟨h1.tail hst, w', hw', fun v hv => ?_⟩
      refine LawfulPyNum.le_trans (b := w.1) ?_ ?_ ?_ (h3 w hw) (hw2 v hv)
      · rw [ct' _ hw']; exact hnan _
      · rw [ct _ hw]; exact hnan _
      · rw [hc _ hv]; exact hnan _
    · rintro t r ⟨h1, w, hw, hw2⟩ hbrk
      obtain ⟨reason, best, -, hb, rfl⟩ := nmStep_brk hbrk
      refine ⟨rfl, fun v hv => ?_⟩
      have ct := nmReaches_costs hsort h1 (nmInit_costs hsort pb x)
      have hbm : best ∈ t.simplex := (hsort _).1.mem_iff.1 (List.mem_of_head? hb)
      have hn : ∀ v ∈ t.simplex, isnan v.1 = false := fun v hv => by rw [ct v hv]; exact hnan _
      have hp := (hsort t.simplex).2 hn
      have hbw : le best.1 w.1 = true := by
        have hw3 := (hsort t.simplex).1.mem_iff.2 hw
        cases hs : sort t.simplex with
        | nil => rw [hs] at hb; simp at hb
        | cons b l =>
          rw [hs] at hb hw3 hp
          simp only [List.head?_cons, Option.some.injEq] at hb
          subst hb
          rcases List.mem_cons.1 hw3 with h | h
          · rw [h]; exact LawfulPyNum.le_refl _ (hn b hbm)
          · exact List.rel_of_pairwise_cons hp h
      simp only
      rw [← ct _ hbm]
      exact LawfulPyNum.le_trans (hn _ hbm) (hn _ hw) (by rw [hc _ hv]; exact hnan _) hbw
        (hw2 v hv)
    · refine ⟨hs, ?_⟩
      have hn : ∀ v ∈ s.simplex, isnan v.1 = false := fun v hv => by rw [hc v hv]; exact hnan _
      have hp := (hsort s.simplex).2 hn
      cases hso : sort s.simplex with
      | nil =>
        have : s.simplex = [] := by
          have := (hsort s.simplex).1
          rw [hso] at this
          exact this.symm.eq_nil
        exfalso
        obtain ⟨n, hrun⟩ := hrun
        cases hrun with
        | brk h2 =>
          obtain ⟨_, best, -, hb, -⟩ := nmStep_brk h2
          rw [hso] at hb
          simp at hb
        | next h2 _ =>
          obtain ⟨_, _, -, -, hm, -⟩ := nmStep_next h2
          rw [hso] at hm
          simp [nmMove] at hm
      | cons b l =>
        rw [hso] at hp
        have hmem : ∀ v, v ∈ b :: l ↔ v ∈ s.simplex := fun v => by
          rw [← hso]; exact (hsort _).1.mem_iff
        refine ⟨b, (hmem b).1 (by simp), fun v hv => ?_⟩
        rcases List.mem_cons.1 ((hmem v).2 hv) with h | h
        · rw [h]; exact LawfulPyNum.le_refl _ (hn b ((hmem b).1 (by simp)))
        · exact List.rel_of_pairwise_cons hp h
  refine ⟨(main _ .refl).1, fun p hp => ?_, fun s hs v hv =>
    ⟨nmReaches_costs hsort hs (nmInit_costs hsort pb x) v hv, (main s hs).2 v hv⟩⟩
  refine (main _ .refl).2 (pb.cost p, p) ((hsort _).1.mem_iff.2 ?_)
  exact List.mem_map.2 ⟨p, hp, rfl⟩

/-- Sorting by cost exists: insertion sort on the reals, and a run with it. -/
example : ∃ sort : List (ℝ × ℝ) → List (ℝ × ℝ), SortsByCost sort := by
  classical
  refine ⟨fun l => l.insertionSort fun a b => a.1 ≤ b.1, fun l =>
    ⟨List.perm_insertionSort _ l, fun _ => ?_⟩⟩
  have := List.pairwise_insertionSort (fun a b : ℝ × ℝ => a.1 ≤ b.1) l
  exact this.imp fun h => by simpa [PyNum.le] using h

end

end Verif.Opt
