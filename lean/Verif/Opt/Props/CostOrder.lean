/-
C158 for the derivative-free optimizers: they only compare costs, so any increasing function of
the cost gives the same run.
-/
import Verif.Opt.Props.EquivarianceFree

namespace Verif.Opt
open PyNum

variable {F P E : Type*} [PyNum F] {φ : F → F} {pb : Prob F P E}

/-! ## Specification -/

/-- A function of costs that keeps all comparisons: an increasing function that maps NaN, and
nothing else, to NaN. -/
structure KeepsOrder (φ : F → F) : Prop where
  lt : ∀ u v, PyNum.lt (φ u) (φ v) = PyNum.lt u v
  le : ∀ u v, PyNum.le (φ u) (φ v) = PyNum.le u v
  isnan : ∀ u, PyNum.isnan (φ u) = PyNum.isnan u

/-- The problem with the cost `φ(cost)`. -/
def Prob.mapCost (φ : F → F) (pb : Prob F P E) : Prob F P E :=
  { pb with cost := fun y => φ (pb.cost y) }

/-- A result whose cost is `φ` of the cost; everything else is kept. -/
def Result.mapCost (φ : F → F) (r : Result F P) : Result F P :=
  { r with cost := φ r.cost }

/-- Sorting only compares costs. -/
def SortKeeps (φ : F → F) (sort : List (F × P) → List (F × P)) : Prop :=
  ∀ l, sort (l.map (Prod.map φ id)) = (sort l).map (Prod.map φ id)

/-! ## Nelder-Mead -/

private def NMMove.mapCost (φ : F → F) (m : NMMove F P) : NMMove F P :=
  { m with simplex := m.simplex.map (Prod.map φ id) }

omit [PyNum F] in
private theorem replaceWorst_cost (l : List (F × P)) (v : F × P) :
    replaceWorst (l.map (Prod.map φ id)) (φ v.1, v.2) =
      (replaceWorst l v).map (Prod.map φ id) := by
  simp [replaceWorst, List.map_dropLast, Prod.map]

omit [PyNum F] in
private theorem shrinkMove_cost {best : F × P} {l : List (F × P)} {dim : ℕ} {ev : List P} :
    nmShrinkMove (fun y => φ (pb.cost y)) pb.M dim (φ best.1, best.2) (l.map (Prod.map φ id)) ev =
      (nmShrinkMove pb.cost pb.M dim best l ev).map (NMMove.mapCost φ) := by
  have e : (l.map (Prod.map φ id)).mapIdx (fun i v =>
      if 1 ≤ i ∧ i ≤ dim then
        (φ (pb.cost (pb.M.pairMean best.2 v.2)), pb.M.pairMean best.2 v.2) else v) =
      (l.mapIdx fun i v => if 1 ≤ i ∧ i ≤ dim then
        (pb.cost (pb.M.pairMean best.2 v.2), pb.M.pairMean best.2 v.2) else v).map
          (Prod.map φ id) := by
    apply List.ext_getElem (by simp)
    intro i h1 h2
    simp only [List.getElem_mapIdx, List.getElem_map]
    split <;> rfl
  simp only [nmShrinkMove, nmShrink, List.length_map]
  by_cases hn : l.length ≤ dim
  · simp only [hn, if_true]
    rfl
  · simp only [hn, if_false, e]
    simp only [Except.map, NMMove.mapCost, List.map_drop, List.map_take, List.map_map]
    congr 1

private theorem nmContract_cost (h : KeepsOrder φ) {o : NMObj F} {xbar : P} {vec : E}
    {xr : P} {costr : F} {best worst : F × P} {second : Option (F × P)} {l : List (F × P)} :
    nmContract o (fun y => φ (pb.cost y)) pb.M xbar vec xr (φ costr) (φ best.1, best.2)
        (φ worst.1, worst.2) (second.map (Prod.map φ id)) (l.map (Prod.map φ id)) =
      (nmContract o pb.cost pb.M xbar vec xr costr best worst second l).map
        (NMMove.mapCost φ) := by
  cases second with
  | none => rfl
  | some q =>
    simp only [nmContract, Option.map_some, Prod.map_fst, h.le, h.lt, shrinkMove_cost]
    by_cases c1 : PyNum.le q.1 costr = true
    · simp only [c1, if_true]
      by_cases c2 : PyNum.lt costr worst.1 = true
      · simp only [c2, if_true]
        by_cases c3 : PyNum.le (pb.cost (pb.M.retraction xbar
            (pb.M.smul (PyNum.neg o.contraction) vec))) costr = true
        · simp only [c3, if_true, Except.map, NMMove.mapCost, ← replaceWorst_cost]
        · simp only [c3]
          rfl
      · simp only [c2, Bool.false_eq_true, if_false]
        by_cases c3 : PyNum.le (pb.cost (pb.M.retraction xbar (pb.M.smul o.contraction vec)))
            worst.1 = true
        · simp only [c3, if_true, Except.map, NMMove.mapCost, ← replaceWorst_cost]
        · simp only [c3]
          rfl
    · simp only [c1]
      rfl

private theorem nmMove_cost (h : KeepsOrder φ) {o : NMObj F} {xbar : P} {l : List (F × P)} :
    nmMove o (fun y => φ (pb.cost y)) pb.M xbar (l.map (Prod.map φ id)) =
      (nmMove o pb.cost pb.M xbar l).map (NMMove.mapCost φ) := by
  rcases l.eq_nil_or_concat with rfl | ⟨l', worst, rfl⟩
  · rfl
  · obtain ⟨best, hbest⟩ : ∃ b, (l' ++ [worst]).head? = some b := by
      cases l' <;> simp
    rw [List.concat_eq_append]
    have hw : (l' ++ [worst]).getLast? = some worst := by simp
    simp only [nmMove, List.getLast?_map, List.head?_map, hw, hbest, Option.map_some,
      Prod.map_snd, id, ← List.map_dropLast]
    have et : ∀ c : F, nmReflectTest (Prod.map φ id best)
        (((l' ++ [worst]).dropLast.getLast?).map (Prod.map φ id)) (φ c) =
        nmReflectTest best (l' ++ [worst]).dropLast.getLast? c := by
      intro c
      cases (l' ++ [worst]).dropLast.getLast? <;>
        simp only [nmReflectTest, Option.map_some, Option.map_none, Prod.map_fst, h.le, h.lt]
    rw [et]
    have hcon := nmContract_cost (pb := pb) h (o := o) (xbar := xbar)
      (vec := pb.M.log xbar worst.2) (best := best) (worst := worst)
      (xr := pb.M.retraction xbar (pb.M.smul (PyNum.neg o.reflection) (pb.M.log xbar worst.2)))
      (costr := pb.cost
        (pb.M.retraction xbar (pb.M.smul (PyNum.neg o.reflection) (pb.M.log xbar worst.2))))
      (second := (l' ++ [worst]).dropLast.getLast?) (l := l' ++ [worst])
    match nmReflectTest best (l' ++ [worst]).dropLast.getLast? (pb.cost
        (pb.M.retraction xbar (pb.M.smul (PyNum.neg o.reflection) (pb.M.log xbar worst.2)))) with
    | .error e => rfl
    | .ok true =>
      simp only [Except.map, NMMove.mapCost, ← replaceWorst_cost]
    | .ok false =>
      dsimp only
      simp only [Prod.map_fst, h.lt]
      by_cases c1 : PyNum.lt (pb.cost (pb.M.retraction xbar (pb.M.smul (PyNum.neg o.reflection)
          (pb.M.log xbar worst.2)))) best.1 = true
      · simp only [c1, if_true]
        by_cases c2 : PyNum.lt (pb.cost (pb.M.retraction xbar (pb.M.smul (PyNum.neg o.expansion)
            (pb.M.log xbar worst.2)))) (pb.cost (pb.M.retraction xbar
              (pb.M.smul (PyNum.neg o.reflection) (pb.M.log xbar worst.2)))) = true
        · simp only [c2, if_true, Except.map, NMMove.mapCost, ← replaceWorst_cost]
        · simp only [c2, Bool.false_eq_true, if_false, Except.map, NMMove.mapCost,
            ← replaceWorst_cost]
      · simp only [c1]
        exact hcon

private def NMState.mapCost (φ : F → F) (s : NMState F P) : NMState F P :=
  { s with simplex := s.simplex.map (Prod.map φ id) }

/-- **C158** (Nelder-Mead): the run on `φ(cost)` is the run on the cost, with the same points,
iterations, evaluations and reason for stopping. -/
theorem C158_nelderMead {o : NMObj F} {sort : List (F × P) → List (F × P)}
    {centroid : ℤ → List P → Except PyErr P} {clk : Clock F} {init : InitArg P}
    {r' : Except PyErr (Result F P)} (h : KeepsOrder φ) (hsort : SortKeeps φ sort) :
    NMRuns o sort centroid (pb.mapCost φ) clk init r' ↔
      ∃ r, NMRuns o sort centroid pb clk init r ∧ r' = r.map (Result.mapCost φ) := by
  unfold NMRuns
  have hM : (pb.mapCost φ).M = pb.M := rfl
  have hC : (pb.mapCost φ).cost = fun y => φ (pb.cost y) := rfl
  rw [hM]
  cases nmSimplex pb.M.dim init with
  | error e =>
    constructor
    · rintro rfl
      exact ⟨_, rfl, rfl⟩
    · rintro ⟨r, rfl, rfl⟩
      rfl
  | ok x =>
    have h0 : nmInit sort (pb.mapCost φ) x = (nmInit sort pb x).mapCost φ := by
      have : (x.map fun p => (φ (pb.cost p), p)) =
          (x.map fun p => (pb.cost p, p)).map (Prod.map φ id) := by
        rw [List.map_map]
        rfl
      simp only [nmInit, NMState.mapCost, hM, hC, this, hsort _]
    dsimp only
    rw [h0]
    refine Runs.map_iff (NMState.mapCost φ) _ (fun _ => True) (fun _ _ _ _ => trivial) ?_ trivial
    intro s _
    have ed : ((sort s.simplex).map (Prod.map φ id)).dropLast.map Prod.snd =
        (sort s.simplex).dropLast.map Prod.snd := by
      rw [← List.map_dropLast, List.map_map]
      rfl
    simp only [nmStep, NMState.mapCost, hsort _, ed, hM, hC, nmMove_cost h]
    split
    · cases hb : (sort s.simplex).head? with
      | none => simp [List.head?_map, hb, Except.map]
      | some best =>
        simp only [List.head?_map, hb, Option.map_some, Prod.map_snd, id, Except.map, Ctl.map,
          Result.mapCost]
    · cases centroid (s.iteration + 1) ((sort s.simplex).dropLast.map Prod.snd) with
      | error e => rfl
      | ok xbar =>
        dsimp only
        cases nmMove (o.resolve pb.M.dim) pb.cost pb.M xbar (sort s.simplex) with
        | error e => rfl
        | ok m => rfl

/-! ## Particle swarm -/

private def Particle.mapCost (φ : F → F) (p : Particle F P E) : Particle F P E :=
  { p with fy := φ p.fy }

private def PSOState.mapCost (φ : F → F) (s : PSOState F P E) : PSOState F P E :=
  { s with swarm := s.swarm.map (Particle.mapCost φ), fbest := φ s.fbest }

private theorem psoMoves_cost (h : KeepsOrder φ) (l : List (Particle F P E)) (b : F × P) :
    psoMoves (fun y => φ (pb.cost y)) pb.M (φ b.1, b.2) (l.map (Particle.mapCost φ)) =
      ((φ (psoMoves pb.cost pb.M b l).1.1, (psoMoves pb.cost pb.M b l).1.2),
        (psoMoves pb.cost pb.M b l).2.map (Particle.mapCost φ)) := by
  induction l generalizing b with
  | nil => rfl
  | cons p ps ih =>
    have e : psoMove (fun y => φ (pb.cost y)) pb.M (φ b.1, b.2) (p.mapCost φ) =
        ((φ (psoMove pb.cost pb.M b p).1.1, (psoMove pb.cost pb.M b p).1.2),
          (psoMove pb.cost pb.M b p).2.mapCost φ) := by
      simp only [psoMove, Particle.mapCost, h.lt]
      by_cases c1 : PyNum.lt (pb.cost p.x) p.fy = true
      · by_cases c2 : PyNum.lt (pb.cost p.x) b.1 = true
        · simp only [c1, c2, if_true]
        · simp only [c1, c2, if_true]
          rfl
      · simp only [c1]
        rfl
    simp only [psoMoves, List.map_cons, e, ih]

private theorem argminPoint_cost (h : KeepsOrder φ) (l : List (F × P)) (b : F × P) :
    argminPoint (Prod.map φ id b) (l.map (Prod.map φ id)) =
      Prod.map φ id (argminPoint b l) := by
  induction l generalizing b with
  | nil => rfl
  | cons c cs ih =>
    rw [List.map_cons, argminPoint, argminPoint, ← ih]
    congr 1
    simp only [Prod.map_fst, h.isnan, h.lt]
    split <;> rfl

/-- **C158** (particle swarm): the run on `φ(cost)` is the run on the cost, with the same points,
iterations, evaluations and reason for stopping. -/
theorem C158_particleSwarm {o : PSOObj F} {rnd : PSORand F P E} {clk : Clock F}
    {init : InitArg P} {r' : Except PyErr (Result F P × List P × List P)} (h : KeepsOrder φ) :
    PSORuns o rnd (pb.mapCost φ) clk init r' ↔
      ∃ r, PSORuns o rnd pb clk init r ∧ r' = r.map fun q => (q.1.mapCost φ, q.2) := by
  have triv : ∀ e, (r' = .error e ↔ ∃ r : Except PyErr (Result F P × List P × List P),
      r = .error e ∧ r' = r.map fun q => (q.1.mapCost φ, q.2)) := by
    intro e
    constructor
    · rintro rfl
      exact ⟨_, rfl, rfl⟩
    · rintro ⟨r, rfl, rfl⟩
      rfl
  have hM : (pb.mapCost φ).M = pb.M := rfl
  have hC : (pb.mapCost φ).cost = fun y => φ (pb.cost y) := rfl
  unfold PSORuns
  rw [hM]
  match psoPopulation (o.resolve pb.M.dim) init with
  | .error e => exact triv e
  | .ok (_, [], _) => exact triv _
  | .ok (o', x0 :: xs, isTuple) =>
    dsimp only
    split
    · exact triv _
    · have h0 : psoInit o' rnd (pb.mapCost φ) x0 xs = (psoInit o' rnd pb x0 xs).mapCost φ := by
        have e1 : (xs.map fun p => (φ (pb.cost p), p)) =
            (xs.map fun p => (pb.cost p, p)).map (Prod.map φ id) := by
          rw [List.map_map]
          rfl
        have e2 : ((x0 :: xs).mapIdx fun i p =>
            (⟨p, p, rnd.velocity i p, p, φ (pb.cost p)⟩ : Particle F P E)) =
            ((x0 :: xs).mapIdx fun i p =>
              (⟨p, p, rnd.velocity i p, p, pb.cost p⟩ : Particle F P E)).map
                (Particle.mapCost φ) := by
          apply List.ext_getElem (by simp)
          intro i h1 h2
          simp only [List.getElem_mapIdx, List.getElem_map, Particle.mapCost]
        have e3 := argminPoint_cost h (xs.map fun p => (pb.cost p, p)) (pb.cost x0, x0)
        simp only [psoInit, PSOState.mapCost, hC, e1, e2]
        rw [Prod.map_apply, id] at e3
        rw [e3]
        rfl
      rw [h0]
      refine Runs.map_iff (PSOState.mapCost φ) _ (fun _ => True) (fun _ _ _ _ => trivial) ?_
        trivial
      intro s _
      simp only [psoStep, PSOState.mapCost, List.length_map, hM, hC]
      split
      · simp only [Except.map, Ctl.map, Result.mapCost, List.map_map]
        rfl
      · cases PyNum.div (lit ((s.iteration + 1 : ℤ) : ℚ) : F) (lit (o'.cfg.maxIterations : ℚ)) with
        | error e => rfl
        | ok q =>
          dsimp only
          have ev : ∀ w, (s.swarm.map (Particle.mapCost φ)).mapIdx
              (psoVelocity o' pb.M rnd (s.iteration + 1) w s.xbest) =
              (s.swarm.mapIdx (psoVelocity o' pb.M rnd (s.iteration + 1) w s.xbest)).map
                (Particle.mapCost φ) := by
            intro w
            apply List.ext_getElem (by simp)
            intro i hi1 hi2
            simp only [List.getElem_mapIdx, List.getElem_map, psoVelocity, Particle.mapCost]
          rw [ev]
          generalize s.swarm.mapIdx _ = swarm
          simp only [List.isEmpty_map]
          by_cases ht : (isTuple && !swarm.isEmpty) = true
          · simp only [ht, if_true]
            rfl
          · simp only [ht, Bool.false_eq_true, if_false, psoMoves_cost h swarm (s.fbest, s.xbest)]
            simp only [Except.map, Ctl.map, PSOState.mapCost, List.map_map]
            rfl

end Verif.Opt
