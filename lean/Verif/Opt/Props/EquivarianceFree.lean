/-
C133 for the derivative-free optimizers: Nelder-Mead with its centroids, particle swarm.
-/
import Verif.Opt.Props.Equivariance

namespace Verif.Opt
open PyNum

variable {F P E S P' E' : Type*} [PyNum F] {φ : P → P'} {ψ : P → E → E'} {On : P → Prop}
  {Tan : P → E → Prop} {pb : Prob F P E} {pb' : Prob F P' E'}

/-! ## Specification -/

/-- An `initial_point` argument with its points translated. -/
def InitArg.map (φ : P → P') : InitArg P → InitArg P'
  | .none draws => .none fun i => φ (draws i)
  | .list l => .list (l.map φ)
  | .tuple l => .tuple (l.map φ)
  | .other => .other

/-- Sorting by cost does not look at the points. -/
def SortTranslates (φ : P → P') (sort : List (F × P) → List (F × P))
    (sort' : List (F × P') → List (F × P')) : Prop :=
  ∀ l, sort' (l.map (Prod.map id φ)) = (sort l).map (Prod.map id φ)

/-! ## Centroid -/

/-- **C133** (`compute_centroid`): the centroid of translated points is the translated centroid,
if distances agree and the random initial points correspond. -/
theorem C133_centroid {dist : P → P → F} {dist' : P' → P' → F} {clk : Clock F} {draw : P}
    {points : List P} {r' : Except PyErr P'} (h : Translates φ ψ On Tan pb pb')
    (hlog : TranslatesLog φ ψ On Tan pb.M pb'.M)
    (hdist : ∀ x y, On x → On y → dist' (φ x) (φ y) = dist x y) (hdraw : On draw)
    (hp : ∀ p ∈ points, On p) :
    CentroidRuns pb'.M dist' clk (φ draw) (points.map φ) r' ↔
      ∃ r, CentroidRuns pb.M dist clk draw points r ∧ r' = r.map φ := by
  have hM := h.closed.mfd
  have hsum : ∀ (y : P), On y → ∀ (l : List P) (v : E), (∀ p ∈ l, On p) → Tan y v →
      Tan y ((l.map fun p => pb.M.log y p).foldl pb.M.add v) ∧
      ((l.map φ).map fun p => pb'.M.log (φ y) p).foldl pb'.M.add (ψ y v) =
        ψ y ((l.map fun p => pb.M.log y p).foldl pb.M.add v) := by
    intro y hy l
    induction l with
    | nil => intro v _ hv; exact ⟨hv, rfl⟩
    | cons p l ih =>
      intro v hl hv
      have h1 := hlog.closed _ _ hy (hl p (by simp))
      obtain ⟨a, b⟩ := ih (pb.M.add v (pb.M.log y p)) (fun q hq => hl q (by simp [hq]))
        (hM.add _ _ _ hy hv h1)
      refine ⟨a, ?_⟩
      simp only [List.map_cons, List.foldl_cons, hlog.log _ _ hy (hl p (by simp)),
        h.add _ _ _ hy hv h1]
      exact b
  have hc : ∀ y, On y → centroidCost dist' (points.map φ) (φ y) = centroidCost dist points y := by
    intro y hy
    have : ((points.map φ).map fun p => pow (dist' (φ y) p) (lit 2)) =
        points.map fun p => pow (dist y p) (lit 2) := by
      rw [List.map_map]
      exact List.map_congr_left fun p hq => by simp [hdist y p hy (hp p hq)]
    simp only [centroidCost, this]
  have ht : Translates φ ψ On Tan (centroidProb pb.M dist points)
      (centroidProb pb'.M dist' (points.map φ)) :=
    { closed := ⟨hM, fun y hy => hM.neg _ _ hy (hsum y hy points _ hp (hM.zeroVector _ hy)).1,
        fun _ _ _ hv => hv⟩
      sub_tan := h.sub_tan
      dim := h.dim
      norm := h.norm
      inner := h.inner
      retraction := h.retraction
      transport := h.transport
      zeroVector := h.zeroVector
      toTangent := h.toTangent
      add := h.add
      sub := h.sub
      neg := h.neg
      smul := h.smul
      cost := hc
      grad := fun y hy => by
        obtain ⟨a, b⟩ := hsum y hy points _ hp (hM.zeroVector _ hy)
        change pb'.M.neg _ = ψ y (pb.M.neg _)
        rw [h.zeroVector _ hy, b, h.neg _ _ hy a]
      precon := fun _ _ _ _ => rfl }
  have key := fun r => C133_steepestDescent (cfg := centroidCfg) (clk := clk) (mem := none)
    (r' := r) ht (C133_backTracking ht centroidSearch) hdraw
  constructor
  · rintro ⟨r, hr, rfl⟩
    obtain ⟨q, hq, rfl⟩ := (key r).1 hr
    exact ⟨_, ⟨q, hq, rfl⟩, by cases q <;> rfl⟩
  · rintro ⟨r, ⟨q, hq, rfl⟩, rfl⟩
    exact ⟨_, (key _).2 ⟨q, hq, rfl⟩, by cases q <;> rfl⟩

/-! ## Nelder-Mead -/

private def NMMove.map (φ : P → P') (m : NMMove F P) : NMMove F P' :=
  { simplex := m.simplex.map (Prod.map id φ), evals := m.evals.map φ, counted := m.counted,
    action := m.action }

omit [PyNum F] in
private theorem replaceWorst_map (l : List (F × P)) (v : F × P) :
    replaceWorst (l.map (Prod.map id φ)) (v.1, φ v.2) =
      (replaceWorst l v).map (Prod.map id φ) := by
  simp [replaceWorst, List.map_dropLast, Prod.map]

omit [PyNum F] in
private theorem shrinkMove_map (h : Translates φ ψ On Tan pb pb')
    (hmean : TranslatesMean φ On pb.M pb'.M) {best : F × P} (hb : On best.2)
    {l : List (F × P)} (hl : ∀ q ∈ l, On q.2) {dim : ℕ} {ev : List P} :
    nmShrinkMove pb'.cost pb'.M dim (best.1, φ best.2) (l.map (Prod.map id φ)) (ev.map φ) =
      (nmShrinkMove pb.cost pb.M dim best l ev).map (NMMove.map φ) := by
  have e : (l.map (Prod.map id φ)).mapIdx (fun i v =>
      if 1 ≤ i ∧ i ≤ dim then
        (pb'.cost (pb'.M.pairMean (φ best.2) v.2), pb'.M.pairMean (φ best.2) v.2) else v) =
      (l.mapIdx fun i v => if 1 ≤ i ∧ i ≤ dim then
        (pb.cost (pb.M.pairMean best.2 v.2), pb.M.pairMean best.2 v.2) else v).map
          (Prod.map id φ) := by
    apply List.ext_getElem (by simp)
    intro i h1 h2
    simp only [List.getElem_mapIdx, List.getElem_map]
    have hi : On (l[i]'(by simpa using h1)).2 := hl _ (List.getElem_mem _)
    split
    · simp [hmean.mean _ _ hb hi, h.cost _ (hmean.on _ _ hb hi)]
    · rfl
  simp only [nmShrinkMove, nmShrink, List.length_map]
  by_cases hn : l.length ≤ dim
  · simp only [hn, if_true]
    rfl
  · simp only [hn, if_false, e]
    simp only [Except.map, NMMove.map, List.map_append, List.map_drop, List.map_take,
      List.map_map]
    congr 1

private theorem nmContract_map (h : Translates φ ψ On Tan pb pb')
    (hmean : TranslatesMean φ On pb.M pb'.M) {o : NMObj F} {xbar : P} (hx : On xbar) {vec : E}
    (hv : Tan xbar vec) {xr : P} {costr : F} {best worst : F × P} (hb : On best.2)
    {second : Option (F × P)} {l : List (F × P)} (hl : ∀ q ∈ l, On q.2) :
    nmContract o pb'.cost pb'.M (φ xbar) (ψ xbar vec) (φ xr) costr (best.1, φ best.2)
        (worst.1, φ worst.2) (second.map (Prod.map id φ)) (l.map (Prod.map id φ)) =
      (nmContract o pb.cost pb.M xbar vec xr costr best worst second l).map (NMMove.map φ) := by
  have hM := h.closed.mfd
  have hr : ∀ a, On (pb.M.retraction xbar (pb.M.smul a vec)) := fun a =>
    hM.retraction _ _ hx (hM.smul _ a _ hx hv)
  have er : ∀ a, pb'.M.retraction (φ xbar) (pb'.M.smul a (ψ xbar vec)) =
      φ (pb.M.retraction xbar (pb.M.smul a vec)) := fun a => by
    rw [h.smul _ a _ hx hv, h.retraction _ _ hx (hM.smul _ a _ hx hv)]
  have e2 : ∀ y z : P, [φ y, φ z] = [y, z].map φ := fun _ _ => rfl
  have e1 : ∀ y : P, [φ y] = [y].map φ := fun _ => rfl
  cases second with
  | none => rfl
  | some q =>
    simp only [nmContract, Option.map_some, Prod.map_fst, id, er, h.cost _ (hr _), h.dim]
    by_cases c1 : le q.1 costr = true
    · simp only [c1, if_true]
      by_cases c2 : lt costr worst.1 = true
      · simp only [c2, if_true]
        by_cases c3 : le (pb.cost (pb.M.retraction xbar (pb.M.smul (PyNum.neg o.contraction) vec)))
            costr = true
        · simp only [c3, if_true, Except.map, NMMove.map, List.map_cons, List.map_nil,
            ← replaceWorst_map]
        · simp only [c3, e2, shrinkMove_map h hmean hb hl]
          rfl
      · simp only [c2, Bool.false_eq_true, if_false]
        by_cases c3 : le (pb.cost (pb.M.retraction xbar (pb.M.smul o.contraction vec)))
            worst.1 = true
        · simp only [c3, if_true, Except.map, NMMove.map, List.map_cons, List.map_nil,
            ← replaceWorst_map]
        · simp only [c3, e2, shrinkMove_map h hmean hb hl]
          rfl
    · simp only [c1, e1, shrinkMove_map h hmean hb hl]
      rfl

private theorem nmMove_map (h : Translates φ ψ On Tan pb pb')
    (hlog : TranslatesLog φ ψ On Tan pb.M pb'.M)
    (hmean : TranslatesMean φ On pb.M pb'.M) {o : NMObj F} {xbar : P} (hx : On xbar)
    {l : List (F × P)} (hl : ∀ q ∈ l, On q.2) :
    nmMove o pb'.cost pb'.M (φ xbar) (l.map (Prod.map id φ)) =
      (nmMove o pb.cost pb.M xbar l).map (NMMove.map φ) := by
  have hM := h.closed.mfd
  rcases l.eq_nil_or_concat with rfl | ⟨l', worst, rfl⟩
  · rfl
  · obtain ⟨best, hbest⟩ : ∃ b, (l' ++ [worst]).head? = some b := by
      cases l' <;> simp
    rw [List.concat_eq_append] at hl ⊢
    have hw : (l' ++ [worst]).getLast? = some worst := by simp
    have hb := hl _ (List.mem_of_mem_head? hbest)
    have hw' := hl worst (by simp)
    have hv := hlog.closed _ _ hx hw'
    have hr : ∀ a, On (pb.M.retraction xbar (pb.M.smul a (pb.M.log xbar worst.2))) := fun a =>
      hM.retraction _ _ hx (hM.smul _ a _ hx hv)
    have er : ∀ a, pb'.M.retraction (φ xbar) (pb'.M.smul a (ψ xbar (pb.M.log xbar worst.2))) =
        φ (pb.M.retraction xbar (pb.M.smul a (pb.M.log xbar worst.2))) := fun a => by
      rw [h.smul _ a _ hx hv, h.retraction _ _ hx (hM.smul _ a _ hx hv)]
    simp only [nmMove, List.getLast?_map, List.head?_map, hw, hbest, Option.map_some,
      Prod.map_snd, hlog.log _ _ hx hw', er, h.cost _ (hr _), ← List.map_dropLast]
    have et : ∀ c : F, nmReflectTest (Prod.map id φ best)
        (((l' ++ [worst]).dropLast.getLast?).map (Prod.map id φ)) c =
        nmReflectTest best (l' ++ [worst]).dropLast.getLast? c := by
      intro c
      cases (l' ++ [worst]).dropLast.getLast? <;> rfl
    rw [et]
    have hcon := nmContract_map h hmean (o := o) hx hv (best := best) (worst := worst) hb
      (xr := pb.M.retraction xbar (pb.M.smul (PyNum.neg o.reflection) (pb.M.log xbar worst.2)))
      (costr := pb.cost
        (pb.M.retraction xbar (pb.M.smul (PyNum.neg o.reflection) (pb.M.log xbar worst.2))))
      (second := (l' ++ [worst]).dropLast.getLast?) hl
    match nmReflectTest best (l' ++ [worst]).dropLast.getLast? (pb.cost
        (pb.M.retraction xbar (pb.M.smul (PyNum.neg o.reflection) (pb.M.log xbar worst.2)))) with
    | .error e => rfl
    | .ok true =>
      simp only [Except.map, NMMove.map, List.map_cons, List.map_nil, ← replaceWorst_map]
    | .ok false =>
      dsimp only
      by_cases c1 : lt (pb.cost (pb.M.retraction xbar (pb.M.smul (PyNum.neg o.reflection)
          (pb.M.log xbar worst.2)))) best.1 = true
      · simp only [c1, if_true, Prod.map_fst, id]
        by_cases c2 : lt (pb.cost (pb.M.retraction xbar (pb.M.smul (PyNum.neg o.expansion)
            (pb.M.log xbar worst.2)))) (pb.cost (pb.M.retraction xbar
              (pb.M.smul (PyNum.neg o.reflection) (pb.M.log xbar worst.2)))) = true
        · simp only [c2, if_true, Except.map, NMMove.map, List.map_cons, List.map_nil,
            ← replaceWorst_map]
        · simp only [c2, Bool.false_eq_true, if_false, Except.map, NMMove.map, List.map_cons,
            List.map_nil, ← replaceWorst_map]
      · simp only [c1, Prod.map_fst, id]
        exact hcon

private def NMState.map (φ : P → P') (s : NMState F P) : NMState F P' :=
  { iteration := s.iteration, simplex := s.simplex.map (Prod.map id φ),
    costEvaluations := s.costEvaluations, evals := s.evals.map φ }

/-- **C133** (Nelder-Mead): the runs on the second problem are the translations of the runs on
the first, if the centroids correspond (see `C133_centroid`). -/
theorem C133_nelderMead {o : NMObj F} {sort : List (F × P) → List (F × P)}
    {sort' : List (F × P') → List (F × P')} {centroid : ℤ → List P → Except PyErr P}
    {centroid' : ℤ → List P' → Except PyErr P'} {clk : Clock F} {init : InitArg P}
    {r' : Except PyErr (Result F P')} (h : Translates φ ψ On Tan pb pb')
    (hlog : TranslatesLog φ ψ On Tan pb.M pb'.M)
    (hmean : TranslatesMean φ On pb.M pb'.M) (hperm : ∀ l, (sort l).Perm l)
    (hsort : SortTranslates φ sort sort')
    (hon : ∀ it pts x, (∀ p ∈ pts, On p) → centroid it pts = .ok x → On x)
    (hcent : ∀ it pts, (∀ p ∈ pts, On p) →
      centroid' it (pts.map φ) = (centroid it pts).map φ) (hinit : init.AllOn On) :
    NMRuns o sort' centroid' pb' clk (init.map φ) r' ↔
      ∃ r, NMRuns o sort centroid pb clk init r ∧ r' = r.map (Result.mapPoint φ) := by
  have hi : nmSimplex pb'.M.dim (init.map φ) = (nmSimplex pb.M.dim init).map (List.map φ) := by
    rw [h.dim]
    cases init with
    | none draws => simp [nmSimplex, InitArg.map, Except.map, Function.comp_def]
    | list l =>
      simp only [nmSimplex, InitArg.map, List.length_map]
      split <;> rfl
    | tuple l =>
      simp only [nmSimplex, InitArg.map, List.length_map]
      split <;> rfl
    | other => rfl
  unfold NMRuns
  rw [hi]
  cases hx : nmSimplex pb.M.dim init with
  | error e =>
    constructor
    · rintro rfl
      exact ⟨_, rfl, rfl⟩
    · rintro ⟨r, rfl, rfl⟩
      rfl
  | ok x =>
    have hx0 : ∀ p ∈ x, On p := by
      cases init with
      | none draws =>
        cases hx
        intro p hp
        obtain ⟨i, -, rfl⟩ := List.mem_map.1 hp
        exact hinit i
      | list l =>
        simp only [nmSimplex] at hx
        split at hx <;> cases hx
        exact hinit
      | tuple l =>
        simp only [nmSimplex] at hx
        split at hx <;> cases hx
        exact hinit
      | other => cases hx
    have h0 : nmInit sort' pb' (x.map φ) = (nmInit sort pb x).map φ := by
      have : ((x.map φ).map fun p => (pb'.cost p, p)) =
          (x.map fun p => (pb.cost p, p)).map (Prod.map id φ) := by
        rw [List.map_map, List.map_map]
        exact List.map_congr_left fun p hp => by simp [h.cost p (hx0 p hp)]
      simp only [nmInit, NMState.map, h.dim, this, hsort _]
    simp only [Except.map, h0, h.dim]
    refine Runs.map_iff (NMState.map φ) _ (fun s => ∀ q ∈ s.simplex, On q.2) ?_ ?_ ?_
    · intro s s' h1 hs
      obtain ⟨xbar, m, -, hc, hm, rfl⟩ := nmStep_next hs
      have hs' : ∀ q ∈ sort s.simplex, On q.2 := fun q hq => h1 q ((hperm _).mem_iff.1 hq)
      have hxb := hon _ _ _ (by
        intro p hp
        obtain ⟨q, hq, rfl⟩ := List.mem_map.1 hp
        exact hs' q (List.mem_of_mem_dropLast hq)) hc
      exact (nmMove_on h.closed.mfd hlog.closed hmean.on hxb hs' hm).1
    · intro s h1
      have hs' : ∀ q ∈ sort s.simplex, On q.2 := fun q hq => h1 q ((hperm _).mem_iff.1 hq)
      have hd : ∀ p ∈ (sort s.simplex).dropLast.map Prod.snd, On p := by
        intro p hp
        obtain ⟨q, hq, rfl⟩ := List.mem_map.1 hp
        exact hs' q (List.mem_of_mem_dropLast hq)
      have ed : ((sort s.simplex).map (Prod.map id φ)).dropLast.map Prod.snd =
          ((sort s.simplex).dropLast.map Prod.snd).map φ := by
        rw [← List.map_dropLast, List.map_map, List.map_map]
        rfl
      simp only [nmStep, NMState.map, hsort _]
      split
      · cases hb : (sort s.simplex).head? with
        | none => simp [List.head?_map, hb, Except.map]
        | some best =>
          have hb' : On best.2 := hs' _ (List.mem_of_mem_head? hb)
          simp only [List.head?_map, hb, Option.map_some, Prod.map_snd, h.cost _ hb', Except.map,
            Ctl.map, Result.mapPoint, List.map_append, List.map_cons, List.map_nil, initLog_map]
      · rw [ed, hcent _ _ hd]
        cases hc : centroid (s.iteration + 1) ((sort s.simplex).dropLast.map Prod.snd) with
        | error e => rfl
        | ok xbar =>
          simp only [Except.map]
          rw [nmMove_map h hlog hmean (hon _ _ _ hd hc) hs']
          cases nmMove (o.resolve pb.M.dim) pb.cost pb.M xbar (sort s.simplex) with
          | error e => rfl
          | ok m =>
            simp only [Except.map, NMMove.map, Ctl.map, NMState.map, List.map_append]
    · intro q hq
      have := (hperm _).mem_iff.1 hq
      obtain ⟨p, hp, rfl⟩ := List.mem_map.1 this
      exact hx0 p hp

/-! ## Particle swarm -/

private def Particle.map (φ : P → P') (ψ : P → E → E') (p : Particle F P E) : Particle F P' E' :=
  { x := φ p.x, xprev := φ p.xprev, v := ψ p.xprev p.v, y := φ p.y, fy := p.fy }

/-- A particle between the update of its velocity and that of its position: the velocity is a
vector at the current position. -/
private def Particle.mapNow (φ : P → P') (ψ : P → E → E') (p : Particle F P E) :
    Particle F P' E' :=
  { x := φ p.x, xprev := φ p.xprev, v := ψ p.x p.v, y := φ p.y, fy := p.fy }

private def PSOState.map (φ : P → P') (ψ : P → E → E') (s : PSOState F P E) : PSOState F P' E' :=
  { iteration := s.iteration, swarm := s.swarm.map (Particle.map φ ψ), fbest := s.fbest,
    xbest := φ s.xbest, costEvaluations := s.costEvaluations, evals := s.evals.map φ,
    positions := s.positions.map φ }

private theorem psoMoves_map (h : Translates φ ψ On Tan pb pb') (l : List (Particle F P E))
    (b : F × P) (hl : ∀ p ∈ l, On p.x ∧ On p.y ∧ Tan p.x p.v) :
    psoMoves pb'.cost pb'.M (b.1, φ b.2) (l.map (Particle.mapNow φ ψ)) =
      (((psoMoves pb.cost pb.M b l).1.1, φ (psoMoves pb.cost pb.M b l).1.2),
        (psoMoves pb.cost pb.M b l).2.map (Particle.map φ ψ)) := by
  induction l generalizing b with
  | nil => rfl
  | cons p ps ih =>
    obtain ⟨h1, h2, h3⟩ := hl p (by simp)
    have e : psoMove pb'.cost pb'.M (b.1, φ b.2) (p.mapNow φ ψ) =
        (((psoMove pb.cost pb.M b p).1.1, φ (psoMove pb.cost pb.M b p).1.2),
          (psoMove pb.cost pb.M b p).2.map φ ψ) := by
      simp only [psoMove, Particle.mapNow, h.cost _ h1, h.retraction _ _ h1 h3]
      by_cases c1 : lt (pb.cost p.x) p.fy = true
      · by_cases c2 : lt (pb.cost p.x) b.1 = true
        · simp only [c1, c2, if_true]
          rfl
        · simp only [c1, c2, if_true]
          rfl
      · simp only [c1]
        rfl
    simp only [psoMoves, List.map_cons, e, ih _ fun q hq => hl q (by simp [hq])]

private theorem argminPoint_map (φ : P → P') (l : List (F × P)) (b : F × P) :
    argminPoint (Prod.map id φ b) (l.map (Prod.map id φ)) = Prod.map id φ (argminPoint b l) := by
  induction l generalizing b with
  | nil => rfl
  | cons c cs ih =>
    rw [List.map_cons, argminPoint, argminPoint, ← ih]
    congr 1
    by_cases hc : (!isnan b.1 && (isnan c.1 || lt c.1 b.1)) = true
    · simp only [hc, if_true, Prod.map_fst, id]
    · simp only [hc, Prod.map_fst, id]
      rfl

/-- **C133** (particle swarm): the runs on the second problem are the translations of the runs
on the first, if initial velocities and random numbers correspond. -/
theorem C133_particleSwarm {o : PSOObj F} {rnd : PSORand F P E} {rnd' : PSORand F P' E'}
    {clk : Clock F} {init : InitArg P} {r' : Except PyErr (Result F P' × List P' × List P')}
    (h : Translates φ ψ On Tan pb pb') (hlog : TranslatesLog φ ψ On Tan pb.M pb'.M)
    (hvel : ∀ i x, On x → Tan x (rnd.velocity i x) ∧
      rnd'.velocity i (φ x) = ψ x (rnd.velocity i x))
    (hu1 : rnd'.u1 = rnd.u1) (hu2 : rnd'.u2 = rnd.u2) (hinit : init.AllOn On) :
    PSORuns o rnd' pb' clk (init.map φ) r' ↔
      ∃ r, PSORuns o rnd pb clk init r ∧
        r' = r.map fun q => (q.1.mapPoint φ, q.2.1.map φ, q.2.2.map φ) := by
  have hM := h.closed.mfd
  have hi : psoPopulation (o.resolve pb'.M.dim) (init.map φ) =
      (psoPopulation (o.resolve pb.M.dim) init).map fun q => (q.1, q.2.1.map φ, q.2.2) := by
    rw [h.dim]
    cases init with
    | none draws => simp [psoPopulation, InitArg.map, Except.map, Function.comp_def]
    | list l => simp [psoPopulation, InitArg.map, Except.map]
    | tuple l => simp [psoPopulation, InitArg.map, Except.map]
    | other => rfl
  have triv : ∀ e, (r' = .error e ↔ ∃ r : Except PyErr (Result F P × List P × List P),
      r = .error e ∧ r' = r.map fun q => (q.1.mapPoint φ, q.2.1.map φ, q.2.2.map φ)) := by
    intro e
    constructor
    · rintro rfl
      exact ⟨_, rfl, rfl⟩
    · rintro ⟨r, rfl, rfl⟩
      rfl
  unfold PSORuns
  rw [hi]
  match hx : psoPopulation (o.resolve pb.M.dim) init with
  | .error e => exact triv e
  | .ok (_, [], _) => exact triv _
  | .ok (o', x0 :: xs, isTuple) =>
    have hx0 : ∀ p ∈ x0 :: xs, On p := by
      cases init with
      | none draws =>
        simp only [psoPopulation, Except.ok.injEq, Prod.mk.injEq] at hx
        intro p hp
        rw [← hx.2.1] at hp
        obtain ⟨i, -, rfl⟩ := List.mem_map.1 hp
        exact hinit i
      | list l =>
        simp only [psoPopulation, Except.ok.injEq, Prod.mk.injEq] at hx
        rw [← hx.2.1]
        exact hinit
      | tuple l =>
        simp only [psoPopulation, Except.ok.injEq, Prod.mk.injEq] at hx
        rw [← hx.2.1]
        exact hinit
      | other => cases hx
    simp only [Except.map, List.map_cons]
    split
    · exact triv _
    · have h0 : psoInit o' rnd' pb' (φ x0) (xs.map φ) = (psoInit o' rnd pb x0 xs).map φ ψ := by
        have e1 : ((xs.map φ).map fun p => (pb'.cost p, p)) =
            (xs.map fun p => (pb.cost p, p)).map (Prod.map id φ) := by
          rw [List.map_map, List.map_map]
          exact List.map_congr_left fun p hp => by simp [h.cost p (hx0 p (by simp [hp]))]
        have e2 : ((φ x0 :: xs.map φ).mapIdx fun i p =>
            (⟨p, p, rnd'.velocity i p, p, pb'.cost p⟩ : Particle F P' E')) =
            ((x0 :: xs).mapIdx fun i p =>
              (⟨p, p, rnd.velocity i p, p, pb.cost p⟩ : Particle F P E)).map
                (Particle.map φ ψ) := by
          rw [← List.map_cons]
          apply List.ext_getElem (by simp)
          intro i h1 h2
          simp only [List.getElem_mapIdx, List.getElem_map, Particle.map]
          have hi : On ((x0 :: xs)[i]'(by simpa using h1)) := hx0 _ (List.getElem_mem _)
          rw [h.cost _ hi, (hvel i _ hi).2]
        have e3 := argminPoint_map φ (xs.map fun p => (pb.cost p, p)) (pb.cost x0, x0)
        simp only [psoInit, PSOState.map, e1, e2, h.cost x0 (hx0 x0 (by simp))]
        rw [Prod.map_apply, id] at e3
        rw [e3]
        rfl
      rw [h0]
      refine Runs.map_iff (PSOState.map φ ψ) _
        (fun s => (∀ p ∈ s.swarm, On p.x ∧ On p.xprev ∧ On p.y ∧ Tan p.xprev p.v) ∧ On s.xbest)
        ?_ ?_ ?_
      · rintro s s' ⟨h1, h2⟩ hs
        obtain ⟨w, swarm, -, hsw, -, rfl⟩ := psoStep_next hs
        have hv : ∀ p ∈ swarm, On p.x ∧ On p.y ∧ Tan p.x p.v := by
          subst hsw
          intro p hp
          obtain ⟨i, hi, rfl⟩ := List.mem_mapIdx.1 hp
          obtain ⟨a, b, c, d⟩ := h1 _ (List.getElem_mem hi)
          refine ⟨a, c, ?_⟩
          exact hM.add _ _ _ a (hM.add _ _ _ a (hM.smul _ _ _ a (hM.transport _ _ _ b a d))
            (hM.smul _ _ _ a (hlog.closed _ _ a c))) (hM.smul _ _ _ a (hlog.closed _ _ a h2))
        obtain ⟨a, b⟩ := psoMoves_on hM (obj := pb.cost) swarm (s.fbest, s.xbest) h2 hv
        exact ⟨b, a⟩
      · rintro s ⟨h1, h2⟩
        simp only [psoStep, PSOState.map, List.length_map]
        split
        · simp only [Except.map, Ctl.map, Result.mapPoint, initLog_map, List.map_map]
          rfl
        · cases div (lit ((s.iteration + 1 : ℤ) : ℚ) : F) (lit (o'.cfg.maxIterations : ℚ)) with
          | error e => rfl
          | ok q =>
            dsimp only
            have ev : (s.swarm.map (Particle.map φ ψ)).mapIdx (psoVelocity o' pb'.M rnd'
                (s.iteration + 1) (add (lit (2 / 5)) (mul (lit (1 / 2)) (PyNum.sub (lit 1) q)))
                (φ s.xbest)) =
                (s.swarm.mapIdx (psoVelocity o' pb.M rnd (s.iteration + 1)
                  (add (lit (2 / 5)) (mul (lit (1 / 2)) (PyNum.sub (lit 1) q))) s.xbest)).map
                    (Particle.mapNow φ ψ) := by
              apply List.ext_getElem (by simp)
              intro i hi1 hi2
              obtain ⟨a, b, c, d⟩ := h1 (s.swarm[i]'(by simpa using hi1)) (List.getElem_mem _)
              have t1 := hM.transport _ _ _ b a d
              have t2 := hlog.closed _ _ a c
              have t3 := hlog.closed _ _ a h2
              simp only [List.getElem_mapIdx, List.getElem_map, psoVelocity, Particle.map,
                Particle.mapNow, hu1, hu2, h.transport _ _ _ b a d, hlog.log _ _ a c,
                hlog.log _ _ a h2, h.smul _ _ _ a t1, h.smul _ _ _ a t2, h.smul _ _ _ a t3,
                h.add _ _ _ a (hM.smul _ _ _ a t1) (hM.smul _ _ _ a t2),
                h.add _ _ _ a (hM.add _ _ _ a (hM.smul _ _ _ a t1) (hM.smul _ _ _ a t2))
                  (hM.smul _ _ _ a t3)]
            have hv : ∀ p ∈ s.swarm.mapIdx (psoVelocity o' pb.M rnd (s.iteration + 1)
                (add (lit (2 / 5)) (mul (lit (1 / 2)) (PyNum.sub (lit 1) q))) s.xbest),
                On p.x ∧ On p.y ∧ Tan p.x p.v := by
              intro p hp
              obtain ⟨i, hi, rfl⟩ := List.mem_mapIdx.1 hp
              obtain ⟨a, b, c, d⟩ := h1 _ (List.getElem_mem hi)
              refine ⟨a, c, ?_⟩
              exact hM.add _ _ _ a (hM.add _ _ _ a (hM.smul _ _ _ a (hM.transport _ _ _ b a d))
                (hM.smul _ _ _ a (hlog.closed _ _ a c))) (hM.smul _ _ _ a (hlog.closed _ _ a h2))
            obtain ⟨swarm, hsw⟩ : ∃ sw, s.swarm.mapIdx (psoVelocity o' pb.M rnd (s.iteration + 1)
              (add (lit (2 / 5)) (mul (lit (1 / 2)) (PyNum.sub (lit 1) q))) s.xbest) = sw := ⟨_, rfl⟩
            rw [hsw] at hv ev
            simp only [ev, hsw, List.isEmpty_map]
            by_cases ht : (isTuple && !swarm.isEmpty) = true
            · simp only [ht, if_true]
              rfl
            · simp only [ht, Bool.false_eq_true, if_false, psoMoves_map h swarm (s.fbest, s.xbest) hv]
              simp only [Except.map, Ctl.map, PSOState.map, List.map_append, List.map_map]
              rfl
      · refine ⟨?_, ?_⟩
        · intro p hp
          simp only [psoInit] at hp
          obtain ⟨i, hi, rfl⟩ := List.mem_mapIdx.1 hp
          have := hx0 _ (List.getElem_mem hi)
          exact ⟨this, this, this, (hvel _ _ this).1⟩
        · refine argminPoint_on _ _ (hx0 x0 (by simp)) ?_
          intro q hq
          obtain ⟨p, hp, rfl⟩ := List.mem_map.1 hq
          exact hx0 p (by simp [hp])

end Verif.Opt
