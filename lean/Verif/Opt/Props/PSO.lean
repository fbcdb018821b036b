/-
Particle swarm: C19 (best evaluated position), C20 (not every position is evaluated), C21 (the
caller's population).
-/
import Verif.Opt.Witness

namespace Verif.Opt
open PyNum

section
variable {F P E : Type*} [PyNum F]

/-- What `psoMoves` does to a particle. -/
def psoMoved (obj : P → F) (M : Mfd F P E) (p : Particle F P E) : Particle F P E :=
  if lt (obj p.x) p.fy then
    { x := M.retraction p.x p.v, xprev := p.x, v := p.v, y := p.x, fy := obj p.x }
  else { x := M.retraction p.x p.v, xprev := p.x, v := p.v, y := p.y, fy := p.fy }

theorem psoMoves_snd (obj : P → F) (M : Mfd F P E) (b : F × P) (l : List (Particle F P E)) :
    (psoMoves obj M b l).2 = l.map (psoMoved obj M) := by
  induction l generalizing b with
  | nil => rfl
  | cons p l ih =>
    simp only [psoMoves, List.map_cons, List.cons.injEq]
    refine ⟨?_, ih _⟩
    unfold psoMove psoMoved
    simp only
    split <;> rfl

variable [LawfulPyNum F]

theorem psoMoves_fst (obj : P → F) (M : Mfd F P E) (hnan : ∀ p, isnan (obj p) = false)
    (b : F × P) (l : List (Particle F P E)) (hb : b.1 = obj b.2)
    (hl : ∀ p ∈ l, p.fy = obj p.y ∧ le b.1 p.fy = true) :
    (psoMoves obj M b l).1.1 = obj (psoMoves obj M b l).1.2 ∧
    le (psoMoves obj M b l).1.1 b.1 = true ∧
    ∀ p ∈ l, le (psoMoves obj M b l).1.1 (obj p.x) = true := by
  induction l generalizing b with
  | nil =>
    refine ⟨hb, ?_, by simp⟩
    simp only [psoMoves]
    exact LawfulPyNum.le_refl _ (by rw [hb]; exact hnan _)
  | cons p l ih =>
    have nb : isnan b.1 = false := by rw [hb]; exact hnan _
    obtain ⟨hpy, hpl⟩ := hl p (by simp)
    have ny : isnan p.fy = false := by rw [hpy]; exact hnan _
    have nx := hnan p.x
    have h1 : (psoMove obj M b p).1.1 = obj (psoMove obj M b p).1.2 ∧
        le (psoMove obj M b p).1.1 b.1 = true ∧
        le (psoMove obj M b p).1.1 (obj p.x) = true := by
      unfold psoMove
      simp only
      split
      · rename_i hlt
        simp only
        split
        · rename_i hlt2
          exact ⟨rfl, LawfulPyNum.le_of_lt hlt2, LawfulPyNum.le_refl _ nx⟩
        · rename_i hlt2
          refine ⟨hb, LawfulPyNum.le_refl _ nb, (LawfulPyNum.le_iff _ _ nb nx).2 ?_⟩
          simpa using hlt2
      · rename_i hlt
        refine ⟨hb, LawfulPyNum.le_refl _ nb, ?_⟩
        refine LawfulPyNum.le_trans nb ny nx hpl ((LawfulPyNum.le_iff _ _ ny nx).2 ?_)
        simpa using hlt
    have nm : isnan (psoMove obj M b p).1.1 = false := by rw [h1.1]; exact hnan _
    obtain ⟨h2, h3, h4⟩ := ih (psoMove obj M b p).1 h1.1 (fun q hq => by
      obtain ⟨hq1, hq2⟩ := hl q (by simp [hq])
      exact ⟨hq1, LawfulPyNum.le_trans nm nb (by rw [hq1]; exact hnan _) h1.2.1 hq2⟩)
    simp only [psoMoves]
    have nr : isnan (psoMoves obj M (psoMove obj M b p).1 l).1.1 = false := by
      rw [h2]; exact hnan _
    refine ⟨h2, LawfulPyNum.le_trans nr nm nb h3 h1.2.1, ?_⟩
    intro q hq
    rcases List.mem_cons.1 hq with h | h
    · rw [h]
      exact LawfulPyNum.le_trans nr nm nx h3 h1.2.2
    · exact h4 q h

theorem argminPoint_spec (b : F × P) (l : List (F × P))
    (hn : ∀ v ∈ b :: l, isnan v.1 = false) :
    argminPoint b l ∈ b :: l ∧ ∀ v ∈ b :: l, le (argminPoint b l).1 v.1 = true := by
  induction l generalizing b with
  | nil =>
    simp only [argminPoint, List.mem_singleton, forall_eq, true_and]
    exact LawfulPyNum.le_refl _ (hn b (by simp))
  | cons c l ih =>
    have nb : isnan b.1 = false := hn b (by simp)
    have nc : isnan c.1 = false := hn c (by simp)
    unfold argminPoint
    simp only [nb, nc, Bool.not_false, Bool.false_or, Bool.true_and]
    split
    · rename_i hlt
      obtain ⟨h1, h2⟩ := ih c (fun v hv => hn v (List.mem_cons_of_mem _ hv))
      refine ⟨List.mem_cons_of_mem _ h1, fun v hv => ?_⟩
      rcases List.mem_cons.1 hv with h | h
      · subst h
        refine LawfulPyNum.le_trans (b := c.1) (hn _ (List.mem_cons_of_mem _ h1)) nc nb
          (h2 c (by simp)) (LawfulPyNum.le_of_lt hlt)
      · exact h2 v h
    · rename_i hlt
      obtain ⟨h1, h2⟩ := ih b (fun v hv => hn v (by
        rcases List.mem_cons.1 hv with h | h
        · simp [h]
        · simp [h]))
      have hm : argminPoint b l ∈ b :: c :: l := by
        rcases List.mem_cons.1 h1 with h | h
        · simp [h]
        · simp [h]
      refine ⟨hm, fun v hv => ?_⟩
      rcases List.mem_cons.1 hv with h | h
      · exact h2 v (by simp [h])
      · rcases List.mem_cons.1 h with h | h
        · subst h
          refine LawfulPyNum.le_trans (b := b.1) (hn _ hm) nb nc (h2 b (by simp))
            ((LawfulPyNum.le_iff _ _ nb nc).2 (by simpa using hlt))
        · exact h2 v (by simp [h])

/-- Invariant of a particle swarm run. -/
structure PSOInv (pb : Prob F P E) (s : PSOState F P E) : Prop where
  best : s.fbest = pb.cost s.xbest
  personal : ∀ p ∈ s.swarm, p.fy = pb.cost p.y ∧ le s.fbest p.fy = true
  evals : ∀ p ∈ s.evals, le s.fbest (pb.cost p) = true

omit [LawfulPyNum F] in
theorem mapIdx_velocity_x (o : PSOObj F) (M : Mfd F P E) (rnd : PSORand F P E) (it : ℤ) (w : F)
    (xb : P) (l : List (Particle F P E)) :
    (l.mapIdx (psoVelocity o M rnd it w xb)).map Particle.x = l.map Particle.x := by
  refine List.ext_getElem (by simp) fun i h1 h2 => ?_
  simp [psoVelocity]

omit [LawfulPyNum F] in
theorem mem_mapIdx_velocity {o : PSOObj F} {M : Mfd F P E} {rnd : PSORand F P E} {it : ℤ} {w : F}
    {xb : P} {l : List (Particle F P E)} {q : Particle F P E}
    (h : q ∈ l.mapIdx (psoVelocity o M rnd it w xb)) :
    ∃ p ∈ l, q.x = p.x ∧ q.y = p.y ∧ q.fy = p.fy := by
  obtain ⟨i, hi, rfl⟩ := List.mem_mapIdx.1 h
  exact ⟨l[i], List.getElem_mem hi, rfl, rfl, rfl⟩

theorem psoInv_init (o : PSOObj F) (rnd : PSORand F P E) (pb : Prob F P E)
    (hnan : ∀ p, isnan (pb.cost p) = false) (x0 : P) (xs : List P) :
    PSOInv pb (psoInit o rnd pb x0 xs) := by
  obtain ⟨h1, h2⟩ := argminPoint_spec (pb.cost x0, x0) (xs.map fun p => (pb.cost p, p)) (by
    intro v hv
    rcases List.mem_cons.1 hv with h | h
    · rw [h]; exact hnan _
    · obtain ⟨p, -, rfl⟩ := List.mem_map.1 h
      exact hnan _)
  have hmem : ∀ p ∈ x0 :: xs, (pb.cost p, p) ∈
      (pb.cost x0, x0) :: xs.map fun p => (pb.cost p, p) := by
    intro p hp
    rcases List.mem_cons.1 hp with h | h
    · simp [h]
    · exact List.mem_cons_of_mem _ (List.mem_map.2 ⟨p, h, rfl⟩)
  refine ⟨?_, ?_, ?_⟩
  · rcases List.mem_cons.1 h1 with h | h
    · simp [psoInit, h]
    · obtain ⟨p, -, hp⟩ := List.mem_map.1 h
      simp [psoInit, ← hp]
  · intro p hp
    simp only [psoInit, List.mem_mapIdx] at hp
    obtain ⟨i, hi, rfl⟩ := hp
    exact ⟨rfl, h2 _ (hmem _ (List.getElem_mem hi))⟩
  · intro p hp
    exact h2 _ (hmem p hp)

theorem psoInv_step {o : PSOObj F} {isT : Bool} {rnd : PSORand F P E} {pb : Prob F P E}
    {clk : Clock F} (hnan : ∀ p, isnan (pb.cost p) = false) {s s' : PSOState F P E}
    (h : PSOInv pb s) (hst : psoStep o isT rnd pb clk s = .ok (.next s')) :
    PSOInv pb s' ∧ le s'.fbest s.fbest = true := by
  obtain ⟨w, swarm, -, hsw, -, rfl⟩ := psoStep_next hst
  have hl : ∀ p ∈ swarm, p.fy = pb.cost p.y ∧ le s.fbest p.fy = true := by
    intro p hp
    rw [hsw] at hp
    obtain ⟨q, hq, -, h2, h3⟩ := mem_mapIdx_velocity hp
    rw [h2, h3]
    exact h.personal q hq
  obtain ⟨h1, h2, h3⟩ := psoMoves_fst pb.cost pb.M hnan (s.fbest, s.xbest) swarm h.best hl
  have n0 : isnan s.fbest = false := by rw [h.best]; exact hnan _
  have n1 : isnan (psoMoves pb.cost pb.M (s.fbest, s.xbest) swarm).1.1 = false := by
    rw [h1]; exact hnan _
  refine ⟨⟨h1, ?_, ?_⟩, h2⟩
  · intro p hp
    simp only [psoMoves_snd] at hp
    obtain ⟨q, hq, rfl⟩ := List.mem_map.1 hp
    obtain ⟨hq1, hq2⟩ := hl q hq
    unfold psoMoved
    split
    · exact ⟨rfl, h3 q hq⟩
    · refine ⟨hq1, LawfulPyNum.le_trans n1 n0 ?_ h2 hq2⟩
      simp only [hq1]
      exact hnan _
  · intro p hp
    simp only [List.mem_append] at hp
    rcases hp with hp | hp
    · exact LawfulPyNum.le_trans n1 n0 (hnan _) h2 (h.evals p hp)
    · obtain ⟨q, hq, rfl⟩ := List.mem_map.1 hp
      exact h3 q hq

/-- **C19** The result of a particle swarm run carries the cost of its point, and no point at
which the cost was evaluated during the run has a smaller cost; the initial population
(`x0 :: xs`) is among the evaluated points. -/
theorem C19_particleSwarm {o : PSOObj F} {rnd : PSORand F P E} {pb : Prob F P E}
    {clk : Clock F} (hnan : ∀ p, isnan (pb.cost p) = false) {init : InitArg P} {o' : PSOObj F}
    {x0 : P} {xs : List P} {isT : Bool}
    (hpop : psoPopulation (o.resolve pb.M.dim) init = .ok (o', x0 :: xs, isT))
    {r : Result F P} {final positions : List P}
    (h : PSORuns o rnd pb clk init (.ok (r, final, positions))) :
    r.cost = pb.cost r.point ∧ (∀ p ∈ r.evals, le r.cost (pb.cost p) = true) ∧
    ∀ p ∈ x0 :: xs, p ∈ r.evals ∧ le r.cost (pb.cost p) = true := by
  unfold PSORuns at h
  rw [hpop] at h
  simp only at h
  split at h
  · cases h
  · have key := h.invariant (fun s => PSOInv pb s ∧ ∀ p ∈ x0 :: xs, p ∈ s.evals)
      (fun r => r.1.cost = pb.cost r.1.point ∧ (∀ p ∈ r.1.evals, le r.1.cost (pb.cost p) = true) ∧
        ∀ p ∈ x0 :: xs, p ∈ r.1.evals) ?_ ?_ ?_
    · exact ⟨key.1, key.2.1, fun p hp => ⟨key.2.2 p hp, key.2.1 p (key.2.2 p hp)⟩⟩
    · rintro s s' ⟨h1, h2⟩ hst
      refine ⟨(psoInv_step hnan h1 hst).1, fun p hp => ?_⟩
      obtain ⟨w, swarm, -, hsw, -, rfl⟩ := psoStep_next hst
      exact List.mem_append_left _ (h2 p hp)
    · rintro s r ⟨h1, h2⟩ hst
      obtain ⟨_, -, rfl⟩ := psoStep_brk hst
      exact ⟨h1.best, h1.evals, h2⟩
    · exact ⟨psoInv_init _ _ _ hnan _ _, fun p hp => hp⟩

/-- **C19** for personal bests: the personal best of a particle carries its cost, and once the
particle has left a position (the state `s'` follows `s`), its personal best in every later
state `t` is at least as good as that position and as the personal best it had there. -/
theorem C19_personal_best {o : PSOObj F} {isT : Bool} {rnd : PSORand F P E} {pb : Prob F P E}
    {clk : Clock F} (hnan : ∀ p, isnan (pb.cost p) = false) {x0 : P} {xs : List P}
    {s s' t : PSOState F P E}
    (hs : Reaches (psoStep o isT rnd pb clk) (psoInit o rnd pb x0 xs) s)
    (hst : psoStep o isT rnd pb clk s = .ok (.next s'))
    (ht : Reaches (psoStep o isT rnd pb clk) s' t) (i : ℕ) (hi : i < s.swarm.length) :
    ∃ hi' : i < t.swarm.length, t.swarm[i].fy = pb.cost t.swarm[i].y ∧
      le t.swarm[i].fy (pb.cost s.swarm[i].x) = true ∧ le t.swarm[i].fy s.swarm[i].fy = true := by
  have step : ∀ s s' : PSOState F P E, PSOInv pb s →
      psoStep o isT rnd pb clk s = .ok (.next s') → ∀ hi : i < s.swarm.length,
      ∃ hi' : i < s'.swarm.length, s'.swarm[i].fy = pb.cost s'.swarm[i].y ∧
        le s'.swarm[i].fy (pb.cost s.swarm[i].x) = true ∧
        le s'.swarm[i].fy s.swarm[i].fy = true := by
    intro s s' hinv hst hi
    obtain ⟨w, swarm, -, hsw, -, rfl⟩ := psoStep_next hst
    simp only [psoMoves_snd]
    have hy := (hinv.personal _ (List.getElem_mem hi)).1
    refine ⟨by simpa [hsw] using hi, ?_⟩
    simp only [List.getElem_map, hsw, List.getElem_mapIdx]
    unfold psoMoved
    have e : ∀ w, (psoVelocity o pb.M rnd (s.iteration + 1) w s.xbest i s.swarm[i]).x =
      s.swarm[i].x := fun _ => rfl
    split
    · rename_i hlt
      exact ⟨rfl, LawfulPyNum.le_refl _ (hnan _), LawfulPyNum.le_of_lt hlt⟩
    · rename_i hlt
      have ny : isnan s.swarm[i].fy = false := by rw [hy]; exact hnan _
      refine ⟨hy, (LawfulPyNum.le_iff _ _ ny (hnan _)).2 ?_, LawfulPyNum.le_refl _ ny⟩
      simpa [psoVelocity] using hlt
  have inv : ∀ u, Reaches (psoStep o isT rnd pb clk) (psoInit o rnd pb x0 xs) u → PSOInv pb u :=
    fun u hu => hu.invariant _ (fun s s' h1 h2 => (psoInv_step hnan h1 h2).1)
      (psoInv_init _ _ _ hnan _ _)
  induction ht with
  | refl => exact step s s' (inv s hs) hst hi
  | tail h1 h2 ih =>
    rename_i t u
    obtain ⟨a, b, c, d⟩ := ih
    have hreach : Reaches (psoStep o isT rnd pb clk) (psoInit o rnd pb x0 xs) t := by
      clear a b c d h2
      induction h1 with
      | refl => exact hs.tail hst
      | tail _ h2 ih => exact ih.tail h2
    obtain ⟨a', b', c', d'⟩ := step t u (inv t hreach) h2 a
    have n1 : isnan u.swarm[i].fy = false := by rw [b']; exact hnan _
    have n2 : isnan t.swarm[i].fy = false := by rw [b]; exact hnan _
    have n3 : isnan s.swarm[i].fy = false := by
      rw [((inv s hs).personal _ (List.getElem_mem hi)).1]; exact hnan _
    exact ⟨a', b', LawfulPyNum.le_trans n1 n2 (hnan _) d' c, LawfulPyNum.le_trans n1 n2 n3 d' d⟩

end

/-! ### C20: positions that are never evaluated -/

section
variable {F P E : Type*} [PyNum F]

/-- **C20**, what holds: every position the swarm occupied was evaluated, except for the ones it
occupies when the run ends (`final`, which are the last moves).  Missing: those, see
`C20_last_positions_ignored`. -/
theorem C20_partial {o : PSOObj F} {rnd : PSORand F P E} {pb : Prob F P E} {clk : Clock F}
    {init : InitArg P} {r : Result F P} {final positions : List P}
    (h : PSORuns o rnd pb clk init (.ok (r, final, positions))) :
    ∀ p ∈ positions, p ∈ r.evals ∨ p ∈ final := by
  unfold PSORuns at h
  split at h
  · cases h
  · cases h
  · rename_i o' x0 xs isT hpop
    split at h
    · cases h
    · refine h.invariant (fun s => ∀ p ∈ s.positions, p ∈ s.evals ∨ p ∈ s.swarm.map Particle.x)
        (fun r => ∀ p ∈ r.2.2, p ∈ r.1.evals ∨ p ∈ r.2.1) ?_ ?_ ?_
      · intro s s' hs hst p hp
        obtain ⟨w, swarm, -, hsw, -, rfl⟩ := psoStep_next hst
        simp only [List.mem_append] at hp ⊢
        rcases hp with hp | hp
        · rcases hs p hp with h | h
          · exact Or.inl (Or.inl h)
          · refine Or.inl (Or.inr ?_)
            rw [hsw, mapIdx_velocity_x]
            exact h
        · exact Or.inr hp
      · intro s r hs hst
        obtain ⟨_, -, rfl⟩ := psoStep_brk hst
        exact hs
      · intro p hp
        exact Or.inl hp

end

/-- A swarm of one particle on the line that starts at 3 and moves by -1 in every iteration
(no inertia: the velocity is the transported one times a weight, here the initial velocity). -/
def oneParticle : PSOObj Q :=
  { maxTime := .py 1000, minGradientNorm := .py 0, minStepSize := .py 0, verbosity := 0,
    logVerbosity := 0, maxCostEvaluations := none, maxIterations := some 2,
    populationSize := none, nostalgia := .py (7 / 5), social := .py (7 / 5) }

def oneRand : PSORand Q Q Q := ⟨fun _ _ => .npy (-1), fun _ _ => .py 0, fun _ _ => .py 0⟩

/-- **C20** is false: minimizing `x ** 2` with one particle starting at 3 with velocity -1, the
swarm moves to `3 - 13/20 = 47/20`, and the run then stops and returns 3. -/
theorem C20_last_positions_ignored :
    ∃ (r : Result Q Q) (final positions : List Q),
      PSORuns oneParticle oneRand squareProb stillClock (.list [.npy 3])
        (.ok (r, final, positions)) ∧
      ∃ p ∈ positions, lt (squareProb.cost p) r.cost = true := by
  obtain ⟨r, hr, he⟩ := exists_of_checkFuel (n := 3)
    (p := isOk fun r => r.2.2.any fun p => lt (squareProb.cost p) r.1.cost)
    (step := psoStep { oneParticle.resolve 1 with populationSize := some 1 } false oneRand
      squareProb stillClock)
    (s := psoInit { oneParticle.resolve 1 with populationSize := some 1 } oneRand squareProb
      (.npy 3) []) (by decide +kernel)
  obtain ⟨⟨r, final, positions⟩, rfl, he⟩ := exists_of_isOk he
  refine ⟨r, final, positions, hr, ?_⟩
  simpa only [isOk, List.any_eq_true] using he

/-! ### C21: the caller's population -/

/-- **C21** is false: after the same run the caller's list `[3]` (the list `x` of the run *is*
the list passed, particle_swarm.py:78) holds `47/20`, ... -/
theorem C21_list_modified :
    ∃ (r : Result Q Q) (final positions : List Q),
      PSORuns oneParticle oneRand squareProb stillClock (.list [.npy 3])
        (.ok (r, final, positions)) ∧ final = [.npy (47 / 20)] := by
  obtain ⟨r, hr, he⟩ := exists_of_checkFuel (n := 3)
    (p := isOk fun r => decide (r.2.1 = [Num.npy (47 / 20)]))
    (step := psoStep { oneParticle.resolve 1 with populationSize := some 1 } false oneRand
      squareProb stillClock)
    (s := psoInit { oneParticle.resolve 1 with populationSize := some 1 } oneRand squareProb
      (.npy 3) []) (by decide +kernel)
  obtain ⟨⟨r, final, positions⟩, rfl, he⟩ := exists_of_isOk he
  exact ⟨r, final, positions, hr, of_decide_eq_true he⟩

section
variable {F P E : Type*} [PyNum F]

/-- ... and a non-empty tuple makes every run that gets to move a particle raise: a run on a
tuple that returns at all stopped at its first check, without having moved the swarm. -/
theorem C21_tuple_fails {o : PSOObj F} {rnd : PSORand F P E} {pb : Prob F P E} {clk : Clock F}
    {l : List P} {r : Result F P} {final positions : List P}
    (h : PSORuns o rnd pb clk (.tuple l) (.ok (r, final, positions))) :
    r.iterations = 1 ∧ final = l ∧ r.evals = l := by
  unfold PSORuns at h
  split at h
  · cases h
  · cases h
  · rename_i o' x0 xs isT hpop
    simp only [psoPopulation, Except.ok.injEq, Prod.mk.injEq] at hpop
    obtain ⟨rfl, rfl, rfl⟩ := hpop
    split at h
    · cases h
    · obtain ⟨n, h⟩ := h
      cases h with
      | brk h2 =>
        obtain ⟨_, -, h3⟩ := psoStep_brk h2
        simp only [Prod.mk.injEq] at h3
        obtain ⟨rfl, rfl, -⟩ := h3
        refine ⟨rfl, ?_, rfl⟩
        refine List.ext_getElem (by simp [psoInit]) fun i h1 h2 => ?_
        simp only [psoInit, List.getElem_map, List.getElem_mapIdx]
      | next h2 _ =>
        obtain ⟨w, swarm, -, hsw, h4, -⟩ := psoStep_next h2
        have := h4 rfl
        simp [psoInit] at this

/-- The tuple `(3,)` in place of the list `[3]`: `TypeError`. -/
example : PSORuns oneParticle oneRand squareProb stillClock (.tuple [.npy 3])
    (.error .typeError) := by
  obtain ⟨r, hr, he⟩ := exists_of_checkFuel (n := 3) (p := isError .typeError)
    (step := psoStep { oneParticle.resolve 1 with populationSize := some 1 } true oneRand
      squareProb stillClock)
    (s := psoInit { oneParticle.resolve 1 with populationSize := some 1 } oneRand squareProb
      (.npy 3) []) (by decide +kernel)
  rw [eq_of_isError he] at hr
  exact hr

/-- **C21**, what holds: a run on a list that stops at its first check leaves the list alone.
Missing: longer runs and tuples (false, see above). -/
theorem C21_partial {o : PSOObj F} {rnd : PSORand F P E} {pb : Prob F P E} {clk : Clock F}
    {l : List P} {r : Result F P} {final positions : List P}
    (h : PSORuns o rnd pb clk (.list l) (.ok (r, final, positions))) (h1 : r.iterations = 1) :
    final = l := by
  unfold PSORuns at h
  split at h
  · cases h
  · cases h
  · rename_i o' x0 xs isT hpop
    simp only [psoPopulation, Except.ok.injEq, Prod.mk.injEq] at hpop
    obtain ⟨rfl, rfl, rfl⟩ := hpop
    split at h
    · cases h
    · have key := h.invariant (fun s => 0 ≤ s.iteration ∧
          (s.iteration = 0 → s.swarm.map Particle.x = x0 :: xs))
        (fun r => r.1.iterations = 1 → r.2.1 = x0 :: xs) ?_ ?_ ?_
      · exact key h1
      · rintro s s' ⟨hs, -⟩ hst
        obtain ⟨w, swarm, -, hsw, -, rfl⟩ := psoStep_next hst
        refine ⟨by simp only; omega, fun h => ?_⟩
        simp only at h
        omega
      · rintro s r ⟨-, hs⟩ hst h
        obtain ⟨_, -, rfl⟩ := psoStep_brk hst
        exact hs (by simpa using h)
      · refine ⟨le_refl _, fun _ => ?_⟩
        refine List.ext_getElem (by simp [psoInit]) fun i h1 h2 => ?_
        simp only [psoInit, List.getElem_map, List.getElem_mapIdx]

end

end Verif.Opt
