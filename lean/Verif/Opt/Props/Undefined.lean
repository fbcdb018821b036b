/-
C163: costs that are NaN or infinite in a part of the manifold.
-/
import Verif.Opt.Props.Descent
import Verif.Opt.Props.TR
import Verif.Opt.Props.PSO
import Verif.Opt.Props.NM
import Verif.Opt.Witness

namespace Verif.Opt
open PyNum

variable {F P E S : Type*} [PyNum F]

/-! ## Specification -/

/-- The cost is defined at `p`: neither NaN nor `+inf`. -/
def DefinedAt (cost : P → F) (p : P) : Prop := lt (cost p) inf = true

/-- Sorting by `np.argsort(costs)`: a permutation, ordered by cost, NaN last. -/
def SortsNaNLast (sort : List (F × P) → List (F × P)) : Prop :=
  ∀ l, (sort l).Perm l ∧
    (sort l).Pairwise fun a b => isnan b.1 = true ∨ le a.1 b.1 = true

/-! ## Lemmas -/

section
variable [LawfulPyNum F]

theorem not_nan_of_lt {a b : F} (h : lt a b = true) : isnan a = false ∧ isnan b = false := by
  constructor
  · by_contra hn
    rw [LawfulPyNum.lt_nan_left _ _ (by simpa using hn)] at h
    cases h
  · by_contra hn
    rw [LawfulPyNum.lt_nan_right _ _ (by simpa using hn)] at h
    cases h

theorem not_nan_of_le {a b : F} (h : le a b = true) : isnan a = false ∧ isnan b = false := by
  constructor
  · by_contra hn
    rw [LawfulPyNum.le_nan_left _ _ (by simpa using hn)] at h
    cases h
  · by_contra hn
    rw [LawfulPyNum.le_nan_right _ _ (by simpa using hn)] at h
    cases h

theorem lt_of_le_of_lt' {a b c : F} (h : le a b = true) (h' : lt b c = true) : lt a c = true := by
  obtain ⟨ha, hb⟩ := not_nan_of_le h
  rcases LawfulPyNum.lt_cotrans b a c ha h' with h2 | h2
  · rw [LawfulPyNum.le_iff _ _ ha hb] at h
    rw [h] at h2
    cases h2
  · exact h2

/-! ## Steepest descent and conjugate gradient -/

/-- **C163** (steepest descent): if the cost is defined at the starting point and is NaN at none of
the points at which the run evaluated it (it may be infinite there), it is defined at the result,
and no larger than at the start.  The full statement, for costs that may be NaN at evaluated points,
is false, see `C163_negation_steepestDescent`. -/
theorem C163_steepestDescent_partial {cfg : Cfg F} {ls : LineSearcher F P E S}
    (hls : NeverAscends ls) {pb : Prob F P E} {clk : Clock F} {x : P} {mem : S}
    {r : Result F P} {m : S} (h : SDRuns cfg ls pb clk x mem (.ok (r, m)))
    (hx : DefinedAt pb.cost x) (hn : ∀ p ∈ r.evals, isnan (pb.cost p) = false) :
    r.cost = pb.cost r.point ∧ DefinedAt pb.cost r.point ∧ le r.cost (pb.cost x) = true := by
  have key : r.cost = pb.cost r.point ∧
      ((∀ p ∈ r.evals, isnan (pb.cost p) = false) → le r.cost (pb.cost x) = true) := by
    unfold SDRuns at h
    split at h
    · cases h
    refine h.invariant
      (Inv := fun s : SDState F P S => (∀ p ∈ s.evals ++ [s.x], isnan (pb.cost p) = false) →
        le (pb.cost s.x) (pb.cost x) = true)
      (Post := fun r : Result F P × S => r.1.cost = pb.cost r.1.point ∧
        ((∀ p ∈ r.1.evals, isnan (pb.cost p) = false) → le r.1.cost (pb.cost x) = true)) ?_ ?_ ?_
    · intro s s' h1 hs h2
      obtain ⟨o, ho, -, rfl⟩ := sdStep_next hs
      have hd := hls _ _ _ _ _ _ _ ho
      simp only [List.mem_append, List.mem_singleton] at h1 h2
      have n1 : isnan (pb.cost s.x) = false := h2 _ (.inl (.inl (.inr rfl)))
      have n2 : isnan (pb.cost o.newx) = false := h2 _ (.inr rfl)
      rw [← LawfulPyNum.le_iff _ _ n2 n1] at hd
      exact LawfulPyNum.le_trans n2 n1 (not_nan_of_lt hx).1 hd
        (h1 fun p hp => h2 p (.inl (.inl hp)))
    · intro s r h1 hs
      obtain ⟨o, reason, ho, -, rfl⟩ := sdStep_brk hs
      refine ⟨rfl, fun h2 => ?_⟩
      have hd := hls _ _ _ _ _ _ _ ho
      simp only [List.mem_append, List.mem_singleton] at h1 h2
      have n1 : isnan (pb.cost s.x) = false := h2 _ (.inl (.inl (.inr rfl)))
      have n2 : isnan (pb.cost o.newx) = false := h2 _ (.inr rfl)
      rw [← LawfulPyNum.le_iff _ _ n2 n1] at hd
      exact LawfulPyNum.le_trans n2 n1 (not_nan_of_lt hx).1 hd
        (h1 fun p hp => h2 p (.inl (.inl hp)))
    · intro _
      exact LawfulPyNum.le_refl _ (not_nan_of_lt hx).1
  refine ⟨key.1, ?_, key.2 hn⟩
  unfold DefinedAt
  rw [← key.1]
  exact lt_of_le_of_lt' (key.2 hn) hx

/-- **C163** (conjugate gradient): the same for conjugate gradient. -/
theorem C163_conjugateGradient_partial {cfg : Cfg F} {rule : BetaRule} {orth : F}
    {ls : LineSearcher F P E S} (hls : NeverAscends ls) {pb : Prob F P E} {clk : Clock F} {x : P}
    {mem : S} {r : Result F P} {m : S} {t : List (P × E × F)}
    (h : CGRuns cfg rule orth ls pb clk x mem (.ok (r, m, t)))
    (hx : DefinedAt pb.cost x) (hn : ∀ p ∈ r.evals, isnan (pb.cost p) = false) :
    r.cost = pb.cost r.point ∧ DefinedAt pb.cost r.point ∧ le r.cost (pb.cost x) = true := by
  have key : r.cost = pb.cost r.point ∧
      ((∀ p ∈ r.evals, isnan (pb.cost p) = false) → le r.cost (pb.cost x) = true) := by
    unfold CGRuns at h
    split at h
    · cases h
    refine h.invariant
      (Inv := fun s : CGState F P E S => s.cost = pb.cost s.x ∧ s.x ∈ s.evals ∧
        ((∀ p ∈ s.evals, isnan (pb.cost p) = false) → le s.cost (pb.cost x) = true))
      (Post := fun r : Result F P × S × List (P × E × F) => r.1.cost = pb.cost r.1.point ∧
        ((∀ p ∈ r.1.evals, isnan (pb.cost p) = false) → le r.1.cost (pb.cost x) = true)) ?_ ?_ ?_
    · rintro s s' ⟨h0, h1, h2⟩ hs
      obtain ⟨o, newdir, -, ho, -, rfl⟩ := cgStep_next hs
      refine ⟨rfl, by simp, fun h3 => ?_⟩
      rw [h0] at ho
      have hd := hls _ _ _ _ _ _ _ ho
      simp only [List.mem_append, List.mem_singleton] at h3
      have n1 : isnan (pb.cost s.x) = false := h3 _ (.inl (.inl h1))
      have n2 : isnan (pb.cost o.newx) = false := h3 _ (.inr rfl)
      rw [← LawfulPyNum.le_iff _ _ n2 n1] at hd
      refine LawfulPyNum.le_trans n2 n1 (not_nan_of_lt hx).1 hd ?_
      rw [← h0]
      exact h2 fun p hp => h3 p (.inl (.inl hp))
    · rintro s r ⟨h0, h1, h2⟩ hs
      obtain ⟨reason, -, rfl⟩ := cgStep_brk hs
      exact ⟨h0, h2⟩
    · exact ⟨rfl, by simp [cgInit], fun _ => LawfulPyNum.le_refl _ (not_nan_of_lt hx).1⟩
  refine ⟨key.1, ?_, key.2 hn⟩
  unfold DefinedAt
  rw [← key.1]
  exact lt_of_le_of_lt' (key.2 hn) hx

/-- **C163** (what goes wrong): both line searchers accept their first trial if its cost is NaN,
whatever the sufficient decrease and the number of contractions they are allowed. -/
theorem C163_lineSearch_nan {obj : P → F} {M : Mfd F P E} {x : P} {d : E} {f0 df0 : F} :
    (∀ (c : BackTrackingCfg F) (old : Option F) (alpha : F),
      backTrackingInit c old f0 df0 (M.norm x d) = .ok alpha →
      isnan (obj (M.retraction x (M.smul alpha d))) = true →
      ∃ o, (backTracking P E c).search old obj M x d f0 df0 = .ok o ∧
        o.newx = M.retraction x (M.smul alpha d) ∧ o.evals = [o.newx]) ∧
    ∀ (c : AdaptiveCfg F) (old : Option F) (alpha : F),
      adaptiveInit c old (M.norm x d) = .ok alpha →
      isnan (obj (M.retraction x (M.smul alpha d))) = true →
      ∃ o, (adaptive P E c).search old obj M x d f0 df0 = .ok o ∧
        o.newx = M.retraction x (M.smul alpha d) ∧ o.evals = [o.newx] := by
  have loop : ∀ (next : F → F) (c : F) (n : ℕ) (alpha : F),
      isnan (obj (M.retraction x (M.smul alpha d))) = true →
      btLoop obj M x d f0 df0 c next n (trial obj M x d alpha 1 []) =
        trial obj M x d alpha 1 [] := by
    intro next c n alpha hnan
    cases n with
    | zero => rfl
    | succ n =>
      unfold btLoop armijoFails
      rw [if_neg]
      simp only [trial, Bool.not_eq_true]
      exact LawfulPyNum.lt_nan_right _ _ hnan
  constructor
  · intro c old alpha ha hnan
    simp only [backTracking, backTrackingSearch, ha, loop _ _ _ _ hnan]
    have : lt f0 (trial obj M x d alpha 1 []).newf = false := LawfulPyNum.lt_nan_right _ _ hnan
    rw [if_neg (by simp [this])]
    exact ⟨_, rfl, rfl, rfl⟩
  · intro c old alpha ha hnan
    simp only [adaptive, adaptiveSearch, ha, loop _ _ _ _ hnan]
    have : lt f0 (trial obj M x d alpha 1 []).newf = false := LawfulPyNum.lt_nan_right _ _ hnan
    rw [if_neg (by simp [this])]
    exact ⟨_, rfl, rfl, rfl⟩

/-! ## Particle swarm -/

omit [LawfulPyNum F] in
theorem argminPoint_nan (b : F × P) (l : List (F × P)) :
    isnan (argminPoint b l).1 = true ↔ ∃ v ∈ b :: l, isnan v.1 = true := by
  induction l generalizing b with
  | nil => simp [argminPoint]
  | cons c l ih =>
    unfold argminPoint
    rw [ih]
    rcases hb : isnan b.1 with _ | _ <;> rcases hc : isnan c.1 with _ | _
    · by_cases hlt : lt c.1 b.1 = true <;> simp [hb, hc, hlt]
    · simp [hb, hc]
    · simp [hb, hc]
    · simp [hb, hc]

omit [LawfulPyNum F] in
theorem argminPoint_mem (b : F × P) (l : List (F × P)) : argminPoint b l ∈ b :: l := by
  induction l generalizing b with
  | nil => simp [argminPoint]
  | cons c l ih =>
    unfold argminPoint
    have h := ih (if !isnan b.1 && (isnan c.1 || lt c.1 b.1) then c else b)
    split at h
    · rename_i h1
      rw [if_pos h1]
      exact List.mem_cons_of_mem _ h
    · rename_i h1
      rw [if_neg h1]
      rcases List.mem_cons.1 h with h | h
      · simp [h]
      · simp [h]

/-- A best position with cost NaN is never replaced. -/
theorem psoMoves_nan (obj : P → F) (M : Mfd F P E) (b : F × P) (hb : isnan b.1 = true)
    (l : List (Particle F P E)) : (psoMoves obj M b l).1 = b := by
  induction l generalizing b with
  | nil => rfl
  | cons p l ih =>
    have h1 : (psoMove obj M b p).1 = b := by
      unfold psoMove
      simp only
      split
      · simp [LawfulPyNum.lt_nan_right _ _ hb]
      · rfl
    simp only [psoMoves, h1]
    exact ih b hb

/-- Moving particles when the cost may be NaN. -/
theorem psoMoves_partial (obj : P → F) (M : Mfd F P E) (b : F × P) (l : List (Particle F P E))
    (hb : b.1 = obj b.2) (nb : isnan b.1 = false)
    (hl : ∀ p ∈ l, p.fy = obj p.y ∧ le b.1 p.fy = true) :
    (psoMoves obj M b l).1.1 = obj (psoMoves obj M b l).1.2 ∧
    le (psoMoves obj M b l).1.1 b.1 = true ∧
    ∀ p ∈ l, isnan (obj p.x) = true ∨ le (psoMoves obj M b l).1.1 (obj p.x) = true := by
  induction l generalizing b with
  | nil => exact ⟨hb, LawfulPyNum.le_refl _ nb, by simp⟩
  | cons p l ih =>
    obtain ⟨hpy, hpl⟩ := hl p (by simp)
    have ny := (not_nan_of_le hpl).2
    have h1 : (psoMove obj M b p).1.1 = obj (psoMove obj M b p).1.2 ∧
        le (psoMove obj M b p).1.1 b.1 = true ∧
        (isnan (obj p.x) = true ∨ le (psoMove obj M b p).1.1 (obj p.x) = true) := by
      unfold psoMove
      simp only
      split
      · rename_i hlt
        have nx := (not_nan_of_lt hlt).1
        simp only
        split
        · rename_i hlt2
          exact ⟨rfl, LawfulPyNum.le_of_lt hlt2, .inr (LawfulPyNum.le_refl _ nx)⟩
        · rename_i hlt2
          refine ⟨hb, LawfulPyNum.le_refl _ nb, .inr ((LawfulPyNum.le_iff _ _ nb nx).2 ?_)⟩
          simpa using hlt2
      · rename_i hlt
        refine ⟨hb, LawfulPyNum.le_refl _ nb, ?_⟩
        rcases hx : isnan (obj p.x) with _ | _
        · refine .inr (LawfulPyNum.le_trans nb ny hx hpl ((LawfulPyNum.le_iff _ _ ny hx).2 ?_))
          simpa using hlt
        · exact .inl rfl
    have nm := (not_nan_of_le h1.2.1).1
    obtain ⟨h2, h3, h4⟩ := ih (psoMove obj M b p).1 h1.1 nm (fun q hq => by
      obtain ⟨hq1, hq2⟩ := hl q (by simp [hq])
      exact ⟨hq1, LawfulPyNum.le_trans nm nb (not_nan_of_le hq2).2 h1.2.1 hq2⟩)
    simp only [psoMoves]
    have nr := (not_nan_of_le h3).1
    refine ⟨h2, LawfulPyNum.le_trans nr nm nb h3 h1.2.1, ?_⟩
    intro q hq
    rcases List.mem_cons.1 hq with h | h
    · rw [h]
      exact h1.2.2.imp_right fun h5 => LawfulPyNum.le_trans nr nm (not_nan_of_le h5).2 h3 h5
    · exact h4 q h

/-- **C163** (particle swarm): the returned cost is NaN exactly if the cost of a member of the initial
population is.  If not, it is at most every cost that was evaluated and is not NaN; so it is defined
at the result if it is defined at one member of the initial population. -/
theorem C163_particleSwarm {o : PSOObj F} {rnd : PSORand F P E} {pb : Prob F P E}
    {clk : Clock F} {init : InitArg P} {o' : PSOObj F} {x0 : P} {xs : List P} {isT : Bool}
    (hpop : psoPopulation (o.resolve pb.M.dim) init = .ok (o', x0 :: xs, isT))
    {r : Result F P} {final positions : List P}
    (h : PSORuns o rnd pb clk init (.ok (r, final, positions))) :
    r.cost = pb.cost r.point ∧
    (isnan r.cost = true ↔ ∃ p ∈ x0 :: xs, isnan (pb.cost p) = true) ∧
    (isnan r.cost = false → ∀ p ∈ r.evals,
      isnan (pb.cost p) = true ∨ le r.cost (pb.cost p) = true) ∧
    ((∀ p ∈ x0 :: xs, isnan (pb.cost p) = false) → (∃ p ∈ x0 :: xs, DefinedAt pb.cost p) →
      DefinedAt pb.cost r.point) := by
  unfold PSORuns at h
  rw [hpop] at h
  simp only at h
  split at h
  · cases h
  have hlist : ∀ p ∈ x0 :: xs, (pb.cost p, p) ∈
      (pb.cost x0, x0) :: xs.map fun p => (pb.cost p, p) := by
    intro p hp
    rcases List.mem_cons.1 hp with h | h
    · simp [h]
    · exact List.mem_cons_of_mem _ (List.mem_map.2 ⟨p, h, rfl⟩)
  have hlist' : ∀ v ∈ (pb.cost x0, x0) :: xs.map (fun p => (pb.cost p, p)),
      v.1 = pb.cost v.2 ∧ v.2 ∈ x0 :: xs := by
    intro v hv
    rcases List.mem_cons.1 hv with h | h
    · simp [h]
    · obtain ⟨p, hp, rfl⟩ := List.mem_map.1 h
      exact ⟨rfl, List.mem_cons_of_mem _ hp⟩
  by_cases hnan : ∃ p ∈ x0 :: xs, isnan (pb.cost p) = true
  · have key := h.invariant (fun s => s.fbest = pb.cost s.xbest ∧ isnan s.fbest = true)
      (fun r => r.1.cost = pb.cost r.1.point ∧ isnan r.1.cost = true) ?_ ?_ ?_
    · refine ⟨key.1, ⟨fun _ => hnan, fun _ => key.2⟩, fun h2 => ?_, fun h2 => ?_⟩
      · simp only [key.2] at h2
        cases h2
      · obtain ⟨p, hp, hp2⟩ := hnan
        rw [h2 p hp] at hp2
        cases hp2
    · rintro s s' ⟨h1, h2⟩ hst
      obtain ⟨w, swarm, -, -, -, rfl⟩ := psoStep_next hst
      have := psoMoves_nan pb.cost pb.M (s.fbest, s.xbest) h2 swarm
      simp only [this]
      exact ⟨h1, h2⟩
    · rintro s r ⟨h1, h2⟩ hst
      obtain ⟨_, -, rfl⟩ := psoStep_brk hst
      exact ⟨h1, h2⟩
    · refine ⟨(hlist' _ (argminPoint_mem _ _)).1, (argminPoint_nan _ _).2 ?_⟩
      obtain ⟨p, hp, hp2⟩ := hnan
      exact ⟨_, hlist p hp, hp2⟩
  · have hno : ∀ p ∈ x0 :: xs, isnan (pb.cost p) = false := by
      intro p hp
      by_contra h2
      exact hnan ⟨p, hp, by simpa using h2⟩
    have key := h.invariant
      (fun s => (s.fbest = pb.cost s.xbest ∧ isnan s.fbest = false) ∧
        (∀ p ∈ s.swarm, p.fy = pb.cost p.y ∧ le s.fbest p.fy = true) ∧
        (∀ p ∈ s.evals, isnan (pb.cost p) = true ∨ le s.fbest (pb.cost p) = true) ∧
        ∀ p ∈ x0 :: xs, p ∈ s.evals)
      (fun r => (r.1.cost = pb.cost r.1.point ∧ isnan r.1.cost = false) ∧
        (∀ p ∈ r.1.evals, isnan (pb.cost p) = true ∨ le r.1.cost (pb.cost p) = true) ∧
        ∀ p ∈ x0 :: xs, p ∈ r.1.evals) ?_ ?_ ?_
    · obtain ⟨⟨k1, k2⟩, k3, k4⟩ := key
      simp only at k1 k2 k3 k4
      refine ⟨k1, ⟨fun h2 => ?_, fun h2 => absurd h2 hnan⟩, fun _ => k3, ?_⟩
      · rw [k2] at h2
        cases h2
      · rintro - ⟨p, hp, hp2⟩
        unfold DefinedAt
        rw [← k1]
        rcases k3 p (k4 p hp) with h3 | h3
        · rw [hno p hp] at h3
          cases h3
        · exact lt_of_le_of_lt' h3 hp2
    · rintro s s' ⟨⟨h1, h1'⟩, h2, h3, h4⟩ hst
      obtain ⟨w, swarm, -, hsw, -, rfl⟩ := psoStep_next hst
      have hl : ∀ p ∈ swarm, p.fy = pb.cost p.y ∧ le s.fbest p.fy = true := by
        intro p hp
        rw [hsw] at hp
        obtain ⟨q, hq, -, e2, e3⟩ := mem_mapIdx_velocity hp
        rw [e2, e3]
        exact h2 q hq
      obtain ⟨k1, k2, k3⟩ := psoMoves_partial pb.cost pb.M (s.fbest, s.xbest) swarm h1 h1' hl
      have n1 := (not_nan_of_le k2).1
      refine ⟨⟨k1, n1⟩, ?_, ?_, fun p hp => List.mem_append_left _ (h4 p hp)⟩
      · intro p hp
        simp only [psoMoves_snd] at hp
        obtain ⟨q, hq, rfl⟩ := List.mem_map.1 hp
        obtain ⟨hq1, hq2⟩ := hl q hq
        unfold psoMoved
        split
        · rename_i hlt
          refine ⟨rfl, ?_⟩
          rcases k3 q hq with h5 | h5
          · rw [(not_nan_of_lt hlt).1] at h5
            cases h5
          · exact h5
        · exact ⟨hq1, LawfulPyNum.le_trans n1 h1' (not_nan_of_le hq2).2 k2 hq2⟩
      · intro p hp
        simp only [List.mem_append] at hp
        rcases hp with hp | hp
        · exact (h3 p hp).imp_right fun h5 =>
            LawfulPyNum.le_trans n1 h1' (not_nan_of_le h5).2 k2 h5
        · obtain ⟨q, hq, rfl⟩ := List.mem_map.1 hp
          exact k3 q hq
    · rintro s r ⟨h1, h2, h3, h4⟩ hst
      obtain ⟨_, -, rfl⟩ := psoStep_brk hst
      exact ⟨h1, h3, h4⟩
    · have hn' : ∀ v ∈ (pb.cost x0, x0) :: xs.map (fun p => (pb.cost p, p)),
          isnan v.1 = false := by
        intro v hv
        obtain ⟨e1, e2⟩ := hlist' v hv
        rw [e1]
        exact hno _ e2
      obtain ⟨e1, e2⟩ := argminPoint_spec _ _ hn'
      refine ⟨⟨(hlist' _ e1).1, hn' _ e1⟩, ?_, ?_, fun p hp => hp⟩
      · intro p hp
        simp only [psoInit, List.mem_mapIdx] at hp
        obtain ⟨i, hi, rfl⟩ := hp
        exact ⟨rfl, e2 _ (hlist _ (List.getElem_mem hi))⟩
      · intro p hp
        exact .inr (e2 _ (hlist p hp))

/-! ## Nelder-Mead -/

/-- **C163** (Nelder-Mead): if the cost is defined at a vertex of the initial simplex, it is defined
at the result, and no larger there than at that vertex, wherever else it is NaN or infinite. -/
theorem C163_nelderMead {o : NMObj F} {sort : List (F × P) → List (F × P)}
    {centroid : ℤ → List P → Except PyErr P} {pb : Prob F P E} {clk : Clock F}
    (hsort : SortsNaNLast sort) {init : InitArg P}
    {x : List P} (hx : nmSimplex pb.M.dim init = .ok x) {r : Result F P}
    (h : NMRuns o sort centroid pb clk init (.ok r)) {p : P} (hp : p ∈ x)
    (hd : DefinedAt pb.cost p) :
    r.cost = pb.cost r.point ∧ DefinedAt pb.cost r.point ∧ le r.cost (pb.cost p) = true := by
  have hbest : ∀ (l : List (F × P)) (best w : F × P), (sort l).head? = some best → w ∈ l →
      isnan w.1 = false → le best.1 w.1 = true := by
    intro l best w hb hw hn
    have hw2 := (hsort l).1.mem_iff.2 hw
    have hpw := (hsort l).2
    cases hs : sort l with
    | nil => rw [hs] at hb; simp at hb
    | cons b t =>
      rw [hs] at hb hw2 hpw
      simp only [List.head?_cons, Option.some.injEq] at hb
      subst hb
      rcases List.mem_cons.1 hw2 with h | h
      · rw [← h]
        exact LawfulPyNum.le_refl _ hn
      · rcases List.rel_of_pairwise_cons hpw h with h | h
        · rw [hn] at h
          cases h
        · exact h
  unfold NMRuns at h
  rw [hx] at h
  simp only at h
  have key := h.invariant
    (fun s : NMState F P => (∀ v ∈ s.simplex, v.1 = pb.cost v.2) ∧
      ∃ w ∈ s.simplex, le w.1 (pb.cost p) = true)
    (fun r : Result F P => r.cost = pb.cost r.point ∧ le r.cost (pb.cost p) = true) ?_ ?_ ?_
  · refine ⟨key.1, ?_, key.2⟩
    unfold DefinedAt
    rw [← key.1]
    exact lt_of_le_of_lt' key.2 hd
  · rintro s s' ⟨h1, w, hw, hw2⟩ hst
    obtain ⟨xbar, m, -, -, hm, rfl⟩ := nmStep_next hst
    obtain ⟨-, -, hcost, best, hb, v', hv', hle⟩ := nmMove_spec hm
    refine ⟨fun v hv => ?_, v', hv', ?_⟩
    · rcases hcost v hv with h | h
      · exact h1 v ((hsort _).1.mem_iff.1 h)
      · exact h
    · obtain ⟨nw, np⟩ := not_nan_of_le hw2
      have hbw := hbest s.simplex best w hb hw nw
      have nb := (not_nan_of_le hbw).1
      have hbp := LawfulPyNum.le_trans nb nw np hbw hw2
      rcases hle with rfl | h | ⟨c, h3, h4⟩
      · exact hbp
      · exact LawfulPyNum.le_trans (not_nan_of_lt h).1 nb np (LawfulPyNum.le_of_lt h) hbp
      · have h5 := LawfulPyNum.lt_trans _ _ _ h4 h3
        exact LawfulPyNum.le_trans (not_nan_of_lt h5).1 nb np (LawfulPyNum.le_of_lt h5) hbp
  · rintro s r ⟨h1, w, hw, hw2⟩ hst
    obtain ⟨reason, best, -, hb, rfl⟩ := nmStep_brk hst
    refine ⟨rfl, ?_⟩
    obtain ⟨nw, np⟩ := not_nan_of_le hw2
    have hbw := hbest s.simplex best w hb hw nw
    have := h1 best ((hsort _).1.mem_iff.1 (List.mem_of_head? hb))
    simp only
    rw [← this]
    exact LawfulPyNum.le_trans (not_nan_of_le hbw).1 nw np hbw hw2
  · constructor
    · intro v hv
      have := (hsort _).1.mem_iff.1 hv
      obtain ⟨q, -, rfl⟩ := List.mem_map.1 this
      rfl
    · exact ⟨(pb.cost p, p), (hsort _).1.mem_iff.2 (List.mem_map.2 ⟨p, hp, rfl⟩),
        LawfulPyNum.le_refl _ (not_nan_of_lt hd).1⟩

end

/-! ## Trust regions -/

section
variable {K : Type*} [NumField K]

theorem trAccept_defined {c : TRCfg (Num K)} {pb : Prob (Num K) P E} {x : P} {fx fxProp : Num K}
    {g eta Heta : E} {rho : Num K} {md : Bool} (hfx : lt fx inf = true)
    (hr : trRatio c pb x fx g fxProp eta Heta = .ok (rho, md)) (ha : trAccept c rho md = true) :
    lt fxProp inf = true := by
  unfold trAccept at ha
  rw [Bool.and_eq_true] at ha
  obtain ⟨ha1, ha2⟩ := ha
  subst ha1
  by_contra hbad
  obtain ⟨np, v⟩ := fxProp
  have hv : v = .nan ∨ v = .pinf := by
    rcases v with _ | _ | _ | q
    · exact .inl rfl
    · exact absurd rfl hbad
    · exact .inr rfl
    · exact absurd rfl hbad
  have hfx' : fx.v ≠ .pinf ∧ fx.v ≠ .nan := by
    obtain ⟨n, w⟩ := fx
    constructor <;> rintro rfl <;> cases hfx
  unfold trRatio at hr
  simp only at hr
  have hnum : (add (sub fx ⟨np, v⟩) (rhoReg c fx)).v = .nan ∨
      (add (sub fx ⟨np, v⟩) (rhoReg c fx)).v = .ninf := by
    simp only [PyNum.add, PyNum.sub]
    rcases hv with rfl | rfl
    · left
      rw [XF.neg, XF.add_nan_right, XF.add_nan_left]
    · have h1 : fx.v.add (XF.pinf : XF K).neg = .ninf := by
        rcases h : fx.v with _ | _ | _ | q
        · exact absurd h hfx'.2
        · rfl
        · exact absurd h hfx'.1
        · rfl
      rw [h1]
      rcases (rhoReg c fx).v with _ | _ | _ | q
      · exact .inl rfl
      · exact .inr rfl
      · exact .inl rfl
      · exact .inr rfl
  have hno : ∀ w : XF K, w = .nan ∨ w = .ninf → XF.lt c.rhoPrime.v w = false := by
    rintro w (rfl | rfl)
    · rcases c.rhoPrime.v with _ | _ | _ | q <;> rfl
    · rcases c.rhoPrime.v with _ | _ | _ | q <;> rfl
  split at hr
  · rename_i rho' hdiv
    simp only [Except.ok.injEq, Prod.mk.injEq] at hr
    obtain ⟨rfl, hden⟩ := hr
    have hq := Num.div_ok hdiv
    have : rho'.v = .nan ∨ rho'.v = .ninf := by
      rw [hq]
      rcases hnum with h | h
      · rw [h, XF.div_nan_left]
        exact .inl rfl
      · rw [h]
        simp only [PyNum.le] at hden
        revert hden
        rcases (add (sub (neg (pb.M.inner x g eta)) (mul (lit (1 / 2)) (pb.M.inner x eta Heta)))
          (rhoReg c fx)).v with _ | _ | _ | q
        · intro _
          exact .inl rfl
        · intro _
          exact .inl rfl
        · intro _
          exact .inl rfl
        · intro hden
          have hq0 : ¬ q < 0 := by
            have : (0 : K) ≤ q := by simpa [PyNum.lit, XF.le] using hden
            exact not_lt.2 this
          exact .inr (by simp [XF.div, hq0])
    rw [show lt c.rhoPrime rho' = XF.lt c.rhoPrime.v rho'.v from rfl, hno _ this] at ha2
    cases ha2
  · simp only [Except.ok.injEq, Prod.mk.injEq] at hr
    obtain ⟨rfl, -⟩ := hr
    rw [show lt c.rhoPrime nan = XF.lt c.rhoPrime.v (.nan : XF K) from rfl,
      hno _ (.inl rfl)] at ha2
    cases ha2
  · cases hr

/-- **C163** (trust regions): started where the cost is defined, trust regions never moves to a point
where it is not, and returns a point where it is. -/
theorem C163_trustRegions {cfg : Cfg (Num K)} {c : TRCfg (Num K)} {pb : Prob (Num K) P E}
    {clk : Clock (Num K)} {eta0 : ℤ → E} {mininner : ℤ} {maxinner : Option ℤ}
    {td D D0 : Option (Num K)} {x : P} {r : Result (Num K) P} {hist : List (P × Num K × Num K)}
    (h : TRRuns cfg c pb clk eta0 mininner maxinner td D D0 x (.ok (r, hist)))
    (hx : DefinedAt pb.cost x) :
    r.cost = pb.cost r.point ∧ DefinedAt pb.cost r.point ∧
      ∀ e ∈ hist, e.2.1 = pb.cost e.1 ∧ DefinedAt pb.cost e.1 := by
  unfold TRRuns at h
  split at h
  · cases h
  refine h.invariant
    (Inv := fun s : TRState (Num K) P E => (s.fx = pb.cost s.x ∧ DefinedAt pb.cost s.x) ∧
      ∀ e ∈ s.history, e.2.1 = pb.cost e.1 ∧ DefinedAt pb.cost e.1)
    (Post := fun r : Result (Num K) P × List (P × Num K × Num K) =>
      r.1.cost = pb.cost r.1.point ∧ DefinedAt pb.cost r.1.point ∧
        ∀ e ∈ r.2, e.2.1 = pb.cost e.1 ∧ DefinedAt pb.cost e.1) ?_ ?_ ?_
  · rintro s s' ⟨⟨h1, h2⟩, h3⟩ hs
    obtain ⟨o, eta, Heta, rho, md, Delta, e1, e2, e3, e4, ⟨-, e5⟩ | ⟨_, -, e5⟩⟩ := trStep_inv hs
    · cases e5
      have hacc : trAccept c rho md = true → DefinedAt pb.cost (pb.M.retraction s.x eta) := by
        intro ha
        refine trAccept_defined ?_ e3 ha
        rw [h1]
        exact h2
      unfold trAfter
      have hh : ∀ e ∈ s.history ++ [(s.x, s.fx, s.Delta)],
          e.2.1 = pb.cost e.1 ∧ DefinedAt pb.cost e.1 := by
        intro e he
        rcases List.mem_append.1 he with he | he
        · exact h3 e he
        · rw [List.mem_singleton.1 he]
          exact ⟨h1, h2⟩
      split
      · rename_i ha
        exact ⟨⟨rfl, hacc ha⟩, hh⟩
      · exact ⟨⟨h1, h2⟩, hh⟩
    · cases e5
  · rintro s r ⟨⟨h1, h2⟩, h3⟩ hs
    obtain ⟨o, eta, Heta, rho, md, Delta, e1, e2, e3, e4, ⟨-, e5⟩ | ⟨_, -, e5⟩⟩ := trStep_inv hs
    · cases e5
    · cases e5
      have hacc : trAccept c rho md = true → DefinedAt pb.cost (pb.M.retraction s.x eta) := by
        intro ha
        refine trAccept_defined ?_ e3 ha
        rw [h1]
        exact h2
      have hh : ∀ e ∈ s.history ++ [(s.x, s.fx, s.Delta)],
          e.2.1 = pb.cost e.1 ∧ DefinedAt pb.cost e.1 := by
        intro e he
        rcases List.mem_append.1 he with he | he
        · exact h3 e he
        · rw [List.mem_singleton.1 he]
          exact ⟨h1, h2⟩
      unfold trAfter
      split
      · rename_i ha
        exact ⟨rfl, hacc ha, hh⟩
      · exact ⟨h1, h2, hh⟩
  · exact ⟨⟨rfl, hx⟩, by simp [trInit]⟩

end

/-! ## Cases -/

/-- `f(x) = x` for `x > 0`, NaN elsewhere; the gradient is 1. -/
def halfProb : Prob Q Q Q :=
  lineProb (fun x => if lt (lit 0) x then toNp x else toNp nan) (fun _ => lit 1) (fun _ => .npy 0)

/-- **C163** (steepest descent), full statement, is false: from `1/2`, where the cost is defined,
steepest descent with either line searcher returns a point where it is NaN. -/
theorem C163_negation_steepestDescent :
    DefinedAt halfProb.cost (.npy (1 / 2)) ∧
    (∃ r m, SDRuns { defaultCfg with maxIterations := 3 } (backTracking Q Q defaultBackTracking)
        halfProb stillClock (.npy (1 / 2)) none (.ok (r, m)) ∧
      isnan r.cost = true ∧ isnan (halfProb.cost r.point) = true) ∧
    ∃ r m, SDRuns { defaultCfg with maxIterations := 3 } (adaptive Q Q defaultAdaptive)
        halfProb stillClock (.npy (1 / 2)) none (.ok (r, m)) ∧
      isnan r.cost = true ∧ isnan (halfProb.cost r.point) = true := by
  refine ⟨by unfold DefinedAt; decide +kernel, ?_, ?_⟩
  · obtain ⟨r, hr, hok⟩ := exists_of_checkFuel (n := 5)
      (p := isOk fun r => isnan r.1.cost && isnan (halfProb.cost r.1.point))
      (step := sdStep { defaultCfg with maxIterations := 3 } (backTracking Q Q defaultBackTracking)
        halfProb stillClock)
      (s := sdInit { defaultCfg with maxIterations := 3 } (.npy (1 / 2)) none) (by decide +kernel)
    obtain ⟨⟨r, m⟩, rfl, he⟩ := exists_of_isOk hok
    rw [Bool.and_eq_true] at he
    exact ⟨r, m, hr, he⟩
  · obtain ⟨r, hr, hok⟩ := exists_of_checkFuel (n := 5)
      (p := isOk fun r => isnan r.1.cost && isnan (halfProb.cost r.1.point))
      (step := sdStep { defaultCfg with maxIterations := 3 } (adaptive Q Q defaultAdaptive)
        halfProb stillClock)
      (s := sdInit { defaultCfg with maxIterations := 3 } (.npy (1 / 2)) none) (by decide +kernel)
    obtain ⟨⟨r, m⟩, rfl, he⟩ := exists_of_isOk hok
    rw [Bool.and_eq_true] at he
    exact ⟨r, m, hr, he⟩

/-- **C163** (conjugate gradient), full statement, is false: the same start, with its default rule
and line searcher. -/
theorem C163_negation_conjugateGradient :
    DefinedAt halfProb.cost (.npy (1 / 2)) ∧
    ∃ r m t, CGRuns { defaultCfg with maxIterations := 3 } .hestenesStiefel inf
        (adaptive Q Q defaultAdaptive) halfProb stillClock (.npy (1 / 2)) none (.ok (r, m, t)) ∧
      isnan r.cost = true ∧ isnan (halfProb.cost r.point) = true := by
  refine ⟨by unfold DefinedAt; decide +kernel, ?_⟩
  obtain ⟨r, hr, hok⟩ := exists_of_checkFuel (n := 5)
    (p := isOk fun r => isnan r.1.cost && isnan (halfProb.cost r.1.point))
    (step := cgStep { defaultCfg with maxIterations := 3 } .hestenesStiefel inf
      (adaptive Q Q defaultAdaptive) halfProb stillClock)
    (s := cgInit { defaultCfg with maxIterations := 3 } halfProb (.npy (1 / 2)) none)
    (by decide +kernel)
  obtain ⟨⟨r, m, t⟩, rfl, he⟩ := exists_of_isOk hok
  rw [Bool.and_eq_true] at he
  exact ⟨r, m, t, hr, he⟩

/-- `f(x) = x ** 2` for `x > -1`, `+inf` elsewhere (a barrier). -/
def barrierProb : Prob Q Q Q :=
  lineProb (fun x => if lt (lit (-1)) x then toNp (mul x x) else toNp inf)
    (fun x => mul (lit 2) x) (fun _ => .npy 2)

/-- Hypotheses of `C163_steepestDescent_partial`: a run of three iterations whose line search starts
with a step of 8 and evaluates the cost beyond the barrier. -/
example : ∃ r m, SDRuns { defaultCfg with maxIterations := 3 }
      (backTracking Q Q { defaultBackTracking with initialStepSize := .py 8 }) barrierProb
      stillClock (.npy 1) none (.ok (r, m)) ∧
    (∀ p ∈ r.evals, isnan (barrierProb.cost p) = false) ∧
    (∃ p ∈ r.evals, barrierProb.cost p = toNp inf) ∧ DefinedAt barrierProb.cost r.point := by
  obtain ⟨r, hr, hok⟩ := exists_of_checkFuel (n := 5)
    (p := isOk fun r => (r.1.evals.all fun p => !isnan (barrierProb.cost p)) &&
      r.1.evals.any fun p => decide (barrierProb.cost p = toNp inf))
    (step := sdStep { defaultCfg with maxIterations := 3 }
      (backTracking Q Q { defaultBackTracking with initialStepSize := .py 8 }) barrierProb
      stillClock)
    (s := sdInit { defaultCfg with maxIterations := 3 } (.npy 1) none) (by decide +kernel)
  obtain ⟨⟨r, m⟩, rfl, he⟩ := exists_of_isOk hok
  simp only [Bool.and_eq_true, List.all_eq_true, List.any_eq_true, Bool.not_eq_true',
    decide_eq_true_eq] at he
  have hrun : SDRuns { defaultCfg with maxIterations := 3 }
      (backTracking Q Q { defaultBackTracking with initialStepSize := .py 8 }) barrierProb
      stillClock (.npy 1) none (.ok (r, m)) := hr
  exact ⟨r, m, hrun, he.1, he.2, (C163_steepestDescent_partial (backTracking_neverAscends _) hrun
    (by unfold DefinedAt; decide +kernel) he.1).2.1⟩

/-- Hypotheses of `C163_conjugateGradient_partial`: the same for conjugate gradient. -/
example : ∃ r m t, CGRuns { defaultCfg with maxIterations := 3 } .hestenesStiefel inf
      (adaptive Q Q { defaultAdaptive with initialStepSize := .py 9 }) barrierProb
      stillClock (.npy 1) none (.ok (r, m, t)) ∧
    (∀ p ∈ r.evals, isnan (barrierProb.cost p) = false) ∧
    (∃ p ∈ r.evals, barrierProb.cost p = toNp inf) ∧ DefinedAt barrierProb.cost r.point := by
  obtain ⟨r, hr, hok⟩ := exists_of_checkFuel (n := 5)
    (p := isOk fun r => (r.1.evals.all fun p => !isnan (barrierProb.cost p)) &&
      r.1.evals.any fun p => decide (barrierProb.cost p = toNp inf))
    (step := cgStep { defaultCfg with maxIterations := 3 } .hestenesStiefel inf
      (adaptive Q Q { defaultAdaptive with initialStepSize := .py 9 }) barrierProb stillClock)
    (s := cgInit { defaultCfg with maxIterations := 3 } barrierProb (.npy 1) none)
    (by decide +kernel)
  obtain ⟨⟨r, m, t⟩, rfl, he⟩ := exists_of_isOk hok
  simp only [Bool.and_eq_true, List.all_eq_true, List.any_eq_true, Bool.not_eq_true',
    decide_eq_true_eq] at he
  have hrun : CGRuns { defaultCfg with maxIterations := 3 } .hestenesStiefel inf
      (adaptive Q Q { defaultAdaptive with initialStepSize := .py 9 }) barrierProb
      stillClock (.npy 1) none (.ok (r, m, t)) := hr
  exact ⟨r, m, t, hrun, he.1, he.2, (C163_conjugateGradient_partial (adaptive_neverAscends _) hrun
    (by unfold DefinedAt; decide +kernel) he.1).2.1⟩

/-- Hypotheses of `C163_lineSearch_nan`: the first trial from `1/2` is `-1/2`. -/
example : backTrackingInit defaultBackTracking none (.npy (1 / 2)) (.py (-1))
      (lineMfd.norm (.npy (1 / 2)) (.npy (-1))) = .ok (.py 1) ∧
    adaptiveInit defaultAdaptive none (lineMfd.norm (.npy (1 / 2)) (.npy (-1))) = .ok (.py 1) ∧
    isnan (halfProb.cost (lineMfd.retraction (.npy (1 / 2))
      (lineMfd.smul (.py 1) (.npy (-1))))) = true := by
  decide +kernel

/-- Trust regions on the problem that steepest descent leaves: the proposal is rejected, and the run
ends where the cost is defined. -/
example : ∃ r hist, TRRuns { defaultCfg with maxIterations := 3 } defaultTR halfProb stillClock
      (fun _ => .npy 0) 1 none (some (.py 16)) none none (.npy (1 / 2)) (.ok (r, hist)) ∧
    DefinedAt halfProb.cost r.point := by
  have h : checkFuel (trStep { defaultCfg with maxIterations := 3 } defaultTR halfProb stillClock
      (fun _ => .npy 0) 1 1 (.py 16)) 5 (trInit halfProb (.npy (1 / 2)) (.py 2))
      (isOk fun _ => true) = true := by decide +kernel
  obtain ⟨r, hr, hp⟩ := exists_of_checkFuel h
  obtain ⟨⟨r, hist⟩, rfl, -⟩ := exists_of_isOk hp
  have hrun : TRRuns { defaultCfg with maxIterations := 3 } defaultTR halfProb stillClock
      (fun _ => .npy 0) 1 none (some (.py 16)) none none (.npy (1 / 2)) (.ok (r, hist)) := by
    have hrad : trRadii halfProb.M.dim (some (.py 16)) none none
        = .ok (.py 16, (.py 2 : Q)) := by
      have hc : (match trRadii halfProb.M.dim (some (.py 16)) none none with
        | .ok (a, b) => decide (a = .py 16 ∧ b = (.py 2 : Q))
        | _ => false) = true := by decide +kernel
      split at hc
      · rename_i a b hab
        obtain ⟨rfl, rfl⟩ := of_decide_eq_true hc
        exact hab
      · cases hc
    unfold TRRuns
    rw [hrad]
    exact hr
  exact ⟨r, hist, hrun, (C163_trustRegions hrun (by unfold DefinedAt; decide +kernel)).2.1⟩

/-- Particle swarm: one particle at 3 moving by `-100`: it leaves the domain, the best
position stays. -/
example : ∃ r final positions, PSORuns oneParticle
      ⟨fun _ _ => .npy (-100), fun _ _ => .py 0, fun _ _ => .py 0⟩ halfProb stillClock
      (.list [.npy 3]) (.ok (r, final, positions)) ∧ DefinedAt halfProb.cost r.point ∧
    ∃ p ∈ positions, isnan (halfProb.cost p) = true := by
  obtain ⟨r, hr, hok⟩ := exists_of_checkFuel (n := 3)
    (p := isOk fun r => r.2.2.any fun p => isnan (halfProb.cost p))
    (step := psoStep { oneParticle.resolve 1 with populationSize := some 1 } false
      ⟨fun _ _ => .npy (-100), fun _ _ => .py 0, fun _ _ => .py 0⟩ halfProb stillClock)
    (s := psoInit { oneParticle.resolve 1 with populationSize := some 1 }
      ⟨fun _ _ => .npy (-100), fun _ _ => .py 0, fun _ _ => .py 0⟩ halfProb (.npy 3) [])
    (by decide +kernel)
  obtain ⟨⟨r, final, positions⟩, rfl, he⟩ := exists_of_isOk hok
  have hrun : PSORuns oneParticle ⟨fun _ _ => .npy (-100), fun _ _ => .py 0, fun _ _ => .py 0⟩
      halfProb stillClock (.list [.npy 3]) (.ok (r, final, positions)) := hr
  refine ⟨r, final, positions, hrun, ?_, by simpa only [List.any_eq_true] using he⟩
  refine (C163_particleSwarm (x0 := .npy 3) (xs := []) rfl hrun).2.2.2 ?_ ?_
  · simp only [List.mem_singleton, forall_eq]
    decide +kernel
  · exact ⟨.npy 3, by simp, by unfold DefinedAt; decide +kernel⟩

/-- Particle swarm with one member of the initial population outside the domain: the result is that
member, although the other member has cost 3. -/
example : ∃ r final positions, PSORuns oneParticle oneRand halfProb stillClock
      (.list [.npy 3, .npy (-1)]) (.ok (r, final, positions)) ∧ isnan r.cost = true := by
  obtain ⟨r, hr, hok⟩ := exists_of_checkFuel (n := 3) (p := isOk fun _ => true)
    (step := psoStep { oneParticle.resolve 1 with populationSize := some 2 } false oneRand
      halfProb stillClock)
    (s := psoInit { oneParticle.resolve 1 with populationSize := some 2 } oneRand halfProb
      (.npy 3) [.npy (-1)]) (by decide +kernel)
  obtain ⟨⟨r, final, positions⟩, rfl, -⟩ := exists_of_isOk hok
  have hrun : PSORuns oneParticle oneRand halfProb stillClock (.list [.npy 3, .npy (-1)])
      (.ok (r, final, positions)) := hr
  refine ⟨r, final, positions, hrun,
    (C163_particleSwarm (x0 := .npy 3) (xs := [.npy (-1)]) rfl hrun).2.1.2 ?_⟩
  exact ⟨.npy (-1), by simp, by decide +kernel⟩

/-- `np.argsort` on finite lists: by cost, NaN last. -/
def nanLastSort (l : List (Q × Q)) : List (Q × Q) :=
  l.insertionSort fun a b => (isnan b.1 || le a.1 b.1) = true

theorem nanLastSort_sorts : SortsNaNLast nanLastSort := by
  intro l
  refine ⟨List.perm_insertionSort _ l, ?_⟩
  have : Std.Total fun a b : Q × Q => (isnan b.1 || le a.1 b.1) = true := ⟨by
    rintro a b
    rcases ha : isnan a.1 with _ | _ <;> rcases hb : isnan b.1 with _ | _ <;> simp
    rw [LawfulPyNum.le_iff _ _ ha hb, LawfulPyNum.le_iff _ _ hb ha]
    rcases h : lt b.1 a.1 with _ | _
    · exact .inl rfl
    · exact .inr (LawfulPyNum.lt_asymm h)⟩
  have : IsTrans (Q × Q) fun a b => (isnan b.1 || le a.1 b.1) = true := ⟨by
    intro a b c h1 h2
    rw [Bool.or_eq_true] at h1 h2 ⊢
    rcases h2 with h2 | h2
    · exact .inl h2
    · obtain ⟨nb, nc⟩ := not_nan_of_le h2
      rcases h1 with h1 | h1
      · rw [nb] at h1
        cases h1
      · exact .inr (LawfulPyNum.le_trans (not_nan_of_le h1).1 nb nc h1 h2)⟩
  have := List.pairwise_insertionSort (fun a b : Q × Q => (isnan b.1 || le a.1 b.1) = true) l
  exact this.imp fun h => by simpa only [Bool.or_eq_true] using h

/-- Nelder-Mead from three points, one of them outside the domain. -/
example : ∃ o centroid r, NMRuns o nanLastSort centroid halfProb stillClock
      (.list [.npy (-1), .npy 3, .npy 2]) (.ok r) ∧ DefinedAt halfProb.cost r.point := by
  refine ⟨⟨.py 1000, .py 0, .py 0, 0, 0, none, some 3, .py 1, .py 2, .py (1 / 2)⟩,
    fun _ _ => .ok (.npy 1), ?_⟩
  obtain ⟨r, hr, hok⟩ := exists_of_checkFuel (n := 5) (p := isOk fun _ => true)
    (step := nmStep (NMObj.resolve ⟨.py 1000, .py 0, .py 0, 0, 0, none, some 3, .py 1, .py 2,
      .py (1 / 2)⟩ 1) nanLastSort (fun _ _ => .ok (.npy 1)) halfProb stillClock)
    (s := nmInit nanLastSort halfProb [.npy (-1), .npy 3, .npy 2]) (by decide +kernel)
  obtain ⟨r, rfl, -⟩ := exists_of_isOk hok
  have hrun : NMRuns ⟨.py 1000, .py 0, .py 0, 0, 0, none, some 3, .py 1, .py 2, .py (1 / 2)⟩
      nanLastSort (fun _ _ => .ok (.npy 1)) halfProb stillClock
      (.list [.npy (-1), .npy 3, .npy 2]) (.ok r) := hr
  exact ⟨r, hrun, (C163_nelderMead nanLastSort_sorts (x := [.npy (-1), .npy 3, .npy 2]) rfl hrun
    (p := .npy 2) (by simp) (by unfold DefinedAt; decide +kernel)).2.1⟩

end Verif.Opt
