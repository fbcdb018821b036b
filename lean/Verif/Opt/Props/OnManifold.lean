/-
C109: every point an optimizer evaluates, logs or returns lies on the manifold, and every
direction it searches along is a tangent vector.
-/
import Verif.Opt.Props.LineSearch
import Verif.Opt.Model.Centroid

namespace Verif.Opt
open PyNum

variable {F P E S : Type*} [PyNum F]

/-! ## Specification

`On p`: the array `p` is a point of the manifold; `Tan p v`: `v` is a tangent vector at `p`. -/

/-- The manifold's methods map points and tangent vectors to points and tangent vectors.
Nothing is said about arguments that are not on the manifold or not tangent. -/
structure ClosedMfd (M : Mfd F P E) (On : P → Prop) (Tan : P → E → Prop) : Prop where
  retraction : ∀ x v, On x → Tan x v → On (M.retraction x v)
  transport : ∀ x y v, On x → On y → Tan x v → Tan y (M.transport x y v)
  zeroVector : ∀ x, On x → Tan x (M.zeroVector x)
  toTangent : ∀ x v, On x → Tan x v → Tan x (M.toTangent x v)
  add : ∀ x v w, On x → Tan x v → Tan x w → Tan x (M.add v w)
  neg : ∀ x v, On x → Tan x v → Tan x (M.neg v)
  smul : ∀ x a v, On x → Tan x v → Tan x (M.smul a v)

/-- The same for the logarithm, which only derivative-free optimizers use. -/
def ClosedLog (M : Mfd F P E) (On : P → Prop) (Tan : P → E → Prop) : Prop :=
  ∀ x y, On x → On y → Tan x (M.log x y)

/-- The problem's operators return tangent vectors at points of the manifold. -/
structure ClosedProb (pb : Prob F P E) (On : P → Prop) (Tan : P → E → Prop) : Prop where
  mfd : ClosedMfd pb.M On Tan
  grad : ∀ x, On x → Tan x (pb.grad x)
  precon : ∀ x v, On x → Tan x v → Tan x (pb.precon x v)

/-- The Hessian maps tangent vectors to tangent vectors. -/
def ClosedHess (pb : Prob F P E) (On : P → Prop) (Tan : P → E → Prop) : Prop :=
  ∀ x v, On x → Tan x v → Tan x (pb.hess x v)

/-- Searching from a point along a tangent vector, a line searcher evaluates and returns
points of the manifold only. -/
def SearchesOn (ls : LineSearcher F P E S) (M : Mfd F P E) (On : P → Prop)
    (Tan : P → E → Prop) : Prop :=
  ∀ mem obj x d f0 df0 o, On x → Tan x d → ls.search mem obj M x d f0 df0 = .ok o →
    On o.newx ∧ ∀ p ∈ o.evals, On p

/-- Everything a result reports lies on the manifold: the returned point, the points at which
the cost was evaluated, the logged points. -/
def ResultOn (On : P → Prop) (r : Result F P) : Prop :=
  On r.point ∧ (∀ p ∈ r.evals, On p) ∧ ∀ l, r.log = some l → ∀ e ∈ l, On e.point

variable {On : P → Prop} {Tan : P → E → Prop}

/-! ## Line searchers -/

theorem btLoop_on {M : Mfd F P E} (hM : ClosedMfd M On Tan) {obj : P → F} {x : P} {d : E}
    {f0 df0 c : F} {next : F → F} (hx : On x) (hd : Tan x d) (n : ℕ) (s : BTState F P)
    (hs : On s.newx ∧ ∀ p ∈ s.evals, On p) :
    On (btLoop obj M x d f0 df0 c next n s).newx ∧
      ∀ p ∈ (btLoop obj M x d f0 df0 c next n s).evals, On p := by
  induction n generalizing s with
  | zero => exact hs
  | succ n ih =>
    unfold btLoop
    split
    · refine ih _ ⟨?_, ?_⟩
      · exact hM.retraction _ _ hx (hM.smul _ _ _ hx hd)
      · intro p hp
        simp only [trial, List.mem_append, List.mem_singleton] at hp
        rcases hp with hp | rfl
        · exact hs.2 p hp
        · exact hM.retraction _ _ hx (hM.smul _ _ _ hx hd)
    · exact hs

omit [PyNum F] in
private theorem trial_on {M : Mfd F P E} (hM : ClosedMfd M On Tan) {obj : P → F} {x : P} {d : E}
    (hx : On x) (hd : Tan x d) (a : F) (n : ℤ) :
    On (trial obj M x d a n []).newx ∧ ∀ p ∈ (trial obj M x d a n []).evals, On p := by
  simp only [trial, List.nil_append, List.mem_singleton, forall_eq, and_self]
  exact hM.retraction _ _ hx (hM.smul _ _ _ hx hd)

/-- **C109** (back-tracking line search): trial points and result lie on the manifold. -/
theorem C109_backTracking {M : Mfd F P E} (hM : ClosedMfd M On Tan) (c : BackTrackingCfg F) :
    SearchesOn (backTracking P E c) M On Tan := by
  intro mem obj x d f0 df0 o hx hd h
  simp only [backTracking, backTrackingSearch] at h
  split at h
  · cases h
  · rename_i alpha _
    have hb := btLoop_on hM (obj := obj) (f0 := f0) (df0 := df0) (c := c.sufficientDecrease)
      (next := fun a => mul c.contractionFactor a) hx hd c.maxIterations.toNat _
      (trial_on hM (obj := obj) hx hd alpha 1)
    split at h <;> cases h
    · exact ⟨hx, hb.2⟩
    · exact hb

/-- **C109** (adaptive line search). -/
theorem C109_adaptive {M : Mfd F P E} (hM : ClosedMfd M On Tan) (c : AdaptiveCfg F) :
    SearchesOn (adaptive P E c) M On Tan := by
  intro mem obj x d f0 df0 o hx hd h
  simp only [adaptive, adaptiveSearch] at h
  split at h
  · cases h
  · rename_i alpha _
    have hb := btLoop_on hM (obj := obj) (f0 := f0) (df0 := df0) (c := c.sufficientDecrease)
      (next := fun a => mul a c.contractionFactor) hx hd c.maxIterations.toNat _
      (trial_on hM (obj := obj) hx hd alpha 1)
    cases h
    refine ⟨?_, hb.2⟩
    dsimp only
    split
    · exact hx
    · exact hb.1

/-! ## Logs -/

private def LogOn (On : P → Prop) (log : Option (List (LogEntry F P))) : Prop :=
  ∀ l, log = some l → ∀ e ∈ l, On e.point

omit [PyNum F] in
private theorem LogOn.init (cfg : Cfg F) : LogOn On (initLog cfg : Option (List (LogEntry F P))) := by
  intro l hl e he
  simp only [initLog] at hl
  split at hl
  · cases hl; cases he
  · cases hl

omit [PyNum F] in
private theorem LogOn.add {cfg : Cfg F} {log : Option (List (LogEntry F P))} {e : LogEntry F P}
    (h : LogOn On log) (he : On e.point) : LogOn On (addLog cfg log e) := by
  intro l hl e' he'
  simp only [addLog] at hl
  split at hl
  · exact h l hl e' he'
  · obtain ⟨l', hl', rfl⟩ := Option.map_eq_some_iff.1 hl
    simp only [List.mem_append, List.mem_singleton] at he'
    rcases he' with he' | rfl
    · exact h l' hl' e' he'
    · exact he

/-! ## Steepest descent -/

/-- **C109** (steepest descent): started on the manifold, every point evaluated, logged or
returned is on the manifold. -/
theorem C109_steepestDescent {cfg : Cfg F} {ls : LineSearcher F P E S} {pb : Prob F P E}
    {clk : Clock F} {x : P} {mem : S} {r : Result F P} {m : S} (hM : ClosedMfd pb.M On Tan)
    (hg : ∀ x, On x → Tan x (pb.grad x)) (hls : SearchesOn ls pb.M On Tan) (hx : On x)
    (h : SDRuns cfg ls pb clk x mem (.ok (r, m))) : ResultOn On r := by
  unfold SDRuns at h
  split at h
  · cases h
  · refine h.invariant (fun s => On s.x ∧ (∀ p ∈ s.evals, On p) ∧ LogOn On s.log)
      (fun r => ResultOn On r.1) ?_ ?_ ⟨hx, by simp [sdInit], LogOn.init cfg⟩
    · rintro s s' ⟨h1, h2, h3⟩ hs
      obtain ⟨o, ho, -, rfl⟩ := sdStep_next hs
      obtain ⟨a, b⟩ := hls _ _ _ _ _ _ _ h1 (hM.neg _ _ h1 (hg _ h1)) ho
      refine ⟨a, ?_, LogOn.add h3 h1⟩
      intro p hp
      simp only [List.mem_append, List.mem_singleton] at hp
      rcases hp with (hp | rfl) | hp
      · exact h2 p hp
      · exact h1
      · exact b p hp
    · rintro s r ⟨h1, h2, h3⟩ hs
      obtain ⟨o, reason, ho, -, rfl⟩ := sdStep_brk hs
      obtain ⟨a, b⟩ := hls _ _ _ _ _ _ _ h1 (hM.neg _ _ h1 (hg _ h1)) ho
      refine ⟨a, ?_, LogOn.add h3 h1⟩
      intro p hp
      simp only [List.mem_append, List.mem_singleton] at hp
      rcases hp with ((hp | rfl) | hp) | rfl
      · exact h2 p hp
      · exact h1
      · exact b p hp
      · exact a

/-! ## Conjugate gradient -/

private theorem cgSearchDir_tan {pb : Prob F P E} {s : CGState F P E S}
    (hM : ClosedMfd pb.M On Tan) (hx : On s.x) (hP : Tan s.x s.Pgrad) (hd : Tan s.x s.dir) :
    Tan s.x (cgSearchDir pb s).1 := by
  unfold cgSearchDir
  split
  · exact hM.neg _ _ hx hP
  · exact hd

/-- **C109** (conjugate gradient): as for steepest descent; moreover every line search starts
at a point of the manifold and along a vector tangent there. -/
theorem C109_conjugateGradient {cfg : Cfg F} {rule : BetaRule} {orth : F}
    {ls : LineSearcher F P E S} {pb : Prob F P E} {clk : Clock F} {x : P} {mem : S}
    {r : Result F P} {m : S} {searches : List (P × E × F)} (hpb : ClosedProb pb On Tan)
    (hls : SearchesOn ls pb.M On Tan) (hx : On x)
    (h : CGRuns cfg rule orth ls pb clk x mem (.ok (r, m, searches))) :
    ResultOn On r ∧ ∀ q ∈ searches, On q.1 ∧ Tan q.1 q.2.1 := by
  have hM := hpb.mfd
  unfold CGRuns at h
  split at h
  · cases h
  · refine h.invariant (fun s => (On s.x ∧ Tan s.x s.grad ∧ Tan s.x s.Pgrad ∧ Tan s.x s.dir) ∧
        (∀ p ∈ s.evals, On p) ∧ LogOn On s.log ∧ ∀ q ∈ s.searches, On q.1 ∧ Tan q.1 q.2.1)
      (fun r => ResultOn On r.1 ∧ ∀ q ∈ r.2.2, On q.1 ∧ Tan q.1 q.2.1) ?_ ?_ ?_
    · rintro s s' ⟨⟨h1, h2, h3, h4⟩, h5, h6, h7⟩ hs
      obtain ⟨o, nd, -, ho, hnd, rfl⟩ := cgStep_next hs
      have hd := cgSearchDir_tan hM h1 h3 h4
      obtain ⟨a, b⟩ := hls _ _ _ _ _ _ _ h1 hd ho
      have hg := hpb.grad _ a
      have hP := hpb.precon _ _ a hg
      refine ⟨⟨a, hg, hP, ?_⟩, ?_, LogOn.add h6 h1, ?_⟩
      · simp only [cgDirection] at hnd
        split at hnd
        · cases hnd
        · split at hnd
          · cases hnd; exact hM.neg _ _ a hP
          · split at hnd
            · cases hnd
            · cases hnd
              exact hM.add _ _ _ a (hM.neg _ _ a hP)
                (hM.smul _ _ _ a (hM.transport _ _ _ h1 a hd))
      · intro p hp
        simp only [List.mem_append, List.mem_singleton] at hp
        rcases hp with (hp | hp) | rfl
        · exact h5 p hp
        · exact b p hp
        · exact a
      · intro q hq
        simp only [List.mem_append, List.mem_singleton] at hq
        rcases hq with hq | rfl
        · exact h7 q hq
        · exact ⟨h1, hd⟩
    · rintro s r ⟨⟨h1, h2, h3, h4⟩, h5, h6, h7⟩ hs
      obtain ⟨reason, -, rfl⟩ := cgStep_brk hs
      exact ⟨⟨h1, h5, LogOn.add h6 h1⟩, h7⟩
    · have hg := hpb.grad _ hx
      have hP := hpb.precon _ _ hx hg
      exact ⟨⟨hx, hg, hP, hM.neg _ _ hx hP⟩, by simp [cgInit, hx], LogOn.init cfg,
        by simp [cgInit]⟩

/-! ## Nelder-Mead -/

section NM
variable {M : Mfd F P E}

omit [PyNum F] in
private theorem replaceWorst_on {l : List (F × P)} {v : F × P} (hl : ∀ q ∈ l, On q.2)
    (hv : On v.2) : ∀ q ∈ replaceWorst l v, On q.2 := by
  intro q hq
  simp only [replaceWorst, List.mem_append, List.mem_singleton] at hq
  rcases hq with hq | rfl
  · exact hl q (List.mem_of_mem_dropLast hq)
  · exact hv

omit [PyNum F] in
private theorem shrinkMove_on {M : Mfd F P E} {obj : P → F} {dim : ℕ}
    {best : F × P} {l : List (F × P)} {evals : List P} {m : NMMove F P}
    (hpm : ∀ x y, On x → On y → On (M.pairMean x y)) (hb : On best.2)
    (hl : ∀ q ∈ l, On q.2) (he : ∀ p ∈ evals, On p)
    (h : nmShrinkMove obj M dim best l evals = .ok m) :
    (∀ q ∈ m.simplex, On q.2) ∧ ∀ p ∈ m.evals, On p := by
  simp only [nmShrinkMove, nmShrink] at h
  split at h
  · cases h
  · rename_i l' hl'
    split at hl'
    · cases hl'
    · have hon : ∀ q ∈ l', On q.2 := by
        cases hl'
        intro q hq
        obtain ⟨i, hi, rfl⟩ := List.mem_mapIdx.1 hq
        split
        · exact hpm _ _ hb (hl _ (List.getElem_mem _))
        · exact hl _ (List.getElem_mem _)
      cases h
      refine ⟨hon, ?_⟩
      intro p hp
      simp only [List.mem_append, List.mem_map] at hp
      rcases hp with hp | ⟨q, hq, rfl⟩
      · exact he p hp
      · exact hon q (List.mem_of_mem_drop (List.mem_of_mem_take hq))

theorem nmMove_on (hM : ClosedMfd M On Tan) (hlog : ClosedLog M On Tan) {o : NMObj F} {obj : P → F} {xbar : P}
    {l : List (F × P)} {m : NMMove F P}
    (hpm : ∀ x y, On x → On y → On (M.pairMean x y)) (hx : On xbar) (hl : ∀ q ∈ l, On q.2)
    (h : nmMove o obj M xbar l = .ok m) :
    (∀ q ∈ m.simplex, On q.2) ∧ ∀ p ∈ m.evals, On p := by
  unfold nmMove at h
  split at h
  · rename_i worst best hw hb
    have hw := hl _ (List.mem_of_getLast? hw)
    have hb := hl _ (List.mem_of_mem_head? hb)
    have hr : ∀ a, On (M.retraction xbar (M.smul a (M.log xbar worst.2))) := fun a =>
      hM.retraction _ _ hx (hM.smul _ _ _ hx (hlog _ _ hx hw))
    simp only at h
    split at h
    · cases h
    · cases h
      exact ⟨replaceWorst_on hl (hr _), by simp [hr]⟩
    · split at h
      · split at h <;> cases h <;> exact ⟨replaceWorst_on hl (hr _), by simp [hr]⟩
      · unfold nmContract at h
        split at h
        · cases h
        · simp only at h
          split at h
          · split at h
            · split at h
              · cases h
                exact ⟨replaceWorst_on hl (hr _), by simp [hr]⟩
              · exact shrinkMove_on hpm hb hl (by simp [hr]) h
            · split at h
              · cases h
                exact ⟨replaceWorst_on hl (hr _), by simp [hr]⟩
              · exact shrinkMove_on hpm hb hl (by simp [hr]) h
          · exact shrinkMove_on hpm hb hl (by simp [hr]) h
  · cases h

end NM

/-- The points of an `initial_point` argument (for `None`, the points drawn). -/
def InitArg.AllOn (On : P → Prop) : InitArg P → Prop
  | .none draws => ∀ i, On (draws i)
  | .list l => ∀ p ∈ l, On p
  | .tuple l => ∀ p ∈ l, On p
  | .other => True

/-- **C109** (Nelder-Mead): started from points of the manifold, and provided the centroids
are on the manifold (see `C109_centroid`), every point evaluated or returned is. -/
theorem C109_nelderMead {o : NMObj F} {sort : List (F × P) → List (F × P)}
    {centroid : ℤ → List P → Except PyErr P} {pb : Prob F P E} {clk : Clock F}
    {init : InitArg P} {r : Result F P} (hM : ClosedMfd pb.M On Tan)
    (hlog : ClosedLog pb.M On Tan)
    (hpm : ∀ x y, On x → On y → On (pb.M.pairMean x y)) (hsort : ∀ l, (sort l).Perm l)
    (hcent : ∀ it pts x, (∀ p ∈ pts, On p) → centroid it pts = .ok x → On x)
    (hinit : init.AllOn On) (h : NMRuns o sort centroid pb clk init (.ok r)) :
    ResultOn On r := by
  unfold NMRuns at h
  split at h
  · cases h
  · rename_i x hx
    have hx0 : ∀ p ∈ x, On p := by
      cases init with
      | none draws =>
        cases hx
        intro p hp
        obtain ⟨i, -, rfl⟩ := List.mem_map.1 hp
        exact hinit i
      | list l =>
        simp only [nmSimplex] at hx
        split at hx <;> cases hx
        exact hinit
      | tuple l =>
        simp only [nmSimplex] at hx
        split at hx <;> cases hx
        exact hinit
      | other => cases hx
    refine h.invariant (fun s => (∀ q ∈ s.simplex, On q.2) ∧ ∀ p ∈ s.evals, On p)
      (fun r => ResultOn On r) ?_ ?_ ⟨?_, hx0⟩
    · rintro s s' ⟨h1, h2⟩ hs
      obtain ⟨xbar, m, -, hc, hm, rfl⟩ := nmStep_next hs
      have hs' : ∀ q ∈ sort s.simplex, On q.2 := fun q hq => h1 q ((hsort _).mem_iff.1 hq)
      have hxb := hcent _ _ _ (by
        intro p hp
        obtain ⟨q, hq, rfl⟩ := List.mem_map.1 hp
        exact hs' q (List.mem_of_mem_dropLast hq)) hc
      obtain ⟨a, b⟩ := nmMove_on hM hlog hpm hxb hs' hm
      refine ⟨a, ?_⟩
      intro p hp
      rcases List.mem_append.1 hp with hp | hp
      · exact h2 p hp
      · exact b p hp
    · rintro s r ⟨h1, h2⟩ hs
      obtain ⟨reason, best, -, hb, rfl⟩ := nmStep_brk hs
      have hb' : On best.2 := h1 _ ((hsort _).mem_iff.1 (List.mem_of_mem_head? hb))
      refine ⟨hb', ?_, LogOn.init _⟩
      intro p hp
      rcases List.mem_append.1 hp with hp | hp
      · exact h2 p hp
      · rw [List.mem_singleton.1 hp]; exact hb'
    · intro q hq
      have := (hsort _).mem_iff.1 hq
      obtain ⟨p, hp, rfl⟩ := List.mem_map.1 this
      exact hx0 p hp

/-- **C109** (`compute_centroid`): the centroid of points of the manifold, computed from a
random point of the manifold, is on the manifold. -/
theorem C109_centroid {M : Mfd F P E} {dist : P → P → F} {clk : Clock F} {draw : P}
    {points : List P} {x : P} (hM : ClosedMfd M On Tan)
    (hlog : ClosedLog M On Tan) (hdraw : On draw)
    (hp : ∀ p ∈ points, On p) (h : CentroidRuns M dist clk draw points (.ok x)) : On x := by
  obtain ⟨r', hr, hx⟩ := h
  cases r' with
  | error e => cases hx
  | ok r =>
    cases hx
    refine (C109_steepestDescent (On := On) (Tan := Tan) (pb := centroidProb M dist points) hM ?_
      (C109_backTracking hM _) hdraw hr).1
    intro y hy
    refine hM.neg _ _ hy ?_
    have : ∀ (l : List P) (v : E), (∀ p ∈ l, On p) → Tan y v →
        Tan y ((l.map fun p => M.log y p).foldl M.add v) := by
      intro l
      induction l with
      | nil => intro v _ hv; exact hv
      | cons p l ih =>
        intro v hl hv
        exact ih _ (fun q hq => hl q (by simp [hq]))
          (hM.add _ _ _ hy hv (hlog _ _ hy (hl p (by simp))))
    exact this points _ hp (hM.zeroVector _ hy)

/-- **C109** (Nelder-Mead with its own centroids): as `C109_nelderMead`, where every centroid
is the outcome of `compute_centroid` started from a random point of the manifold. -/
theorem C109_nelderMead_centroid {o : NMObj F} {sort : List (F × P) → List (F × P)}
    {centroid : ℤ → List P → Except PyErr P} {dist : P → P → F} {pb : Prob F P E}
    {clk : Clock F} {init : InitArg P} {r : Result F P} (hM : ClosedMfd pb.M On Tan)
    (hlog : ClosedLog pb.M On Tan)
    (hpm : ∀ x y, On x → On y → On (pb.M.pairMean x y)) (hsort : ∀ l, (sort l).Perm l)
    (hcent : ∀ it pts, ∃ clk draw, On draw ∧ CentroidRuns pb.M dist clk draw pts (centroid it pts))
    (hinit : init.AllOn On) (h : NMRuns o sort centroid pb clk init (.ok r)) :
    ResultOn On r := by
  refine C109_nelderMead hM hlog hpm hsort ?_ hinit h
  intro it pts x hp hx
  obtain ⟨clk', draw, hd, hr⟩ := hcent it pts
  rw [hx] at hr
  exact C109_centroid hM hlog hd hp hr

/-! ## Particle swarm -/

omit [PyNum F] in
theorem psoMoves_on [PyNum F] {M : Mfd F P E} (hM : ClosedMfd M On Tan) {obj : P → F}
    (l : List (Particle F P E)) (b : F × P) (hb : On b.2)
    (hl : ∀ p ∈ l, On p.x ∧ On p.y ∧ Tan p.x p.v) :
    On (psoMoves obj M b l).1.2 ∧
      ∀ p ∈ (psoMoves obj M b l).2, On p.x ∧ On p.xprev ∧ On p.y ∧ Tan p.xprev p.v := by
  induction l generalizing b with
  | nil => exact ⟨hb, by simp [psoMoves]⟩
  | cons p ps ih =>
    obtain ⟨h1, h2, h3⟩ := hl p (by simp)
    have hmv : On (psoMove obj M b p).1.2 ∧ (On (psoMove obj M b p).2.x ∧
        On (psoMove obj M b p).2.xprev ∧ On (psoMove obj M b p).2.y ∧
        Tan (psoMove obj M b p).2.xprev (psoMove obj M b p).2.v) := by
      unfold psoMove
      dsimp only
      split
      · refine ⟨?_, hM.retraction _ _ h1 h3, h1, h1, h3⟩
        dsimp only
        split
        · exact h1
        · exact hb
      · exact ⟨hb, hM.retraction _ _ h1 h3, h1, h2, h3⟩
    obtain ⟨a, c⟩ := ih (psoMove obj M b p).1 hmv.1 (fun q hq => hl q (by simp [hq]))
    refine ⟨a, ?_⟩
    intro q hq
    simp only [psoMoves, List.mem_cons] at hq
    rcases hq with rfl | hq
    · exact hmv.2
    · exact c q hq

theorem argminPoint_on (l : List (F × P)) (b : F × P) (hb : On b.2)
    (hl : ∀ q ∈ l, On q.2) : On (argminPoint b l).2 := by
  induction l generalizing b with
  | nil => exact hb
  | cons c cs ih =>
    unfold argminPoint
    refine ih _ ?_ (fun q hq => hl q (by simp [hq]))
    split
    · exact hl c (by simp)
    · exact hb

/-- **C109** (particle swarm): started from points of the manifold with tangent velocities,
every point evaluated, occupied or returned is on the manifold. -/
theorem C109_particleSwarm {o : PSOObj F} {rnd : PSORand F P E} {pb : Prob F P E}
    {clk : Clock F} {init : InitArg P} {r : Result F P} {final positions : List P}
    (hM : ClosedMfd pb.M On Tan)
    (hlog : ClosedLog pb.M On Tan) (hrnd : ∀ i x, On x → Tan x (rnd.velocity i x))
    (hinit : init.AllOn On) (h : PSORuns o rnd pb clk init (.ok (r, final, positions))) :
    ResultOn On r ∧ (∀ p ∈ final, On p) ∧ ∀ p ∈ positions, On p := by
  unfold PSORuns at h
  split at h
  · cases h
  · cases h
  · rename_i o' x0 xs isTuple hx
    have hx0 : ∀ p ∈ x0 :: xs, On p := by
      cases init with
      | none draws =>
        simp only [psoPopulation, Except.ok.injEq, Prod.mk.injEq] at hx
        intro p hp
        rw [← hx.2.1] at hp
        obtain ⟨i, -, rfl⟩ := List.mem_map.1 hp
        exact hinit i
      | list l =>
        simp only [psoPopulation, Except.ok.injEq, Prod.mk.injEq] at hx
        rw [← hx.2.1]
        exact hinit
      | tuple l =>
        simp only [psoPopulation, Except.ok.injEq, Prod.mk.injEq] at hx
        rw [← hx.2.1]
        exact hinit
      | other => cases hx
    split at h
    · cases h
    · refine h.invariant (fun s => (∀ p ∈ s.swarm, On p.x ∧ On p.xprev ∧ On p.y ∧ Tan p.xprev p.v) ∧
          On s.xbest ∧ (∀ p ∈ s.evals, On p) ∧ ∀ p ∈ s.positions, On p)
        (fun r => ResultOn On r.1 ∧ (∀ p ∈ r.2.1, On p) ∧ ∀ p ∈ r.2.2, On p) ?_ ?_ ?_
      · rintro s s' ⟨h1, h2, h3, h4⟩ hs
        obtain ⟨w, swarm, -, hsw, -, rfl⟩ := psoStep_next hs
        have hv : ∀ p ∈ swarm, On p.x ∧ On p.y ∧ Tan p.x p.v := by
          subst hsw
          intro p hp
          obtain ⟨i, hi, rfl⟩ := List.mem_mapIdx.1 hp
          obtain ⟨a, b, c, d⟩ := h1 _ (List.getElem_mem hi)
          refine ⟨a, c, ?_⟩
          exact hM.add _ _ _ a (hM.add _ _ _ a (hM.smul _ _ _ a (hM.transport _ _ _ b a d))
            (hM.smul _ _ _ a (hlog _ _ a c))) (hM.smul _ _ _ a (hlog _ _ a h2))
        obtain ⟨a, b⟩ := psoMoves_on hM (obj := pb.cost) swarm (s.fbest, s.xbest) h2 hv
        refine ⟨b, a, ?_, ?_⟩
        · intro p hp
          rcases List.mem_append.1 hp with hp | hp
          · exact h3 p hp
          · obtain ⟨q, hq, rfl⟩ := List.mem_map.1 hp
            exact (hv q hq).1
        · intro p hp
          rcases List.mem_append.1 hp with hp | hp
          · exact h4 p hp
          · obtain ⟨q, hq, rfl⟩ := List.mem_map.1 hp
            exact (b q hq).1
      · rintro s r ⟨h1, h2, h3, h4⟩ hs
        obtain ⟨reason, -, rfl⟩ := psoStep_brk hs
        refine ⟨⟨h2, h3, LogOn.init _⟩, ?_, h4⟩
        intro p hp
        obtain ⟨q, hq, rfl⟩ := List.mem_map.1 hp
        exact (h1 q hq).1
      · refine ⟨?_, ?_, hx0, hx0⟩
        · intro p hp
          simp only [psoInit] at hp
          obtain ⟨i, hi, rfl⟩ := List.mem_mapIdx.1 hp
          have := hx0 _ (List.getElem_mem hi)
          exact ⟨this, this, this, hrnd _ _ this⟩
        · refine argminPoint_on _ _ (hx0 x0 (by simp)) ?_
          intro q hq
          obtain ⟨p, hp, rfl⟩ := List.mem_map.1 hq
          exact hx0 p (by simp [hp])

/-! ## Trust regions -/

private theorem tcgLoop_tan {c : TRCfg F} {pb : Prob F P E} {x : P} {g : E} {Delta normr0 : F}
    {mininner : ℤ} (hpb : ClosedProb pb On Tan)
    (hhess : ClosedHess pb On Tan) (hx : On x) (n j : ℕ) (s : TCGState F E)
    {o : TCGOut E} (hs : Tan x s.eta ∧ Tan x s.Heta ∧ Tan x s.r ∧ Tan x s.delta)
    (h : tcgLoop c pb x g Delta normr0 mininner n j s = .ok o) :
    Tan x o.eta ∧ Tan x o.Heta := by
  have hM := hpb.mfd
  induction n generalizing j s with
  | zero =>
    cases j with
    | zero => simp [tcgLoop] at h
    | succ j => cases h; exact ⟨hs.1, hs.2.1⟩
  | succ n ih =>
    obtain ⟨h1, h2, h3, h4⟩ := hs
    have hH := hhess _ _ hx h4
    unfold tcgLoop at h
    split at h
    · cases h
    · rename_i o' ho
      cases h
      unfold tcgBody at ho
      simp only at ho
      split at ho
      · cases ho
      · split at ho
        · split at ho
          · cases ho
          · cases ho
            exact ⟨hM.add _ _ _ hx h1 (hM.smul _ _ _ hx h4),
              hM.add _ _ _ hx h2 (hM.smul _ _ _ hx hH)⟩
        · split at ho
          · cases ho; exact ⟨h1, h2⟩
          · split at ho
            · cases ho
              exact ⟨hM.add _ _ _ hx h1 (hM.smul _ _ _ hx h4),
                hM.add _ _ _ hx h2 (hM.smul _ _ _ hx hH)⟩
            · split at ho <;> cases ho
    · rename_i s' hs'
      refine ih (j + 1) s' ?_ h
      unfold tcgBody at hs'
      simp only at hs'
      split at hs'
      · cases hs'
      · split at hs'
        · split at hs' <;> cases hs'
        · split at hs'
          · cases hs'
          · split at hs'
            · cases hs'
            · split at hs'
              · cases hs'
              · rename_i alpha _ _ _ _ _ _ beta _
                cases hs'
                have hr := hM.add _ _ _ hx h3 (hM.smul _ alpha _ hx hH)
                refine ⟨hM.add _ _ _ hx h1 (hM.smul _ _ _ hx h4),
                  hM.add _ _ _ hx h2 (hM.smul _ _ _ hx hH), hr, ?_⟩
                refine hM.toTangent _ _ hx (hM.add _ _ _ hx (hM.neg _ _ hx ?_)
                  (hM.smul _ _ _ hx h4))
                split
                · exact hr
                · exact hpb.precon _ _ hx hr

/-- **C109** (trust-region subproblem): the returned step is a tangent vector. -/
theorem C109_tcg {c : TRCfg F} {pb : Prob F P E} {x : P} {g eta : E} {Delta : F}
    {mininner maxinner : ℤ} {o : TCGOut E} (hpb : ClosedProb pb On Tan)
    (hhess : ClosedHess pb On Tan) (hx : On x)
    (hg : Tan x g) (he : Tan x eta)
    (h : tcg c pb x g eta Delta mininner maxinner = .ok o) : Tan x o.eta ∧ Tan x o.Heta := by
  have hM := hpb.mfd
  refine tcgLoop_tan hpb hhess hx _ _ _ ?_ h
  unfold tcgInit
  dsimp only
  split
  · have hH := hhess _ _ hx he
    have hr := hM.add _ _ _ hx hg hH
    exact ⟨he, hH, hr, hM.neg _ _ hx hr⟩
  · exact ⟨he, hM.zeroVector _ hx, hg, hM.neg _ _ hx (hpb.precon _ _ hx hg)⟩

/-- **C109** (trust regions): started on the manifold (with tangent random starts if `use_rand`
is set), every point evaluated or returned and every iterate is on the manifold. -/
theorem C109_trustRegions {cfg : Cfg F} {c : TRCfg F} {pb : Prob F P E} {clk : Clock F}
    {eta0 : ℤ → E} {mininner : ℤ} {maxinner : Option ℤ} {typicalDist DeltaBar Delta0 : Option F}
    {x : P} {r : Result F P} {history : List (P × F × F)} (hpb : ClosedProb pb On Tan)
    (hhess : ClosedHess pb On Tan)
    (heta : c.useRand = true → ∀ mi ma D D0 s,
      Reaches (trStep cfg c pb clk eta0 mi ma D) (trInit pb x D0) s →
      On s.x → Tan s.x (eta0 (s.iteration + 1))) (hx : On x)
    (h : TRRuns cfg c pb clk eta0 mininner maxinner typicalDist DeltaBar Delta0 x
      (.ok (r, history))) :
    ResultOn On r ∧ ∀ q ∈ history, On q.1 := by
  have hM := hpb.mfd
  unfold TRRuns at h
  split at h
  · cases h
  · rename_i DB D1 _
    have key : ∀ (s : TRState F P E) (acc : Bool) (eta : E) (D : F), Tan s.x eta →
        ((On s.x ∧ Tan s.x s.fgradx) ∧ (∀ p ∈ s.evals, On p) ∧ ∀ q ∈ s.history, On q.1) →
        ((On (trAfter pb s acc eta D).x ∧
            Tan (trAfter pb s acc eta D).x (trAfter pb s acc eta D).fgradx) ∧
          (∀ p ∈ (trAfter pb s acc eta D).evals, On p) ∧
          ∀ q ∈ (trAfter pb s acc eta D).history, On q.1) := by
      rintro s acc eta D ht ⟨⟨h1, h2⟩, h3, h4⟩
      have hr := hM.retraction _ _ h1 ht
      have e1 : ∀ p ∈ s.evals ++ [pb.M.retraction s.x eta], On p := by
        intro p hp
        rcases List.mem_append.1 hp with hp | hp
        · exact h3 p hp
        · rw [List.mem_singleton.1 hp]; exact hr
      have e2 : ∀ q ∈ s.history ++ [(s.x, s.fx, s.Delta)], On q.1 := by
        intro q hq
        rcases List.mem_append.1 hq with hq | hq
        · exact h4 q hq
        · rw [List.mem_singleton.1 hq]; exact h1
      unfold trAfter
      split
      · exact ⟨⟨hr, hpb.grad _ hr⟩, e1, e2⟩
      · exact ⟨⟨h1, h2⟩, e1, e2⟩
    have htan : ∀ (s : TRState F P E) (o : TCGOut E) (eta Heta : E) (mi ma : ℤ),
        (c.useRand = true → Tan s.x (eta0 (s.iteration + 1))) → On s.x → Tan s.x s.fgradx →
        tcg c pb s.x s.fgradx (if c.useRand then eta0 (s.iteration + 1) else pb.M.zeroVector s.x)
          s.Delta mi ma = .ok o →
        (if c.useRand then cauchy pb s.x s.fx s.fgradx s.normGrad s.Delta o
           else .ok (o.eta, o.Heta)) = .ok (eta, Heta) → Tan s.x eta := by
      intro s o eta Heta mi ma hr h1 h2 ho he
      have h0 : Tan s.x (if c.useRand then eta0 (s.iteration + 1) else pb.M.zeroVector s.x) := by
        split
        · exact hr ‹_›
        · exact hM.zeroVector _ h1
      have ht := (C109_tcg hpb hhess h1 h2 h0 ho).1
      split at he
      · unfold cauchy at he
        simp only at he
        split at he
        · cases he
        · split at he
          · cases he
          · split at he <;> cases he
            · exact hM.smul _ _ _ h1 h2
            · exact ht
      · cases he; exact ht
    refine h.invariant (fun s =>
        Reaches (trStep cfg c pb clk eta0 mininner (maxinner.getD pb.M.dim) DB) (trInit pb x D1) s ∧
        (On s.x ∧ Tan s.x s.fgradx) ∧
        (∀ p ∈ s.evals, On p) ∧ ∀ q ∈ s.history, On q.1)
      (fun r => ResultOn On r.1 ∧ ∀ q ∈ r.2, On q.1) ?_ ?_
      ⟨.refl, ⟨hx, hpb.grad _ hx⟩, by simp [trInit, hx], by simp [trInit]⟩
    · rintro s s' ⟨hR, hs⟩ hst
      refine ⟨hR.tail hst, ?_⟩
      obtain ⟨o, eta, Heta, rho, md, D, ho, he, -, -, hcase⟩ := trStep_inv hst
      have ht := htan s o eta Heta _ _ (fun hc => heta hc _ _ _ _ _ hR hs.1.1) hs.1.1 hs.1.2 ho he
      rcases hcase with ⟨-, hc⟩ | ⟨_, -, hc⟩
      · cases hc; exact key s _ _ _ ht hs
      · cases hc
    · rintro s r ⟨hR, hs⟩ hst
      obtain ⟨o, eta, Heta, rho, md, D, ho, he, -, -, hcase⟩ := trStep_inv hst
      have ht := htan s o eta Heta _ _ (fun hc => heta hc _ _ _ _ _ hR hs.1.1) hs.1.1 hs.1.2 ho he
      rcases hcase with ⟨-, hc⟩ | ⟨_, -, hc⟩
      · cases hc
      · cases hc
        obtain ⟨⟨a, -⟩, b, c'⟩ := key s (trAccept c rho md) eta D ht hs
        exact ⟨⟨a, b, LogOn.init _⟩, c'⟩

end Verif.Opt
