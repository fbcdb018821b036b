/-
C152: which methods the manifolds provide, and which optimizers can be used on them.
-/
import Verif.Core.Model.Classes
import Verif.Core.Model.Problem
import Verif.Opt.Props.Raise

namespace Verif.Core
open Verif Verif.Opt

namespace Cls

/-! ### Specification -/

/-- The methods that the public classes do not implement. -/
def lacking : Cls → List Meth
  | stiefel => [.dist, .log, .pairMean]
  | fixedRankEmbedded => [.dist, .e2rh, .exp, .log, .pairMean]
  | elliptope => [.dist, .exp, .log, .pairMean]
  | poincareBall => [.transport]
  | specialHermitianPositiveDefinite => [.e2rh, .pairMean]
  | positive | symmetricPositiveDefinite | hermitianPositiveDefinite | grassmann
  | complexGrassmann | psdFixedRank | psdFixedRankComplex => [.pairMean]
  | _ => []

/-! ### Lemmas -/

/-- `Returns` and `Raises` by computation. -/
def returnsFuel (c : Cls) : ℕ → List Cls → Meth → Bool
  | 0, _, _ => false
  | n + 1, l, m =>
    match find m l with
    | some (.code self super, rest) =>
      self.all (returnsFuel c n c.mro) && super.all (returnsFuel c n rest)
    | _ => false

def raisesFuel (c : Cls) : ℕ → List Cls → Meth → Bool
  | 0, _, _ => false
  | n + 1, l, m =>
    match find m l with
    | some (.notImplemented, _) => true
    | some (.code self super, rest) =>
      self.any (raisesFuel c n c.mro) || super.any (raisesFuel c n rest)
    | _ => false

theorem returns_of_fuel {c : Cls} : ∀ {n : ℕ} {l : List Cls} {m : Meth},
    returnsFuel c n l m = true → Returns c l m
  | 0, _, _, h => by cases h
  | n + 1, l, m, h => by
    unfold returnsFuel at h
    split at h
    · rename_i self super rest hf
      simp only [Bool.and_eq_true, List.all_eq_true] at h
      exact .code hf (fun m' hm => returns_of_fuel (h.1 m' hm))
        fun m' hm => returns_of_fuel (h.2 m' hm)
    · cases h

theorem raises_of_fuel {c : Cls} : ∀ {n : ℕ} {l : List Cls} {m : Meth},
    raisesFuel c n l m = true → Raises c l m
  | 0, _, _, h => by cases h
  | n + 1, l, m, h => by
    unfold raisesFuel at h
    split at h
    · rename_i hf
      exact .here hf
    · rename_i self super rest hf
      simp only [Bool.or_eq_true, List.any_eq_true] at h
      rcases h with ⟨m', hm, h⟩ | ⟨m', hm, h⟩
      · exact .self hf hm (raises_of_fuel h)
      · exact .super hf hm (raises_of_fuel h)
    · cases h

theorem Returns.not_raises {c : Cls} {l : List Cls} {m : Meth} (h : Returns c l m) :
    ¬ Raises c l m := by
  induction h with
  | code hf _ _ ih1 ih2 =>
    intro hr
    cases hr with
    | here h => rw [hf] at h; cases h
    | self h hm hr => rw [hf] at h; cases h; exact ih1 _ hm hr
    | super h hm hr => rw [hf] at h; cases h; exact ih2 _ hm hr

/-! ### C152: methods -/

def allMeths : List Meth :=
  [.typicalDist, .innerProduct, .projection, .norm, .randomPoint, .randomTangentVector, .zeroVector,
   .dist, .e2rg, .e2rh, .retraction, .exp, .log, .transport, .pairMean, .toTangentSpace, .embedding]

theorem mem_allMeths {m : Meth} (hm : m ≠ .weingarten) : m ∈ allMeths := by
  cases m <;> first | exact absurd rfl hm | decide

theorem table_check : (exported.all fun c => allMeths.all fun m =>
    if m ∈ c.lacking then raisesFuel c 5 c.mro m else returnsFuel c 5 c.mro m) = true := by
  decide +kernel

/-- **C152** (methods): a public class raises `NotImplementedError` for the methods in the table
`lacking`, and for no others. -/
theorem C152_methods {c : Cls} (hc : c ∈ exported) {m : Meth} (hm : m ≠ .weingarten) :
    (c.Lacks m ↔ m ∈ c.lacking) ∧ (c.Provides m ↔ m ∉ c.lacking) := by
  have h := List.all_eq_true.mp table_check c hc
  have h := List.all_eq_true.mp h m (mem_allMeths hm)
  by_cases hl : m ∈ c.lacking
  · simp only [hl, if_true] at h
    have h := raises_of_fuel h
    exact ⟨⟨fun _ => hl, fun _ => h⟩, fun hp => absurd h hp.not_raises, fun hn => absurd hl hn⟩
  · simp only [hl, if_false] at h
    have h := returns_of_fuel h
    exact ⟨⟨fun hr => absurd hr h.not_raises, fun hn => absurd hn hl⟩, fun _ => hl, fun _ => h⟩

/-- **C152** (instances): no public class is left with an abstract method, so all of them can be
instantiated. -/
theorem C152_instances {c : Cls} (hc : c ∈ exported) (m : Meth) {rest : List Cls} :
    find m c.mro ≠ some (.abstract, rest) := by
  have h : (exported.all fun c => allMeths.all fun m =>
      decide ((find m c.mro).map Prod.fst ≠ some .abstract)) = true := by decide +kernel
  intro hf
  by_cases hm : m = .weingarten
  · subst hm
    have h : (exported.all fun c =>
      decide ((find .weingarten c.mro).map Prod.fst ≠ some .abstract)) = true := by decide +kernel
    have h := List.all_eq_true.mp h c hc
    simp [hf] at h
  · have h := List.all_eq_true.mp (List.all_eq_true.mp h c hc) m (mem_allMeths hm)
    simp [hf] at h

/-- **C152** (elliptope): the exponential map of the elliptope raises `NotImplementedError`, although
the class inherits one from the mixin that replaces it by the retraction: the mixin comes after the
base class that raises. -/
theorem C152_elliptope_exp : Lacks elliptope .exp ∧ retrAsExpMixin ∈ elliptope.bases ∧
    (∃ self super, retrAsExpMixin.own .exp = some (.code self super)) ∧
    ∀ {rest : List Cls}, find .exp (elliptope :: retrAsExpMixin :: rest) =
      some (.code [.retraction] [], rest) :=
  ⟨raises_of_fuel (n := 5) (by decide +kernel), by decide, ⟨_, _, rfl⟩, rfl⟩

end Cls

/-! ### C152: optimizers -/

theorem lacks_log {c : Cls} (h : c ∈ [Cls.stiefel, .fixedRankEmbedded, .elliptope]) :
    c.Lacks .log :=
  (Cls.C152_methods (by revert c; decide) (by decide)).1.mpr (by revert c; decide)

theorem lacks_e2rh {c : Cls}
    (h : c ∈ [Cls.fixedRankEmbedded, .specialHermitianPositiveDefinite]) : c.Lacks .e2rh :=
  (Cls.C152_methods (by revert c; decide) (by decide)).1.mpr (by revert c; decide)

section
variable {F P E S : Type} [PyNum F]

/-- The method of the manifold behind an operation. -/
def opMeth : Op → Option Meth
  | .norm => some .norm
  | .inner => some .innerProduct
  | .retraction => some .retraction
  | .transport => some .transport
  | .log => some .log
  | .dist => some .dist
  | .pairMean => some .pairMean
  | .zeroVector => some .zeroVector
  | .toTangent => some .toTangentSpace
  | _ => none

/-- The operations are those of an object of class `c` on which everything the class provides returns,
and cost, derivatives and arithmetic return as well. -/
structure Works (c : Cls) (xp : XProb F P E) : Prop where
  method : ∀ op m, opMeth op = some m → c.Provides m → ∀ e, ¬ xp.Raises op e
  other : ∀ op, opMeth op = none → ∀ e, ¬ xp.Raises op e

/-- The operations are those of an object of class `c`: methods it lacks raise
`NotImplementedError`. -/
structure OfClass (c : Cls) (xp : XProb F P E) : Prop where
  transport : c.Lacks .transport → ∀ x y v, xp.M.transport x y v = .error .notImplemented
  log : c.Lacks .log → ∀ x y, xp.M.log x y = .error .notImplemented
  dist : c.Lacks .dist → ∀ x y, xp.M.dist x y = .error .notImplemented
  pairMean : c.Lacks .pairMean → ∀ x y, xp.M.pairMean x y = .error .notImplemented

omit [PyNum F] in
theorem Works.ops {c : Cls} (hc : c ∈ Cls.exported) {xp : XProb F P E} (h : Works c xp) {ops : List Op}
    (ho : ∀ op ∈ ops, ∀ m, opMeth op = some m → m ≠ .weingarten ∧ m ∉ c.lacking) (e : PyErr) :
    ¬ xp.RaisesIn ops e := by
  rintro ⟨op, hop, he⟩
  cases hm : opMeth op with
  | none => exact h.other op hm e he
  | some m =>
    obtain ⟨h1, h2⟩ := ho op hop m hm
    exact h.method op m hm ((Cls.C152_methods hc h1).2.mpr h2) e he

/-- Computation for `Works.ops`. -/
def opsOk (ops : List Op) (c : Cls) : Bool :=
  ops.all fun op => match opMeth op with
    | none => true
    | some m => decide (m ≠ .weingarten ∧ m ∉ c.lacking)

theorem opsOk_spec {ops : List Op} {c : Cls} (h : opsOk ops c = true) :
    ∀ op ∈ ops, ∀ m, opMeth op = some m → m ≠ .weingarten ∧ m ∉ c.lacking := by
  intro op hop m hm
  have := List.all_eq_true.mp h op hop
  rw [hm] at this
  exact of_decide_eq_true this

theorem opsOk_sd (c : Cls) : opsOk sdOps c = true := by cases c <;> decide
theorem opsOk_tr (c : Cls) : opsOk trOps c = true := by cases c <;> decide
theorem opsOk_cg {c : Cls} (h : c ≠ .poincareBall) : opsOk cgOps c = true := by
  cases c <;> first | exact absurd rfl h | decide
theorem opsOk_pso {c : Cls} (h : c ∉ [Cls.stiefel, .fixedRankEmbedded, .elliptope, .poincareBall]) :
    opsOk psoOps c = true := by
  cases c <;> first | exact absurd (by decide) h | decide
theorem opsOk_nm {c : Cls} (h : .pairMean ∉ c.lacking) : opsOk nmOps c = true := by
  cases c <;> first | exact absurd (by decide) h | decide
theorem opsOk_centroid {c : Cls} (h : c ∉ [Cls.stiefel, .fixedRankEmbedded, .elliptope]) :
    opsOk centroidOps c = true := by
  cases c <;> first | exact absurd (by decide) h | decide

variable {pb : Prob F P E} {xp : XProb F P E} {c : Cls} {cfg : Cfg F} {clk : Clock F}
  {xls : XLineSearcher F P E S} {ls : LineSearcher F P E S}

/-- **C152** (steepest descent): steepest descent can be used on every manifold. -/
theorem C152_steepestDescent (hc : c ∈ Cls.exported) (hw : Works c xp) (h : Completes pb xp)
    (hls : Honest xls ls) {x : P} {mem : S} {r : Except PyErr (Result F P × S)} :
    XSDRuns cfg xls xp clk x mem r ↔ SDRuns cfg ls pb clk x mem r :=
  C150_steepestDescent_needs h hls (hw.ops hc (opsOk_spec (opsOk_sd c)))

/-- **C152** (conjugate gradient): conjugate gradient can be used on every manifold but the Poincare
ball. -/
theorem C152_conjugateGradient (hc : c ∈ Cls.exported) (hb : c ≠ .poincareBall) (hw : Works c xp)
    (h : Completes pb xp) (hls : Honest xls ls) {rule : BetaRule} {orth : F} {x : P} {mem : S}
    {r : Except PyErr (Result F P × S × List (P × E × F))} :
    XCGRuns cfg rule orth xls xp clk x mem r ↔ CGRuns cfg rule orth ls pb clk x mem r :=
  C150_conjugateGradient_needs h hls (hw.ops hc (opsOk_spec (opsOk_cg hb)))

/-- **C152** (trust regions): given a Hessian, trust regions can be used on every manifold. -/
theorem C152_trustRegions (hc : c ∈ Cls.exported) (hw : Works c xp) (h : Completes pb xp)
    {tr : TRCfg F} {xeta0 : ℤ → Except PyErr E} {eta0 : ℤ → E} {xdist : Except PyErr F}
    {DB Delta0 : Option F} {dist : Option F} (hd : DistCompletes dist xdist)
    (hu : tr.useRand = false) (hx : ∀ e, xdist = .error e → e = .notImplemented)
    (he0 : ∀ it v, xeta0 it = .ok v → eta0 it = v) {mininner : ℤ} {maxinner : Option ℤ} {x : P}
    {r : Except PyErr (Result F P × List (P × F × F))} :
    XTRRuns cfg tr xp clk xeta0 mininner maxinner xdist DB Delta0 x r ↔
      TRRuns cfg tr pb clk eta0 mininner maxinner dist DB Delta0 x r :=
  C150_trustRegions_needs h hd (hw.ops hc (opsOk_spec (opsOk_tr c))) hu hx he0

/-- **C152** (particle swarm): particle swarm can be used on every manifold but Stiefel and fixed-rank
matrices, the elliptope and the Poincare ball. -/
theorem C152_particleSwarm (hc : c ∈ Cls.exported)
    (hb : c ∉ [Cls.stiefel, .fixedRankEmbedded, .elliptope, .poincareBall]) (hw : Works c xp)
    (h : Completes pb xp) {rnd : PSORand F P E} {o : PSOObj F} {init : InitArg P}
    {r : Except PyErr (Result F P × List P × List P)} :
    XPSORuns o rnd xp clk init r ↔ PSORuns o rnd pb clk init r :=
  C150_particleSwarm_needs h (hw.ops hc (opsOk_spec (opsOk_pso hb)))

/-- **C152** (Nelder-Mead): all moves of Nelder-Mead can be made on the manifolds that have midpoints:
Euclidean spaces, spheres and their intersections with subspaces, oblique manifold, complex circle,
rotations and unitary matrices, Poincare ball. -/
theorem C152_nelderMead (hc : c ∈ Cls.exported) (hb : .pairMean ∉ c.lacking) (hw : Works c xp)
    (h : Completes pb xp) {o : NMObj F} {sort : List (F × P) → List (F × P)}
    {centroid : ℤ → List P → Except PyErr P} {init : InitArg P} {r : Except PyErr (Result F P)} :
    XNMRuns o sort centroid xp clk init r ↔ NMRuns o sort centroid pb clk init r :=
  C150_nelderMead_needs h (hw.ops hc (opsOk_spec (opsOk_nm hb)))

/-- **C152** (centroids): the centroids of Nelder-Mead can be computed on the manifolds with
logarithm and distance. -/
theorem C152_centroid (hc : c ∈ Cls.exported)
    (hb : c ∉ [Cls.stiefel, .fixedRankEmbedded, .elliptope]) (hw : Works c xp)
    (h : Completes pb xp) {dist : P → P → F} (hd : ∀ x y v, xp.M.dist x y = .ok v → dist x y = v)
    {draw : P} {points : List P} {r : Except PyErr P}
    (hr : XCentroidRuns xp.M .ok clk draw points r) : CentroidRuns pb.M dist clk draw points r :=
  (C150_centroid h hd hr).resolve_right fun ⟨e, he, _⟩ =>
    hw.ops hc (opsOk_spec (opsOk_centroid hb)) e he

/-- **C152** (Poincare ball): on the Poincare ball conjugate gradient only returns if its first check
stops it, with the starting point. -/
theorem C152_poincare_conjugateGradient (hm : OfClass .poincareBall xp) {rule : BetaRule} {orth : F}
    {x : P} {mem : S} {r : Result F P} {m : S} {t : List (P × E × F)}
    (hr : XCGRuns cfg rule orth xls xp clk x mem (.ok (r, m, t))) :
    r.iterations = 1 ∧ r.point = x ∧ t = [] :=
  C150_no_transport (fun x y v => ⟨_, hm.transport
    ((Cls.C152_methods (by decide) (by decide)).1.mpr (by decide)) x y v⟩) hr

/-- Without a transport, particle swarm only returns if its first check stops it. -/
theorem no_transport_particleSwarm {rnd : PSORand F P E}
    (hl : ∀ x y v, ∃ e, xp.M.transport x y v = .error e) {o : PSOObj F} {init : InitArg P}
    {r : Result F P} {xs ps : List P} (hr : XPSORuns o rnd xp clk init (.ok (r, xs, ps))) :
    r.iterations = 1 := by
  unfold XPSORuns at hr
  split at hr
  · cases hr
  · cases hr
  rename_i o' x0 l t _
  split at hr
  · cases hr
  rename_i s hs
  split at hr
  · cases hr
  have hne : s.iteration = 0 ∧ ∃ p q, s.swarm = p :: q := by
    unfold xpsoInit at hs
    simp only [except_bind_ok] at hs
    obtain ⟨c0, _, cs, _, hs⟩ := hs
    cases hs
    refine ⟨rfl, _, _, List.mapIdx_cons⟩
  obtain ⟨hit, p, q, hpq⟩ := hne
  obtain ⟨n, hn⟩ := hr
  have hstep : ∀ k, psoStop o' clk (s.iteration + 1) s.costEvaluations s.swarm.length = none →
      xpsoStep o' t rnd xp clk s ≠ .ok k := by
    intro k h0 h1
    unfold xpsoStep at h1
    simp only [h0, except_bind_ok] at h1
    obtain ⟨w, _, sw, h2, _⟩ := h1
    rw [hpq] at h2
    unfold xpsoVelocities xpsoVelocity at h2
    simp only [except_bind_ok] at h2
    obtain ⟨_, ⟨_, h3, _⟩, _⟩ := h2
    obtain ⟨e, he⟩ := hl p.xprev p.x p.v
    rw [he] at h3; cases h3
  cases hst : psoStop o' clk (s.iteration + 1) s.costEvaluations s.swarm.length with
  | none =>
    cases hn with
    | brk h1 => exact absurd h1 (hstep _ hst)
    | next h1 _ => exact absurd h1 (hstep _ hst)
  | some reason =>
    cases hn with
    | brk h1 =>
      unfold xpsoStep at h1
      simp only [hst] at h1
      cases h1
      simp [hit]
    | next h1 _ =>
      unfold xpsoStep at h1
      simp only [hst] at h1
      cases h1

/-- **C152** (particle swarm, negation): on the other manifolds particle swarm only returns if its
first check stops it. -/
theorem C152_no_particleSwarm
    (hb : c ∈ [Cls.stiefel, .fixedRankEmbedded, .elliptope, .poincareBall]) (hm : OfClass c xp)
    {rnd : PSORand F P E} {o : PSOObj F} {init : InitArg P} {r : Result F P} {xs ps : List P}
    (hr : XPSORuns o rnd xp clk init (.ok (r, xs, ps))) : r.iterations = 1 := by
  by_cases hp : c = .poincareBall
  · subst hp
    exact no_transport_particleSwarm (fun x y v => ⟨_, hm.transport
      ((Cls.C152_methods (by decide) (by decide)).1.mpr (by decide)) x y v⟩) hr
  · exact C150_no_log_particleSwarm (fun x y => ⟨_, hm.log
      (lacks_log (by simp only [List.mem_cons, List.not_mem_nil, or_false] at hb ⊢; tauto)) x y⟩) hr

/-- **C152** (Nelder-Mead, negation): on Stiefel and fixed-rank matrices and the elliptope Nelder-Mead
only returns if its first check stops it. -/
theorem C152_no_nelderMead (hb : c ∈ [Cls.stiefel, .fixedRankEmbedded, .elliptope])
    (hm : OfClass c xp) {o : NMObj F} {sort : List (F × P) → List (F × P)}
    {centroid : ℤ → List P → Except PyErr P} {init : InitArg P} {r : Result F P}
    (hr : XNMRuns o sort centroid xp clk init (.ok r)) : r.iterations = 1 :=
  C150_no_log_nelderMead (fun x y => ⟨_, hm.log (lacks_log hb) x y⟩) hr

/-- **C152** (Nelder-Mead, shrinkage): on a manifold without midpoints no iteration of Nelder-Mead that
returns is a shrinkage; one that would shrink raises. -/
theorem C152_no_shrinkage (hc : c ∈ Cls.exported) (hb : .pairMean ∈ c.lacking) (hm : OfClass c xp)
    (hd : 0 < xp.M.dim) {o : NMObj F} {xbar : P} {l : List (F × P)} {m : NMMove F P}
    (h : xnmMove o xp.cost xp.M xbar l = .ok m) : m.action ≠ .shrinkage := by
  have hl := hm.pairMean ((Cls.C152_methods hc (by decide)).1.mpr hb)
  have hs : ∀ best l ev m, xnmShrinkMove xp.cost xp.M xp.M.dim best l ev ≠ .ok m := by
    intro best l ev m hm
    unfold xnmShrinkMove at hm
    simp only [except_bind_ok] at hm
    obtain ⟨t, ht, _⟩ := hm
    obtain ⟨k, hk⟩ := Nat.exists_eq_succ_of_ne_zero hd.ne'
    rw [hk] at ht
    cases hl' : l.tail with
    | nil => rw [hl'] at ht; cases ht
    | cons v l' =>
      rw [hl'] at ht
      unfold xnmShrink at ht
      rw [hl] at ht
      cases ht
  unfold xnmMove at h
  split at h
  · simp only [except_bind_ok] at h
    obtain ⟨_, _, _, _, _, _, _, _, _, _, h⟩ := h
    split at h
    · cases h; exact fun h => nomatch h
    · split at h
      · simp only [except_bind_ok] at h
        obtain ⟨_, _, _, _, _, _, h⟩ := h
        split at h
        · cases h; exact fun h => nomatch h
        · cases h; exact fun h => nomatch h
      · unfold xnmContract at h
        split at h
        · cases h
        · split at h
          · split at h
            · simp only [except_bind_ok] at h
              obtain ⟨_, _, _, _, _, _, h⟩ := h
              split at h
              · cases h; exact fun h => nomatch h
              · exact absurd h (hs _ _ _ _)
            · simp only [except_bind_ok] at h
              obtain ⟨_, _, _, _, _, _, h⟩ := h
              split at h
              · cases h; exact fun h => nomatch h
              · exact absurd h (hs _ _ _ _)
          · exact absurd h (hs _ _ _ _)
  · cases h

end

/-- **C152** (Hessians): the Riemannian Hessian derived from Euclidean derivatives, which the user
supplied or a backend computes, never returns on fixed-rank matrices and on positive definite matrices
of determinant one, and so neither do trust regions. -/
theorem C152_no_hessian {A : Type} [PyArr A] {c : Cls}
    (hb : c ∈ [Cls.fixedRankEmbedded, .specialHermitianPositiveDefinite]) {M : PMfd A}
    (hM : c.Lacks .e2rh → ∀ x g h v, M.e2rh x g h v = .error .notImplemented) {B : Backend A}
    {s : ℕ → ProbState A} {F : Type} [PyNum F] {xp : XProb F (Val A) (Val A)}
    (hh : ∀ x v, ∃ n, xp.hess x v = (callRH M B .converted x v (s n)).1)
    {cfg : Cfg F} {clk : Clock F} {tr : TRCfg F} {xeta0 : ℤ → Except PyErr (Val A)}
    {xdist : Except PyErr F} {DB Delta0 : Option F} {mininner : ℤ} {maxinner : Option ℤ} {x : Val A}
    {r : Result F (Val A) × List (Val A × F × F)} :
    ¬ XTRRuns cfg tr xp clk xeta0 mininner maxinner xdist DB Delta0 x (.ok r) := by
  have hM := hM (lacks_e2rh hb)
  refine C150_no_hessian fun x v => ?_
  obtain ⟨n, hn⟩ := hh x v
  rw [hn]
  unfold callRH
  dsimp only
  split
  · exact ⟨_, rfl⟩
  · split
    · exact ⟨_, rfl⟩
    · unfold finishRH
      split
      · exact ⟨_, rfl⟩
      · split
        · exact ⟨_, rfl⟩
        · exact ⟨_, hM _ _ _ _⟩

/-! ### Examples -/

theorem works_total {F P E : Type} (c : Cls) (pb : Prob F P E) (dist : P → P → F) :
    Works c (total pb dist) where
  method op m _ _ e := by
    cases op <;> simp [XProb.Raises, total]
  other op _ e := by
    cases op <;> simp [XProb.Raises, total]

/-- `Works`, and `OfClass`: the line with a transport that raises is a Poincare ball as far as methods
are concerned. -/
example : Works .poincareBall noTransport ∧ OfClass .poincareBall noTransport := by
  refine ⟨⟨fun op m hm hp e => ?_, fun op hop e => ?_⟩, ⟨fun _ _ _ _ => rfl, ?_, ?_, ?_⟩⟩
  · have h2 := (Cls.C152_methods (c := .poincareBall) (by decide)
      (by cases op <;> cases hm <;> decide)).2.mp hp
    cases op <;> first
      | (simp [XProb.Raises, noTransport, total]; done)
      | (cases hm; exact absurd (by decide) h2)
  · cases op <;> first
      | (simp [XProb.Raises, noTransport, total]; done)
      | cases hop
  all_goals exact fun h => absurd ((Cls.C152_methods (by decide) (by decide)).1.mp h) (by decide)

/-- The line with operations that raise as those of Stiefel manifolds do. -/
def noLog : XProb Q Q Q :=
  let t := total squareProb fun x y => lineMfd.norm x (PyNum.sub y x)
  { t with M := { t.M with log := fun _ _ => .error .notImplemented
                           dist := fun _ _ => .error .notImplemented
                           pairMean := fun _ _ => .error .notImplemented } }

/-- `OfClass` for Stiefel manifolds. -/
example : OfClass .stiefel noLog :=
  ⟨fun h => absurd ((Cls.C152_methods (by decide) (by decide)).1.mp h) (by decide),
    fun _ _ _ => rfl, fun _ _ _ => rfl, fun _ _ _ => rfl⟩

/-- The table is not empty and not full. -/
example : Cls.Lacks .stiefel .log ∧ Cls.Provides .stiefel .transport ∧
    Cls.Lacks .fixedRankEmbedded .e2rh ∧ Cls.Provides .sphere .e2rh :=
  ⟨lacks_log (by decide), (Cls.C152_methods (by decide) (by decide)).2.mpr (by decide),
    lacks_e2rh (by decide), (Cls.C152_methods (by decide) (by decide)).2.mpr (by decide)⟩

end Verif.Core
