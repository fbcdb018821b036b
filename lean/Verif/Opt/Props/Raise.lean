/-
C150: exceptions raised by the user's functions and by methods of the manifold.
-/
import Verif.Opt.Model.Raise
import Verif.Opt.Witness

namespace Verif.Opt
open PyNum

/-! ### Specification -/

/-- The operations an optimizer may call: functions of the problem, methods of the manifold,
arithmetic of tangent vectors. -/
inductive Op
  | cost | grad | hess | precon | norm | inner | retraction | transport | log | dist | pairMean
  | zeroVector | toTangent | add | sub | neg | smul
  deriving DecidableEq, Repr

section
variable {F P E S : Type}

/-- Some call of the operation raises the exception. -/
def XProb.Raises (xp : XProb F P E) : Op → PyErr → Prop
  | .cost, e => ∃ x, xp.cost x = .error e
  | .grad, e => ∃ x, xp.grad x = .error e
  | .hess, e => ∃ x v, xp.hess x v = .error e
  | .precon, e => ∃ x v, xp.precon x v = .error e
  | .norm, e => ∃ x v, xp.M.norm x v = .error e
  | .inner, e => ∃ x v w, xp.M.inner x v w = .error e
  | .retraction, e => ∃ x v, xp.M.retraction x v = .error e
  | .transport, e => ∃ x y v, xp.M.transport x y v = .error e
  | .log, e => ∃ x y, xp.M.log x y = .error e
  | .dist, e => ∃ x y, xp.M.dist x y = .error e
  | .pairMean, e => ∃ x y, xp.M.pairMean x y = .error e
  | .zeroVector, e => ∃ x, xp.M.zeroVector x = .error e
  | .toTangent, e => ∃ x v, xp.M.toTangent x v = .error e
  | .add, e => ∃ v w, xp.M.add v w = .error e
  | .sub, e => ∃ v w, xp.M.sub v w = .error e
  | .neg, e => ∃ v, xp.M.neg v = .error e
  | .smul, e => ∃ c v, xp.M.smul c v = .error e

/-- The problem `pb`, all of whose operations return, agrees with `xp` wherever that returns.  Where
`xp` raises, `pb` is arbitrary. -/
structure Completes (pb : Prob F P E) (xp : XProb F P E) : Prop where
  dim : xp.M.dim = pb.M.dim
  cost {x v} : xp.cost x = .ok v → pb.cost x = v
  grad {x v} : xp.grad x = .ok v → pb.grad x = v
  hess {x u v} : xp.hess x u = .ok v → pb.hess x u = v
  precon {x u v} : xp.precon x u = .ok v → pb.precon x u = v
  norm {x u v} : xp.M.norm x u = .ok v → pb.M.norm x u = v
  inner {x u w v} : xp.M.inner x u w = .ok v → pb.M.inner x u w = v
  retraction {x u v} : xp.M.retraction x u = .ok v → pb.M.retraction x u = v
  transport {x y u v} : xp.M.transport x y u = .ok v → pb.M.transport x y u = v
  log {x y v} : xp.M.log x y = .ok v → pb.M.log x y = v
  pairMean {x y v} : xp.M.pairMean x y = .ok v → pb.M.pairMean x y = v
  zeroVector {x v} : xp.M.zeroVector x = .ok v → pb.M.zeroVector x = v
  toTangent {x u v} : xp.M.toTangent x u = .ok v → pb.M.toTangent x u = v
  add {u w v} : xp.M.add u w = .ok v → pb.M.add u w = v
  sub {u w v} : xp.M.sub u w = .ok v → pb.M.sub u w = v
  neg {u v} : xp.M.neg u = .ok v → pb.M.neg u = v
  smul {c u v} : xp.M.smul c u = .ok v → pb.M.smul c u = v

/-- One of the operations raises the exception. -/
def XProb.RaisesIn (xp : XProb F P E) (ops : List Op) (e : PyErr) : Prop :=
  ∃ op ∈ ops, xp.Raises op e

/-- `a` is `b`, or an exception in `R`. -/
def SoundE {α : Type} (R : PyErr → Prop) (a b : Except PyErr α) : Prop :=
  a = b ∨ ∃ e, R e ∧ a = .error e

/-- Operations used by line searches. -/
def lsOps : List Op := [.cost, .norm, .retraction, .smul]

/-- Operations used by steepest descent. -/
def sdOps : List Op := [.cost, .grad, .norm, .neg, .retraction, .smul]

/-- Operations used by conjugate gradient. -/
def cgOps : List Op :=
  [.cost, .grad, .norm, .neg, .retraction, .smul, .precon, .inner, .transport, .add, .sub]

/-- Operations used by trust regions. -/
def trOps : List Op :=
  [.cost, .grad, .hess, .precon, .norm, .inner, .retraction, .zeroVector, .toTangent, .add, .neg,
   .smul]

/-- Operations used by particle swarm. -/
def psoOps : List Op := [.cost, .retraction, .transport, .log, .smul, .add]

/-- Operations used by Nelder-Mead, apart from the computation of centroids. -/
def nmOps : List Op := [.cost, .retraction, .log, .pairMean, .smul]

/-- A line searcher that treats raising operations as the package's do: it returns what it returns
with any completed operations or raises the exception of one of them. -/
def Honest (xls : XLineSearcher F P E S) (ls : LineSearcher F P E S) : Prop :=
  ∀ {pb : Prob F P E} {xp : XProb F P E}, Completes pb xp → ∀ mem x d f0 df0,
    SoundE (xp.RaisesIn lsOps) (xls.search mem xp.cost xp.M x d f0 df0)
      (ls.search mem pb.cost pb.M x d f0 df0)

/-! ### Lemmas -/

namespace SoundE
variable {α β : Type} {R : PyErr → Prop} {a b : Except PyErr α}

theorem refl : SoundE R a a := Or.inl rfl

theorem mono {R' : PyErr → Prop} (h : SoundE R a b) (hR : ∀ e, R e → R' e) : SoundE R' a b :=
  h.imp id fun ⟨e, he, ha⟩ => ⟨e, hR e he, ha⟩

theorem leaf {w : α} (h : ∀ v, a = .ok v → w = v) (he : ∀ e, a = .error e → R e) :
    SoundE R a (.ok w) := by
  cases a with
  | error e => exact Or.inr ⟨e, he e rfl, rfl⟩
  | ok v => rw [h v rfl]; exact refl

theorem bind_ok {w : α} {f : α → Except PyErr β} {b : Except PyErr β} (h : SoundE R a (.ok w))
    (hf : SoundE R (f w) b) : SoundE R (a >>= f) b := by
  rcases h with rfl | ⟨e, he, rfl⟩
  · exact hf
  · exact Or.inr ⟨e, he, rfl⟩

theorem bind_elim {f : α → Except PyErr β} {B : Except PyErr β} (h : SoundE R a b)
    (he : ∀ e, b = .error e → B = .error e) (hf : ∀ v, b = .ok v → SoundE R (f v) B) :
    SoundE R (a >>= f) B := by
  rcases h with rfl | ⟨e, he', rfl⟩
  · cases a with
    | error e => exact Or.inl (he e rfl).symm
    | ok v => exact hf v rfl
  · exact Or.inr ⟨e, he', rfl⟩

theorem ite {p : Prop} [Decidable p] {a' b' : Except PyErr α} (h : SoundE R a b)
    (h' : SoundE R a' b') : SoundE R (if p then a else a') (if p then b else b') := by
  split
  · exact h
  · exact h'

end SoundE

/-- Sound steps make sound loops. -/
theorem SoundE.runs {St Re : Type} {R : PyErr → Prop} {xstep step : St → Except PyErr (Ctl St Re)}
    (h : ∀ s, SoundE R (xstep s) (step s)) {s : St} {r : Except PyErr Re} (hr : Runs xstep s r) :
    Runs step s r ∨ ∃ e, R e ∧ r = .error e := by
  obtain ⟨n, hn⟩ := hr
  induction hn with
  | @brk s r hs =>
    rcases h s with h' | ⟨e, he, h'⟩
    · exact Or.inl ⟨1, .brk (h'.symm.trans hs)⟩
    · rw [hs] at h'; cases h'
  | @err s e hs =>
    rcases h s with h' | ⟨e', he, h'⟩
    · exact Or.inl ⟨1, .err (h'.symm.trans hs)⟩
    · rw [hs] at h'; cases h'
      exact Or.inr ⟨e, he, rfl⟩
  | @next s s' n r hs _ ih =>
    rcases h s with h' | ⟨e', he, h'⟩
    · rcases ih with ⟨m, hm⟩ | h2
      · exact Or.inl ⟨m + 1, .next (h'.symm.trans hs) hm⟩
      · exact Or.inr h2
    · rw [hs] at h'; cases h'

/-- A loop that returns has reached the state in which it breaks. -/
theorem runs_brk {St Re : Type} {step : St → Except PyErr (Ctl St Re)} {s : St} {r : Re}
    (h : Runs step s (.ok r)) : ∃ t, Reaches step s t ∧ step t = .ok (.brk r) := by
  obtain ⟨n, hn⟩ := h
  have key : ∀ {u : St} {q : Except PyErr Re} {n}, RunsIn step u n q → Reaches step s u →
      q = .ok r → ∃ t, Reaches step s t ∧ step t = .ok (.brk r) := by
    intro u q n hn
    induction hn with
    | brk hb => intro hu hq; cases hq; exact ⟨_, hu, hb⟩
    | err _ => intro _ hq; cases hq
    | next hs _ ih => intro hu hq; exact ih (.tail hu hs) hq
  exact key hn .refl rfl

/-- Equal steps make equal loops. -/
theorem runs_congr {St Re : Type} {xstep step : St → Except PyErr (Ctl St Re)}
    (h : ∀ s, xstep s = step s) {s : St} {r : Except PyErr Re} : Runs xstep s r ↔ Runs step s r := by
  rw [show xstep = step from funext h]

variable {xp : XProb F P E} {pb : Prob F P E} {ops : List Op}

namespace Completes

theorem costS (h : Completes pb xp) (ho : .cost ∈ ops) (x : P) :
    SoundE (xp.RaisesIn ops) (xp.cost x) (.ok (pb.cost x)) :=
  .leaf (fun _ => h.cost) fun _ he => ⟨.cost, ho, x, he⟩

theorem gradS (h : Completes pb xp) (ho : .grad ∈ ops) (x : P) :
    SoundE (xp.RaisesIn ops) (xp.grad x) (.ok (pb.grad x)) :=
  .leaf (fun _ => h.grad) fun _ he => ⟨.grad, ho, x, he⟩

theorem hessS (h : Completes pb xp) (ho : .hess ∈ ops) (x : P) (v : E) :
    SoundE (xp.RaisesIn ops) (xp.hess x v) (.ok (pb.hess x v)) :=
  .leaf (fun _ => h.hess) fun _ he => ⟨.hess, ho, x, v, he⟩

theorem preconS (h : Completes pb xp) (ho : .precon ∈ ops) (x : P) (v : E) :
    SoundE (xp.RaisesIn ops) (xp.precon x v) (.ok (pb.precon x v)) :=
  .leaf (fun _ => h.precon) fun _ he => ⟨.precon, ho, x, v, he⟩

theorem normS (h : Completes pb xp) (ho : .norm ∈ ops) (x : P) (v : E) :
    SoundE (xp.RaisesIn ops) (xp.M.norm x v) (.ok (pb.M.norm x v)) :=
  .leaf (fun _ => h.norm) fun _ he => ⟨.norm, ho, x, v, he⟩

theorem innerS (h : Completes pb xp) (ho : .inner ∈ ops) (x : P) (v w : E) :
    SoundE (xp.RaisesIn ops) (xp.M.inner x v w) (.ok (pb.M.inner x v w)) :=
  .leaf (fun _ => h.inner) fun _ he => ⟨.inner, ho, x, v, w, he⟩

theorem retractionS (h : Completes pb xp) (ho : .retraction ∈ ops) (x : P) (v : E) :
    SoundE (xp.RaisesIn ops) (xp.M.retraction x v) (.ok (pb.M.retraction x v)) :=
  .leaf (fun _ => h.retraction) fun _ he => ⟨.retraction, ho, x, v, he⟩

theorem transportS (h : Completes pb xp) (ho : .transport ∈ ops) (x y : P) (v : E) :
    SoundE (xp.RaisesIn ops) (xp.M.transport x y v) (.ok (pb.M.transport x y v)) :=
  .leaf (fun _ => h.transport) fun _ he => ⟨.transport, ho, x, y, v, he⟩

theorem logS (h : Completes pb xp) (ho : .log ∈ ops) (x y : P) :
    SoundE (xp.RaisesIn ops) (xp.M.log x y) (.ok (pb.M.log x y)) :=
  .leaf (fun _ => h.log) fun _ he => ⟨.log, ho, x, y, he⟩

theorem pairMeanS (h : Completes pb xp) (ho : .pairMean ∈ ops) (x y : P) :
    SoundE (xp.RaisesIn ops) (xp.M.pairMean x y) (.ok (pb.M.pairMean x y)) :=
  .leaf (fun _ => h.pairMean) fun _ he => ⟨.pairMean, ho, x, y, he⟩

theorem zeroVectorS (h : Completes pb xp) (ho : .zeroVector ∈ ops) (x : P) :
    SoundE (xp.RaisesIn ops) (xp.M.zeroVector x) (.ok (pb.M.zeroVector x)) :=
  .leaf (fun _ => h.zeroVector) fun _ he => ⟨.zeroVector, ho, x, he⟩

theorem toTangentS (h : Completes pb xp) (ho : .toTangent ∈ ops) (x : P) (v : E) :
    SoundE (xp.RaisesIn ops) (xp.M.toTangent x v) (.ok (pb.M.toTangent x v)) :=
  .leaf (fun _ => h.toTangent) fun _ he => ⟨.toTangent, ho, x, v, he⟩

theorem addS (h : Completes pb xp) (ho : .add ∈ ops) (v w : E) :
    SoundE (xp.RaisesIn ops) (xp.M.add v w) (.ok (pb.M.add v w)) :=
  .leaf (fun _ => h.add) fun _ he => ⟨.add, ho, v, w, he⟩

theorem subS (h : Completes pb xp) (ho : .sub ∈ ops) (v w : E) :
    SoundE (xp.RaisesIn ops) (xp.M.sub v w) (.ok (pb.M.sub v w)) :=
  .leaf (fun _ => h.sub) fun _ he => ⟨.sub, ho, v, w, he⟩

theorem negS (h : Completes pb xp) (ho : .neg ∈ ops) (v : E) :
    SoundE (xp.RaisesIn ops) (xp.M.neg v) (.ok (pb.M.neg v)) :=
  .leaf (fun _ => h.neg) fun _ he => ⟨.neg, ho, v, he⟩

theorem smulS (h : Completes pb xp) (ho : .smul ∈ ops) (c : F) (v : E) :
    SoundE (xp.RaisesIn ops) (xp.M.smul c v) (.ok (pb.M.smul c v)) :=
  .leaf (fun _ => h.smul) fun _ he => ⟨.smul, ho, c, v, he⟩

end Completes

theorem XProb.RaisesIn.mono {ops' : List Op} (h : ∀ op ∈ ops, op ∈ ops') (e : PyErr)
    (he : xp.RaisesIn ops e) : xp.RaisesIn ops' e :=
  he.imp fun op h' => ⟨h op h'.1, h'.2⟩

variable [PyNum F]

/-! ### Line searches -/

omit [PyNum F] in
theorem xtrial_sound (h : Completes pb xp) (x : P) (d : E) (alpha : F) (count : ℤ)
    (evals : List P) :
    SoundE (xp.RaisesIn lsOps) (xtrial xp.cost xp.M x d alpha count evals)
      (.ok (trial pb.cost pb.M x d alpha count evals)) :=
  (h.smulS (by simp [lsOps]) _ _).bind_ok <| (h.retractionS (by simp [lsOps]) _ _).bind_ok <|
    (h.costS (by simp [lsOps]) _).bind_ok .refl

theorem xbtLoop_sound (h : Completes pb xp) (x : P) (d : E) (f0 df0 c : F) (next : F → F) (n : ℕ)
    (s : BTState F P) :
    SoundE (xp.RaisesIn lsOps) (xbtLoop xp.cost xp.M x d f0 df0 c next n s)
      (.ok (btLoop pb.cost pb.M x d f0 df0 c next n s)) := by
  induction n generalizing s with
  | zero => exact .refl
  | succ n ih =>
    unfold xbtLoop btLoop
    split
    · exact (xtrial_sound h x d _ _ _).bind_ok (ih _)
    · exact .refl

/-- **C150** (back-tracking): the back-tracking line search lets exceptions through. -/
theorem C150_backTracking (c : BackTrackingCfg F) :
    Honest (xbackTracking P E c) (backTracking P E c) := by
  intro pb xp h mem x d f0 df0
  simp only [backTracking, backTrackingSearch]
  refine (h.normS (by simp [lsOps]) x d).bind_ok ?_
  refine SoundE.bind_elim .refl (fun e he => by simp only [he]) fun alpha ha => ?_
  simp only [ha]
  refine (xtrial_sound h x d _ _ _).bind_ok ((xbtLoop_sound h x d _ _ _ _ _ _).bind_ok ?_)
  exact .ite .refl .refl

/-- **C150** (adaptive): so does the adaptive one. -/
theorem C150_adaptive (c : AdaptiveCfg F) : Honest (xadaptive P E c) (adaptive P E c) := by
  intro pb xp h mem x d f0 df0
  simp only [adaptive, adaptiveSearch]
  refine (h.normS (by simp [lsOps]) x d).bind_ok ?_
  refine SoundE.bind_elim .refl (fun e he => by simp only [he]) fun alpha ha => ?_
  simp only [ha]
  exact (xtrial_sound h x d _ _ _).bind_ok ((xbtLoop_sound h x d _ _ _ _ _ _).bind_ok .refl)

/-! ### Steepest descent -/

section
variable {xls : XLineSearcher F P E S} {ls : LineSearcher F P E S} {cfg : Cfg F} {clk : Clock F}

theorem xsdStep_sound (h : Completes pb xp) (hls : Honest xls ls) (s : SDState F P S) :
    SoundE (xp.RaisesIn sdOps) (xsdStep cfg xls xp clk s) (sdStep cfg ls pb clk s) := by
  have hsearch := fun d f0 df0 => (hls h s.mem s.x d f0 df0).mono
    (XProb.RaisesIn.mono (ops' := sdOps) (by simp [lsOps, sdOps]))
  unfold xsdStep xsdSearch sdStep
  simp only [bind_assoc, pure_bind]
  refine (h.costS (by simp [sdOps]) _).bind_ok ?_
  refine (h.gradS (by simp [sdOps]) _).bind_ok ?_
  refine (h.normS (by simp [sdOps]) _ _).bind_ok ?_
  refine (h.negS (by simp [sdOps]) _).bind_ok ?_
  refine SoundE.bind_elim (hsearch _ _ _) (fun e he => by simp only [he]) fun o ho => ?_
  simp only [ho]
  split
  · rename_i hc
    simp only [hc]
    exact .refl
  · rename_i hc
    simp only [hc]
    exact (h.costS (by simp [sdOps]) _).bind_ok .refl

/-- **C150** (steepest descent): with operations that may raise, a run of steepest descent returns
what it returns with any completed operations, or raises the exception of one of the operations it
uses. -/
theorem C150_steepestDescent (h : Completes pb xp) (hls : Honest xls ls) {x : P} {mem : S}
    {r : Except PyErr (Result F P × S)} (hr : XSDRuns cfg xls xp clk x mem r) :
    SDRuns cfg ls pb clk x mem r ∨ ∃ e, xp.RaisesIn sdOps e ∧ r = .error e := by
  unfold XSDRuns at hr
  unfold SDRuns
  cases hp : printerSetup cfg with
  | error e => simp only [hp] at hr ⊢; exact Or.inl hr
  | ok u =>
    simp only [hp] at hr ⊢
    exact SoundE.runs (xsdStep_sound h hls) hr

/-- **C150** (steepest descent, needs): if the operations steepest descent uses return, the others
may do anything. -/
theorem C150_steepestDescent_needs (h : Completes pb xp) (hls : Honest xls ls)
    (hops : ∀ e, ¬ xp.RaisesIn sdOps e) {x : P} {mem : S} {r : Except PyErr (Result F P × S)} :
    XSDRuns cfg xls xp clk x mem r ↔ SDRuns cfg ls pb clk x mem r := by
  unfold XSDRuns SDRuns
  cases hp : printerSetup cfg with
  | error e => exact Iff.rfl
  | ok u =>
    exact runs_congr fun s =>
      (xsdStep_sound h hls s).resolve_right fun ⟨e, he, _⟩ => hops e he

/-! ### Conjugate gradient -/

theorem xeval_sound (h : Completes pb xp) {rule : BetaRule}
    (hz : rule = .hestenesStiefel → ¬ xp.Raises .inner .zeroDivision) (a : BetaArgs P E F) :
    SoundE (xp.RaisesIn cgOps) (rule.xeval xp.M a) (rule.eval pb.M a) := by
  have sub := fun v w => h.subS (ops := cgOps) (by simp [cgOps]) v w
  have inner := fun x v w => h.innerS (ops := cgOps) (by simp [cgOps]) x v w
  cases rule with
  | fletcherReeves => exact .refl
  | polakRibiere =>
    simp only [BetaRule.xeval, BetaRule.eval, xbetaPolakRibiere, betaPolakRibiere]
    refine (sub _ _).bind_ok ((inner _ _ _).bind_ok ?_)
    exact SoundE.bind_elim .refl (fun e he => by simp only [he]) fun q hq => by
      simp only [hq]; exact .refl
  | liuStorey =>
    simp only [BetaRule.xeval, BetaRule.eval, xbetaLiuStorey, betaLiuStorey]
    refine (sub _ _).bind_ok ((inner _ _ _).bind_ok ((inner _ _ _).bind_ok ?_))
    refine SoundE.bind_elim .refl (fun e he => by simp only [he]) fun q hq => ?_
    simp only [hq]
    exact SoundE.bind_elim .refl (fun e he => by simp only [he]) fun q hq => by
      simp only [hq]; exact .refl
  | hagerZhang =>
    simp only [BetaRule.xeval, BetaRule.eval, xbetaHagerZhang, betaHagerZhang]
    refine (sub _ _).bind_ok ((h.transportS (by simp [cgOps]) _ _ _).bind_ok ((sub _ _).bind_ok ?_))
    refine (inner _ _ _).bind_ok ((inner _ _ _).bind_ok ((inner _ _ _).bind_ok
      ((inner _ _ _).bind_ok ?_)))
    refine SoundE.bind_elim .refl (fun e he => by simp only [he]) fun q hq => ?_
    simp only [hq]
    refine SoundE.bind_elim .refl (fun e he => by simp only [he]) fun q hq => ?_
    simp only [hq]
    refine (h.normS (by simp [cgOps]) _ _).bind_ok ?_
    exact SoundE.bind_elim .refl (fun e he => by simp only [he]) fun q hq => by
      simp only [hq]; exact .refl
  | hestenesStiefel =>
    have hz' := hz rfl
    simp only [BetaRule.xeval, BetaRule.eval, xbetaHestenesStiefel, betaHestenesStiefel]
    refine (sub _ _).bind_ok ?_
    generalize pb.M.sub a.newgrad a.oldgrad = diff
    have key : ∀ x v w, (xp.M.inner x v w = .ok (pb.M.inner x v w)) ∨
        ∃ e, xp.M.inner x v w = .error e ∧ e ≠ .zeroDivision := by
      intro x v w
      cases hi : xp.M.inner x v w with
      | ok c => exact Or.inl (by rw [h.inner hi])
      | error e => exact Or.inr ⟨e, rfl, fun he => hz' ⟨x, v, w, he ▸ hi⟩⟩
    have hr : ∀ {e : PyErr} {x v w}, xp.M.inner x v w = .error e → xp.RaisesIn cgOps e :=
      fun he => ⟨.inner, by simp [cgOps], _, _, _, he⟩
    rcases key a.newx a.Pnewgrad diff with h1 | ⟨e, h1, hne⟩
    · rcases key a.newx diff a.dir with h2 | ⟨e, h2, hne⟩
      · rw [h1, h2]
        refine Or.inl ?_
        simp only [bind, Except.bind, pure, Except.pure]
        cases div (pb.M.inner a.newx a.Pnewgrad diff) (pb.M.inner a.newx diff a.dir) with
        | ok q => rfl
        | error e => cases e <;> rfl
      · rw [h1, h2]
        refine Or.inr ⟨e, hr h2, ?_⟩
        cases e <;> first | rfl | exact absurd rfl hne
    · rw [h1]
      refine Or.inr ⟨e, hr h1, ?_⟩
      cases e <;> first | rfl | exact absurd rfl hne

theorem xcgDirection_sound (h : Completes pb xp) {rule : BetaRule} {orth : F}
    (hz : rule = .hestenesStiefel → ¬ xp.Raises .inner .zeroDivision) (a : BetaArgs P E F) (d : E) :
    SoundE (xp.RaisesIn cgOps) (xcgDirection xp.M rule orth a d)
      (cgDirection pb.M rule orth a d) := by
  unfold xcgDirection cgDirection
  refine (h.innerS (by simp [cgOps]) _ _ _).bind_ok ?_
  refine SoundE.bind_elim .refl (fun e he => by simp only [he]) fun q hq => ?_
  simp only [hq]
  refine .ite (h.negS (by simp [cgOps]) _) ?_
  refine (h.transportS (by simp [cgOps]) _ _ _).bind_ok ?_
  refine SoundE.bind_elim (xeval_sound h hz _) (fun e he => by simp only [he]) fun q hq => ?_
  simp only [hq]
  refine (h.negS (by simp [cgOps]) _).bind_ok ((h.smulS (by simp [cgOps]) _ _).bind_ok ?_)
  exact h.addS (by simp [cgOps]) _ _

theorem xcgStep_sound (h : Completes pb xp) (hls : Honest xls ls) {rule : BetaRule} {orth : F}
    (hz : rule = .hestenesStiefel → ¬ xp.Raises .inner .zeroDivision) (s : CGState F P E S) :
    SoundE (xp.RaisesIn cgOps) (xcgStep cfg rule orth xls xp clk s)
      (cgStep cfg rule orth ls pb clk s) := by
  have hsearch := fun d f0 df0 => (hls h s.mem s.x d f0 df0).mono
    (XProb.RaisesIn.mono (ops' := cgOps) (by simp [lsOps, cgOps]))
  unfold xcgStep xcgSearch cgStep
  simp only [bind_assoc, pure_bind]
  cases hc : checkStop cfg clk.start (clk.check1 (s.iteration + 1) 0) (clk.check2 (s.iteration + 1) 0)
      (gradientNorm := s.gradientNorm) (iteration := s.iteration + 1) (stepSize := s.stepSize) with
  | some reason => simp only; exact .refl
  | none =>
    simp only
    refine (h.innerS (by simp [cgOps]) _ _ _).bind_ok ?_
    by_cases hle : le (lit 0) (pb.M.inner s.x s.grad s.dir) = true
    · simp only [hle, if_true, bind_assoc, pure_bind]
      refine (h.negS (by simp [cgOps]) _).bind_ok ?_
      refine SoundE.bind_elim (hsearch _ _ _) (fun e he => by simp only [he]) fun o ho => ?_
      simp only [ho]
      refine (h.costS (by simp [cgOps]) _).bind_ok ((h.gradS (by simp [cgOps]) _).bind_ok ?_)
      refine (h.normS (by simp [cgOps]) _ _).bind_ok ((h.preconS (by simp [cgOps]) _ _).bind_ok ?_)
      refine (h.innerS (by simp [cgOps]) _ _ _).bind_ok
        ((h.transportS (by simp [cgOps]) _ _ _).bind_ok ?_)
      exact SoundE.bind_elim (xcgDirection_sound h hz _ _) (fun e he => by simp only [he])
        fun q hq => by simp only [hq]; exact .refl
    · simp only [hle, if_false, Bool.false_eq_true, bind_assoc, pure_bind]
      refine SoundE.bind_elim (hsearch _ _ _) (fun e he => by simp only [he]) fun o ho => ?_
      simp only [ho]
      refine (h.costS (by simp [cgOps]) _).bind_ok ((h.gradS (by simp [cgOps]) _).bind_ok ?_)
      refine (h.normS (by simp [cgOps]) _ _).bind_ok ((h.preconS (by simp [cgOps]) _ _).bind_ok ?_)
      refine (h.innerS (by simp [cgOps]) _ _ _).bind_ok
        ((h.transportS (by simp [cgOps]) _ _ _).bind_ok ?_)
      exact SoundE.bind_elim (xcgDirection_sound h hz _ _) (fun e he => by simp only [he])
        fun q hq => by simp only [hq]; exact .refl

omit [PyNum F] in
theorem xcgInit_sound (h : Completes pb xp) (x : P) (mem : S) :
    SoundE (xp.RaisesIn cgOps) (xcgInit cfg xp x mem) (.ok (cgInit cfg pb x mem)) := by
  unfold xcgInit cgInit
  refine (h.costS (by simp [cgOps]) _).bind_ok ((h.gradS (by simp [cgOps]) _).bind_ok ?_)
  refine (h.normS (by simp [cgOps]) _ _).bind_ok ((h.preconS (by simp [cgOps]) _ _).bind_ok ?_)
  exact (h.innerS (by simp [cgOps]) _ _ _).bind_ok ((h.negS (by simp [cgOps]) _).bind_ok .refl)

/-- **C150** (conjugate gradient): the same for conjugate gradient, with one exception: the
Hestenes-Stiefel rule catches a `ZeroDivisionError` raised by `inner_product`
(`C150_hestenesStiefel_swallows`). -/
theorem C150_conjugateGradient_partial (h : Completes pb xp) (hls : Honest xls ls)
    {rule : BetaRule} {orth : F}
    (hz : rule = .hestenesStiefel → ¬ xp.Raises .inner .zeroDivision) {x : P} {mem : S}
    {r : Except PyErr (Result F P × S × List (P × E × F))}
    (hr : XCGRuns cfg rule orth xls xp clk x mem r) :
    CGRuns cfg rule orth ls pb clk x mem r ∨ ∃ e, xp.RaisesIn cgOps e ∧ r = .error e := by
  unfold XCGRuns at hr
  unfold CGRuns
  cases hp : printerSetup cfg with
  | error e => simp only [hp] at hr ⊢; exact Or.inl hr
  | ok u =>
    simp only [hp] at hr ⊢
    rcases xcgInit_sound (cfg := cfg) h x mem with h0 | ⟨e, he, h0⟩
    · rw [h0] at hr
      exact SoundE.runs (xcgStep_sound h hls hz) hr
    · rw [h0] at hr
      exact Or.inr ⟨e, he, hr⟩

/-- **C150** (conjugate gradient, needs): if the operations conjugate gradient uses return, the others
may do anything. -/
theorem C150_conjugateGradient_needs (h : Completes pb xp) (hls : Honest xls ls)
    (hops : ∀ e, ¬ xp.RaisesIn cgOps e) {rule : BetaRule} {orth : F} {x : P} {mem : S}
    {r : Except PyErr (Result F P × S × List (P × E × F))} :
    XCGRuns cfg rule orth xls xp clk x mem r ↔ CGRuns cfg rule orth ls pb clk x mem r := by
  unfold XCGRuns CGRuns
  cases hp : printerSetup cfg with
  | error e => exact Iff.rfl
  | ok u =>
    rw [(xcgInit_sound h x mem).resolve_right fun ⟨e, he, _⟩ => hops e he]
    exact runs_congr fun s => (xcgStep_sound h hls
      (fun _ hz => hops _ ⟨.inner, by simp [cgOps], hz⟩) s).resolve_right fun ⟨e, he, _⟩ => hops e he

end

/-! ### Trust regions -/

section
variable {cfg : Cfg F} {clk : Clock F} {c : TRCfg F}

theorem xmodelFun_sound (h : Completes pb xp) (x : P) (g eta Heta : E) :
    SoundE (xp.RaisesIn trOps) (xmodelFun xp x g eta Heta) (.ok (modelFun pb x g eta Heta)) :=
  (h.innerS (by simp [trOps]) _ _ _).bind_ok ((h.innerS (by simp [trOps]) _ _ _).bind_ok .refl)

theorem xtcgBody_sound (h : Completes pb xp) (x : P) (g : E) (Delta normr0 : F)
    (mininner : ℤ) (j : ℕ) (s : TCGState F E) :
    SoundE (xp.RaisesIn trOps) (xtcgBody c xp x g Delta normr0 mininner j s)
      (tcgBody c pb x g Delta normr0 mininner j s) := by
  have add := fun v w => h.addS (ops := trOps) (by simp [trOps]) v w
  have smul := fun a v => h.smulS (ops := trOps) (by simp [trOps]) a v
  have inner := fun x v w => h.innerS (ops := trOps) (by simp [trOps]) x v w
  have hz : ∀ r : E, SoundE (xp.RaisesIn trOps)
      (if c.useRand then pure r else xp.precon x r)
      (.ok (if c.useRand then r else pb.precon x r)) := by
    intro r
    split
    · exact .refl
    · exact h.preconS (by simp [trOps]) _ _
  unfold xtcgBody tcgBody
  dsimp only
  refine (h.hessS (by simp [trOps]) _ _).bind_ok ((inner _ _ _).bind_ok ?_)
  generalize pb.M.inner x s.delta (pb.hess x s.delta) = dHd
  generalize pb.hess x s.delta = Hdelta
  by_cases hd : ne0 dHd = true
  on_goal 1 =>
    simp only [hd, if_true]
    cases hdiv : div s.zr dHd with
    | error e => exact .refl
    | ok alpha => ?_
    refine SoundE.bind_ok (w := (alpha, PyNum.add (PyNum.add s.ePe (mul (mul (lit 2) alpha) s.ePd))
      (mul (pow alpha (lit 2)) s.dPd))) .refl ?_
  on_goal 2 =>
    simp only [hd, if_false, Bool.false_eq_true, pure_bind]
    generalize (lit 0 : F) = alpha
  all_goals
    try dsimp only
    refine .ite ?_ ?_
    · refine SoundE.bind_elim .refl (fun e he => by simp only [he]) fun tau ht => ?_
      simp only [ht]
      exact (smul _ _).bind_ok ((add _ _).bind_ok ((smul _ _).bind_ok ((add _ _).bind_ok .refl)))
    · refine (smul _ _).bind_ok ((add _ _).bind_ok ((smul _ _).bind_ok ((add _ _).bind_ok ?_)))
      refine (xmodelFun_sound h _ _ _ _).bind_ok (.ite .refl ?_)
      refine (smul _ _).bind_ok ((add _ _).bind_ok ((inner _ _ _).bind_ok (.ite .refl ?_)))
      refine (hz _).bind_ok ((inner _ _ _).bind_ok ?_)
      refine SoundE.bind_elim .refl (fun e he => by simp only [he]) fun beta hb => ?_
      simp only [hb]
      exact (h.negS (by simp [trOps]) _).bind_ok ((smul _ _).bind_ok ((add _ _).bind_ok
        ((h.toTangentS (by simp [trOps]) _ _).bind_ok .refl)))

theorem xtcgLoop_sound (h : Completes pb xp) (x : P) (g : E) (Delta normr0 : F) (mininner : ℤ)
    (n j : ℕ) (s : TCGState F E) :
    SoundE (xp.RaisesIn trOps) (xtcgLoop c xp x g Delta normr0 mininner n j s)
      (tcgLoop c pb x g Delta normr0 mininner n j s) := by
  induction n generalizing j s with
  | zero => cases j <;> exact .refl
  | succ n ih =>
    unfold xtcgLoop tcgLoop
    rcases xtcgBody_sound (c := c) h x g Delta normr0 mininner j s with hb | ⟨e, he, hb⟩
    · rw [hb]
      cases tcgBody c pb x g Delta normr0 mininner j s with
      | error e => exact .refl
      | ok k =>
        cases k with
        | brk o => exact .refl
        | next s' => exact ih _ _
    · rw [hb]
      exact Or.inr ⟨e, he, rfl⟩

theorem xtcgInit_sound (h : Completes pb xp) (x : P) (g eta : E) :
    SoundE (xp.RaisesIn trOps) (xtcgInit c xp x g eta)
      (.ok (tcgInit c pb x g eta,
        sqrt (pb.M.inner x (tcgInit c pb x g eta).r (tcgInit c pb x g eta).r))) := by
  have inner := fun x v w => h.innerS (ops := trOps) (by simp [trOps]) x v w
  unfold xtcgInit tcgInit
  by_cases hu : c.useRand = true
  · simp only [hu, if_true]
    refine (h.hessS (by simp [trOps]) _ _).bind_ok ((h.addS (by simp [trOps]) _ _).bind_ok ?_)
    refine (inner _ _ _).bind_ok ((inner _ _ _).bind_ok ((inner _ _ _).bind_ok ?_))
    refine (h.negS (by simp [trOps]) _).bind_ok ((inner _ _ _).bind_ok ?_)
    exact (xmodelFun_sound h _ _ _ _).bind_ok .refl
  · simp only [hu, if_false, Bool.false_eq_true]
    refine (h.zeroVectorS (by simp [trOps]) _).bind_ok ((inner _ _ _).bind_ok ?_)
    refine (h.preconS (by simp [trOps]) _ _).bind_ok ((inner _ _ _).bind_ok ?_)
    exact (h.negS (by simp [trOps]) _).bind_ok .refl

theorem xtcg_sound (h : Completes pb xp) (x : P) (g eta : E) (Delta : F) (mininner maxinner : ℤ) :
    SoundE (xp.RaisesIn trOps) (xtcg c xp x g eta Delta mininner maxinner)
      (tcg c pb x g eta Delta mininner maxinner) :=
  (xtcgInit_sound h x g eta).bind_ok (xtcgLoop_sound h _ _ _ _ _ _ _ _)

theorem xcauchy_sound (h : Completes pb xp) (x : P) (fx : F) (g : E) (n Delta : F) (o : TCGOut E) :
    SoundE (xp.RaisesIn trOps) (xcauchy xp x fx g n Delta o) (cauchy pb x fx g n Delta o) := by
  have smul := fun a v => h.smulS (ops := trOps) (by simp [trOps]) a v
  have inner := fun x v w => h.innerS (ops := trOps) (by simp [trOps]) x v w
  unfold xcauchy cauchy
  dsimp only
  refine (h.hessS (by simp [trOps]) _ _).bind_ok ((inner _ _ _).bind_ok ?_)
  generalize pb.M.inner x g (pb.hess x g) = gHg
  by_cases hle : le gHg (lit 0) = true
  · simp only [hle, if_true, pure_bind]
    refine SoundE.bind_elim .refl (fun e he => by simp only [he]) fun t ht => ?_
    simp only [ht]
    refine (smul _ _).bind_ok ((smul _ _).bind_ok ((inner _ _ _).bind_ok ((inner _ _ _).bind_ok ?_)))
    exact (inner _ _ _).bind_ok ((inner _ _ _).bind_ok (.ite .refl .refl))
  · simp only [hle, if_false, Bool.false_eq_true]
    cases hd : div (pow n (lit 3)) (mul Delta gHg) with
    | error e => exact .refl
    | ok q =>
      refine SoundE.bind_ok (w := pymin q (lit 1)) .refl ?_
      simp only
      refine SoundE.bind_elim .refl (fun e he => by simp only [he]) fun t ht => ?_
      simp only [ht]
      refine (smul _ _).bind_ok ((smul _ _).bind_ok ((inner _ _ _).bind_ok ((inner _ _ _).bind_ok ?_)))
      exact (inner _ _ _).bind_ok ((inner _ _ _).bind_ok (.ite .refl .refl))

theorem xtrRatio_sound (h : Completes pb xp) (x : P) (fx : F) (g : E) (fxProp : F) (eta Heta : E) :
    SoundE (xp.RaisesIn trOps) (xtrRatio c xp x fx g fxProp eta Heta)
      (trRatio c pb x fx g fxProp eta Heta) :=
  (h.innerS (by simp [trOps]) _ _ _).bind_ok ((h.innerS (by simp [trOps]) _ _ _).bind_ok .refl)

/-- Exceptions a run of trust regions may raise: those of the operations it uses, of
`random_tangent_vector` when `use_rand` is set, and of `typical_dist` other than
`NotImplementedError` when no maximal radius is given. -/
def XProb.TRRaises (xp : XProb F P E) (c : TRCfg F) (xeta0 : ℤ → Except PyErr E)
    (xdist : Except PyErr F) (DeltaBar : Option F) (e : PyErr) : Prop :=
  xp.RaisesIn trOps e ∨ (c.useRand = true ∧ ∃ it, xeta0 it = .error e) ∨
    (DeltaBar = none ∧ xdist = .error e ∧ e ≠ .notImplemented)

variable {xeta0 : ℤ → Except PyErr E} {eta0 : ℤ → E} {xdist : Except PyErr F} {DB : Option F}

theorem xtrStep_sound (h : Completes pb xp) (he0 : ∀ it v, xeta0 it = .ok v → eta0 it = v)
    (mininner maxinner : ℤ) (DeltaBar : F) (s : TRState F P E) :
    SoundE (xp.TRRaises c xeta0 xdist DB)
      (xtrStep cfg c xp clk xeta0 mininner maxinner DeltaBar s)
      (trStep cfg c pb clk eta0 mininner maxinner DeltaBar s) := by
  have up : ∀ {α : Type} {a b : Except PyErr α}, SoundE (xp.RaisesIn trOps) a b →
      SoundE (xp.TRRaises c xeta0 xdist DB) a b := fun hab => hab.mono fun e he => Or.inl he
  unfold xtrStep trStep
  dsimp only
  have heta : SoundE (xp.TRRaises c xeta0 xdist DB)
      (if c.useRand then xeta0 (s.iteration + 1) else xp.M.zeroVector s.x)
      (.ok (if c.useRand then eta0 (s.iteration + 1) else pb.M.zeroVector s.x)) := by
    split
    · rename_i hu
      exact .leaf (fun v hv => he0 _ v hv) fun e he => Or.inr (Or.inl ⟨hu, _, he⟩)
    · exact up (h.zeroVectorS (by simp [trOps]) _)
  refine heta.bind_ok ?_
  refine SoundE.bind_elim (up (xtcg_sound h _ _ _ _ _ _)) (fun e he => by simp only [he]) fun o ho => ?_
  simp only [ho]
  refine SoundE.bind_elim (b := if c.useRand then cauchy pb s.x s.fx s.fgradx s.normGrad s.Delta o
    else .ok (o.eta, o.Heta)) (.ite (up (xcauchy_sound h _ _ _ _ _ _)) .refl)
    (fun e he => by simp only [he]) ?_
  rintro ⟨eta, Heta⟩ hq
  simp only [hq]
  refine (up (h.retractionS (by simp [trOps]) _ _)).bind_ok
    ((up (h.costS (by simp [trOps]) _)).bind_ok ?_)
  refine SoundE.bind_elim (up (xtrRatio_sound h _ _ _ _ _ _)) (fun e he => by simp only [he]) ?_
  rintro ⟨rho, dec⟩ hr
  simp only [hr]
  refine SoundE.bind_elim .refl (fun e he => by simp only [he]) fun Delta hD => ?_
  simp only [hD]
  by_cases ha : trAccept c rho dec = true
  · simp only [ha, if_true, pure_bind]
    refine (up (h.gradS (by simp [trOps]) _)).bind_ok
      ((up (h.normS (by simp [trOps]) _ _)).bind_ok .refl)
  · simp only [ha, if_false, Bool.false_eq_true, pure_bind]
    exact .refl

omit [PyNum F] in
theorem xtrInit_sound (h : Completes pb xp) (x : P) (Delta0 : F) :
    SoundE (xp.RaisesIn trOps) (xtrInit xp x Delta0) (.ok (trInit pb x Delta0)) :=
  (h.costS (by simp [trOps]) _).bind_ok <| (h.gradS (by simp [trOps]) _).bind_ok <|
    (h.normS (by simp [trOps]) _ _).bind_ok .refl

/-- `typical_dist` of the manifold, an exception other than `NotImplementedError` being replaced by
anything. -/
def DistCompletes (dist : Option F) (xdist : Except PyErr F) : Prop :=
  (∀ t, xdist = .ok t → dist = some t) ∧ (xdist = .error .notImplemented → dist = none)

theorem xtrRadii_sound {dist : Option F} (hd : DistCompletes dist xdist) (dim : ℕ)
    (Delta0 : Option F) :
    SoundE (xp.TRRaises c xeta0 xdist DB) (xtrRadii dim xdist DB Delta0)
      (trRadii dim dist DB Delta0) := by
  unfold xtrRadii trRadii
  dsimp only
  have fin : ∀ {B : Except PyErr (F × F)} (D : F),
      (∀ d, Delta0 = some d → B = .ok (D, d)) →
      (Delta0 = none → B = match div D (lit 8) with
        | .error e => .error e
        | .ok d => .ok (D, d)) →
      (match Delta0 with
        | some d => do
          let Delta0 ← Except.ok d
          pure (D, Delta0)
        | none => do
          let Delta0 ← div D (lit 8)
          pure (D, Delta0)) = B := by
    intro B D h1 h2
    cases hD : Delta0 with
    | some d => rw [h1 d hD]; rfl
    | none => rw [h2 hD]; simp only; cases div D (lit 8) <;> rfl
  cases DB with
  | some d => exact Or.inl (fin d (by rintro d rfl; rfl) (by rintro rfl; rfl))
  | none =>
    cases xdist with
    | ok t => rw [hd.1 t rfl]; exact Or.inl (fin t (by rintro d rfl; rfl) (by rintro rfl; rfl))
    | error e =>
      by_cases hne : e = .notImplemented
      · subst hne
        rw [hd.2 rfl]
        exact Or.inl (fin _ (by rintro d rfl; rfl) (by rintro rfl; rfl))
      · refine Or.inr ⟨e, Or.inr (Or.inr ⟨rfl, rfl, hne⟩), ?_⟩
        cases e <;> first | rfl | exact absurd rfl hne

/-- **C150** (trust regions): a run of trust regions returns what it returns with any completed
operations, or raises an exception of an operation it uses.  The only exception it catches is a
`NotImplementedError` of `typical_dist`. -/
theorem C150_trustRegions (h : Completes pb xp) (he0 : ∀ it v, xeta0 it = .ok v → eta0 it = v)
    {dist : Option F} (hd : DistCompletes dist xdist) {mininner : ℤ} {maxinner : Option ℤ}
    {Delta0 : Option F} {x : P} {r : Except PyErr (Result F P × List (P × F × F))}
    (hr : XTRRuns cfg c xp clk xeta0 mininner maxinner xdist DB Delta0 x r) :
    TRRuns cfg c pb clk eta0 mininner maxinner dist DB Delta0 x r ∨
      ∃ e, xp.TRRaises c xeta0 xdist DB e ∧ r = .error e := by
  unfold XTRRuns at hr
  unfold TRRuns
  rw [h.dim] at hr
  rcases xtrRadii_sound (xp := xp) (c := c) (xeta0 := xeta0) (DB := DB) hd pb.M.dim Delta0 with
    h0 | ⟨e, he, h0⟩
  · rw [h0] at hr
    cases hq : trRadii pb.M.dim dist DB Delta0 with
    | error e => simp only [hq] at hr ⊢; exact Or.inl hr
    | ok q =>
      obtain ⟨D, d⟩ := q
      simp only [hq] at hr ⊢
      rcases xtrInit_sound h x d with h1 | ⟨e, he, h1⟩
      · rw [h1] at hr
        exact SoundE.runs (xtrStep_sound h he0 _ _ _) hr
      · rw [h1] at hr
        exact Or.inr ⟨e, Or.inl he, hr⟩
  · rw [h0] at hr
    exact Or.inr ⟨e, he, hr⟩

end

/-! ### Particle swarm -/

section
variable {clk : Clock F} {rnd : PSORand F P E}

theorem xpsoVelocities_sound (h : Completes pb xp) (o : PSOObj F) (it : ℤ) (w : F) (xbest : P)
    (i : ℕ) (l : List (Particle F P E)) :
    SoundE (xp.RaisesIn psoOps) (xpsoVelocities o xp.M rnd it w xbest i l)
      (.ok (l.mapIdx fun k p => psoVelocity o pb.M rnd it w xbest (i + k) p)) := by
  induction l generalizing i with
  | nil => exact .refl
  | cons p ps ih =>
    unfold xpsoVelocities
    have hv : SoundE (xp.RaisesIn psoOps) (xpsoVelocity o xp.M rnd it w xbest i p)
        (.ok (psoVelocity o pb.M rnd it w xbest i p)) :=
      (h.transportS (by simp [psoOps]) _ _ _).bind_ok <| (h.smulS (by simp [psoOps]) _ _).bind_ok <|
      (h.logS (by simp [psoOps]) _ _).bind_ok <| (h.smulS (by simp [psoOps]) _ _).bind_ok <|
      (h.logS (by simp [psoOps]) _ _).bind_ok <| (h.smulS (by simp [psoOps]) _ _).bind_ok <|
      (h.addS (by simp [psoOps]) _ _).bind_ok <| (h.addS (by simp [psoOps]) _ _).bind_ok .refl
    refine hv.bind_ok ((ih (i + 1)).bind_ok (Or.inl ?_))
    rw [List.mapIdx_cons]
    simp only [Nat.add_zero, Nat.add_assoc, Nat.add_comm 1]
    rfl

theorem xpsoMoves_sound (h : Completes pb xp) (best : F × P) (l : List (Particle F P E)) :
    SoundE (xp.RaisesIn psoOps) (xpsoMoves xp.cost xp.M false best l)
      (.ok (psoMoves pb.cost pb.M best l)) := by
  induction l generalizing best with
  | nil => exact .refl
  | cons p ps ih =>
    unfold xpsoMoves
    have hm : SoundE (xp.RaisesIn psoOps) (xpsoMove xp.cost xp.M false best p)
        (.ok (psoMove pb.cost pb.M best p)) := by
      unfold xpsoMove psoMove
      refine (h.retractionS (by simp [psoOps]) _ _).bind_ok ?_
      simp only [Bool.false_eq_true, if_false]
      refine (h.costS (by simp [psoOps]) _).bind_ok ?_
      split <;> exact .refl
    exact hm.bind_ok ((ih _).bind_ok .refl)

theorem xpsoStep_sound (h : Completes pb xp) (o : PSOObj F) (isTuple : Bool) (s : PSOState F P E) :
    SoundE (xp.RaisesIn psoOps) (xpsoStep o isTuple rnd xp clk s)
      (psoStep o isTuple rnd pb clk s) := by
  unfold xpsoStep psoStep
  simp only
  cases hst : psoStop o clk (s.iteration + 1) s.costEvaluations s.swarm.length with
  | some reason => exact .refl
  | none =>
    simp only
    refine SoundE.bind_elim .refl (fun e he => by simp only [he]) fun q hq => ?_
    simp only [hq]
    have hv := xpsoVelocities_sound (rnd := rnd) h o (s.iteration + 1)
      (add (lit (2 / 5)) (mul (lit (1 / 2)) (sub (lit 1) q))) s.xbest 0 s.swarm
    simp only [Nat.zero_add] at hv
    refine hv.bind_ok ?_
    generalize (s.swarm.mapIdx fun k p => psoVelocity o pb.M rnd (s.iteration + 1)
      (add (lit (2 / 5)) (mul (lit (1 / 2)) (sub (lit 1) q))) s.xbest k p) = sw
    cases isTuple with
    | false =>
      simp only [Bool.false_and, Bool.false_eq_true, if_false]
      exact (xpsoMoves_sound h _ _).bind_ok .refl
    | true =>
      cases sw with
      | nil => exact .refl
      | cons p ps =>
        simp only [Bool.true_and, List.isEmpty_cons, Bool.not_false, if_true]
        unfold xpsoMoves xpsoMove
        simp only [if_true, bind_assoc]
        exact (h.retractionS (by simp [psoOps]) _ _).bind_ok .refl

omit [PyNum F] in
theorem xcosts_sound (h : Completes pb xp) (ho : .cost ∈ ops) (l : List P) :
    SoundE (xp.RaisesIn ops) (xcosts xp.cost l) (.ok (l.map fun p => (pb.cost p, p))) := by
  induction l with
  | nil => exact .refl
  | cons p ps ih => exact (h.costS ho _).bind_ok (ih.bind_ok .refl)

theorem xpsoInit_sound (h : Completes pb xp) (o : PSOObj F) (x0 : P) (xs : List P) :
    SoundE (xp.RaisesIn psoOps) (xpsoInit o rnd xp x0 xs) (.ok (psoInit o rnd pb x0 xs)) := by
  refine (h.costS (by simp [psoOps]) _).bind_ok ((xcosts_sound h (by simp [psoOps]) xs).bind_ok ?_)
  refine Or.inl ?_
  unfold psoInit
  have : ((pb.cost x0, x0) :: xs.map fun p => (pb.cost p, p)) =
      (x0 :: xs).map fun p => (pb.cost p, p) := rfl
  rw [this]
  simp only [List.mapIdx_eq_zipIdx_map, List.zipIdx_map, List.map_map]
  rfl

/-- **C150** (particle swarm): the same for particle swarm. -/
theorem C150_particleSwarm (h : Completes pb xp) {o : PSOObj F} {init : InitArg P}
    {r : Except PyErr (Result F P × List P × List P)} (hr : XPSORuns o rnd xp clk init r) :
    PSORuns o rnd pb clk init r ∨ ∃ e, xp.RaisesIn psoOps e ∧ r = .error e := by
  unfold XPSORuns at hr
  unfold PSORuns
  rw [h.dim] at hr
  cases hp : psoPopulation (o.resolve pb.M.dim) init with
  | error e => simp only [hp] at hr ⊢; exact Or.inl hr
  | ok q =>
    obtain ⟨o', l, t⟩ := q
    cases l with
    | nil => simp only [hp] at hr ⊢; exact Or.inl hr
    | cons x0 xs =>
      simp only [hp] at hr ⊢
      rcases xpsoInit_sound (rnd := rnd) h o' x0 xs with h0 | ⟨e, he, h0⟩
      · rw [h0] at hr
        cases hs : printerSetup o'.cfg with
        | error e => simp only [hs] at hr ⊢; exact Or.inl hr
        | ok u =>
          simp only [hs] at hr ⊢
          exact SoundE.runs (xpsoStep_sound h o' t) hr
      · rw [h0] at hr
        exact Or.inr ⟨e, he, hr⟩

end

/-! ### Nelder-Mead -/

section
variable {clk : Clock F}

omit [PyNum F] in
theorem xnmShrink_sound (h : Completes pb xp) (best : F × P) (n : ℕ) (l : List (F × P)) :
    SoundE (xp.RaisesIn nmOps) (xnmShrink xp.cost xp.M best n l)
      (if l.length < n then .error .indexError
        else .ok (l.mapIdx fun i v => if i < n then
          (pb.cost (pb.M.pairMean best.2 v.2), pb.M.pairMean best.2 v.2) else v)) := by
  induction n generalizing l with
  | zero =>
    simp only [Nat.not_lt_zero, if_false]
    refine Or.inl ?_
    cases l <;> simp [xnmShrink, List.mapIdx_cons]
    all_goals exact (List.ext_getElem (by simp) (by simp)).symm
  | succ n ih =>
    cases l with
    | nil => exact .refl
    | cons v l =>
      unfold xnmShrink
      refine (h.pairMeanS (by simp [nmOps]) _ _).bind_ok ((h.costS (by simp [nmOps]) _).bind_ok ?_)
      refine SoundE.bind_elim (ih l) (fun e he => ?_) fun l' hl' => ?_
      · by_cases hlt : l.length < n
        · rw [if_pos hlt] at he
          rw [if_pos (by simpa using hlt), ← he]
        · rw [if_neg hlt] at he; cases he
      · by_cases hlt : l.length < n
        · rw [if_pos hlt] at hl'; cases hl'
        · rw [if_neg hlt] at hl'
          cases hl'
          rw [if_neg (by simpa using hlt)]
          refine Or.inl ?_
          simp [List.mapIdx_cons, pure, Except.pure]

omit [PyNum F] in
theorem xnmShrinkMove_sound (h : Completes pb xp) (dim : ℕ) (best : F × P) (t : List (F × P))
    (ev : List P) :
    SoundE (xp.RaisesIn nmOps) (xnmShrinkMove xp.cost xp.M dim best (best :: t) ev)
      (nmShrinkMove pb.cost pb.M dim best (best :: t) ev) := by
  unfold xnmShrinkMove nmShrinkMove nmShrink
  have hs := xnmShrink_sound h best dim t
  by_cases hlt : t.length < dim
  · rw [if_pos hlt] at hs
    rw [if_pos (by simp only [List.length_cons]; omega)]
    exact SoundE.bind_elim hs (fun e he => by cases he; rfl) fun v hv => by cases hv
  · rw [if_neg hlt] at hs
    rw [if_neg (by simp only [List.length_cons]; omega)]
    refine hs.bind_ok (Or.inl ?_)
    simp [List.mapIdx_cons, pure, Except.pure, Nat.succ_le_iff]

theorem xnmMove_sound (h : Completes pb xp) (o : NMObj F) (xbar : P) (l : List (F × P)) :
    SoundE (xp.RaisesIn nmOps) (xnmMove o xp.cost xp.M xbar l) (nmMove o pb.cost pb.M xbar l) := by
  cases l with
  | nil => exact .refl
  | cons best t =>
    have trial : ∀ (a : F) (v : E) {α : Type} {f : P → F → Except PyErr α} {b : Except PyErr α},
        (SoundE (xp.RaisesIn nmOps) (f (pb.M.retraction xbar (pb.M.smul a v))
          (pb.cost (pb.M.retraction xbar (pb.M.smul a v)))) b) →
        SoundE (xp.RaisesIn nmOps) (xp.M.smul a v >>= fun u => xp.M.retraction xbar u >>= fun y =>
          xp.cost y >>= fun cy => f y cy) b := fun a v α f b hb =>
      (h.smulS (by simp [nmOps]) _ _).bind_ok <| (h.retractionS (by simp [nmOps]) _ _).bind_ok <|
        (h.costS (by simp [nmOps]) _).bind_ok hb
    have shrink := xnmShrinkMove_sound h pb.M.dim best t
    unfold xnmMove nmMove
    simp only [List.head?_cons]
    cases hw : (best :: t).getLast? with
    | none => exact .refl
    | some worst =>
      simp only
      refine (h.logS (by simp [nmOps]) _ _).bind_ok (trial _ _ ?_)
      refine SoundE.bind_elim .refl (fun e he => by simp only [he]) fun b hb => ?_
      simp only [hb]
      cases b with
      | true => exact .refl
      | false =>
        simp only [Bool.false_eq_true, if_false]
        refine .ite (trial _ _ (.ite .refl .refl)) ?_
        unfold xnmContract nmContract
        cases (best :: t).dropLast.getLast? with
        | none => exact .refl
        | some second =>
          simp only [h.dim]
          refine .ite (.ite (trial _ _ (.ite .refl (shrink _))) (trial _ _ (.ite .refl (shrink _))))
            (shrink _)

theorem xnmStep_sound (h : Completes pb xp) (o : NMObj F) (sort : List (F × P) → List (F × P))
    (centroid : ℤ → List P → Except PyErr P) (s : NMState F P) :
    SoundE (xp.RaisesIn nmOps) (xnmStep o sort centroid xp clk s)
      (nmStep o sort centroid pb clk s) := by
  unfold xnmStep nmStep
  simp only
  cases hc : checkStop o.cfg clk.start (clk.check1 (s.iteration + 1) 0)
      (clk.check2 (s.iteration + 1) 0) (iteration := s.iteration + 1)
      (costEvaluations := s.costEvaluations) with
  | some reason =>
    simp only
    cases (sort s.simplex).head? with
    | none => exact .refl
    | some best => exact (h.costS (by simp [nmOps]) _).bind_ok .refl
  | none =>
    simp only
    refine SoundE.bind_elim .refl (fun e he => by simp only [he]) fun xbar hx => ?_
    simp only [hx]
    exact SoundE.bind_elim (xnmMove_sound h o xbar _) (fun e he => by simp only [he])
      fun m hm => by simp only [hm]; exact .refl

/-- **C150** (Nelder-Mead): the same for Nelder-Mead with any computation of centroids. -/
theorem C150_nelderMead (h : Completes pb xp) {o : NMObj F}
    {sort : List (F × P) → List (F × P)} {centroid : ℤ → List P → Except PyErr P}
    {init : InitArg P} {r : Except PyErr (Result F P)}
    (hr : XNMRuns o sort centroid xp clk init r) :
    NMRuns o sort centroid pb clk init r ∨ ∃ e, xp.RaisesIn nmOps e ∧ r = .error e := by
  unfold XNMRuns at hr
  unfold NMRuns
  rw [h.dim] at hr
  cases hp : nmSimplex pb.M.dim init with
  | error e => simp only [hp] at hr ⊢; exact Or.inl hr
  | ok x =>
    simp only [hp] at hr ⊢
    have h0 : SoundE (xp.RaisesIn nmOps) (xnmInit sort xp x) (.ok (nmInit sort pb x)) := by
      refine (xcosts_sound h (by simp [nmOps]) x).bind_ok ?_
      rw [h.dim]
      exact .refl
    rcases h0 with h0 | ⟨e, he, h0⟩
    · rw [h0] at hr
      exact SoundE.runs (xnmStep_sound h _ sort centroid) hr
    · rw [h0] at hr
      exact Or.inr ⟨e, he, hr⟩

end

/-! ### What each optimizer needs -/

theorem SoundE.eq {α : Type} {R : PyErr → Prop} {a b : Except PyErr α} (h : SoundE R a b)
    (hR : ∀ e, ¬ R e) : a = b :=
  h.resolve_right fun ⟨e, he, _⟩ => hR e he

/-- **C150** (trust regions, needs): if the operations trust regions use return, `typical_dist`
returns or is not implemented, and `use_rand` is not set, the other operations may do anything. -/
theorem C150_trustRegions_needs {cfg : Cfg F} {clk : Clock F} {c : TRCfg F}
    {xeta0 : ℤ → Except PyErr E} {eta0 : ℤ → E} {xdist : Except PyErr F} {DB : Option F}
    (h : Completes pb xp) {dist : Option F} (hd : DistCompletes dist xdist)
    (hops : ∀ e, ¬ xp.RaisesIn trOps e) (hu : c.useRand = false)
    (hx : ∀ e, xdist = .error e → e = .notImplemented)
    (he0 : ∀ it v, xeta0 it = .ok v → eta0 it = v) {mininner : ℤ} {maxinner : Option ℤ}
    {Delta0 : Option F} {x : P} {r : Except PyErr (Result F P × List (P × F × F))} :
    XTRRuns cfg c xp clk xeta0 mininner maxinner xdist DB Delta0 x r ↔
      TRRuns cfg c pb clk eta0 mininner maxinner dist DB Delta0 x r := by
  have hR : ∀ e, ¬ xp.TRRaises c xeta0 xdist DB e := by
    rintro e (h1 | ⟨h1, _⟩ | ⟨_, h1, h2⟩)
    · exact hops e h1
    · rw [hu] at h1; cases h1
    · exact h2 (hx e h1)
  unfold XTRRuns TRRuns
  rw [h.dim, (xtrRadii_sound hd pb.M.dim Delta0).eq hR]
  cases trRadii pb.M.dim dist DB Delta0 with
  | error e => exact Iff.rfl
  | ok q =>
    obtain ⟨D, d⟩ := q
    simp only [(xtrInit_sound h x d).eq hops]
    exact runs_congr fun s => (xtrStep_sound h he0 _ _ _ s).eq hR

/-- **C150** (particle swarm, needs). -/
theorem C150_particleSwarm_needs {clk : Clock F} {rnd : PSORand F P E} (h : Completes pb xp)
    (hops : ∀ e, ¬ xp.RaisesIn psoOps e) {o : PSOObj F} {init : InitArg P}
    {r : Except PyErr (Result F P × List P × List P)} :
    XPSORuns o rnd xp clk init r ↔ PSORuns o rnd pb clk init r := by
  unfold XPSORuns PSORuns
  rw [h.dim]
  cases hp : psoPopulation (o.resolve pb.M.dim) init with
  | error e => exact Iff.rfl
  | ok q =>
    obtain ⟨o', l, t⟩ := q
    cases l with
    | nil => exact Iff.rfl
    | cons x0 xs =>
      simp only [(xpsoInit_sound h o' x0 xs).eq hops]
      cases hs : printerSetup o'.cfg with
      | error e => exact Iff.rfl
      | ok u => exact runs_congr fun s => (xpsoStep_sound h o' t s).eq hops

/-- **C150** (Nelder-Mead, needs). -/
theorem C150_nelderMead_needs {clk : Clock F} (h : Completes pb xp)
    (hops : ∀ e, ¬ xp.RaisesIn nmOps e) {o : NMObj F}
    {sort : List (F × P) → List (F × P)} {centroid : ℤ → List P → Except PyErr P}
    {init : InitArg P} {r : Except PyErr (Result F P)} :
    XNMRuns o sort centroid xp clk init r ↔ NMRuns o sort centroid pb clk init r := by
  unfold XNMRuns NMRuns
  rw [h.dim]
  cases hp : nmSimplex pb.M.dim init with
  | error e => exact Iff.rfl
  | ok x =>
    have h0 : xnmInit sort xp x = .ok (nmInit sort pb x) := by
      unfold xnmInit
      rw [(xcosts_sound h (by simp [nmOps]) x).eq hops, h.dim]
      rfl
    simp only [h0]
    exact runs_congr fun s => (xnmStep_sound h _ sort centroid s).eq hops

/-! ### Missing operations -/

theorem except_bind_ok {α β : Type} {a : Except PyErr α} {f : α → Except PyErr β} {v : β} :
    (a >>= f) = .ok v ↔ ∃ u, a = .ok u ∧ f u = .ok v := by
  cases a with
  | error e => simp [bind, Except.bind]
  | ok u => simp [bind, Except.bind]

/-- **C150** (no gradient): steepest descent never returns if the gradient always raises. -/
theorem C150_no_gradient {xls : XLineSearcher F P E S} {cfg : Cfg F} {clk : Clock F}
    (hg : ∀ x, ∃ e, xp.grad x = .error e) {x : P} {mem : S} {r : Result F P × S} :
    ¬ XSDRuns cfg xls xp clk x mem (.ok r) := by
  intro hr
  unfold XSDRuns at hr
  cases hp : printerSetup cfg with
  | error e => simp only [hp] at hr; cases hr
  | ok u =>
    simp only [hp] at hr
    obtain ⟨n, hn⟩ := hr
    have hstep : ∀ s k, xsdStep cfg xls xp clk s ≠ .ok k := by
      intro s k hk
      unfold xsdStep xsdSearch at hk
      simp only [bind_assoc, except_bind_ok] at hk
      obtain ⟨_, _, g, h2, _⟩ := hk
      obtain ⟨e, he⟩ := hg s.x
      rw [he] at h2; cases h2
    cases hn with
    | brk h1 => exact hstep _ _ h1
    | next h1 _ => exact hstep _ _ h1

/-- **C150** (no Hessian): trust regions never return if the Hessian always raises. -/
theorem C150_no_hessian {cfg : Cfg F} {clk : Clock F} {c : TRCfg F} {xeta0 : ℤ → Except PyErr E}
    {xdist : Except PyErr F} {DB Delta0 : Option F} {mininner : ℤ} {maxinner : Option ℤ} {x : P}
    (hh : ∀ x v, ∃ e, xp.hess x v = .error e) {r : Result F P × List (P × F × F)} :
    ¬ XTRRuns cfg c xp clk xeta0 mininner maxinner xdist DB Delta0 x (.ok r) := by
  have htcg : ∀ x g eta D m k o, xtcg c xp x g eta D m k ≠ .ok o := by
    intro x g eta D m k o ho
    unfold xtcg at ho
    rw [except_bind_ok] at ho
    obtain ⟨⟨s, n0⟩, _, h2⟩ := ho
    simp only at h2
    cases hk : k.toNat with
    | zero => rw [hk] at h2; cases h2
    | succ n =>
      rw [hk] at h2
      unfold xtcgLoop at h2
      obtain ⟨e, he⟩ := hh x s.delta
      have : xtcgBody c xp x g D n0 m 0 s = .error e := by
        unfold xtcgBody
        dsimp only
        rw [he]
        rfl
      rw [this] at h2
      cases h2
  have hstep : ∀ m k D s q, xtrStep cfg c xp clk xeta0 m k D s ≠ .ok q := by
    intro m k D s q hq
    unfold xtrStep at hq
    simp only [except_bind_ok] at hq
    obtain ⟨_, _, o, h2, _⟩ := hq
    exact htcg _ _ _ _ _ _ _ h2
  intro hr
  unfold XTRRuns at hr
  split at hr
  · cases hr
  · split at hr
    · cases hr
    · obtain ⟨n, hn⟩ := hr
      cases hn with
      | brk h1 => exact hstep _ _ _ _ _ h1
      | next h1 _ => exact hstep _ _ _ _ _ h1

/-- **C150** (no transport): without a vector transport conjugate gradient only returns if its first
check stops it, and then it returns the starting point. -/
theorem C150_no_transport {xls : XLineSearcher F P E S} {cfg : Cfg F} {clk : Clock F}
    {rule : BetaRule} {orth : F} (ht : ∀ x y v, ∃ e, xp.M.transport x y v = .error e) {x : P}
    {mem : S} {r : Result F P} {m : S} {t : List (P × E × F)}
    (hr : XCGRuns cfg rule orth xls xp clk x mem (.ok (r, m, t))) :
    r.iterations = 1 ∧ r.point = x ∧ t = [] := by
  unfold XCGRuns at hr
  split at hr
  · cases hr
  split at hr
  · cases hr
  rename_i s hs
  unfold xcgInit at hs
  simp only [except_bind_ok] at hs
  obtain ⟨_, _, _, _, _, _, _, _, _, _, _, _, hs⟩ := hs
  cases hs
  obtain ⟨n, hn⟩ := hr
  cases hn with
  | brk h1 =>
    unfold xcgStep at h1
    simp only at h1
    split at h1
    · cases h1; exact ⟨rfl, rfl, rfl⟩
    · simp only [except_bind_ok] at h1
      obtain ⟨_, _, _, _, _, _, _, _, _, _, _, _, _, h7, _⟩ := h1
      obtain ⟨e, he⟩ := ht _ _ _
      rw [he] at h7; cases h7
  | next h1 _ =>
    unfold xcgStep at h1
    simp only at h1
    split at h1
    · cases h1
    · simp only [except_bind_ok] at h1
      obtain ⟨_, _, _, _, _, _, _, _, _, _, _, _, _, h7, _⟩ := h1
      obtain ⟨e, he⟩ := ht _ _ _
      rw [he] at h7; cases h7

/-- **C150** (no logarithm): without a logarithm particle swarm only returns if its first check stops
it. -/
theorem C150_no_log_particleSwarm {clk : Clock F} {rnd : PSORand F P E}
    (hl : ∀ x y, ∃ e, xp.M.log x y = .error e) {o : PSOObj F} {init : InitArg P} {r : Result F P}
    {xs ps : List P} (hr : XPSORuns o rnd xp clk init (.ok (r, xs, ps))) : r.iterations = 1 := by
  unfold XPSORuns at hr
  split at hr
  · cases hr
  · cases hr
  rename_i o' x0 l t _
  split at hr
  · cases hr
  rename_i s hs
  split at hr
  · cases hr
  have hne : s.iteration = 0 ∧ ∃ p q, s.swarm = p :: q := by
    unfold xpsoInit at hs
    simp only [except_bind_ok] at hs
    obtain ⟨c0, _, cs, _, hs⟩ := hs
    cases hs
    refine ⟨rfl, _, _, List.mapIdx_cons⟩
  obtain ⟨hit, p, q, hpq⟩ := hne
  obtain ⟨n, hn⟩ := hr
  have hstep : ∀ k, psoStop o' clk (s.iteration + 1) s.costEvaluations s.swarm.length = none →
      xpsoStep o' t rnd xp clk s ≠ .ok k := by
    intro k h0 h1
    unfold xpsoStep at h1
    simp only [h0, except_bind_ok] at h1
    obtain ⟨w, _, sw, h2, _⟩ := h1
    rw [hpq] at h2
    unfold xpsoVelocities xpsoVelocity at h2
    simp only [except_bind_ok] at h2
    obtain ⟨_, ⟨_, _, _, _, _, h3, _⟩, _⟩ := h2
    obtain ⟨e, he⟩ := hl p.x p.y
    rw [he] at h3; cases h3
  cases hst : psoStop o' clk (s.iteration + 1) s.costEvaluations s.swarm.length with
  | none =>
    cases hn with
    | brk h1 => exact absurd h1 (hstep _ hst)
    | next h1 _ => exact absurd h1 (hstep _ hst)
  | some reason =>
    cases hn with
    | brk h1 =>
      unfold xpsoStep at h1
      simp only [hst] at h1
      cases h1
      simp [hit]
    | next h1 _ =>
      unfold xpsoStep at h1
      simp only [hst] at h1
      cases h1

/-- **C150** (no logarithm): nor does Nelder-Mead. -/
theorem C150_no_log_nelderMead {clk : Clock F} (hl : ∀ x y, ∃ e, xp.M.log x y = .error e)
    {o : NMObj F} {sort : List (F × P) → List (F × P)} {centroid : ℤ → List P → Except PyErr P}
    {init : InitArg P} {r : Result F P} (hr : XNMRuns o sort centroid xp clk init (.ok r)) :
    r.iterations = 1 := by
  unfold XNMRuns at hr
  split at hr
  · cases hr
  split at hr
  · cases hr
  rename_i x _ s hs
  have hit : s.iteration = 0 := by
    unfold xnmInit at hs
    simp only [except_bind_ok] at hs
    obtain ⟨_, _, hs⟩ := hs
    cases hs
    rfl
  have hmove : ∀ xbar l m, xnmMove (o.resolve xp.M.dim) xp.cost xp.M xbar l ≠ .ok m := by
    intro xbar l m hm
    unfold xnmMove at hm
    split at hm
    · rename_i worst best _ _
      simp only [except_bind_ok] at hm
      obtain ⟨_, h1, _⟩ := hm
      obtain ⟨e, he⟩ := hl xbar worst.2
      rw [he] at h1; cases h1
    · cases hm
  obtain ⟨n, hn⟩ := hr
  cases hn with
  | brk h1 =>
    unfold xnmStep at h1
    simp only at h1
    split at h1
    · split at h1
      · cases h1
      · simp only [except_bind_ok] at h1
        obtain ⟨_, _, h2⟩ := h1
        cases h2
        simp [hit]
    · simp only [except_bind_ok] at h1
      obtain ⟨_, _, _, h2, _⟩ := h1
      exact absurd h2 (hmove _ _ _)
  | next h1 _ =>
    unfold xnmStep at h1
    simp only at h1
    split at h1
    · split at h1
      · cases h1
      · simp only [except_bind_ok] at h1
        obtain ⟨_, _, h2⟩ := h1
        cases h2
    · simp only [except_bind_ok] at h1
      obtain ⟨_, _, _, h2, _⟩ := h1
      exact absurd h2 (hmove _ _ _)

/-! ### Centroids -/

/-- Operations used to compute a centroid. -/
def centroidOps : List Op := [.log, .dist, .zeroVector, .add, .neg, .norm, .retraction, .smul]

/-- **C150** (centroid): a computation of a centroid in Nelder-Mead returns what it returns with any
completed operations or raises the exception of an operation it uses. -/
theorem C150_centroid {clk : Clock F} (h : Completes pb xp) {dist : P → P → F}
    (hd : ∀ x y v, xp.M.dist x y = .ok v → dist x y = v) {draw : P} {points : List P}
    {r : Except PyErr P} (hr : XCentroidRuns xp.M .ok clk draw points r) :
    CentroidRuns pb.M dist clk draw points r ∨
      ∃ e, xp.RaisesIn centroidOps e ∧ r = .error e := by
  have hsum : ∀ y acc (l : List P), SoundE (xp.RaisesIn centroidOps) (xsumDist xp.M y acc l)
      (.ok ((l.map fun p => pow (dist y p) (lit 2)).foldl add acc)) := by
    intro y acc l
    induction l generalizing acc with
    | nil => exact .refl
    | cons p ps ih =>
      refine SoundE.bind_ok (w := dist y p) (.leaf (fun v hv => hd _ _ v hv) fun e he =>
        ⟨.dist, by simp [centroidOps], _, _, he⟩) (ih _)
  have hlogs : ∀ y (l : List P), SoundE (xp.RaisesIn centroidOps) (xlogs xp.M y l)
      (.ok (l.map fun p => pb.M.log y p)) := by
    intro y l
    induction l with
    | nil => exact .refl
    | cons p ps ih => exact (h.logS (by simp [centroidOps]) _ _).bind_ok (ih.bind_ok .refl)
  have hadd : ∀ acc (l : List E), SoundE (xp.RaisesIn centroidOps) (xsum xp.M acc l)
      (.ok (l.foldl pb.M.add acc)) := by
    intro acc l
    induction l generalizing acc with
    | nil => exact .refl
    | cons v vs ih => exact (h.addS (by simp [centroidOps]) _ _).bind_ok (ih _)
  have hcost : ∀ y, SoundE (xp.RaisesIn centroidOps) ((xcentroidProb xp.M .ok points).cost y)
      (.ok ((centroidProb pb.M dist points).cost y)) := fun y => (hsum y _ _).bind_ok .refl
  have hgrad : ∀ y, SoundE (xp.RaisesIn centroidOps) ((xcentroidProb xp.M .ok points).grad y)
      (.ok ((centroidProb pb.M dist points).grad y)) := fun y =>
    (hlogs y _).bind_ok <| (h.zeroVectorS (by simp [centroidOps]) _).bind_ok <|
      (hadd _ _).bind_ok <| (h.negS (by simp [centroidOps]) _).bind_ok .refl
  have hc : Completes (centroidProb pb.M dist points) (xcentroidProb xp.M .ok points) :=
    { dim := h.dim
      cost := fun {x v} hv => by
        rcases hcost x with h' | ⟨e, _, h'⟩
        · rw [hv] at h'; exact (Except.ok.inj h').symm
        · rw [hv] at h'; cases h'
      grad := fun {x v} hv => by
        rcases hgrad x with h' | ⟨e, _, h'⟩
        · rw [hv] at h'; exact (Except.ok.inj h').symm
        · rw [hv] at h'; cases h'
      hess := fun {x u v} hv => Except.ok.inj hv
      precon := fun {x u v} hv => Except.ok.inj hv
      norm := h.norm, inner := h.inner, retraction := h.retraction, transport := h.transport
      log := h.log, pairMean := h.pairMean, zeroVector := h.zeroVector, toTangent := h.toTangent
      add := h.add, sub := h.sub, neg := h.neg, smul := h.smul }
  obtain ⟨r', hr', rfl⟩ := hr
  rcases C150_steepestDescent hc (C150_backTracking centroidSearch) hr' with h1 | ⟨e, he, rfl⟩
  · exact Or.inl ⟨r', h1, rfl⟩
  · refine Or.inr ⟨e, ?_, rfl⟩
    obtain ⟨op, hop, hra⟩ := he
    simp only [sdOps, List.mem_cons, List.not_mem_nil, or_false] at hop
    rcases hop with rfl | rfl | rfl | rfl | rfl | rfl
    · obtain ⟨y, hy⟩ := hra
      rcases hcost y with h' | ⟨e', he', h'⟩
      · rw [hy] at h'; cases h'
      · rw [hy] at h'; cases h'; exact he'
    · obtain ⟨y, hy⟩ := hra
      rcases hgrad y with h' | ⟨e', he', h'⟩
      · rw [hy] at h'; cases h'
      · rw [hy] at h'; cases h'; exact he'
    · exact ⟨.norm, by simp [centroidOps], hra⟩
    · exact ⟨.neg, by simp [centroidOps], hra⟩
    · exact ⟨.retraction, by simp [centroidOps], hra⟩
    · exact ⟨.smul, by simp [centroidOps], hra⟩

/-! ### Use of an optimizer after a run that raised -/

/-- **C150** (steepest descent afterwards): whatever runs an optimizer object has been through,
completed, ended by an exception or interrupted at any moment, a run without reuse has exactly the
outcomes it has on a new object. -/
theorem C150_steepestDescent_afterwards {cfg : Cfg F} {xls : XLineSearcher F P E S} {proto : S}
    {o : LSObj S} (hist : XSDHistory cfg xls ⟨proto, none⟩ o) (clk : Clock F) (x : P)
    (xp : XProb F P E) (r : Except PyErr (Result F P × S)) :
    XSDRuns cfg xls xp clk x (o.startMem false) r ↔ XSDRuns cfg xls xp clk x proto r := by
  have hp : o.proto = proto := by
    induction hist with
    | start => rfl
    | run _ hc ih => cases hc <;> exact ih
  simp [LSObj.startMem, hp]

/-- Memories of the line searcher between the searches of a history: the constructor's, or the one a
completed search left. -/
inductive SearchMem (xls : XLineSearcher F P E S) (proto : S) : S → Prop
  | proto : SearchMem xls proto proto
  | search {mem obj M x d f0 df0 o} : SearchMem xls proto mem →
      xls.search mem obj M x d f0 df0 = .ok o → SearchMem xls proto o.mem

/-- **C150** (steepest descent, reuse afterwards): with reuse the run starts from the memory left by
a completed search, never from that of a search that was cut short. -/
theorem C150_steepestDescent_reuse {cfg : Cfg F} {xls : XLineSearcher F P E S} {proto : S}
    {o : LSObj S} (hist : XSDHistory cfg xls ⟨proto, none⟩ o) (reuse : Bool) :
    SearchMem xls proto (o.startMem reuse) := by
  have hsearch : ∀ {pb : XProb F P E} {s : SDState F P S} {q}, SearchMem xls proto s.mem →
      xsdSearch xls pb s = .ok q → SearchMem xls proto q.2.2.mem := by
    intro pb s q hm hq
    unfold xsdSearch at hq
    simp only [except_bind_ok] at hq
    obtain ⟨_, _, _, _, _, _, _, _, o', h5, hq⟩ := hq
    cases hq
    exact .search hm h5
  have hnext : ∀ {pb : XProb F P E} {clk : Clock F} {s : SDState F P S} {k},
      SearchMem xls proto s.mem → xsdStep cfg xls pb clk s = .ok k →
      (∀ s', k = .next s' → SearchMem xls proto s'.mem) ∧
      (∀ r, k = .brk r → SearchMem xls proto r.2) := by
    intro pb clk s k hm hk
    unfold xsdStep at hk
    simp only [except_bind_ok] at hk
    obtain ⟨q, h1, hk⟩ := hk
    split at hk
    · cases hk
      exact ⟨fun s' hs => by cases hs; exact hsearch hm h1, fun _ hs => by cases hs⟩
    · simp only [except_bind_ok] at hk
      obtain ⟨_, _, hk⟩ := hk
      cases hk
      exact ⟨fun s' hs => (by cases hs), fun _ hs => by cases hs; exact hsearch hm h1⟩
  have key : SearchMem xls proto o.proto ∧ ∀ m, o.current = some m → SearchMem xls proto m := by
    induction hist with
    | start => exact ⟨.proto, fun m hm => by cases hm⟩
    | @run o1 o2 pb clk x reuse r _ hc ih =>
      have hstart : SearchMem xls proto (o1.startMem reuse) := by
        unfold LSObj.startMem
        split
        · exact ih.2 _ (by assumption)
        · exact ih.1
      have hinv : ∀ {t}, Reaches (xsdStep cfg xls pb clk) (sdInit cfg x (o1.startMem reuse)) t →
          SearchMem xls proto t.mem := by
        intro t ht
        induction ht with
        | refl => exact hstart
        | tail _ h2 ih' => exact (hnext ih' h2).1 _ rfl
      cases hc with
      | @ok res m hr =>
        refine ⟨ih.1, fun m' hm' => ?_⟩
        cases hm'
        unfold XSDRuns at hr
        split at hr
        · cases hr
        · obtain ⟨t, ht, hb⟩ := runs_brk hr
          exact (hnext (hinv ht) hb).2 _ rfl
      | early => exact ⟨ih.1, fun m' hm' => by cases hm'; exact hstart⟩
      | before ht => exact ⟨ih.1, fun m' hm' => by cases hm'; exact hinv ht⟩
      | after ht =>
        refine ⟨ih.1, fun m' hm' => ?_⟩
        cases hm'
        unfold xsdMem
        split
        · exact hinv ht
        · rename_i h5
          exact hsearch (hinv ht) h5
  unfold LSObj.startMem
  split
  · exact key.2 _ (by assumption)
  · exact key.1

/-- **C150** (conjugate gradient afterwards): as `C150_steepestDescent_afterwards`. -/
theorem C150_conjugateGradient_afterwards {cfg : Cfg F} {rule : BetaRule} {orth : F}
    {xls : XLineSearcher F P E S} {proto : S} {o : LSObj S}
    (hist : XCGHistory cfg rule orth xls ⟨proto, none⟩ o) (clk : Clock F) (x : P)
    (xp : XProb F P E) (r : Except PyErr (Result F P × S × List (P × E × F))) :
    XCGRuns cfg rule orth xls xp clk x (o.startMem false) r ↔
      XCGRuns cfg rule orth xls xp clk x proto r := by
  have hp : o.proto = proto := by
    induction hist with
    | start => rfl
    | run _ hc ih => cases hc <;> exact ih
  simp [LSObj.startMem, hp]

/-- **C150** (conjugate gradient, reuse afterwards): as `C150_steepestDescent_reuse`. -/
theorem C150_conjugateGradient_reuse {cfg : Cfg F} {rule : BetaRule} {orth : F}
    {xls : XLineSearcher F P E S} {proto : S} {o : LSObj S}
    (hist : XCGHistory cfg rule orth xls ⟨proto, none⟩ o) (reuse : Bool) :
    SearchMem xls proto (o.startMem reuse) := by
  have hsearch : ∀ {pb : XProb F P E} {s : CGState F P E S} {q}, SearchMem xls proto s.mem →
      xcgSearch xls pb s = .ok q → SearchMem xls proto q.2.2.mem := by
    intro pb s q hm hq
    unfold xcgSearch at hq
    simp only [except_bind_ok] at hq
    obtain ⟨_, _, hq⟩ := hq
    split at hq
    all_goals
      simp only [except_bind_ok] at hq
      first
        | obtain ⟨_, _, _, _, _, h5, hq⟩ := hq; cases hq; exact .search hm h5
        | obtain ⟨_, _, _, h5, hq⟩ := hq; cases hq; exact .search hm h5
  have hnext : ∀ {pb : XProb F P E} {clk : Clock F} {s : CGState F P E S} {k},
      SearchMem xls proto s.mem → xcgStep cfg rule orth xls pb clk s = .ok k →
      (∀ s', k = .next s' → SearchMem xls proto s'.mem) ∧
      (∀ r, k = .brk r → SearchMem xls proto r.2.1) := by
    intro pb clk s k hm hk
    unfold xcgStep at hk
    simp only at hk
    split at hk
    · cases hk
      exact ⟨fun s' hs => (by cases hs), fun _ hs => by cases hs; exact hm⟩
    · simp only [except_bind_ok] at hk
      obtain ⟨q, h1, _, _, _, _, _, _, _, _, _, _, _, _, _, _, hk⟩ := hk
      cases hk
      exact ⟨fun s' hs => by cases hs; exact hsearch hm h1, fun _ hs => by cases hs⟩
  have key : SearchMem xls proto o.proto ∧ ∀ m, o.current = some m → SearchMem xls proto m := by
    induction hist with
    | start => exact ⟨.proto, fun m hm => by cases hm⟩
    | @run o1 o2 pb clk x reuse r _ hc ih =>
      have hstart : SearchMem xls proto (o1.startMem reuse) := by
        unfold LSObj.startMem
        split
        · exact ih.2 _ (by assumption)
        · exact ih.1
      have hinit : ∀ {s}, xcgInit cfg pb x (o1.startMem reuse) = .ok s →
          SearchMem xls proto s.mem := by
        intro s hs
        unfold xcgInit at hs
        simp only [except_bind_ok] at hs
        obtain ⟨_, _, _, _, _, _, _, _, _, _, _, _, hs⟩ := hs
        cases hs
        exact hstart
      have hinv : ∀ {s t}, xcgInit cfg pb x (o1.startMem reuse) = .ok s →
          Reaches (xcgStep cfg rule orth xls pb clk) s t → SearchMem xls proto t.mem := by
        intro s t hs ht
        induction ht with
        | refl => exact hinit hs
        | tail _ h2 ih' => exact (hnext ih' h2).1 _ rfl
      cases hc with
      | @ok res m tr hr =>
        refine ⟨ih.1, fun m' hm' => ?_⟩
        cases hm'
        unfold XCGRuns at hr
        split at hr
        · cases hr
        · split at hr
          · cases hr
          · rename_i hs
            obtain ⟨t, ht, hb⟩ := runs_brk hr
            exact (hnext (hinv hs ht) hb).2 _ rfl
      | early => exact ⟨ih.1, fun m' hm' => by cases hm'; exact hstart⟩
      | before hs ht => exact ⟨ih.1, fun m' hm' => by cases hm'; exact hinv hs ht⟩
      | after hs ht =>
        refine ⟨ih.1, fun m' hm' => ?_⟩
        cases hm'
        unfold xcgMem
        split
        · exact hinv hs ht
        · rename_i h5
          exact hsearch (hinv hs ht) h5
  unfold LSObj.startMem
  split
  · exact key.2 _ (by assumption)
  · exact key.1

end

/-! ### Witnesses -/

/-- A problem all of whose operations return. -/
def total {F P E : Type} (pb : Prob F P E) (dist : P → P → F) : XProb F P E where
  M := { dim := pb.M.dim, norm := fun x v => .ok (pb.M.norm x v)
         inner := fun x v w => .ok (pb.M.inner x v w)
         retraction := fun x v => .ok (pb.M.retraction x v)
         transport := fun x y v => .ok (pb.M.transport x y v), log := fun x y => .ok (pb.M.log x y)
         dist := fun x y => .ok (dist x y), pairMean := fun x y => .ok (pb.M.pairMean x y)
         zeroVector := fun x => .ok (pb.M.zeroVector x)
         toTangent := fun x v => .ok (pb.M.toTangent x v), add := fun v w => .ok (pb.M.add v w)
         sub := fun v w => .ok (pb.M.sub v w), neg := fun v => .ok (pb.M.neg v)
         smul := fun c v => .ok (pb.M.smul c v) }
  cost x := .ok (pb.cost x)
  grad x := .ok (pb.grad x)
  hess x v := .ok (pb.hess x v)
  precon x v := .ok (pb.precon x v)

theorem xcgRuns_of_check {cfg : Cfg Q} {rule : BetaRule} {orth : Q} {S : Type}
    {xls : XLineSearcher Q Q Q S} {xp : XProb Q Q Q} {clk : Clock Q} {x : Q} {mem : S}
    (hp : printerSetup cfg = .ok ()) (n : ℕ)
    {p : Except PyErr (Result Q Q × S × List (Q × Q × Q)) → Bool}
    (h : (match xcgInit cfg xp x mem with
      | .error _ => false
      | .ok s => checkFuel (xcgStep cfg rule orth xls xp clk) n s p) = true) :
    ∃ r, XCGRuns cfg rule orth xls xp clk x mem r ∧ p r = true := by
  split at h
  · cases h
  · rename_i s hs
    obtain ⟨r, hr, hpr⟩ := exists_of_checkFuel h
    refine ⟨r, ?_, hpr⟩
    unfold XCGRuns
    rw [hp]
    simp only [hs]
    exact hr

/-- `x ** 2` on the line, where `inner_product` raises `ZeroDivisionError` if its last argument is
`-2`. -/
def faultySquare : XProb Q Q Q :=
  let t := total squareProb fun x y => lineMfd.norm x (sub y x)
  { t with M := { t.M with inner := fun x v w =>
      if w = (.npy (-2) : Q) then .error .zeroDivision else .ok (lineMfd.inner x v w) } }

theorem completes_faultySquare : Completes squareProb faultySquare where
  dim := rfl
  cost h := Except.ok.inj h
  grad h := Except.ok.inj h
  hess h := Except.ok.inj h
  precon h := Except.ok.inj h
  norm h := Except.ok.inj h
  inner {x u w v} h := by
    simp only [faultySquare] at h
    split at h
    · cases h
    · exact Except.ok.inj h
  retraction h := Except.ok.inj h
  transport h := Except.ok.inj h
  log h := Except.ok.inj h
  pairMean h := Except.ok.inj h
  zeroVector h := Except.ok.inj h
  toTangent h := Except.ok.inj h
  add h := Except.ok.inj h
  sub h := Except.ok.inj h
  neg h := Except.ok.inj h
  smul h := Except.ok.inj h

/-- The full claim fails for conjugate gradient with the Hestenes-Stiefel rule, its default: on
`x ** 2` from `3` the inner product raises `ZeroDivisionError` in the first iteration, and the run
returns a result, which is not the one it returns when the inner product does not raise. -/
theorem C150_hestenesStiefel_swallows :
    Completes squareProb faultySquare ∧
    faultySquare.M.inner (.npy 2) (.npy 4) (.npy (-2)) = .error .zeroDivision ∧
    ∃ r, XCGRuns { defaultCfg with maxIterations := 3 } .hestenesStiefel inf
        (xadaptive Q Q defaultAdaptive) faultySquare stillClock (.npy 3) none (.ok r) ∧
      ¬ CGRuns { defaultCfg with maxIterations := 3 } .hestenesStiefel inf
        (adaptive Q Q defaultAdaptive) squareProb stillClock (.npy 3) none (.ok r) := by
  refine ⟨completes_faultySquare, by decide +kernel, ?_⟩
  obtain ⟨q, hq, he⟩ := xcgRuns_of_check (cfg := { defaultCfg with maxIterations := 3 })
    (rule := .hestenesStiefel) (orth := inf) (xls := xadaptive Q Q defaultAdaptive)
    (xp := faultySquare) (clk := stillClock) (x := .npy 3) (mem := none) rfl 3
    (p := isOk fun r => decide (r.1.point = .npy (1 / 3))) (by decide +kernel)
  obtain ⟨q', hq', he'⟩ := exists_of_checkFuel (n := 3)
    (p := isOk fun r => decide (r.1.point = .npy (2 / 3)))
    (step := cgStep { defaultCfg with maxIterations := 3 } .hestenesStiefel inf
      (adaptive Q Q defaultAdaptive) squareProb stillClock)
    (s := cgInit { defaultCfg with maxIterations := 3 } squareProb (.npy 3) none)
    (by decide +kernel)
  obtain ⟨r, rfl, he⟩ := exists_of_isOk he
  obtain ⟨r', rfl, he'⟩ := exists_of_isOk he'
  replace he : r.1.point = .npy (1 / 3) := of_decide_eq_true he
  replace he' : r'.1.point = .npy (2 / 3) := of_decide_eq_true he'
  refine ⟨r, hq, fun h => ?_⟩
  replace h : Runs _ _ _ := h
  cases h.det hq'
  rw [he] at he'
  exact absurd he' (by decide +kernel)

/-- `x ** 2` on the line, whose cost raises `ValueError` at `-3`. -/
def faultyCost : XProb Q Q Q :=
  { total squareProb fun x y => lineMfd.norm x (sub y x) with
    cost := fun x => if x = (.npy (-3) : Q) then .error .valueError else .ok (squareProb.cost x) }

/-- A run of steepest descent that meets the point where the cost raises: started at `3` it tries
`2` and, from there, `-3`, and ends with the exception. -/
example : Completes squareProb faultyCost ∧ faultyCost.RaisesIn sdOps .valueError ∧
    XSDRuns defaultCfg (xbackTracking Q Q defaultBackTracking) faultyCost stillClock (.npy 3) none
      (.error .valueError) := by
  refine ⟨?_, ⟨.cost, by simp [sdOps], .npy (-3), by decide +kernel⟩, ?_⟩
  · refine ⟨rfl, fun {x v} h => ?_, ?_, ?_, ?_, ?_, ?_, ?_, ?_, ?_, ?_, ?_, ?_, ?_, ?_, ?_, ?_⟩
    · simp only [faultyCost] at h
      split at h
      · cases h
      · exact Except.ok.inj h
    all_goals intros; exact Except.ok.inj (by assumption)
  · obtain ⟨q, hq, he⟩ := exists_of_checkFuel (n := 5) (p := isError .valueError)
      (step := xsdStep defaultCfg (xbackTracking Q Q defaultBackTracking) faultyCost stillClock)
      (s := sdInit defaultCfg (.npy 3) none) (by decide +kernel)
    rw [eq_of_isError he] at hq
    exact hq

/-- `x ** 2` on the line without a transport (manifold.py:9-17). -/
def noTransport : XProb Q Q Q :=
  let t := total squareProb fun x y => lineMfd.norm x (sub y x)
  { t with M := { t.M with transport := fun _ _ _ => .error .notImplemented } }

/-- `C150_no_transport`: conjugate gradient started at `3` raises `NotImplementedError`; started with
an iteration limit of one it returns. -/
example : (∀ x y v, ∃ e, noTransport.M.transport x y v = .error e) ∧
    XCGRuns defaultCfg .hestenesStiefel inf (xadaptive Q Q defaultAdaptive) noTransport stillClock
      (.npy 3) none (.error .notImplemented) ∧
    ∃ r, XCGRuns { defaultCfg with maxIterations := 1 } .hestenesStiefel inf
      (xadaptive Q Q defaultAdaptive) noTransport stillClock (.npy 3) none (.ok r) := by
  refine ⟨fun x y v => ⟨_, rfl⟩, ?_, ?_⟩
  · obtain ⟨q, hq, he⟩ := xcgRuns_of_check (cfg := defaultCfg) (rule := .hestenesStiefel) (orth := inf)
      (xls := xadaptive Q Q defaultAdaptive) (xp := noTransport) (clk := stillClock) (x := .npy 3)
      (mem := none) rfl 1 (p := isError .notImplemented) (by decide +kernel)
    rw [eq_of_isError he] at hq
    exact hq
  · obtain ⟨q, hq, he⟩ := xcgRuns_of_check (cfg := { defaultCfg with maxIterations := 1 })
      (rule := .hestenesStiefel) (orth := inf) (xls := xadaptive Q Q defaultAdaptive)
      (xp := noTransport) (clk := stillClock) (x := .npy 3) (mem := none) rfl 1
      (p := isOk fun _ => true) (by decide +kernel)
    obtain ⟨r, rfl, _⟩ := exists_of_isOk he
    exact ⟨r, hq⟩

/-- A history with a run that raised: the memory the object is left with is that of the last search
completed before the exception. -/
example : ∃ o, XSDHistory defaultCfg (xbackTracking Q Q defaultBackTracking) ⟨none, none⟩ o ∧
    o.current = some (some (.npy 9)) := by
  have h1 : ∃ s', xsdStep defaultCfg (xbackTracking Q Q defaultBackTracking) faultyCost stillClock
      (sdInit defaultCfg (.npy 3) none) = .ok (.next s') ∧ s'.mem = some (.npy 9) := by
    obtain ⟨c, hc, he⟩ := exists_of_isOk (r := xsdStep defaultCfg
      (xbackTracking Q Q defaultBackTracking) faultyCost stillClock (sdInit defaultCfg (.npy 3) none))
      (p := fun c => match c with
        | .next s' => decide (s'.mem = some (.npy 9))
        | .brk _ => false) (by decide +kernel)
    cases c with
    | brk _ => cases he
    | next s' => exact ⟨s', hc, of_decide_eq_true he⟩
  obtain ⟨s', hs', hm⟩ := h1
  exact ⟨_, .run (pb := faultyCost) (clk := stillClock) (x := .npy 3) (reuse := false) .start
    (.before (o := ⟨none, none⟩) (.tail .refl hs')), by simp [hm]⟩

end Verif.Opt
