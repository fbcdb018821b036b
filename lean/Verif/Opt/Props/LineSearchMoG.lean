/-
C138: the line search of examples/notebooks/mixture_of_gaussians.py.
-/
import Verif.Opt.Model.LineSearchMoG
import Verif.Opt.Props.LineSearch

namespace Verif.Opt
open PyNum

variable {F P E : Type*} [PyNum F] {c : BackTrackingCfg F} {mem : Option F} {obj : P → Option F}
  {M : Mfd F P E} {renew : P → P → P} {x : P} {d : E} {f0 df0 : F}

/-- The state of the search without resets. -/
private def lift (x : P) (s : BTState F P) : MoGState F P :=
  { alpha := s.alpha, newx := s.newx, newf := s.newf, reset := false, x := x, evals := s.evals }

omit [PyNum F] in
private theorem mogTrial_same {f : P → F}
    (h : ∀ a, obj (trialPoint M x d a) = some (f (trialPoint M x d a))) (a : F) (k : ℤ)
    (evals : List P) :
    mogTrial obj M renew x d a evals = .ok (lift x (trial f M x d a k evals)) := by
  have := h a
  unfold trialPoint at this
  simp only [mogTrial, this]
  rfl

private theorem mogLoop_same {f : P → F}
    (h : ∀ a, obj (trialPoint M x d a) = some (f (trialPoint M x d a))) (n : ℕ) (s : BTState F P) :
    mogLoop obj M renew d f0 df0 c n (lift x s) = .ok (lift x (btLoop f M x d f0 df0
      c.sufficientDecrease (fun a => mul c.contractionFactor a) n s)) := by
  induction n generalizing s with
  | zero => rfl
  | succ n ih =>
    unfold mogLoop btLoop
    by_cases hv : armijoFails c.sufficientDecrease f0 df0 s.alpha s.newf = true
    · simp only [lift, hv, Bool.not_false, Bool.and_self, if_true]
      rw [mogTrial_same h _ (s.count + 1)]
      exact ih _
    · simp only [lift, hv, Bool.false_and, Bool.false_eq_true, if_false]

/-- **C138**: as long as no trial point makes the objective raise, the search returns what
`BackTrackingLineSearcher` returns, and leaves the point alone. -/
theorem C138_same {f : P → F}
    (h : ∀ a, obj (trialPoint M x d a) = some (f (trialPoint M x d a))) :
    mogSearch c mem obj M renew x d f0 df0 =
      ((backTracking P E c).search mem f M x d f0 df0).map fun o => ⟨o, x⟩ := by
  change _ = (backTrackingSearch c mem f M x d f0 df0).map fun o => (⟨o, x⟩ : MoGOut F P)
  unfold mogSearch backTrackingSearch
  simp only
  cases backTrackingInit c mem f0 df0 (M.norm x d) with
  | error e => rfl
  | ok a =>
    simp only
    rw [mogTrial_same h a 1]
    simp only
    rw [mogLoop_same h]
    simp only [lift, Bool.not_false, Bool.and_true]
    split <;> rfl

/-- The search stops at a trial point that makes the objective raise. -/
def ResetAt (obj : P → Option F) (M : Mfd F P E) (renew : P → P → P) (x : P) (d : E)
    (o : MoGOut F P) : Prop :=
  ∃ a, obj (trialPoint M x d a) = none ∧ o.out.newx = renew (trialPoint M x d a) x ∧
    o.callerX = renew (trialPoint M x d a) x ∧ (obj o.out.newx).isSome

private def Good (obj : P → Option F) (M : Mfd F P E) (renew : P → P → P) (x : P) (d : E)
    (s : MoGState F P) : Prop :=
  (s.reset = false ∧ s.x = x ∧ s.newx = trialPoint M x d s.alpha ∧ obj s.newx = some s.newf) ∨
  (s.reset = true ∧ obj (trialPoint M x d s.alpha) = none ∧
    s.newx = renew (trialPoint M x d s.alpha) x ∧ s.x = s.newx ∧ obj s.newx = some s.newf)

omit [PyNum F] in
private theorem mogTrial_good {a : F} {evals : List P} {s : MoGState F P}
    (h : mogTrial obj M renew x d a evals = .ok s) :
    Good obj M renew x d s ∧ s.evals.length ≤ evals.length + 2 ∧
      (s.reset = false → s.evals.length = evals.length + 1) := by
  unfold mogTrial at h
  simp only at h
  split at h
  · rename_i newf hf
    cases h
    exact ⟨Or.inl ⟨rfl, rfl, rfl, hf⟩, by simp, by simp⟩
  · rename_i hn
    split at h
    · rename_i newf hf
      cases h
      exact ⟨Or.inr ⟨rfl, hn, rfl, rfl, hf⟩, by simp, by simp⟩
    · cases h

private theorem mogLoop_good {n : ℕ} {s s' : MoGState F P} (hs : Good obj M renew x d s)
    (h : mogLoop obj M renew d f0 df0 c n s = .ok s') :
    Good obj M renew x d s' ∧ s'.evals.length ≤ s.evals.length + n + 1 := by
  induction n generalizing s with
  | zero =>
    cases h
    exact ⟨hs, by omega⟩
  | succ n ih =>
    unfold mogLoop at h
    split at h
    · rename_i hc
      have hr : s.reset = false := by
        cases hr : s.reset with
        | false => rfl
        | true => simp [hr] at hc
      obtain ⟨-, hx, -⟩ | ⟨hr', -⟩ := hs
      · rw [hx] at h
        split at h
        · cases h
        · rename_i s1 h1
          obtain ⟨g1, g2, g3⟩ := mogTrial_good h1
          obtain ⟨k1, k2⟩ := ih g1 h
          refine ⟨k1, ?_⟩
          cases hr1 : s1.reset with
          | false =>
            have := g3 hr1
            omega
          | true =>
            have : s' = s1 := by
              cases n with
              | zero => cases h; rfl
              | succ n =>
                unfold mogLoop at h
                simp only [hr1, Bool.not_true, Bool.and_false, Bool.false_eq_true, if_false] at h
                cases h; rfl
            subst this
            omega
      · rw [hr] at hr'
        cases hr'
    · cases h
      exact ⟨hs, by omega⟩

/-- **C138**: either a trial point was accepted or the step rejected, the caller's point being as
before, or the search was reset, and then the caller's point has been overwritten. -/
theorem C138_cases {o : MoGOut F P} (h : mogSearch c mem obj M renew x d f0 df0 = .ok o) :
    o.out.mem = some f0 ∧ (o.out.evals.length : ℤ) ≤ max 0 c.maxIterations + 2 ∧
    ((o.callerX = x ∧ (o.out.newx = x ∨ ∃ a f, o.out.newx = trialPoint M x d a ∧
        obj o.out.newx = some f ∧ lt f0 f = false)) ∨
      ResetAt obj M renew x d o) := by
  unfold mogSearch at h
  simp only at h
  split at h
  · cases h
  · rename_i a ha
    split at h
    · cases h
    · rename_i s1 h1
      split at h
      · cases h
      · rename_i s2 h2
        obtain ⟨g1, g2, g3⟩ := mogTrial_good h1
        obtain ⟨k1, k2⟩ := mogLoop_good g1 h2
        have hlen : (s2.evals.length : ℤ) ≤ max 0 c.maxIterations + 2 := by
          cases hr1 : s1.reset with
          | false =>
            have e := g3 hr1
            simp only [List.length_nil] at e
            have : (s2.evals.length : ℤ) ≤ (1 + c.maxIterations.toNat + 1 : ℕ) := by
              exact_mod_cast e ▸ k2
            push_cast at this
            omega
          | true =>
            have : s2 = s1 := by
              cases hn : c.maxIterations.toNat with
              | zero => rw [hn] at h2; cases h2; rfl
              | succ n =>
                rw [hn] at h2
                unfold mogLoop at h2
                simp only [hr1, Bool.not_true, Bool.and_false, Bool.false_eq_true, if_false] at h2
                cases h2; rfl
            subst this
            simp only [List.length_nil] at g2
            omega
        split at h
        · rename_i hc
          cases h
          refine ⟨rfl, hlen, Or.inl ?_⟩
          obtain ⟨hr, hx, -⟩ | ⟨hr, -⟩ := k1
          · exact ⟨hx, Or.inl hx⟩
          · simp [hr] at hc
        · rename_i hc
          cases h
          refine ⟨rfl, hlen, ?_⟩
          obtain ⟨hr, hx, hp, hf⟩ | ⟨hr, hn, hp, hx, hf⟩ := k1
          · refine Or.inl ⟨hx, Or.inr ⟨s2.alpha, s2.newf, hp, hf, ?_⟩⟩
            simpa [hr] using hc
          · exact Or.inr ⟨s2.alpha, hn, hp, hx.trans hp, by simp [hf]⟩

/-- **C138**: the new point is on the manifold if retractions and resets are. -/
theorem C138_on_manifold {On : P → Prop} {o : MoGOut F P} (hx : On x)
    (hr : ∀ a, On (trialPoint M x d a)) (hn : ∀ p, On (renew p x))
    (h : mogSearch c mem obj M renew x d f0 df0 = .ok o) : On o.out.newx ∧ On o.callerX := by
  obtain ⟨-, -, ⟨h1, h2 | ⟨a, f, h2, -⟩⟩ | ⟨a, -, h1, h2, -⟩⟩ := C138_cases h
  · exact ⟨h2 ▸ hx, h1 ▸ hx⟩
  · exact ⟨h2 ▸ hr a, h1 ▸ hx⟩
  · exact ⟨h1 ▸ hn _, h2 ▸ hn _⟩

/-- **C138**: when the first trial point makes the objective raise, the caller's point is overwritten
and the replacement returned, whatever its cost. -/
theorem C138_overwrites {a f : F} (ha : backTrackingInit c mem f0 df0 (M.norm x d) = .ok a)
    (h1 : obj (trialPoint M x d a) = none) (h2 : obj (renew (trialPoint M x d a) x) = some f) :
    ∃ o, mogSearch c mem obj M renew x d f0 df0 = .ok o ∧
      o.out.newx = renew (trialPoint M x d a) x ∧ o.callerX = renew (trialPoint M x d a) x ∧
      o.out.stepSize = mul a (M.norm x d) := by
  have ht : mogTrial obj M renew x d a [] = .ok
      { alpha := a, newx := renew (trialPoint M x d a) x, newf := f, reset := true,
        x := renew (trialPoint M x d a) x,
        evals := [] ++ [trialPoint M x d a, renew (trialPoint M x d a) x] } := by
    unfold trialPoint at h1 h2 ⊢
    simp only [mogTrial, h1, h2]
  have hl : ∀ n s, s.reset = true → mogLoop obj M renew d f0 df0 c n s = .ok s := fun n s hs => by
    cases n with
    | zero => rfl
    | succ n =>
      unfold mogLoop
      simp [hs]
  unfold mogSearch
  simp only [ha, ht]
  rw [hl _ _ rfl]
  simp

/-- A line search that lowers the cost or keeps the point, and leaves the caller's point alone. -/
def SafeSearch (obj : P → Option F) (x : P) (f0 : F) (o : MoGOut F P) : Prop :=
  o.callerX = x ∧ (o.out.newx = x ∨ ∃ f, obj o.out.newx = some f ∧ lt f0 f = false)

/-- **C138** is false where the objective raises: searching from `1`, the cost of which is `1`, the
first trial point is singular; the caller's point becomes `5`, which is returned although its cost is
`25`. -/
theorem C138_negation : ∃ (c : BackTrackingCfg Q) (obj : Q → Option Q) (M : Mfd Q Q Q)
    (renew : Q → Q → Q) (x d f0 df0 : Q) (o : MoGOut Q Q), obj x = some f0 ∧
      mogSearch c none obj M renew x d f0 df0 = .ok o ∧ ¬ SafeSearch obj x f0 o := by
  refine ⟨defaultBackTracking, fun p => if p = .npy 0 then none else some (squareProb.cost p), lineMfd,
    fun _ _ => .npy 5, .npy 1, .npy (-1), .npy 1, .py (-2),
    ⟨{ stepSize := .npy 1, newx := .npy 5, mem := some (.npy 1), evals := [.npy 0, .npy 5] }, .npy 5⟩,
    by decide +kernel, ?_, ?_⟩
  · have : (mogSearch defaultBackTracking none
      (fun p => if p = .npy 0 then none else some (squareProb.cost p)) lineMfd
      (fun _ _ => .npy 5) (.npy 1) (.npy (-1)) (.npy 1) (.py (-2))).map
        (fun o => (o.out, o.callerX)) =
        .ok ({ stepSize := .npy 1, newx := .npy 5, mem := some (.npy 1), evals := [.npy 0, .npy 5] },
          .npy 5) := by decide +kernel
    revert this
    cases mogSearch defaultBackTracking none
      (fun p => if p = .npy 0 then none else some (squareProb.cost p)) lineMfd
      (fun _ _ => .npy 5) (.npy 1) (.npy (-1)) (.npy 1) (.py (-2)) with
    | error e => intro h; cases h
    | ok o =>
      intro h
      obtain ⟨a, b⟩ := o
      have := Except.ok.inj h
      simp only [Prod.mk.injEq] at this
      rw [this.1, this.2]
  · rintro ⟨h, -⟩
    revert h
    decide +kernel

/-- **C138** where the objective never raises. -/
theorem C138_safe_partial {f : P → F}
    (h : ∀ a, obj (trialPoint M x d a) = some (f (trialPoint M x d a))) {o : MoGOut F P}
    (ho : mogSearch c mem obj M renew x d f0 df0 = .ok o) : SafeSearch obj x f0 o := by
  obtain ⟨-, -, ⟨h1, h2 | ⟨a, g, -, h3, h4⟩⟩ | ⟨a, hn, -⟩⟩ := C138_cases ho
  · exact ⟨h1, Or.inl h2⟩
  · exact ⟨h1, Or.inr ⟨g, h3, h4⟩⟩
  · rw [h a] at hn
    cases hn

/-- A search without resets: four evaluations, as with `BackTrackingLineSearcher`. -/
example : (mogSearch { defaultBackTracking with initialStepSize := .py 8 } none
    (fun p => some (squareProb.cost p)) lineMfd (fun _ x => x) (.npy 1) (.npy (-8)) (.npy 1)
    (.py (-16))).map (fun o => (o.out.evals, o.out.newx, o.callerX)) =
    .ok ([.npy (-7), .npy (-3), .npy (-1), .npy 0], .npy 0, .npy 1) := by
  decide +kernel

end Verif.Opt
