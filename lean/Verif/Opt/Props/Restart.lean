/-
C160: conjugate gradient that restarts in every iteration is steepest descent.
-/
import Verif.Opt.Props.Progress
import Verif.Opt.Model.CG
import Verif.Opt.Props.Stop
import Verif.Opt.Props.Descent
import Mathlib.Tactic.Linarith
import Mathlib.Tactic.Positivity

namespace Verif.Opt
open PyNum

variable {P E S : Type*}

/-! ## Specification -/

/-- At the points `Pts`, gradients are vectors of an inner product space with the norm of the
metric, and there is no preconditioner; steps along negative gradients lead to such points. -/
structure PlainGradients (pb : Prob ℝ P E) (Pts : P → Prop) : Prop where
  innerNeg : ∀ x, Pts x → pb.M.inner x (pb.grad x) (pb.M.neg (pb.grad x)) =
    -pb.M.norm x (pb.grad x) ^ 2
  inner : ∀ x, Pts x → pb.M.inner x (pb.grad x) (pb.grad x) = pb.M.norm x (pb.grad x) ^ 2
  precon : ∀ x, Pts x → pb.precon x (pb.grad x) = pb.grad x
  stays : ∀ x a, Pts x → Pts (trialPoint pb.M x (pb.M.neg (pb.grad x)) a)

/-- The search of a line searcher with memory `mem` from `x` along the negative gradient. -/
def gradientSearch (ls : LineSearcher ℝ P E S) (pb : Prob ℝ P E) (mem : S) (x : P) :
    Except PyErr (SearchOut ℝ P S) :=
  ls.search mem pb.cost pb.M x (pb.M.neg (pb.grad x)) (pb.cost x) (-pb.M.norm x (pb.grad x) ^ 2)

/-- The steps from the states (memory and point) `On` are never shorter than `least`, and lead to
states in `On`. -/
def NeverShorter (ls : LineSearcher ℝ P E S) (pb : Prob ℝ P E) (On : S → P → Prop) (least : ℝ) :
    Prop :=
  ∀ mem x o, On mem x → gradientSearch ls pb mem x = .ok o → On o.mem o.newx ∧ least ≤ o.stepSize

/-- Steepest descent from `x` visits a point whose gradient is zero. -/
def VisitsCritical (cfg : Cfg ℝ) (ls : LineSearcher ℝ P E S) (pb : Prob ℝ P E) (clk : Clock ℝ)
    (x : P) (mem : S) : Prop :=
  ∃ t, Reaches (sdStep cfg ls pb clk) (sdInit cfg x mem) t ∧ pb.M.norm t.x (pb.grad t.x) = 0

/-- The outcome `b` of steepest descent, given the outcome `a` of conjugate gradient: the same
iterations, records, reason and gradient norm, and the point after one more step. -/
def OneStepFurther (ls : LineSearcher ℝ P E S) (pb : Prob ℝ P E) (a : Result ℝ P) (mem : S) :
    Except PyErr (Result ℝ P × S) → Prop
  | .ok (b, mem') => ∃ o, gradientSearch ls pb mem a.point = .ok o ∧ b.point = o.newx ∧
      b.cost = pb.cost o.newx ∧ b.stepSize = some o.stepSize ∧ mem' = o.mem ∧
      b.iterations = a.iterations ∧ b.stop = a.stop ∧ b.time = a.time ∧
      b.gradientNorm = a.gradientNorm ∧ b.log = a.log ∧
      b.costEvaluations = a.costEvaluations
  | .error e => gradientSearch ls pb mem a.point = .error e

/-! ## Lemmas -/

/-- The state of conjugate gradient at the point where steepest descent is in state `t`. -/
structure Same (pb : Prob ℝ P E) (least : ℝ) (s : CGState ℝ P E S) (t : SDState ℝ P S) : Prop where
  iteration : s.iteration = t.iteration
  x : s.x = t.x
  mem : s.mem = t.mem
  log : s.log = t.log
  cost : s.cost = pb.cost s.x
  grad : s.grad = pb.grad s.x
  Pgrad : s.Pgrad = pb.grad s.x
  gradientNorm : s.gradientNorm = pb.M.norm s.x (pb.grad s.x)
  gradPgrad : s.gradPgrad = pb.M.norm s.x (pb.grad s.x) ^ 2
  dir : s.dir = pb.M.neg (pb.grad s.x)
  step : ∀ a, s.stepSize = some a → least ≤ a

variable {pb : Prob ℝ P E} {cfg : Cfg ℝ} {rule : BetaRule} {orth : ℝ} {ls : LineSearcher ℝ P E S}
  {clk : Clock ℝ} {On : S → P → Prop} {Pts : P → Prop}

theorem checkStop_long {st n1 n2 g : ℝ} {k : ℤ} {a : Option ℝ}
    (h : ∀ b, a = some b → cfg.minStepSize ≤ b) :
    checkStop cfg st n1 n2 (gradientNorm := some g) (iteration := k) (stepSize := a) =
      checkStop cfg st n1 n2 (gradientNorm := some g) (iteration := k) := by
  have h2 : a.any (lt · cfg.minStepSize) = false := by
    cases a with
    | none => rfl
    | some b => simpa [PyNum.lt] using h b rfl
  unfold checkStop
  simp only [h2]
  rfl

theorem sq_lit (a : ℝ) : neg (pow a (lit 2)) = -a ^ 2 := by
  change -(a ^ (((2 : ℚ) : ℝ))) = _
  norm_num

theorem cgDirection_restart (horth : orth ≤ 0) {a : BetaArgs P E ℝ}
    {dir : E} (h1 : a.Pnewgrad = pb.grad a.newx)
    (h2 : a.newgradPnewgrad = pb.M.norm a.newx (pb.grad a.newx) ^ 2) :
    cgDirection pb.M rule orth a dir =
      if pb.M.norm a.newx (pb.grad a.newx) = 0 then .error .zeroDivision
      else .ok (pb.M.neg (pb.grad a.newx)) := by
  unfold cgDirection
  by_cases h : pb.M.norm a.newx (pb.grad a.newx) = 0
  · simp [PyNum.div, h2, h]
  · simp only [PyNum.div, h2, h, ne_eq, OfNat.ofNat_ne_zero, not_false_eq_true, pow_eq_zero_iff,
      if_false, PyNum.le, PyNum.abs]
    rw [if_pos (decide_eq_true (horth.trans (abs_nonneg _))), h1]

/-- One iteration from related states. -/
theorem same_step (hpb : PlainGradients pb Pts) (hsub : ∀ m x, On m x → Pts x) (horth : orth ≤ 0)
    (hls : NeverShorter ls pb On cfg.minStepSize) {s : CGState ℝ P E S} {t : SDState ℝ P S}
    (h : Same pb cfg.minStepSize s t) (hon : On t.mem t.x) :
    (∃ a m tr, cgStep cfg rule orth ls pb clk s = .ok (.brk (a, m, tr)) ∧
      ((∃ b, sdStep cfg ls pb clk t = .ok (.brk b) ∧ OneStepFurther ls pb a m (.ok b)) ∨
        ∃ e, sdStep cfg ls pb clk t = .error e ∧ OneStepFurther ls pb a m (.error e))) ∨
    (∃ e, cgStep cfg rule orth ls pb clk s = .error e ∧ sdStep cfg ls pb clk t = .error e) ∨
    (∃ t', sdStep cfg ls pb clk t = .ok (.next t') ∧
      cgStep cfg rule orth ls pb clk s = .error .zeroDivision ∧
      pb.M.norm t'.x (pb.grad t'.x) = 0) ∨
    (∃ s' t', cgStep cfg rule orth ls pb clk s = .ok (.next s') ∧
      sdStep cfg ls pb clk t = .ok (.next t') ∧ Same pb cfg.minStepSize s' t' ∧
      On t'.mem t'.x) := by
  obtain ⟨it, ss, x, co, gr, pg, gn, gp, di, me, lo, ev, se⟩ := s
  obtain ⟨it', x', me', lo', ev'⟩ := t
  obtain ⟨h1, h2, h3, h4, h5, h6, h7, h8, h9, h10, h11⟩ := h
  simp only at h1 h2 h3 h4 h5 h6 h7 h8 h9 h10 h11 hon
  subst h1 h2 h3 h4 h5 h6 h7 h8 h9 h10
  have hdf : (if le (lit 0) (pb.M.inner x (pb.grad x) (pb.M.neg (pb.grad x))) = true then
      (pb.M.neg (pb.grad x), neg (pb.M.norm x (pb.grad x) ^ 2)) else
      (pb.M.neg (pb.grad x), pb.M.inner x (pb.grad x) (pb.M.neg (pb.grad x)))) =
      (pb.M.neg (pb.grad x), -pb.M.norm x (pb.grad x) ^ 2) := by
    rw [hpb.innerNeg x (hsub _ _ hon)]
    split <;> rfl
  unfold cgStep sdStep
  simp only [sq_lit, checkStop_long h11, hdf]
  change _ ∨ _
  have hso : gradientSearch ls pb me x = ls.search me pb.cost pb.M x (pb.M.neg (pb.grad x))
    (pb.cost x) (-pb.M.norm x (pb.grad x) ^ 2) := rfl
  rw [← hso]
  rcases hs : gradientSearch ls pb me x with e | o
  · rcases hc : checkStop cfg clk.start (clk.check1 (it + 1) 0) (clk.check2 (it + 1) 0)
      (gradientNorm := some (pb.M.norm x (pb.grad x))) (iteration := it + 1) with _ | reason
    · exact .inr (.inl ⟨e, rfl, rfl⟩)
    · exact .inl ⟨_, _, _, rfl, .inr ⟨e, rfl, hs⟩⟩
  · obtain ⟨hon', hlong⟩ := hls _ _ _ hon hs
    simp only [checkStop_long (a := some o.stepSize)
      (fun b hb => by rw [← Option.some.inj hb]; exact hlong)]
    rcases hc : checkStop cfg clk.start (clk.check1 (it + 1) 0) (clk.check2 (it + 1) 0)
      (gradientNorm := some (pb.M.norm x (pb.grad x))) (iteration := it + 1) with _ | reason
    · have hp := hsub _ _ hon'
      simp only
      rw [cgDirection_restart horth (hpb.precon _ hp)
        (by simp only [hpb.precon _ hp, hpb.inner _ hp])]
      by_cases hz : pb.M.norm o.newx (pb.grad o.newx) = 0
      · refine .inr (.inr (.inl ⟨_, rfl, ?_, hz⟩))
        simp only [hz, if_true]
      · simp only [hz, if_false]
        refine .inr (.inr (.inr ⟨_, _, rfl, rfl, ?_, hon'⟩))
        refine ⟨rfl, rfl, rfl, rfl, rfl, rfl, hpb.precon _ hp, rfl, ?_, rfl, ?_⟩
        · simp only [hpb.precon _ hp, hpb.inner _ hp]
        · intro a ha
          rw [← Option.some.inj ha]
          exact hlong
    · exact .inl ⟨_, _, _, rfl, .inl ⟨_, rfl, o, hs, rfl, rfl, rfl, rfl, rfl, rfl, rfl, rfl,
        rfl, rfl⟩⟩

theorem same_init (hpb : PlainGradients pb Pts) {x : P} (hx : Pts x) (mem : S) (least : ℝ) :
    Same pb least (cgInit cfg pb x mem) (sdInit cfg x mem) := by
  refine ⟨rfl, rfl, rfl, rfl, rfl, rfl, hpb.precon x hx, rfl, ?_, ?_, fun a ha => nomatch ha⟩
  · change pb.M.inner x (pb.grad x) (pb.precon x (pb.grad x)) = pb.M.norm x (pb.grad x) ^ 2
    rw [hpb.precon x hx, hpb.inner x hx]
  · change pb.M.neg (pb.precon x (pb.grad x)) = pb.M.neg (pb.grad x)
    rw [hpb.precon x hx]

/-- Whole loops from related states. -/
theorem same_runs (hpb : PlainGradients pb Pts) (hsub : ∀ m x, On m x → Pts x) (horth : orth ≤ 0)
    (hls : NeverShorter ls pb On cfg.minStepSize) {n : ℕ} {s : CGState ℝ P E S}
    {r : Except PyErr (Result ℝ P × S × List (P × E × ℝ))}
    (hr : RunsIn (cgStep cfg rule orth ls pb clk) s n r) :
    ∀ {t : SDState ℝ P S}, Same pb cfg.minStepSize s t → On t.mem t.x →
      (∃ a m tr b, r = .ok (a, m, tr) ∧ RunsIn (sdStep cfg ls pb clk) t n b ∧
        OneStepFurther ls pb a m b) ∨
      (∃ e, r = .error e ∧ RunsIn (sdStep cfg ls pb clk) t n (.error e)) ∨
      (r = .error .zeroDivision ∧ ∃ t', Reaches (sdStep cfg ls pb clk) t t' ∧
        pb.M.norm t'.x (pb.grad t'.x) = 0) := by
  induction hr with
  | brk h =>
    intro t hst hon
    rcases same_step (rule := rule) (clk := clk) hpb hsub horth hls hst hon with
      ⟨a, m, tr, h1, h2⟩ | ⟨e, h1, h2⟩ | ⟨t', h1, h2, h3⟩ | ⟨s', t', h1, h2, h3⟩
    · rw [h] at h1
      cases h1
      rcases h2 with ⟨b, h2, h3⟩ | ⟨e, h2, h3⟩
      · exact .inl ⟨a, m, tr, _, rfl, .brk h2, h3⟩
      · exact .inl ⟨a, m, tr, _, rfl, .err h2, h3⟩
    · rw [h] at h1; cases h1
    · rw [h] at h2; cases h2
    · rw [h] at h1; cases h1
  | err h =>
    intro t hst hon
    rcases same_step (rule := rule) (clk := clk) hpb hsub horth hls hst hon with
      ⟨a, m, tr, h1, h2⟩ | ⟨e, h1, h2⟩ | ⟨t', h1, h2, h3⟩ | ⟨s', t', h1, h2, h3⟩
    · rw [h] at h1; cases h1
    · rw [h] at h1
      cases h1
      exact .inr (.inl ⟨_, rfl, .err h2⟩)
    · rw [h] at h2
      cases h2
      exact .inr (.inr ⟨rfl, t', .tail .refl h1, h3⟩)
    · rw [h] at h1; cases h1
  | next h hrest ih =>
    intro t hst hon
    rcases same_step (rule := rule) (clk := clk) hpb hsub horth hls hst hon with
      ⟨a, m, tr, h1, h2⟩ | ⟨e, h1, h2⟩ | ⟨t', h1, h2, h3⟩ | ⟨s', t', h1, h2, h3, h4⟩
    · rw [h] at h1; cases h1
    · rw [h] at h1; cases h1
    · rw [h] at h2; cases h2
    · rw [h] at h1
      cases h1
      rcases ih h3 h4 with ⟨a, m, tr, b, e1, e2, e3⟩ | ⟨e, e1, e2⟩ | ⟨e1, t2, e2, e3⟩
      · exact .inl ⟨a, m, tr, b, e1, .next h2 e2, e3⟩
      · exact .inr (.inl ⟨e, e1, .next h2 e2⟩)
      · refine .inr (.inr ⟨e1, t2, ?_, e3⟩)
        clear e3 ih
        induction e2 with
        | refl => exact .tail .refl h2
        | tail _ h5 ih2 => exact .tail ih2 h5

/-! ## C160 -/

/-- **C160**: a run of conjugate gradient with `orth_value ≤ 0` and no preconditioner, whatever the
beta rule.  If it returns, steepest descent from the same start with the same line searcher does the
same iterations, and takes one more step (or raises what that last line search raises).  If it
raises, steepest descent raises the same, or it was a division by zero at a critical point that
steepest descent visits. -/
theorem C160_runs (hpb : PlainGradients pb Pts) (hsub : ∀ m x, On m x → Pts x) (horth : orth ≤ 0)
    (hls : NeverShorter ls pb On cfg.minStepSize) {x : P} {mem : S} (hon : On mem x)
    {r : Except PyErr (Result ℝ P × S × List (P × E × ℝ))}
    (hr : CGRuns cfg rule orth ls pb clk x mem r) :
    (∃ a m tr b, r = .ok (a, m, tr) ∧ SDRuns cfg ls pb clk x mem b ∧ OneStepFurther ls pb a m b) ∨
    (∃ e, r = .error e ∧ SDRuns cfg ls pb clk x mem (.error e)) ∨
    (r = .error .zeroDivision ∧ VisitsCritical cfg ls pb clk x mem) := by
  unfold CGRuns at hr
  unfold SDRuns
  rcases hp : printerSetup cfg with e | u
  · rw [hp] at hr
    exact .inr (.inl ⟨_, hr, rfl⟩)
  · rw [hp] at hr
    obtain ⟨n, hr⟩ := hr
    rcases same_runs hpb hsub horth hls hr (same_init hpb (hsub _ _ hon) mem _) hon with
      ⟨a, m, tr, b, e1, e2, e3⟩ | ⟨e, e1, e2⟩ | ⟨e1, t2, e2, e3⟩
    · exact .inl ⟨a, m, tr, b, e1, ⟨n, e2⟩, e3⟩
    · exact .inr (.inl ⟨e, e1, ⟨n, e2⟩⟩)
    · exact .inr (.inr ⟨e1, t2, e2, e3⟩)

/-- **C160**, read from steepest descent: unless it visits a critical point, conjugate gradient
returns the last point but one, with the same iterations, records and reason. -/
theorem C160_converse (hpb : PlainGradients pb Pts) (hsub : ∀ m x, On m x → Pts x)
    (horth : orth ≤ 0) (hls : NeverShorter ls pb On cfg.minStepSize) {x : P} {mem : S}
    (hon : On mem x) {b : Result ℝ P × S} (hr : SDRuns cfg ls pb clk x mem (.ok b)) :
    (∃ a m tr, CGRuns cfg rule orth ls pb clk x mem (.ok (a, m, tr)) ∧
      OneStepFurther ls pb a m (.ok b)) ∨
    (CGRuns cfg rule orth ls pb clk x mem (.error .zeroDivision) ∧
      VisitsCritical cfg ls pb clk x mem) := by
  obtain ⟨⟨c, hc⟩, -⟩ := C02_conjugateGradient cfg rule orth ls pb clk x mem
  have hdet := (C02_steepestDescent cfg ls pb clk x mem).2.1
  rcases C160_runs hpb hsub horth hls hon hc with
    ⟨a, m, tr, b', e1, e2, e3⟩ | ⟨e, e1, e2⟩ | ⟨e1, e2⟩
  · subst e1
    rw [hdet _ _ hr e2]
    exact .inl ⟨a, m, tr, hc, e3⟩
  · exact nomatch hdet _ _ hr e2
  · subst e1
    exact .inr ⟨hc, e2⟩

/-! ## The line searchers of the package -/

/-- Memories of the backtracking line searcher that occur at `x`. -/
def BackTrackingAt (pb : Prob ℝ P E) (Pts : P → Prop) (m : Option ℝ) (x : P) : Prop :=
  Pts x ∧ ∀ o, m = some o → pb.cost x ≤ o

/-- Memories of the adaptive line searcher that occur. -/
def AdaptiveAt (Pts : P → Prop) (m : Option ℝ) (x : P) : Prop :=
  Pts x ∧ ∀ a, m = some a → 0 ≤ a

theorem iterate_nonneg {c a : ℝ} (hc : 0 ≤ c) (ha : 0 ≤ a) (n : ℕ) :
    0 ≤ (fun b : ℝ => mul c b)^[n] a ∧ 0 ≤ (fun b : ℝ => mul b c)^[n] a := by
  induction n with
  | zero => exact ⟨ha, ha⟩
  | succ n ih =>
    rw [Function.iterate_succ_apply', Function.iterate_succ_apply']
    exact ⟨mul_nonneg hc ih.1, mul_nonneg ih.2 hc⟩

/-- **C160** applies to the default line searcher: steps are never negative. -/
theorem C160_backTracking (hpb : PlainGradients pb Pts)
    (hnorm : ∀ x, Pts x → 0 ≤ pb.M.norm x (pb.M.neg (pb.grad x))) {least : ℝ} (hleast : least ≤ 0)
    {c : BackTrackingCfg ℝ} (h1 : 0 ≤ c.contractionFactor) (h2 : 0 ≤ c.optimism)
    (h3 : 0 ≤ c.initialStepSize) :
    NeverShorter (backTracking P E c) pb (BackTrackingAt pb Pts) least := by
  intro mem x o ⟨hx, hm⟩ ho
  have hasc := backTracking_neverAscends (F := ℝ) c _ _ _ _ _ _ _ ho
  obtain ⟨a0, n, h4, -, h5, h6⟩ := backTracking_trace ho
  have ha0 : 0 ≤ a0 := by
    unfold backTrackingInit at h4
    cases mem with
    | none =>
      simp only [PyNum.div] at h4
      split at h4
      · cases h4
      · rename_i q hq
        split at hq
        · cases hq
        · cases hq
          cases h4
          exact div_nonneg h3 (hnorm x hx)
    | some f =>
      simp only [PyNum.div] at h4
      split at h4
      · cases h4
      · rename_i q hq
        split at hq
        · cases hq
        · cases hq
          cases h4
          refine mul_nonneg (div_nonneg_of_nonpos ?_ ?_) h2
          · refine mul_nonpos_of_nonneg_of_nonpos ?_ (sub_nonpos.2 (hm f rfl))
            change (0 : ℝ) ≤ ((2 : ℚ) : ℝ)
            norm_num
          · exact neg_nonpos.2 (sq_nonneg _)
  have hle : pb.cost o.newx ≤ pb.cost x := by simpa [PyNum.lt] using hasc
  refine ⟨⟨?_, fun f hf => ?_⟩, hleast.trans ?_⟩
  · rcases h6 with ⟨-, h7, -⟩ | ⟨-, h7, -⟩
    · rw [h7]; exact hx
    · rw [h7]; exact hpb.stays x _ hx
  · rw [h5] at hf
    rw [← Option.some.inj hf]
    exact hle
  · rcases h6 with ⟨-, -, h7⟩ | ⟨-, -, h7⟩
    · rw [h7]
      refine mul_nonneg ?_ (hnorm x hx)
      change (0 : ℝ) ≤ ((0 : ℚ) : ℝ)
      norm_num
    · rw [h7]
      exact mul_nonneg (iterate_nonneg h1 ha0 _).1 (hnorm x hx)

/-- **C160** applies to the adaptive line searcher: steps are never negative. -/
theorem C160_adaptive (hpb : PlainGradients pb Pts)
    (hnorm : ∀ x, Pts x → 0 ≤ pb.M.norm x (pb.M.neg (pb.grad x))) {least : ℝ} (hleast : least ≤ 0)
    {c : AdaptiveCfg ℝ} (h1 : 0 ≤ c.contractionFactor) (h3 : 0 ≤ c.initialStepSize) :
    NeverShorter (adaptive P E c) pb (AdaptiveAt Pts) least := by
  intro mem x o ⟨hx, hm⟩ ho
  obtain ⟨a0, n, h4, -, h6⟩ := adaptive_trace ho
  have ha0 : 0 ≤ a0 := by
    unfold adaptiveInit at h4
    cases mem with
    | none =>
      simp only [PyNum.div] at h4
      split at h4
      · cases h4
      · rename_i q hq
        split at hq
        · cases hq
        · cases hq
          cases h4
          exact div_nonneg h3 (hnorm x hx)
    | some a =>
      cases h4
      exact hm a rfl
  have h0 : (0 : ℝ) ≤ lit 0 := by
    change (0 : ℝ) ≤ ((0 : ℚ) : ℝ)
    norm_num
  have h2 : (0 : ℝ) ≤ lit 2 := by
    change (0 : ℝ) ≤ ((2 : ℚ) : ℝ)
    norm_num
  have hk := (iterate_nonneg h1 ha0 (n - 1)).2
  rcases h6 with ⟨-, h7, h8, h9⟩ | ⟨-, h7, h8, h9⟩
  · refine ⟨⟨by rw [h7]; exact hx, fun a ha => ?_⟩, hleast.trans ?_⟩
    · rw [h9] at ha
      rw [← Option.some.inj ha]
      split
      · exact h0
      · exact mul_nonneg h2 h0
    · rw [h8]
      exact mul_nonneg h0 (hnorm x hx)
  · refine ⟨⟨by rw [h7]; exact hpb.stays x _ hx, fun a ha => ?_⟩, hleast.trans ?_⟩
    · rw [h9] at ha
      rw [← Option.some.inj ha]
      split
      · exact hk
      · exact mul_nonneg h2 hk
    · rw [h8]
      exact mul_nonneg hk (hnorm x hx)

/-- Problems whose operators are what they claim to be (see C111) have plain gradients, if there is no
preconditioner and retractions of tangent vectors are points. -/
theorem C160_firstOrder {Tan : P → E → Prop} (h : FirstOrder pb Pts Tan)
    (hp : ∀ x, Pts x → pb.precon x (pb.grad x) = pb.grad x)
    (hr : ∀ x v a, Pts x → Tan x v → Pts (trialPoint pb.M x v a)) :
    PlainGradients pb Pts ∧ ∀ x, Pts x → 0 ≤ pb.M.norm x (pb.M.neg (pb.grad x)) :=
  ⟨⟨fun x hx => by rw [h.innerNeg x _ hx (h.grad x hx), h.normSq x _ hx (h.grad x hx)],
    fun x hx => (h.normSq x _ hx (h.grad x hx)).symm, hp,
    fun x a hx => hr x _ a hx (h.neg x _ hx (h.grad x hx))⟩,
    fun x hx => h.normNonneg x _ hx (h.neg x _ hx (h.grad x hx))⟩

/-! ## The hypotheses are met -/

theorem realSquare_plain : PlainGradients realSquare fun _ => True := by
  refine ⟨fun x _ => ?_, fun x _ => ?_, fun _ _ => rfl, fun _ _ _ => trivial⟩ <;>
    · simp only [realSquare, realMfd, sq_abs]
      ring

/-- Hypotheses of C160: `x ** 2` with the default line searcher from `1`. -/
example (cfg : Cfg ℝ) (h : cfg.minStepSize ≤ 0) :
    NeverShorter (backTracking ℝ ℝ ⟨1 / 2, 2, 1 / 10 ^ 4, 25, 1⟩) realSquare
      (BackTrackingAt realSquare fun _ => True) cfg.minStepSize ∧
    BackTrackingAt realSquare (fun _ => True) none 1 :=
  ⟨C160_backTracking realSquare_plain (fun _ _ => abs_nonneg _) h (by norm_num) (by norm_num)
    (by norm_num), trivial, fun _ h => nomatch h⟩

/-- A run of conjugate gradient that returns after two iterations, at the point `1 / 2`. -/
example (clk : Clock ℝ) (hclk : ∀ k, clk.check2 k 0 < clk.start + 1000) :
    ∃ a m tr, CGRuns ⟨1000, 2, 1 / 10 ^ 6, 0, 5000, 0, 0⟩ .hestenesStiefel 0
      (backTracking ℝ ℝ ⟨1 / 2, 2, 1 / 10 ^ 4, 25, 1 / 2⟩) realSquare clk 1 none
      (.ok (a, m, tr)) ∧ a.point = 1 / 2 := by
  have h1 : ∃ s', cgStep ⟨1000, 2, 1 / 10 ^ 6, 0, 5000, 0, 0⟩ .hestenesStiefel 0
      (backTracking ℝ ℝ ⟨1 / 2, 2, 1 / 10 ^ 4, 25, 1 / 2⟩) realSquare clk
      (cgInit ⟨1000, 2, 1 / 10 ^ 6, 0, 5000, 0, 0⟩ realSquare 1 none) = .ok (.next s') ∧
      s'.x = 1 / 2 ∧ s'.iteration = 1 := by
    have hc := (hclk 1).not_ge
    have hn : Int.toNat 25 = 24 + 1 := rfl
    norm_num [hn, armijoFails, cgStep, cgInit, checkStop, backTracking, backTrackingSearch, backTrackingInit,
      btLoop, trial, realSquare, realMfd, cgDirection, PyNum.div, PyNum.lt, PyNum.le, PyNum.mul,
      PyNum.add, PyNum.sub, PyNum.neg, PyNum.abs, PyNum.lit, PyNum.toFloat, hc]
  obtain ⟨s', h2, h3, h4⟩ := h1
  have h5 : ∃ r, cgStep ⟨1000, 2, 1 / 10 ^ 6, 0, 5000, 0, 0⟩ .hestenesStiefel 0
      (backTracking ℝ ℝ ⟨1 / 2, 2, 1 / 10 ^ 4, 25, 1 / 2⟩) realSquare clk s' =
      .ok (.brk r) ∧ r.1.point = s'.x := by
    have hc := (hclk 2).not_ge
    norm_num [cgStep, checkStop, PyNum.lt, PyNum.le, PyNum.add, h4, hc]
  obtain ⟨⟨a, m, tr⟩, h6, h7⟩ := h5
  exact ⟨a, m, tr, ⟨2, .next h2 (.brk h6)⟩, h7.trans h3⟩

end Verif.Opt
