/-
C10–C14: search directions, beta rules, critical points and independence of runs.
-/
import Verif.Opt.Props.Descent

namespace Verif.Opt
open PyNum

variable {F P E S : Type*} [PyNum F]

/-! ## C10 -/

/-- What is known about a line search call `(x, d, df0)`: either `df0` is the inner product of
the gradient with the direction and not `≥ 0`, or the direction is the negative preconditioned
gradient and `df0` is minus the inner product of gradient and preconditioned gradient. -/
def DescentCall (pb : Prob F P E) (t : P × E × F) : Prop :=
  (t.2.2 = pb.M.inner t.1 (pb.grad t.1) t.2.1 ∧ le (lit 0) t.2.2 = false) ∨
  (t.2.1 = pb.M.neg (pb.precon t.1 (pb.grad t.1)) ∧
    t.2.2 = neg (pb.M.inner t.1 (pb.grad t.1) (pb.precon t.1 (pb.grad t.1))))

/-- **C10**, first half: every line search call of a run is a descent call, with one call for
every iteration but the last. -/
theorem C10_descentCalls {cfg : Cfg F} {rule : BetaRule} {orth : F} {ls : LineSearcher F P E S}
    {pb : Prob F P E} {clk : Clock F} {x : P} {mem : S} {r : Result F P} {m : S}
    {calls : List (P × E × F)} (h : CGRuns cfg rule orth ls pb clk x mem (.ok (r, m, calls))) :
    (∀ t ∈ calls, DescentCall pb t) ∧ (calls.length : ℤ) = r.iterations - 1 := by
  unfold CGRuns at h
  split at h
  · cases h
  refine h.invariant
    (Inv := fun s : CGState F P E S => s.grad = pb.grad s.x ∧
      s.Pgrad = pb.precon s.x (pb.grad s.x) ∧
      s.gradPgrad = pb.M.inner s.x (pb.grad s.x) (pb.precon s.x (pb.grad s.x)) ∧
      (∀ t ∈ s.searches, DescentCall pb t) ∧ (s.searches.length : ℤ) = s.iteration)
    (Post := fun r : Result F P × S × List (P × E × F) =>
      (∀ t ∈ r.2.2, DescentCall pb t) ∧ (r.2.2.length : ℤ) = r.1.iterations - 1) ?_ ?_ ?_
  · rintro s s' ⟨h0, h1, h2, h3, h4⟩ hs
    obtain ⟨o, nd, hc, ho, _, rfl⟩ := cgStep_next hs
    refine ⟨rfl, rfl, rfl, ?_, by simp [h4]⟩
    intro t ht
    rcases List.mem_append.1 ht with ht | ht
    · exact h3 t ht
    · simp only [List.mem_singleton] at ht
      rw [ht]
      unfold cgSearchDir
      split
      · exact Or.inr ⟨by rw [h1], by rw [h2]⟩
      · rename_i hle
        exact Or.inl ⟨by rw [h0], by simpa using hle⟩
  · rintro s r ⟨h0, h1, h2, h3, h4⟩ hs
    obtain ⟨reason, hc, rfl⟩ := cgStep_brk hs
    exact ⟨h3, by simp [h4]⟩
  · exact ⟨rfl, rfl, rfl, by simp [cgInit], by simp [cgInit]⟩

/-- **C10**, second half: if inner products are never NaN, `⟨g, -v⟩ = -⟨g, v⟩`, and the
preconditioner is positive definite at every point with non-zero gradient, then the value
passed to the line search is the inner product of the gradient with the search direction, and
negative wherever the gradient is non-zero. -/
theorem C10_negative [LawfulPyNum F] {cfg : Cfg F} {rule : BetaRule} {orth : F}
    {ls : LineSearcher F P E S} {pb : Prob F P E} {clk : Clock F} {x : P} {mem : S}
    {r : Result F P} {m : S} {calls : List (P × E × F)}
    (hnan : ∀ p u v, isnan (pb.M.inner p u v) = false)
    (hneg : ∀ p u v, pb.M.inner p u (pb.M.neg v) = neg (pb.M.inner p u v))
    (nonzero : P → Prop)
    (hpos : ∀ p, nonzero p →
      lt (lit 0) (pb.M.inner p (pb.grad p) (pb.precon p (pb.grad p))) = true)
    (h : CGRuns cfg rule orth ls pb clk x mem (.ok (r, m, calls))) :
    ∀ t ∈ calls, t.2.2 = pb.M.inner t.1 (pb.grad t.1) t.2.1 ∧
      (nonzero t.1 → lt t.2.2 (lit 0) = true) := by
  intro t ht
  rcases (C10_descentCalls h).1 t ht with ⟨h1, h2⟩ | ⟨h1, h2⟩
  · refine ⟨h1, fun _ => ?_⟩
    by_contra hlt
    rw [Bool.not_eq_true, ← LawfulPyNum.le_iff _ _ (LawfulPyNum.isnan_lit 0)
      (by rw [h1]; exact hnan _ _ _), h2] at hlt
    cases hlt
  · refine ⟨by rw [h2, h1, hneg], fun hz => ?_⟩
    rw [h2]
    exact LawfulPyNum.neg_pos _ (hpos _ hz)

/-- The hypotheses of `C10_negative` hold for `x ** 2` on finite numbers; here for the inner
product of the line with exact real arithmetic. -/
example : ∀ u v : ℝ, isnan (u * v) = false ∧ u * (-v) = neg (u * v) ∧
    (u ≠ 0 → lt (lit 0) (u * u) = true) := by
  intro u v
  refine ⟨rfl, by simp [neg], fun h => ?_⟩
  simpa [lt, lit] using mul_self_pos.2 h

/-! ## C11 -/

private theorem zero_or_pos [LawfulPyNum F] (q : F) :
    pymax (lit 0) q = lit 0 ∨ lt (lit 0) (pymax (lit 0) q) = true := by
  unfold pymax
  split
  · rename_i h
    exact Or.inr h
  · exact Or.inl rfl

/-- **C11**, Polak-Ribière: the coefficient is `0` or positive, never negative or NaN. -/
theorem C11_polakRibiere [LawfulPyNum F] {M : Mfd F P E} {a : BetaArgs P E F} {b : F}
    (h : BetaRule.polakRibiere.eval M a = .ok b) : b = lit 0 ∨ lt (lit 0) b = true := by
  simp only [BetaRule.eval, betaPolakRibiere] at h
  split at h
  · cases h
  · cases h
    exact zero_or_pos _

/-- **C11**, Hestenes-Stiefel. -/
theorem C11_hestenesStiefel [LawfulPyNum F] {M : Mfd F P E} {a : BetaArgs P E F} {b : F}
    (h : BetaRule.hestenesStiefel.eval M a = .ok b) : b = lit 0 ∨ lt (lit 0) b = true := by
  simp only [BetaRule.eval, betaHestenesStiefel] at h
  split at h
  · cases h
    exact zero_or_pos _
  · cases h
    exact Or.inr ((LawfulPyNum.lt_lit 0 1).2 (by norm_num))
  · cases h

/-- **C11**, Liu-Storey. -/
theorem C11_liuStorey [LawfulPyNum F] {M : Mfd F P E} {a : BetaArgs P E F} {b : F}
    (h : BetaRule.liuStorey.eval M a = .ok b) : b = lit 0 ∨ lt (lit 0) b = true := by
  simp only [BetaRule.eval, betaLiuStorey] at h
  split at h
  · cases h
  · split at h
    · cases h
    · cases h
      exact zero_or_pos _

/-- **C11**, Hager-Zhang: the coefficient is never smaller than
`eta = -1 / (norm(d) * min(0.01, norm(grad)))`. -/
theorem C11_hagerZhang [LawfulPyNum F] {M : Mfd F P E} {a : BetaArgs P E F} {b : F}
    (h : BetaRule.hagerZhang.eval M a = .ok b) :
    ∃ eta, div (lit (-1)) (mul (M.norm a.newx a.dir)
        (if lt a.gradientNorm (lit (1 / 100)) then a.gradientNorm else lit (1 / 100))) = .ok eta ∧
      lt b eta = false := by
  simp only [BetaRule.eval, betaHagerZhang] at h
  split at h
  · cases h
  · split at h
    · cases h
    · split at h
      · cases h
      · rename_i beta _ eta heta
        cases h
        refine ⟨eta, heta, ?_⟩
        unfold pymax
        split
        · exact LawfulPyNum.lt_irrefl _
        · rename_i hlt
          simpa using hlt

/-- **C11**, Fletcher-Reeves: `⟨g', Pg'⟩ / ⟨g, Pg⟩` with new and old gradient, for the values a
run passes to the rule. -/
theorem C11_fletcherReeves {M : Mfd F P E} {a : BetaArgs P E F}
    (hnew : a.newgradPnewgrad = M.inner a.newx a.newgrad a.Pnewgrad)
    (hold : a.gradPgrad = M.inner a.x a.grad a.Pgrad) :
    BetaRule.fletcherReeves.eval M a =
      div (M.inner a.newx a.newgrad a.Pnewgrad) (M.inner a.x a.grad a.Pgrad) := by
  simp [BetaRule.eval, betaFletcherReeves, hnew, hold]

/-- **C11**, restart and update: if Powell's test triggers, the new direction is the negative
preconditioned gradient (the old direction has coefficient zero) whatever the rule; otherwise it
is that plus the rule's coefficient times the transported old direction. -/
theorem C11_direction {M : Mfd F P E} {rule : BetaRule} {orth q : F} {a : BetaArgs P E F}
    {dir d : E} (hq : div (M.inner a.newx a.oldgrad a.Pnewgrad) a.newgradPnewgrad = .ok q)
    (h : cgDirection M rule orth a dir = .ok d) :
    (le orth (abs q) = true → d = M.neg a.Pnewgrad) ∧
    (le orth (abs q) = false → ∃ beta,
      rule.eval M { a with dir := M.transport a.x a.newx dir } = .ok beta ∧
      d = M.add (M.neg a.Pnewgrad) (M.smul beta (M.transport a.x a.newx dir))) := by
  unfold cgDirection at h
  rw [hq] at h
  simp only at h
  split at h
  · rename_i ho
    cases h
    exact ⟨fun _ => rfl, fun ho' => by rw [ho] at ho'; cases ho'⟩
  · rename_i ho
    refine ⟨fun ho' => absurd ho' ho, fun _ => ?_⟩
    split at h
    · cases h
    · rename_i beta hb
      cases h
      exact ⟨beta, hb, rfl⟩

/-- The rules are the five documented names; any other name is a `ValueError`. -/
theorem C11_names (s : String) :
    (∃ b, BetaRule.ofName s = .ok b) ↔
      s ∈ ["FletcherReeves", "HagerZhang", "HestenesStiefel", "PolakRibiere", "LiuStorey"] := by
  unfold BetaRule.ofName
  split <;> simp_all

/-- **C11**, formulas: with real arithmetic each name selects the formula of the literature.  `y` is
the change of the gradient and `Py` that of the preconditioned gradient, at the new point. -/
theorem C11_formulas {M : Mfd ℝ P E} {a : BetaArgs P E ℝ} {name : String} {rule : BetaRule} {b : ℝ}
    (hn : BetaRule.ofName name = .ok rule) (h : rule.eval M a = .ok b) (y Py : E)
    (hy : y = M.sub a.newgrad a.oldgrad)
    (hPy : Py = M.sub a.Pnewgrad (M.transport a.x a.newx a.Pgrad)) :
    (name = "FletcherReeves" → b = a.newgradPnewgrad / a.gradPgrad) ∧
    (name = "PolakRibiere" → b = max 0 (M.inner a.newx a.Pnewgrad y / a.gradPgrad)) ∧
    (name = "HestenesStiefel" → b = if M.inner a.newx y a.dir = 0 then 1 else
      max 0 (M.inner a.newx a.Pnewgrad y / M.inner a.newx y a.dir)) ∧
    (name = "HagerZhang" → b = max
      ((M.inner a.newx y a.Pnewgrad - 2 * M.inner a.newx y Py * M.inner a.newx a.dir a.newgrad /
        M.inner a.newx y a.dir) / M.inner a.newx y a.dir)
      (-1 / (M.norm a.newx a.dir * min (1 / 100) a.gradientNorm))) ∧
    (name = "LiuStorey" → b = max 0 (min
      (M.inner a.newx a.Pnewgrad y / -M.inner a.x a.grad a.dir)
      (a.newgradPnewgrad / -M.inner a.x a.grad a.dir))) := by
  have hmax : ∀ u v : ℝ, pymax u v = max u v := fun u v => by
    unfold pymax
    simp only [lt, decide_eq_true_eq]
    split
    · rename_i h; exact (max_eq_right h.le).symm
    · rename_i h; exact (max_eq_left (not_lt.mp h)).symm
  have hmin : ∀ u v : ℝ, pymin u v = min u v := fun u v => by
    unfold pymin
    simp only [lt, decide_eq_true_eq]
    split
    · rename_i h; exact (min_eq_right h.le).symm
    · rename_i h; exact (min_eq_left (not_lt.mp h)).symm
  have hdiv : ∀ {u v w : ℝ}, div u v = .ok w → v ≠ 0 ∧ w = u / v := fun {u v w} h => by
    simp only [div] at h
    split at h
    · cases h
    · rename_i hv; cases h; exact ⟨hv, rfl⟩
  subst hy hPy
  refine ⟨?_, ?_, ?_, ?_, ?_⟩
  · rintro rfl
    cases hn
    exact (hdiv h).2
  · rintro rfl
    cases hn
    simp only [BetaRule.eval, betaPolakRibiere] at h
    split at h
    · cases h
    · rename_i q hq
      cases h
      rw [hmax, (hdiv hq).2]
      simp [lit]
  · rintro rfl
    cases hn
    simp only [BetaRule.eval, betaHestenesStiefel] at h
    split at h
    · rename_i q hq
      cases h
      rw [hmax, (hdiv hq).2, if_neg (hdiv hq).1]
      simp [lit]
    · rename_i hq
      cases h
      simp only [div] at hq
      split at hq
      · rename_i h0
        rw [if_pos h0]
        simp [lit]
      · cases hq
    · rename_i e hne hq
      simp only [div] at hq
      split at hq
      · cases hq; exact absurd rfl hne
      · cases hq
  · rintro rfl
    cases hn
    simp only [BetaRule.eval, betaHagerZhang] at h
    split at h
    · cases h
    · rename_i t ht
      split at h
      · cases h
      · rename_i beta hb
        split at h
        · cases h
        · rename_i eta heta
          cases h
          rw [hmax, (hdiv hb).2, (hdiv heta).2, (hdiv ht).2, hmin]
          simp [lit, mul, sub]
  · rintro rfl
    cases hn
    simp only [BetaRule.eval, betaLiuStorey] at h
    split at h
    · cases h
    · rename_i bl hl
      split at h
      · cases h
      · rename_i bc hc
        cases h
        rw [hmax, hmin, (hdiv hl).2, (hdiv hc).2]
        simp [lit, neg]

/-- A concrete use of each rule: new gradient `3`, old gradient `2`, direction `-2`. -/
example : [BetaRule.fletcherReeves, .hestenesStiefel, .polakRibiere, .liuStorey,
    .hagerZhang].map (fun rule => (rule.eval lineMfd
      { x := .npy 0, newx := .npy 1, grad := .npy 2, newgrad := .npy 3, Pnewgrad := .npy 3,
        newgradPnewgrad := .py 9, Pgrad := .npy 2, gradPgrad := .py 4, gradientNorm := .npy 2,
        oldgrad := .npy 2, dir := .npy (-2) }).toOption.map Num.v) =
      [some (.fin (9 / 4)), some (.fin 0), some (.fin (3 / 4)), some (.fin (3 / 4)),
       some (.fin (3 / 2))] := by
  decide +kernel

/-! ## C12 -/

/-- C12 is false for the code: `ConjugateGradient` with default arguments on `x ** 2` over
`Euclidean(1)` from `1` lands exactly on the minimiser `0` in its first step and raises
`ZeroDivisionError` instead of returning it. -/
theorem C12_zeroDivision :
    CGRuns defaultCfg .hestenesStiefel inf (adaptive Q Q defaultAdaptive) squareProb stillClock
      (.npy 1) none (.error .zeroDivision) ∧
    ∃ o, (adaptive Q Q defaultAdaptive).search none squareProb.cost lineMfd (.npy 1)
        (lineMfd.neg (squareProb.grad (.npy 1))) (squareProb.cost (.npy 1)) (.py (-4)) = .ok o ∧
      o.newx = .npy 0 ∧ squareProb.grad o.newx = .npy 0 := by
  constructor
  · obtain ⟨r, hr, he⟩ := exists_of_checkFuel (n := 2) (p := isError .zeroDivision)
      (step := cgStep defaultCfg .hestenesStiefel inf (adaptive Q Q defaultAdaptive) squareProb
        stillClock) (s := cgInit defaultCfg squareProb (.npy 1) none) (by decide +kernel)
    rw [eq_of_isError he] at hr
    exact hr
  refine ⟨⟨.npy 1, .npy 0, some (.py 1), [.npy 0]⟩, by decide +kernel, rfl, by decide +kernel⟩

/-- **C12**, the part that holds: if the divisions of the direction update do not raise (numpy
inner products) and the line search lands on a point whose gradient norm is below the
threshold, the run ends there.  Missing: manifolds whose inner product is a Python float
(`C12_zeroDivision`). -/
theorem C12_partial {cfg : Cfg F} {rule : BetaRule} {orth : F} {ls : LineSearcher F P E S}
    {pb : Prob F P E} {clk : Clock F} {s s' : CGState F P E S}
    (hs : cgStep cfg rule orth ls pb clk s = .ok (.next s'))
    (hsmall : lt (pb.M.norm s'.x (pb.grad s'.x)) cfg.minGradientNorm = true) :
    ∃ r m t, Runs (cgStep cfg rule orth ls pb clk) s (.ok (r, m, t)) ∧ r.point = s'.x ∧
      r.iterations = s.iteration + 2 := by
  have hnorm : s'.gradientNorm = pb.M.norm s'.x (pb.grad s'.x) := by
    obtain ⟨o, nd, _, _, _, rfl⟩ := cgStep_next hs
    rfl
  have hit : s'.iteration = s.iteration + 1 := by
    obtain ⟨o, nd, _, _, _, rfl⟩ := cgStep_next hs
    rfl
  have hstop : ∃ reason, checkStop cfg clk.start (clk.check1 (s'.iteration + 1) 0)
      (clk.check2 (s'.iteration + 1) 0) (gradientNorm := s'.gradientNorm)
      (iteration := s'.iteration + 1) (stepSize := s'.stepSize) = some reason := by
    rw [← Option.isSome_iff_exists, ← Option.ne_none_iff_isSome]
    intro hnone
    unfold checkStop at hnone
    rw [hnorm, Option.any_some, hsmall] at hnone
    simp only [if_true] at hnone
    split at hnone
    · cases hnone
    · split at hnone <;> cases hnone
  obtain ⟨reason, hreason⟩ := hstop
  have hbrk : ∃ r m t, cgStep cfg rule orth ls pb clk s' = .ok (.brk (r, m, t)) ∧
      r.point = s'.x ∧ r.iterations = s'.iteration + 1 := by
    unfold cgStep
    simp only
    rw [hreason]
    exact ⟨_, _, _, rfl, rfl, rfl⟩
  obtain ⟨r, m, t, hr, h1, h2⟩ := hbrk
  exact ⟨r, m, t, ⟨2, .next hs (.brk hr)⟩, h1, by omega⟩

/-- **C12** when no division raises (all scalars are numpy scalars): whenever a run that is not
told to stop makes a line search that lands on a point with gradient norm below the threshold,
it ends at the next iteration and returns that point. -/
theorem C12_numpy_partial (hdiv : ∀ a b : F, ∃ q, div a b = .ok q) {cfg : Cfg F}
    {rule : BetaRule} {orth : F} {ls : LineSearcher F P E S} {pb : Prob F P E} {clk : Clock F}
    {s : CGState F P E S} {o : SearchOut F P S}
    (hgo : checkStop cfg clk.start (clk.check1 (s.iteration + 1) 0)
      (clk.check2 (s.iteration + 1) 0) (gradientNorm := s.gradientNorm)
      (iteration := s.iteration + 1) (stepSize := s.stepSize) = none)
    (ho : ls.search s.mem pb.cost pb.M s.x (cgSearchDir pb s).1 s.cost (cgSearchDir pb s).2 = .ok o)
    (hsmall : lt (pb.M.norm o.newx (pb.grad o.newx)) cfg.minGradientNorm = true) :
    ∃ r m t, Runs (cgStep cfg rule orth ls pb clk) s (.ok (r, m, t)) ∧ r.point = o.newx ∧
      r.iterations = s.iteration + 2 := by
  have hbeta : ∀ a : BetaArgs P E F, ∃ b, rule.eval pb.M a = .ok b := by
    intro a
    cases rule
    · exact hdiv _ _
    · simp only [BetaRule.eval, betaHagerZhang]
      obtain ⟨q1, h1⟩ := hdiv (mul (mul (lit 2) (pb.M.inner a.newx (pb.M.sub a.newgrad a.oldgrad)
        (pb.M.sub a.Pnewgrad (pb.M.transport a.x a.newx a.Pgrad))))
        (pb.M.inner a.newx a.dir a.newgrad))
        (pb.M.inner a.newx (pb.M.sub a.newgrad a.oldgrad) a.dir)
      rw [h1]
      obtain ⟨q2, h2⟩ := hdiv (sub (pb.M.inner a.newx (pb.M.sub a.newgrad a.oldgrad) a.Pnewgrad)
        q1) (pb.M.inner a.newx (pb.M.sub a.newgrad a.oldgrad) a.dir)
      simp only [h2]
      obtain ⟨q3, h3⟩ := hdiv (lit (-1)) (mul (pb.M.norm a.newx a.dir)
        (pymin (lit (1 / 100)) a.gradientNorm))
      simp only [h3]
      exact ⟨_, rfl⟩
    · simp only [BetaRule.eval, betaHestenesStiefel]
      obtain ⟨q1, h1⟩ := hdiv (pb.M.inner a.newx a.Pnewgrad (pb.M.sub a.newgrad a.oldgrad))
        (pb.M.inner a.newx (pb.M.sub a.newgrad a.oldgrad) a.dir)
      simp only [h1]
      exact ⟨_, rfl⟩
    · simp only [BetaRule.eval, betaPolakRibiere]
      obtain ⟨q1, h1⟩ := hdiv (pb.M.inner a.newx a.Pnewgrad (pb.M.sub a.newgrad a.oldgrad))
        a.gradPgrad
      simp only [h1]
      exact ⟨_, rfl⟩
    · simp only [BetaRule.eval, betaLiuStorey]
      obtain ⟨q1, h1⟩ := hdiv (pb.M.inner a.newx a.Pnewgrad (pb.M.sub a.newgrad a.oldgrad))
        (neg (pb.M.inner a.x a.grad a.dir))
      obtain ⟨q2, h2⟩ := hdiv a.newgradPnewgrad (neg (pb.M.inner a.x a.grad a.dir))
      simp only [h1, h2]
      exact ⟨_, rfl⟩
  have hdir : ∀ (a : BetaArgs P E F) dir, ∃ d, cgDirection pb.M rule orth a dir = .ok d := by
    intro a dir
    unfold cgDirection
    obtain ⟨q, hq⟩ := hdiv (pb.M.inner a.newx a.oldgrad a.Pnewgrad) a.newgradPnewgrad
    simp only [hq]
    split
    · exact ⟨_, rfl⟩
    · obtain ⟨b, hb⟩ := hbeta { a with dir := pb.M.transport a.x a.newx dir }
      simp only [hb]
      exact ⟨_, rfl⟩
  have hstep : ∃ s', cgStep cfg rule orth ls pb clk s = .ok (.next s') ∧ s'.x = o.newx := by
    simp only [cgSearchDir] at ho
    unfold cgStep
    simp only [hgo, ho]
    split
    · rename_i e heq
      obtain ⟨d, hd⟩ := hdir _ _
      rw [hd] at heq
      cases heq
    · exact ⟨_, rfl, rfl⟩
  obtain ⟨s', hs, hx⟩ := hstep
  rw [← hx] at hsmall
  obtain ⟨r, m, t, h1, h2, h3⟩ := C12_partial hs hsmall
  exact ⟨r, m, t, h1, by rw [h2, hx], h3⟩

/-- `x ** 2` on the line with numpy inner products (as on `Sphere`). -/
def squareProbNp : Prob Q Q Q :=
  { squareProb with M := { lineMfd with inner := fun _ a b => toNp (mul a b) } }

/-- The hypotheses of `C12_partial` can be met: `x ** 2` from `1` with numpy inner products. -/
example : ∃ c, cgStep defaultCfg .hestenesStiefel inf (adaptive Q Q defaultAdaptive)
    squareProbNp stillClock (cgInit defaultCfg squareProbNp (.npy 1) none) = .ok c ∧
    (match c with
      | .next s' => lt (lineMfd.norm s'.x (squareProb.grad s'.x)) defaultCfg.minGradientNorm
      | .brk _ => false) = true :=
  exists_of_isOk (by decide +kernel)

/-! ## C13 -/

/-- C13 is false for the code: `SteepestDescent` with default arguments on `x ** 2` over
`Euclidean(1)` started at the critical point `0` returns NaN. -/
theorem C13_returns_nan :
    squareProb.grad (.npy 0) = .npy 0 ∧
    ∃ (r : Result Q Q) (m : Option Q),
      SDRuns defaultCfg (backTracking Q Q defaultBackTracking) squareProb stillClock (.npy 0) none
        (.ok (r, m)) ∧ isnan r.point = true := by
  refine ⟨by decide +kernel, ?_⟩
  obtain ⟨r, hr, he⟩ := exists_of_checkFuel (n := 1) (p := isOk fun r => isnan r.1.point)
    (step := sdStep defaultCfg (backTracking Q Q defaultBackTracking) squareProb stillClock)
    (s := sdInit defaultCfg (.npy 0) none) (by decide +kernel)
  obtain ⟨⟨r, m⟩, rfl, he⟩ := exists_of_isOk he
  exact ⟨r, m, hr, he⟩

/-- **C13**, the part that holds: if scaling the (zero) negative gradient by any step and
retracting leads back to the start (as it does when no infinite step arises), a run with a
built-in searcher that returns a result returns the start.  Missing: the built-in searchers'
first step is `initial_step_size / 0` (`C13_returns_nan`). -/
theorem C13_partial {cfg : Cfg F} {pb : Prob F P E} {clk : Clock F} {x : P} {mem : Option F}
    {r : Result F P} {m : Option F}
    (hzero : ∀ a, pb.M.retraction x (pb.M.smul a (pb.M.neg (pb.grad x))) = x)
    (h : (∃ c, SDRuns cfg (backTracking P E c) pb clk x mem (.ok (r, m))) ∨
      (∃ c, SDRuns cfg (adaptive P E c) pb clk x mem (.ok (r, m)))) : r.point = x := by
  have key : ∀ ls : LineSearcher F P E (Option F),
      (∀ mem obj df0 f0 o, ls.search mem obj pb.M x (pb.M.neg (pb.grad x)) f0 df0 = .ok o →
        o.newx = x) →
      SDRuns cfg ls pb clk x mem (.ok (r, m)) → r.point = x := by
    intro ls hls h
    unfold SDRuns at h
    split at h
    · cases h
    refine h.invariant (Inv := fun s : SDState F P (Option F) => s.x = x)
      (Post := fun r : Result F P × Option F => r.1.point = x) ?_ ?_ rfl
    · rintro s s' h0 hs
      obtain ⟨o, ho, hc, rfl⟩ := sdStep_next hs
      rw [h0] at ho
      exact hls _ _ _ _ _ ho
    · rintro s r h0 hs
      obtain ⟨o, reason, ho, hc, rfl⟩ := sdStep_brk hs
      rw [h0] at ho
      exact hls _ _ _ _ _ ho
  rcases h with ⟨c, h⟩ | ⟨c, h⟩
  · refine key _ ?_ h
    intro mem obj df0 f0 o ho
    obtain ⟨a0, n, -, -, -, ⟨-, h5, -⟩ | ⟨-, h5, -⟩⟩ := backTracking_trace ho
    · exact h5
    · rw [h5]
      exact hzero _
  · refine key _ ?_ h
    intro mem obj df0 f0 o ho
    obtain ⟨a0, n, -, -, ⟨-, h5, -⟩ | ⟨-, h5, -⟩⟩ := adaptive_trace ho
    · exact h5
    · rw [h5]
      exact hzero _

/-! ## C14 -/

/-- Objects that can arise from `o` by any sequence of `SteepestDescent.run` calls, with any
problems, starting points and reuse flags, successful or not. -/
inductive SDHistory (cfg : Cfg F) (ls : LineSearcher F P E S) (o : LSObj S) : LSObj S → Prop
  | start : SDHistory cfg ls o o
  | run {o1 o2 pb clk x reuse r} : SDHistory cfg ls o o1 →
      SDCall cfg ls o1 pb clk x reuse r o2 → SDHistory cfg ls o o2

/-- **C14** for `SteepestDescent`: after any history the constructor's line searcher is
unmodified, and a run without reuse has exactly the outcomes it has on a fresh object. -/
theorem C14_steepestDescent {cfg : Cfg F} {ls : LineSearcher F P E S} {proto : S} {o : LSObj S}
    (h : SDHistory cfg ls ⟨proto, none⟩ o) :
    o.proto = proto ∧
    ∀ pb clk x r, (∃ o', SDCall cfg ls o pb clk x false r o') ↔
      (∃ o', SDCall cfg ls ⟨proto, none⟩ pb clk x false r o') := by
  have hp : o.proto = proto := by
    induction h with
    | start => rfl
    | run _ hc ih => cases hc <;> exact ih
  refine ⟨hp, fun pb clk x r => ?_⟩
  have hm : o.startMem false = (⟨proto, none⟩ : LSObj S).startMem false := by
    simp [LSObj.startMem, hp]
  constructor
  · rintro ⟨o', hc⟩
    cases hc with
    | ok hr => exact ⟨_, .ok (hm ▸ hr)⟩
    | @err e m hr => exact ⟨_, .err (m := m) (hm ▸ hr)⟩
  · rintro ⟨o', hc⟩
    cases hc with
    | ok hr => exact ⟨_, .ok (hm ▸ hr)⟩
    | @err e m hr => exact ⟨_, .err (m := m) (hm ▸ hr)⟩

/-- **C14**: with reuse, a run after a successful run starts from the line searcher memory that
run ended with (so the flag matters). -/
theorem C14_reuse {cfg : Cfg F} {ls : LineSearcher F P E S} {o o1 : LSObj S}
    {pb1 pb : Prob F P E} {clk1 clk : Clock F} {x1 x : P} {reuse : Bool} {r1 : Result F P}
    (h : SDCall cfg ls o pb1 clk1 x1 reuse (.ok r1) o1) :
    ∃ m, SDRuns cfg ls pb1 clk1 x1 (o.startMem reuse) (.ok (r1, m)) ∧
      ∀ r m', SDRuns cfg ls pb clk x m (.ok (r, m')) →
        SDCall cfg ls o1 pb clk x true (.ok r) ⟨o.proto, some m'⟩ := by
  cases h with
  | @ok _ m hr => exact ⟨m, hr, fun r m' hr' => SDCall.ok (o := ⟨o.proto, some m⟩) hr'⟩

/-- As `SDHistory` for `ConjugateGradient`. -/
inductive CGHistory (cfg : Cfg F) (rule : BetaRule) (orth : F) (ls : LineSearcher F P E S)
    (o : LSObj S) : LSObj S → Prop
  | start : CGHistory cfg rule orth ls o o
  | run {o1 o2 pb clk x reuse r} : CGHistory cfg rule orth ls o o1 →
      CGCall cfg rule orth ls o1 pb clk x reuse r o2 → CGHistory cfg rule orth ls o o2

/-- **C14** for `ConjugateGradient`. -/
theorem C14_conjugateGradient {cfg : Cfg F} {rule : BetaRule} {orth : F}
    {ls : LineSearcher F P E S} {proto : S} {o : LSObj S}
    (h : CGHistory cfg rule orth ls ⟨proto, none⟩ o) :
    o.proto = proto ∧
    ∀ pb clk x r, (∃ o', CGCall cfg rule orth ls o pb clk x false r o') ↔
      (∃ o', CGCall cfg rule orth ls ⟨proto, none⟩ pb clk x false r o') := by
  have hp : o.proto = proto := by
    induction h with
    | start => rfl
    | run _ hc ih => cases hc <;> exact ih
  refine ⟨hp, fun pb clk x r => ?_⟩
  have hm : o.startMem false = (⟨proto, none⟩ : LSObj S).startMem false := by
    simp [LSObj.startMem, hp]
  constructor
  · rintro ⟨o', hc⟩
    cases hc with
    | ok hr => exact ⟨_, .ok (hm ▸ hr)⟩
    | @err e m hr => exact ⟨_, .err (m := m) (hm ▸ hr)⟩
  · rintro ⟨o', hc⟩
    cases hc with
    | ok hr => exact ⟨_, .ok (hm ▸ hr)⟩
    | @err e m hr => exact ⟨_, .err (m := m) (hm ▸ hr)⟩

/-- A non-trivial history: after a run on `x ** 2` the object's current memory is no longer
that of the constructor. -/
example : ∃ o, SDHistory { defaultCfg with maxIterations := 1 } (adaptive Q Q defaultAdaptive)
    ⟨none, none⟩ o ∧ o.current = some (some (.py 1)) ∧ o.proto = none := by
  obtain ⟨r, hr, he⟩ := exists_of_checkFuel (n := 1) (p := isOk fun r => decide (r.2 = some (.py 1)))
    (step := sdStep { defaultCfg with maxIterations := 1 } (adaptive Q Q defaultAdaptive)
      squareProb stillClock)
    (s := sdInit { defaultCfg with maxIterations := 1 } (.npy 1) none) (by decide +kernel)
  obtain ⟨⟨r, m⟩, rfl, he⟩ := exists_of_isOk he
  replace he : m = some (.py 1) := of_decide_eq_true he
  subst he
  exact ⟨_, .run .start (.ok (o := ⟨none, none⟩) (reuse := false) hr), rfl, rfl⟩

end Verif.Opt
