/-
Helper lemmas about the optimizer models (inversion of the loop bodies).
-/
import Verif.Opt.Model.CG
import Verif.Opt.Model.NM
import Verif.Opt.Model.PSO
import Verif.Opt.Model.TR

namespace Verif.Opt
open PyNum

variable {F P E S : Type*} [PyNum F]

theorem checkStop_none_lt {cfg : Cfg F} {t a b : F} {it : ℤ} {g s : Option F} {c : ℤ}
    (h : checkStop cfg t a b it g s c = none) : it < cfg.maxIterations := by
  unfold checkStop at h
  by_contra hlt
  simp only [ge_iff_le] at h
  split at h
  · cases h
  · rw [if_pos (by omega)] at h
    cases h

/-! ### Back-tracking loop -/

section
variable (obj : P → F) (M : Mfd F P E) (x : P) (d : E) (f0 df0 c : F) (next : F → F)

theorem btLoop_newf (n : ℕ) (s : BTState F P) (h : s.newf = obj s.newx) :
    (btLoop obj M x d f0 df0 c next n s).newf = obj (btLoop obj M x d f0 df0 c next n s).newx := by
  induction n generalizing s with
  | zero => exact h
  | succ n ih =>
    unfold btLoop
    split
    · exact ih _ rfl
    · exact h

/-- The loop equation of the source:
`while newf > f0 + c * alpha * df0 and count <= max_iterations: ...`. -/
theorem btLoop_while (maxIterations : ℤ) (s : BTState F P) :
    btLoop obj M x d f0 df0 c next (maxIterations + 1 - s.count).toNat s =
      if armijoFails c f0 df0 s.alpha s.newf ∧ s.count ≤ maxIterations then
        btLoop obj M x d f0 df0 c next
          (maxIterations + 1 - (trial obj M x d (next s.alpha) (s.count + 1) s.evals).count).toNat
          (trial obj M x d (next s.alpha) (s.count + 1) s.evals)
      else s := by
  by_cases hc : s.count ≤ maxIterations
  · obtain ⟨n, hn⟩ : ∃ n : ℕ, (maxIterations + 1 - s.count).toNat = n + 1 :=
      ⟨(maxIterations - s.count).toNat, by omega⟩
    have hn' : (maxIterations + 1 - (s.count + 1)).toNat = n := by omega
    rw [hn]
    simp only [btLoop, hc, and_true, trial, hn']
  · have : (maxIterations + 1 - s.count).toNat = 0 := by omega
    rw [this]
    simp [btLoop, hc]

end

/-! ### Steepest descent -/

section
variable {cfg : Cfg F} {ls : LineSearcher F P E S} {pb : Prob F P E} {clk : Clock F}

theorem sdStep_next {s s' : SDState F P S} (h : sdStep cfg ls pb clk s = .ok (.next s')) :
    ∃ o, ls.search s.mem pb.cost pb.M s.x (pb.M.neg (pb.grad s.x)) (pb.cost s.x)
          (neg (pow (pb.M.norm s.x (pb.grad s.x)) (lit 2))) = .ok o ∧
      checkStop cfg clk.start (clk.check1 (s.iteration + 1) 0) (clk.check2 (s.iteration + 1) 0)
        (stepSize := o.stepSize) (gradientNorm := pb.M.norm s.x (pb.grad s.x))
        (iteration := s.iteration + 1) = none ∧
      s' = { iteration := s.iteration + 1, x := o.newx, mem := o.mem,
             log := addLog cfg s.log ⟨clk.log (s.iteration + 1), s.iteration + 1, s.x, pb.cost s.x,
               pb.M.norm s.x (pb.grad s.x)⟩,
             evals := s.evals ++ [s.x] ++ o.evals } := by
  unfold sdStep at h
  simp only at h
  split at h
  · cases h
  · rename_i o ho
    split at h
    · rename_i hc
      simp only [Except.ok.injEq, Ctl.next.injEq] at h
      exact ⟨o, ho, hc, h.symm⟩
    · simp at h

theorem sdStep_brk {s : SDState F P S} {r : Result F P × S}
    (h : sdStep cfg ls pb clk s = .ok (.brk r)) :
    ∃ o reason, ls.search s.mem pb.cost pb.M s.x (pb.M.neg (pb.grad s.x)) (pb.cost s.x)
          (neg (pow (pb.M.norm s.x (pb.grad s.x)) (lit 2))) = .ok o ∧
      checkStop cfg clk.start (clk.check1 (s.iteration + 1) 0) (clk.check2 (s.iteration + 1) 0)
        (stepSize := o.stepSize) (gradientNorm := pb.M.norm s.x (pb.grad s.x))
        (iteration := s.iteration + 1) = some reason ∧
      r = ({ point := o.newx, cost := pb.cost o.newx, iterations := s.iteration + 1,
             stop := reason, time := sub clk.final clk.start,
             costEvaluations := some (s.iteration + 1), stepSize := some o.stepSize,
             gradientNorm := some (pb.M.norm s.x (pb.grad s.x)),
             log := addLog cfg s.log ⟨clk.log (s.iteration + 1), s.iteration + 1, s.x, pb.cost s.x,
               pb.M.norm s.x (pb.grad s.x)⟩,
             evals := s.evals ++ [s.x] ++ o.evals ++ [o.newx] }, o.mem) := by
  unfold sdStep at h
  simp only at h
  split at h
  · cases h
  · rename_i o ho
    split at h
    · simp at h
    · rename_i reason hc
      simp only [Except.ok.injEq, Ctl.brk.injEq] at h
      exact ⟨o, reason, ho, hc, h.symm⟩

end

/-! ### Conjugate gradient -/

section
variable {cfg : Cfg F} {rule : BetaRule} {orth : F} {ls : LineSearcher F P E S}
  {pb : Prob F P E} {clk : Clock F}

/-- Direction and directional derivative handed to the line search in state `s`. -/
def cgSearchDir (pb : Prob F P E) (s : CGState F P E S) : E × F :=
  if le (lit 0) (pb.M.inner s.x s.grad s.dir) then (pb.M.neg s.Pgrad, neg s.gradPgrad)
  else (s.dir, pb.M.inner s.x s.grad s.dir)

theorem cgStep_next {s s' : CGState F P E S}
    (h : cgStep cfg rule orth ls pb clk s = .ok (.next s')) :
    ∃ o newdir,
      checkStop cfg clk.start (clk.check1 (s.iteration + 1) 0) (clk.check2 (s.iteration + 1) 0)
        (gradientNorm := s.gradientNorm) (iteration := s.iteration + 1)
        (stepSize := s.stepSize) = none ∧
      ls.search s.mem pb.cost pb.M s.x (cgSearchDir pb s).1 s.cost (cgSearchDir pb s).2 = .ok o ∧
      cgDirection pb.M rule orth
          { x := s.x, newx := o.newx, grad := s.grad, newgrad := pb.grad o.newx,
            Pnewgrad := pb.precon o.newx (pb.grad o.newx),
            newgradPnewgrad := pb.M.inner o.newx (pb.grad o.newx)
              (pb.precon o.newx (pb.grad o.newx)),
            Pgrad := s.Pgrad, gradPgrad := s.gradPgrad,
            gradientNorm := s.gradientNorm, oldgrad := pb.M.transport s.x o.newx s.grad,
            dir := (cgSearchDir pb s).1 } (cgSearchDir pb s).1 = .ok newdir ∧
      s' = { iteration := s.iteration + 1, stepSize := o.stepSize, x := o.newx,
             cost := pb.cost o.newx, grad := pb.grad o.newx,
             Pgrad := pb.precon o.newx (pb.grad o.newx),
             gradientNorm := pb.M.norm o.newx (pb.grad o.newx),
             gradPgrad := pb.M.inner o.newx (pb.grad o.newx)
               (pb.precon o.newx (pb.grad o.newx)),
             dir := newdir, mem := o.mem,
             log := addLog cfg s.log ⟨clk.log (s.iteration + 1), s.iteration + 1, s.x, s.cost,
               s.gradientNorm⟩,
             evals := s.evals ++ o.evals ++ [o.newx],
             searches := s.searches ++ [(s.x, (cgSearchDir pb s).1, (cgSearchDir pb s).2)] } := by
  unfold cgStep at h
  simp only at h
  split at h
  · simp at h
  · rename_i hc
    change (match ls.search s.mem pb.cost pb.M s.x (cgSearchDir pb s).1 s.cost
      (cgSearchDir pb s).2 with | .error e => _ | .ok o => _) = _ at h
    split at h
    · cases h
    · rename_i o ho
      split at h
      · cases h
      · rename_i nd hnd
        simp only [Except.ok.injEq, Ctl.next.injEq] at h
        exact ⟨o, nd, hc, ho, hnd, h.symm⟩

theorem cgStep_brk {s : CGState F P E S} {r : Result F P × S × List (P × E × F)}
    (h : cgStep cfg rule orth ls pb clk s = .ok (.brk r)) :
    ∃ reason,
      checkStop cfg clk.start (clk.check1 (s.iteration + 1) 0) (clk.check2 (s.iteration + 1) 0)
        (gradientNorm := s.gradientNorm) (iteration := s.iteration + 1)
        (stepSize := s.stepSize) = some reason ∧
      r = ({ point := s.x, cost := s.cost, iterations := s.iteration + 1, stop := reason,
             time := sub clk.final clk.start, costEvaluations := some (s.iteration + 1),
             stepSize := s.stepSize, gradientNorm := some s.gradientNorm,
             log := addLog cfg s.log ⟨clk.log (s.iteration + 1), s.iteration + 1, s.x, s.cost,
               s.gradientNorm⟩,
             evals := s.evals }, s.mem, s.searches) := by
  unfold cgStep at h
  simp only at h
  split at h
  · rename_i reason hc
    simp only [Except.ok.injEq, Ctl.brk.injEq] at h
    exact ⟨reason, hc, h.symm⟩
  · split at h
    · cases h
    · split at h
      · cases h
      · simp at h

end

/-! ### Nelder-Mead -/

section
variable {o : NMObj F} {sort : List (F × P) → List (F × P)}
  {centroid : ℤ → List P → Except PyErr P} {pb : Prob F P E} {clk : Clock F}

theorem nmStep_next {s s' : NMState F P} (h : nmStep o sort centroid pb clk s = .ok (.next s')) :
    ∃ xbar m,
      checkStop o.cfg clk.start (clk.check1 (s.iteration + 1) 0) (clk.check2 (s.iteration + 1) 0)
        (iteration := s.iteration + 1) (costEvaluations := s.costEvaluations) = none ∧
      centroid (s.iteration + 1) ((sort s.simplex).dropLast.map Prod.snd) = .ok xbar ∧
      nmMove o pb.cost pb.M xbar (sort s.simplex) = .ok m ∧
      s' = { iteration := s.iteration + 1, simplex := m.simplex,
             costEvaluations := s.costEvaluations + m.counted, evals := s.evals ++ m.evals } := by
  unfold nmStep at h
  simp only at h
  split at h
  · split at h <;> simp at h
  · rename_i hc
    split at h
    · cases h
    · rename_i xbar hx
      split at h
      · cases h
      · rename_i m hm
        simp only [Except.ok.injEq, Ctl.next.injEq] at h
        exact ⟨xbar, m, hc, hx, hm, h.symm⟩

theorem nmStep_brk {s : NMState F P} {r : Result F P}
    (h : nmStep o sort centroid pb clk s = .ok (.brk r)) :
    ∃ reason best,
      checkStop o.cfg clk.start (clk.check1 (s.iteration + 1) 0) (clk.check2 (s.iteration + 1) 0)
        (iteration := s.iteration + 1) (costEvaluations := s.costEvaluations) = some reason ∧
      (sort s.simplex).head? = some best ∧
      r = { point := best.2, cost := pb.cost best.2, iterations := s.iteration + 1,
            stop := reason, time := sub clk.final clk.start,
            costEvaluations := some s.costEvaluations, log := initLog o.cfg,
            evals := s.evals ++ [best.2] } := by
  unfold nmStep at h
  simp only at h
  split at h
  · rename_i reason hc
    split at h
    · cases h
    · rename_i best hb
      simp only [Except.ok.injEq, Ctl.brk.injEq] at h
      exact ⟨reason, best, hc, hb, h.symm⟩
  · split at h
    · cases h
    · split at h
      · cases h
      · simp at h

end

/-! ### Particle swarm -/

section
variable {o : PSOObj F} {isTuple : Bool} {rnd : PSORand F P E} {pb : Prob F P E} {clk : Clock F}

theorem psoStep_next {s s' : PSOState F P E}
    (h : psoStep o isTuple rnd pb clk s = .ok (.next s')) :
    ∃ w swarm,
      psoStop o clk (s.iteration + 1) s.costEvaluations s.swarm.length = none ∧
      swarm = s.swarm.mapIdx (psoVelocity o pb.M rnd (s.iteration + 1) w s.xbest) ∧
      (isTuple = true → s.swarm = []) ∧
      s' = { iteration := s.iteration + 1,
             swarm := (psoMoves pb.cost pb.M (s.fbest, s.xbest) swarm).2,
             fbest := (psoMoves pb.cost pb.M (s.fbest, s.xbest) swarm).1.1,
             xbest := (psoMoves pb.cost pb.M (s.fbest, s.xbest) swarm).1.2,
             costEvaluations := s.costEvaluations + o.populationSize.getD 0,
             evals := s.evals ++ swarm.map Particle.x,
             positions := s.positions ++
               (psoMoves pb.cost pb.M (s.fbest, s.xbest) swarm).2.map Particle.x } := by
  unfold psoStep at h
  simp only at h
  split at h
  · simp at h
  · rename_i hc
    split at h
    · cases h
    · rename_i q hq
      split at h
      · cases h
      · rename_i ht
        simp only [Except.ok.injEq, Ctl.next.injEq] at h
        refine ⟨_, _, hc, rfl, ?_, h.symm⟩
        intro hT
        simpa [hT] using ht

theorem psoStep_brk {s : PSOState F P E} {r : Result F P × List P × List P}
    (h : psoStep o isTuple rnd pb clk s = .ok (.brk r)) :
    ∃ reason,
      psoStop o clk (s.iteration + 1) s.costEvaluations s.swarm.length = some reason ∧
      r = ({ point := s.xbest, cost := s.fbest, iterations := s.iteration + 1, stop := reason,
             time := sub clk.final clk.start, costEvaluations := some s.costEvaluations,
             log := initLog o.cfg, evals := s.evals },
           s.swarm.map Particle.x, s.positions) := by
  unfold psoStep at h
  simp only at h
  split at h
  · rename_i reason hc
    simp only [Except.ok.injEq, Ctl.brk.injEq] at h
    exact ⟨reason, hc, h.symm⟩
  · split at h
    · cases h
    · split at h
      · cases h
      · simp at h

end

omit [PyNum F] in
theorem psoPopulation_cfg {o o' : PSOObj F} {init : InitArg P} {l : List P} {b : Bool}
    (h : psoPopulation o init = .ok (o', l, b)) : o'.cfg = o.cfg := by
  cases init <;> simp only [psoPopulation, Except.ok.injEq, Prod.mk.injEq, reduceCtorEq] at h <;>
    rw [← h.1] <;> rfl

theorem psoMoves_length (obj : P → F) (M : Mfd F P E) (b : F × P) (l : List (Particle F P E)) :
    (psoMoves obj M b l).2.length = l.length := by
  induction l generalizing b with
  | nil => rfl
  | cons p l ih => simp [psoMoves, ih]

/-! ### Trust regions -/

section
variable {cfg : Cfg F} {c : TRCfg F} {pb : Prob F P E} {clk : Clock F} {eta0 : ℤ → E}
  {mininner maxinner : ℤ} {DeltaBar : F}

/-- The state after one trust-region iteration given the subproblem solution. -/
def trAfter (pb : Prob F P E) (s : TRState F P E) (accept : Bool) (eta : E) (Delta : F) :
    TRState F P E :=
  if accept then
    { iteration := s.iteration + 1, x := pb.M.retraction s.x eta,
      fx := pb.cost (pb.M.retraction s.x eta),
      fgradx := pb.grad (pb.M.retraction s.x eta),
      normGrad := pb.M.norm (pb.M.retraction s.x eta) (pb.grad (pb.M.retraction s.x eta)),
      Delta := Delta, evals := s.evals ++ [pb.M.retraction s.x eta],
      history := s.history ++ [(s.x, s.fx, s.Delta)] }
  else
    { s with iteration := s.iteration + 1, Delta := Delta,
             evals := s.evals ++ [pb.M.retraction s.x eta],
             history := s.history ++ [(s.x, s.fx, s.Delta)] }

theorem trStep_inv {s : TRState F P E}
    {r : Ctl (TRState F P E) (Result F P × List (P × F × F))}
    (h : trStep cfg c pb clk eta0 mininner maxinner DeltaBar s = .ok r) :
    ∃ o eta Heta rho md Delta,
      tcg c pb s.x s.fgradx (if c.useRand then eta0 (s.iteration + 1) else pb.M.zeroVector s.x)
        s.Delta mininner maxinner = .ok o ∧
      (if c.useRand then cauchy pb s.x s.fx s.fgradx s.normGrad s.Delta o
           else .ok (o.eta, o.Heta)) = .ok (eta, Heta) ∧
      trRatio c pb s.x s.fx s.fgradx (pb.cost (pb.M.retraction s.x eta)) eta Heta
        = .ok (rho, md) ∧
      trRadius rho md o.stop DeltaBar s.Delta = .ok Delta ∧
      ((checkStop cfg clk.start (clk.check1 (s.iteration + 1) 0) (clk.check2 (s.iteration + 1) 0)
          (gradientNorm := (trAfter pb s (trAccept c rho md) eta Delta).normGrad)
          (iteration := s.iteration + 1) = none ∧
        r = .next (trAfter pb s (trAccept c rho md) eta Delta)) ∨
       ∃ reason, checkStop cfg clk.start (clk.check1 (s.iteration + 1) 0)
          (clk.check2 (s.iteration + 1) 0)
          (gradientNorm := (trAfter pb s (trAccept c rho md) eta Delta).normGrad)
          (iteration := s.iteration + 1) = some reason ∧
        r = .brk ({ point := (trAfter pb s (trAccept c rho md) eta Delta).x,
                    cost := (trAfter pb s (trAccept c rho md) eta Delta).fx,
                    iterations := s.iteration + 1, stop := reason,
                    time := sub clk.final clk.start,
                    gradientNorm := some (trAfter pb s (trAccept c rho md) eta Delta).normGrad,
                    log := initLog cfg,
                    evals := (trAfter pb s (trAccept c rho md) eta Delta).evals },
                  (trAfter pb s (trAccept c rho md) eta Delta).history)) := by
  unfold trStep at h
  simp only at h
  split at h
  · cases h
  · rename_i o ho
    split at h
    · cases h
    · rename_i eta Heta he
      split at h
      · cases h
      · rename_i rho md hr
        split at h
        · cases h
        · rename_i Delta hD
          refine ⟨o, eta, Heta, rho, md, Delta, ho, he, hr, hD, ?_⟩
          split at h
          · rename_i hc
            simp only [Except.ok.injEq] at h
            exact Or.inl ⟨hc, h.symm⟩
          · rename_i reason hc
            simp only [Except.ok.injEq] at h
            exact Or.inr ⟨reason, hc, h.symm⟩

end

end Verif.Opt
