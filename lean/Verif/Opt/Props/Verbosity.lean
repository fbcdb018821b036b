/-
C106: printing does not change what a run returns.
-/
import Verif.Opt.Model.SD
import Verif.Opt.Model.CG
import Verif.Opt.Model.NM
import Verif.Opt.Model.PSO
import Verif.Opt.Model.TR
import Verif.Opt.Witness

namespace Verif.Opt
open Verif

section
variable {F P E S : Type*} [PyNum F]

/-- **C106** is false for an iteration limit of 0: with the default verbosity (or any above it)
the number of digits of the limit is computed as `int(np.log10(0)) + 1`, and every run of steepest
descent and conjugate gradient raises `OverflowError` before its first iteration; a negative limit
raises `ValueError`. -/
theorem C106_default_verbosity_raises (cfg : Cfg F) (hv : 2 ≤ cfg.verbosity)
    (h0 : cfg.maxIterations ≤ 0) (ls : LineSearcher F P E S) (pb : Prob F P E) (clk : Clock F)
    (x : P) (mem : S) (rule : BetaRule) (orth : F) (r r') :
    (SDRuns cfg ls pb clk x mem r ↔
      r = .error (if cfg.maxIterations = 0 then .overflow else .valueError)) ∧
    (CGRuns cfg rule orth ls pb clk x mem r' ↔
      r' = .error (if cfg.maxIterations = 0 then .overflow else .valueError)) := by
  have hs : printerSetup cfg = .error (if cfg.maxIterations = 0 then .overflow else .valueError) := by
    unfold printerSetup
    rw [if_pos hv]
    split
    · rfl
    · rw [if_pos (by omega)]
  simp only [SDRuns, CGRuns, hs]
  trivial

/-- **C106** for limits of at least one iteration: the outcomes of a run, returned or raised, are
the same for any two verbosities, for all five optimizers (for trust regions and Nelder-Mead
without the restriction on the limit). -/
theorem C106_partial (cfg : Cfg F) (v v' : ℤ) (pb : Prob F P E) (clk : Clock F) :
    (1 ≤ cfg.maxIterations → ∀ (ls : LineSearcher F P E S) (x : P) (mem : S) r,
      SDRuns { cfg with verbosity := v } ls pb clk x mem r ↔
        SDRuns { cfg with verbosity := v' } ls pb clk x mem r) ∧
    (1 ≤ cfg.maxIterations → ∀ rule orth (ls : LineSearcher F P E S) (x : P) (mem : S) r,
      CGRuns { cfg with verbosity := v } rule orth ls pb clk x mem r ↔
        CGRuns { cfg with verbosity := v' } rule orth ls pb clk x mem r) ∧
    (∀ c eta0 mininner maxinner td DeltaBar Delta0 (x : P) r,
      TRRuns { cfg with verbosity := v } c pb clk eta0 mininner maxinner td DeltaBar Delta0 x r ↔
        TRRuns { cfg with verbosity := v' } c pb clk eta0 mininner maxinner td DeltaBar Delta0 x r) ∧
    (∀ (o : NMObj F) sort centroid init r,
      NMRuns { o with verbosity := v } sort centroid pb clk init r ↔
        NMRuns { o with verbosity := v' } sort centroid pb clk init r) ∧
    (∀ (o : PSOObj F), (∀ n, o.maxIterations = some n → 1 ≤ n) →
      ∀ (rnd : PSORand F P E) init r,
      PSORuns { o with verbosity := v } rnd pb clk init r ↔
        PSORuns { o with verbosity := v' } rnd pb clk init r) := by
  have hs : ∀ (c : Cfg F), 1 ≤ c.maxIterations → printerSetup c = .ok () := by
    intro c hc
    unfold printerSetup
    split
    · rw [if_neg (by omega), if_neg (by omega)]
    · rfl
  refine ⟨?_, ?_, ?_, ?_, ?_⟩
  · intro h ls x mem r
    simp only [SDRuns]
    rw [hs { cfg with verbosity := v } h, hs { cfg with verbosity := v' } h]
    exact Iff.rfl
  · intro h rule orth ls x mem r
    simp only [CGRuns]
    rw [hs { cfg with verbosity := v } h, hs { cfg with verbosity := v' } h]
    exact Iff.rfl
  · intros
    exact Iff.rfl
  · intros
    exact Iff.rfl
  · intro o ho rnd init r
    have key : ∀ w, printerSetup
        (({ o with verbosity := w } : PSOObj F).resolve pb.M.dim).cfg = .ok () := by
      intro w
      apply hs
      simp only [PSOObj.cfg, PSOObj.resolve]
      cases hm : o.maxIterations with
      | none => simp
      | some n => simpa using ho n hm
    have key2 : ∀ w (m : ℤ), printerSetup
        ({ (({ o with verbosity := w } : PSOObj F).resolve pb.M.dim) with
          populationSize := some m }).cfg = .ok () := fun w m => key w
    cases init with
    | none draws =>
      simp only [PSORuns, psoPopulation]
      rw [show (({ o with verbosity := v } : PSOObj F).resolve pb.M.dim).populationSize =
        (({ o with verbosity := v' } : PSOObj F).resolve pb.M.dim).populationSize from rfl]
      generalize (List.range _).map draws = l
      cases l with
      | nil => exact Iff.rfl
      | cons x0 xs =>
        simp only [key v, key v']
        exact Iff.rfl
    | list l =>
      simp only [PSORuns, psoPopulation]
      cases l with
      | nil => exact Iff.rfl
      | cons x0 xs =>
        simp only [key2 v, key2 v']
        exact Iff.rfl
    | tuple l =>
      simp only [PSORuns, psoPopulation]
      cases l with
      | nil => exact Iff.rfl
      | cons x0 xs =>
        simp only [key2 v, key2 v']
        exact Iff.rfl
    | other => exact Iff.rfl

end

/-- **C106** is false: the same run, with an iteration limit of 0, returns with verbosity 1 and
raises with verbosity 2. -/
theorem C106_violated :
    (∃ r, SDRuns { defaultCfg with maxIterations := 0, verbosity := 1 }
      (adaptive Q Q defaultAdaptive) squareProb stillClock (.npy 1) none (.ok r)) ∧
    ∀ r, SDRuns { defaultCfg with maxIterations := 0, verbosity := 2 }
      (adaptive Q Q defaultAdaptive) squareProb stillClock (.npy 1) none r →
      r = .error .overflow := by
  constructor
  · obtain ⟨r, hr, he⟩ := exists_of_checkFuel (n := 2) (p := isOk fun _ => true)
      (step := sdStep { defaultCfg with maxIterations := 0, verbosity := 1 }
        (adaptive Q Q defaultAdaptive) squareProb stillClock)
      (s := sdInit { defaultCfg with maxIterations := 0, verbosity := 1 } (.npy 1) none)
      (by decide +kernel)
    obtain ⟨r, rfl, -⟩ := exists_of_isOk he
    exact ⟨r, hr⟩
  · intro r hr
    exact hr

end Verif.Opt
