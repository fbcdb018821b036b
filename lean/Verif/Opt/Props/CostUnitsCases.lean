/-
C158: concrete cases, and runs that do depend on the units of the cost.
-/
import Verif.Opt.Props.CostUnitsTR
import Verif.Opt.Props.CostOrder
import Verif.Opt.Props.TCG
import Mathlib.Data.List.Sort
import Mathlib.Analysis.SpecialFunctions.Exp

namespace Verif.Opt
open PyNum

/-! ## Concrete cases -/

/-- `f(x) = x ** 2` on the line with real arithmetic. -/
noncomputable def realSquareUnits : Prob ℝ ℝ ℝ where
  M := realMfd
  cost x := x ^ 2
  grad x := 2 * x
  hess _ v := 2 * v
  precon _ v := v

/-- The hypotheses of C158 are met by `Euclidean(1)` and `f(x) = x ** 2`. -/
example : ScaleOps realSquareUnits.M ∧ PreconScales realSquareUnits ∧ HessScales realSquareUnits ∧
    (realSquareUnits.inUnits 3 1).cost 2 = 13 ∧ (realSquareUnits.inUnits 3 1).grad 2 = 12 := by
  refine ⟨⟨fun s t v => ?_, fun y t v ht => ?_, fun y t u v => ?_, fun y t u v => ?_,
    fun x y t v => rfl, fun y t v => rfl, fun y t => ?_, fun t u v => ?_, fun t u v => ?_,
    fun t v => ?_⟩, fun y t v => rfl, fun y t v => ?_, ?_, ?_⟩
  · exact (mul_assoc s t v).symm
  · change |t * v| = t * |v|
    rw [abs_mul, abs_of_pos ht]
  · exact mul_assoc t u v
  · exact mul_left_comm u t v
  · exact mul_zero t
  · exact (mul_add t u v).symm
  · exact (mul_sub t u v).symm
  · exact (mul_neg t v).symm
  · exact mul_left_comm 2 t v
  · norm_num [realSquareUnits, Prob.inUnits]
  · norm_num [realSquareUnits, Prob.inUnits, realMfd]

/-- Every increasing function of real costs keeps comparisons, for example `exp`. -/
theorem keepsOrder_of_strictMono {φ : ℝ → ℝ} (h : StrictMono φ) : KeepsOrder φ where
  lt u v := by simp only [PyNum.lt, h.lt_iff_lt]
  le u v := by simp only [PyNum.le, h.le_iff_le]
  isnan _ := rfl

example : KeepsOrder Real.exp := keepsOrder_of_strictMono Real.exp_strictMono

open Classical in
/-- A stable sort only compares costs. -/
example (P : Type) {φ : ℝ → ℝ} (h : StrictMono φ) :
    SortKeeps (P := P) φ (fun l => l.insertionSort fun a b => a.1 ≤ b.1) := by
  intro l
  symm
  apply List.map_insertionSort
  intro a _ b _
  simp only [Prod.map_fst, h.le_iff_le]

/-! ## Dependence on the units -/

/-- `f(x) = a * x ** 2 + b`. -/
def squareInUnits (a b : ℚ) : Prob Q Q Q :=
  lineProb (fun x => toNp (add (mul (lit a) (mul x x)) (lit b)))
    (fun x => mul (lit (2 * a)) x) (fun _ => .npy (2 * a))

/-- Optimizer arguments that stop a run in the third iteration. -/
def threeIterations : Cfg Q := { defaultCfg with maxIterations := 3 }

/-- An adaptive line searcher with a small sufficient decrease. -/
def easyAdaptive : AdaptiveCfg Q := { defaultAdaptive with sufficientDecrease := .py (1 / 10 ^ 4) }

/-- Points returned by the two runs. -/
private def differ {R R' : Type} (p : R → Q) (p' : R' → Q) :
    Option (Except PyErr R) → Option (Except PyErr R') → Bool
  | some (.ok r), some (.ok r') => decide (p r ≠ p' r')
  | _, _ => false

private theorem of_differ {R R' : Type} {p : R → Q} {p' : R' → Q} {r r'} (h : differ p p' r r' = true) :
    ∃ q q', r = some (.ok q) ∧ r' = some (.ok q') ∧ p q ≠ p' q' := by
  unfold differ at h
  split at h
  · exact ⟨_, _, rfl, rfl, of_decide_eq_true h⟩
  · cases h

/-- **C158** is false for the rule of Hager and Zhang: with `1000 * x ** 2` in place of `x ** 2`,
started at `3 / 4`, conjugate gradient returns another point. -/
theorem C158_negation_hagerZhang :
    ∃ r r', CGRuns threeIterations .hagerZhang (.py 1000) (adaptive Q Q easyAdaptive)
        (squareInUnits 1 0) stillClock (.npy (3 / 4)) none (.ok r) ∧
      CGRuns { threeIterations with minGradientNorm := .py (1000 / 10 ^ 6) } .hagerZhang (.py 1000)
        (adaptive Q Q easyAdaptive) (squareInUnits 1000 0) stillClock (.npy (3 / 4)) none (.ok r') ∧
      r.1.point ≠ r'.1.point := by
  have h : differ (fun r => r.1.point) (fun r => r.1.point)
      (runFuel (cgStep threeIterations .hagerZhang (.py 1000) (adaptive Q Q easyAdaptive)
        (squareInUnits 1 0) stillClock) 4 (cgInit threeIterations (squareInUnits 1 0)
          (.npy (3 / 4)) none))
      (runFuel (cgStep { threeIterations with minGradientNorm := .py (1000 / 10 ^ 6) } .hagerZhang
        (.py 1000) (adaptive Q Q easyAdaptive) (squareInUnits 1000 0) stillClock) 4
        (cgInit { threeIterations with minGradientNorm := .py (1000 / 10 ^ 6) }
          (squareInUnits 1000 0) (.npy (3 / 4)) none)) = true := by
    decide +kernel
  obtain ⟨q, q', h1, h2, hne⟩ := of_differ h
  exact ⟨q, q', cgRuns_of_runFuel 4 rfl h1, cgRuns_of_runFuel 4 rfl h2, hne⟩

/-- The other rules return the same point on these two problems, as they must. -/
example : ∃ r r', CGRuns threeIterations .polakRibiere (.py 1000) (adaptive Q Q easyAdaptive)
        (squareInUnits 1 0) stillClock (.npy (3 / 4)) none (.ok r) ∧
      CGRuns { threeIterations with minGradientNorm := .py (1000 / 10 ^ 6) } .polakRibiere
        (.py 1000) (adaptive Q Q easyAdaptive) (squareInUnits 1000 0) stillClock (.npy (3 / 4)) none
        (.ok r') ∧
      r.1.point = r'.1.point ∧ r.1.point ≠ .npy (3 / 4) := by
  have h : (match runFuel (cgStep threeIterations .polakRibiere (.py 1000)
        (adaptive Q Q easyAdaptive) (squareInUnits 1 0) stillClock) 4
          (cgInit threeIterations (squareInUnits 1 0) (.npy (3 / 4)) none),
      runFuel (cgStep { threeIterations with minGradientNorm := .py (1000 / 10 ^ 6) } .polakRibiere
        (.py 1000) (adaptive Q Q easyAdaptive) (squareInUnits 1000 0) stillClock) 4
        (cgInit { threeIterations with minGradientNorm := .py (1000 / 10 ^ 6) }
          (squareInUnits 1000 0) (.npy (3 / 4)) none) with
      | some (.ok r), some (.ok r') =>
        decide (r.1.point = r'.1.point) && decide (r.1.point ≠ .npy (3 / 4))
      | _, _ => false) = true := by
    decide +kernel
  split at h
  · rename_i r r' h1 h2
    rw [Bool.and_eq_true] at h
    exact ⟨r, r', cgRuns_of_runFuel 4 rfl h1, cgRuns_of_runFuel 4 rfl h2, of_decide_eq_true h.1,
      of_decide_eq_true h.2⟩
  · cases h

/-- `f(x) = x ** 4 - 2 * x ** 2 + b`. -/
def quarticShift (b : ℚ) : Prob Q Q Q :=
  lineProb (fun x => toNp (add (sub (mul (mul x x) (mul x x)) (mul (lit 2) (mul x x))) (lit b)))
    (fun x => sub (mul (lit 4) (mul x (mul x x))) (mul (lit 4) x))
    (fun x => sub (mul (lit 12) (mul x x)) (lit 4))

/-- Optimizer arguments that stop a run in the first iteration. -/
def oneIteration : Cfg Q := { defaultCfg with maxIterations := 1 }

/-- **C158** is false for trust regions with default options: adding a large number to the cost
makes the first step acceptable, though it increases the cost. -/
theorem C158_negation_shift :
    ∃ r r', TRRuns oneIteration defaultTR (quarticShift 0) stillClock (fun _ => .npy 0) 1 none
        none (some (.py 8)) (some (.py 8)) (.npy (1 / 2)) (.ok r) ∧
      TRRuns oneIteration defaultTR (quarticShift (10 ^ 20)) stillClock (fun _ => .npy 0) 1 none
        none (some (.py 8)) (some (.py 8)) (.npy (1 / 2)) (.ok r') ∧
      r.1.point ≠ r'.1.point := by
  have h : differ (fun r => r.1.point) (fun r => r.1.point)
      (runFuel (trStep oneIteration defaultTR (quarticShift 0) stillClock (fun _ => .npy 0) 1 1
        (.py 8)) 2 (trInit (quarticShift 0) (.npy (1 / 2)) (.py 8)))
      (runFuel (trStep oneIteration defaultTR (quarticShift (10 ^ 20)) stillClock
        (fun _ => .npy 0) 1 1 (.py 8)) 2 (trInit (quarticShift (10 ^ 20)) (.npy (1 / 2)) (.py 8))) =
      true := by
    decide +kernel
  obtain ⟨q, q', h1, h2, hne⟩ := of_differ h
  exact ⟨q, q', runs_of_runFuel h1, runs_of_runFuel h2, hne⟩

/-- Trust region arguments without regularization. -/
def plainTR : TRCfg Q := { defaultTR with rhoRegularization := .py 0 }

/-- **C158** is false for trust regions with `theta = 1`, even without regularization: multiplying
a quadratic cost in the plane by `1 / 1000` changes the number of inner iterations, and the point
reached after one iteration. -/
theorem C158_negation_theta :
    ∃ r r', TRRuns oneIteration plainTR (planeQuad 1 (6 / 5) 24 7) stillClock
        (fun _ => (.npy 0, .npy 0)) 0 none none (some (.py 1000)) (some (.py 1000))
        (.npy 0, .npy 0) (.ok r) ∧
      TRRuns { oneIteration with minGradientNorm := .py (1 / 10 ^ 9) } plainTR
        (planeQuad (1 / 1000) (6 / 5000) (24 / 1000) (7 / 1000)) stillClock
        (fun _ => (.npy 0, .npy 0)) 0 none none (some (.py 1000)) (some (.py 1000))
        (.npy 0, .npy 0) (.ok r') ∧
      r.1.point.1 ≠ r'.1.point.1 := by
  have h : differ (fun r => r.1.point.1) (fun r => r.1.point.1)
      (runFuel (trStep oneIteration plainTR (planeQuad 1 (6 / 5) 24 7) stillClock
        (fun _ => (.npy 0, .npy 0)) 0 2 (.py 1000)) 2
        (trInit (planeQuad 1 (6 / 5) 24 7) (.npy 0, .npy 0) (.py 1000)))
      (runFuel (trStep { oneIteration with minGradientNorm := .py (1 / 10 ^ 9) } plainTR
        (planeQuad (1 / 1000) (6 / 5000) (24 / 1000) (7 / 1000)) stillClock
        (fun _ => (.npy 0, .npy 0)) 0 2 (.py 1000)) 2
        (trInit (planeQuad (1 / 1000) (6 / 5000) (24 / 1000) (7 / 1000)) (.npy 0, .npy 0)
          (.py 1000))) = true := by
    decide +kernel
  obtain ⟨q, q', h1, h2, hne⟩ := of_differ h
  exact ⟨q, q', runs_of_runFuel h1, runs_of_runFuel h2, hne⟩

end Verif.Opt
