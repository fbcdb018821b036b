/-
`while True:` loops whose body may `break` with a result or raise.
-/
import Verif.Base.PyNum
import Mathlib.Tactic.Ring

namespace Verif

/-- Outcome of one execution of a loop body: next state, or `break` with a result. -/
inductive Ctl (S R : Type*)
  | next (s : S)
  | brk (r : R)
  deriving DecidableEq, Repr

/-- `RunsIn step s n r`: the loop `while True: step` started in state `s`
finishes after `n` executions of the body with outcome `r` (a result or an
exception).  Python's loop semantics as a least fixed point: no bound and no
fuel. -/
inductive RunsIn {S R : Type*} (step : S → Except PyErr (Ctl S R)) :
    S → ℕ → Except PyErr R → Prop
  | brk {s r} : step s = .ok (.brk r) → RunsIn step s 1 (.ok r)
  | err {s e} : step s = .error e → RunsIn step s 1 (.error e)
  | next {s s' n r} : step s = .ok (.next s') → RunsIn step s' n r → RunsIn step s (n + 1) r

/-- The loop finishes with outcome `r`. -/
def Runs {S R : Type*} (step : S → Except PyErr (Ctl S R)) (s : S) (r : Except PyErr R) : Prop :=
  ∃ n, RunsIn step s n r

/-- Executable approximation of the loop, used to exhibit concrete runs. -/
def runFuel {S R : Type*} (step : S → Except PyErr (Ctl S R)) : ℕ → S → Option (Except PyErr R)
  | 0, _ => none
  | n + 1, s =>
    match step s with
    | .error e => some (.error e)
    | .ok (.brk r) => some (.ok r)
    | .ok (.next s') => runFuel step n s'

theorem runs_of_runFuel {S R : Type*} {step : S → Except PyErr (Ctl S R)} {n : ℕ} {s : S}
    {r : Except PyErr R} (h : runFuel step n s = some r) : Runs step s r := by
  induction n generalizing s with
  | zero => simp [runFuel] at h
  | succ n ih =>
    unfold runFuel at h
    split at h
    · rename_i e he
      cases h
      exact ⟨1, .err he⟩
    · rename_i r' hr
      cases h
      exact ⟨1, .brk hr⟩
    · rename_i s' hs
      obtain ⟨m, hm⟩ := ih h
      exact ⟨m + 1, .next hs hm⟩

/-- The loop is deterministic. -/
theorem RunsIn.det {S R : Type*} {step : S → Except PyErr (Ctl S R)} {s : S} {n m : ℕ}
    {r r' : Except PyErr R} (h : RunsIn step s n r) (h' : RunsIn step s m r') :
    n = m ∧ r = r' := by
  induction h generalizing m r' with
  | brk hs => cases h' <;> simp_all
  | err hs => cases h' <;> simp_all
  | next hs hr ih =>
    cases h' with
    | brk h2 => rw [hs] at h2; cases h2
    | err h2 => rw [hs] at h2; cases h2
    | next h2 h3 =>
      rw [hs] at h2
      cases h2
      obtain ⟨a, b⟩ := ih h3
      exact ⟨by rw [a], b⟩

theorem Runs.det {S R : Type*} {step : S → Except PyErr (Ctl S R)} {s : S}
    {r r' : Except PyErr R} (h : Runs step s r) (h' : Runs step s r') : r = r' := by
  obtain ⟨_, h⟩ := h
  obtain ⟨_, h'⟩ := h'
  exact (h.det h').2

/-- `Reaches step s t`: the loop started in `s` is at some later point in state `t`
(at the beginning of an execution of the body). -/
inductive Reaches {S R : Type*} (step : S → Except PyErr (Ctl S R)) (s : S) : S → Prop
  | refl : Reaches step s s
  | tail {t u} : Reaches step s t → step t = .ok (.next u) → Reaches step s u

theorem Runs.of_next {S R : Type*} {step : S → Except PyErr (Ctl S R)} {s t : S}
    {r : Except PyErr R} (h : step s = .ok (.next t)) (hr : Runs step s r) : Runs step t r := by
  obtain ⟨n, hr⟩ := hr
  cases hr with
  | brk h2 => rw [h] at h2; cases h2
  | err h2 => rw [h] at h2; cases h2
  | next h2 h3 => rw [h] at h2; cases h2; exact ⟨_, h3⟩

/-- The rest of a run is a run. -/
theorem Runs.of_reaches {S R : Type*} {step : S → Except PyErr (Ctl S R)} {s t : S}
    {r : Except PyErr R} (h : Reaches step s t) (hr : Runs step s r) : Runs step t r := by
  induction h with
  | refl => exact hr
  | tail _ h2 ih => exact ih.of_next h2

/-- Invariants hold in every reached state. -/
theorem Reaches.invariant {S R : Type*} {step : S → Except PyErr (Ctl S R)} {s t : S}
    (Inv : S → Prop) (hstep : ∀ s s', Inv s → step s = .ok (.next s') → Inv s')
    (h : Reaches step s t) (h0 : Inv s) : Inv t := by
  induction h with
  | refl => exact h0
  | tail _ h2 ih => exact hstep _ _ ih h2

/-- Loops that count their iterations and give up at `N` finish; the count is exact. -/
theorem RunsIn.exists_of_counter {S R : Type*} {step : S → Except PyErr (Ctl S R)}
    (Inv : S → Prop) (it : S → ℤ) (iters : R → ℤ) (N : ℤ)
    (hn : ∀ s s', Inv s → step s = .ok (.next s') → Inv s' ∧ it s' = it s + 1 ∧ it s + 1 < N)
    (hb : ∀ s r, Inv s → step s = .ok (.brk r) → iters r = it s + 1) (s : S) (hs : Inv s) :
    ∃ (n : ℕ) (r : Except PyErr R), RunsIn step s n r ∧ 1 ≤ n ∧ (n : ℤ) ≤ max 1 (N - it s) ∧
      ∀ res, r = .ok res → iters res = it s + n := by
  induction hk : (N - it s).toNat using Nat.strong_induction_on generalizing s with
  | _ k ih =>
    cases hst : step s with
    | error e => exact ⟨1, _, .err hst, le_refl _, by omega, by simp⟩
    | ok c =>
      cases c with
      | brk r =>
        refine ⟨1, _, .brk hst, le_refl _, by omega, ?_⟩
        intro res hres
        cases hres
        simpa using hb s r hs hst
      | next s' =>
        obtain ⟨h1, h2, h3⟩ := hn s s' hs hst
        obtain ⟨n, r, hr, hn1, hn2, hn3⟩ := ih (N - it s').toNat (by omega) s' h1 rfl
        refine ⟨n + 1, r, .next hst hr, by omega, by push_cast; omega, ?_⟩
        intro res hres
        rw [hn3 res hres, h2]
        push_cast
        ring

/-- A loop with a decreasing measure finishes, within `measure + 1` executions. -/
theorem RunsIn.exists_of_measure {S R : Type*} {step : S → Except PyErr (Ctl S R)}
    (μ : S → ℕ) (hμ : ∀ s s', step s = .ok (.next s') → μ s' < μ s) (s : S) :
    ∃ n r, RunsIn step s n r ∧ n ≤ μ s + 1 := by
  induction hk : μ s using Nat.strong_induction_on generalizing s with
  | _ k ih =>
    cases hs : step s with
    | error e => exact ⟨1, _, .err hs, by omega⟩
    | ok c =>
      cases c with
      | brk r => exact ⟨1, _, .brk hs, by omega⟩
      | next s' =>
        have := hμ s s' hs
        obtain ⟨n, r, hr, hn⟩ := ih (μ s') (by omega) s' rfl
        exact ⟨n + 1, r, .next hs hr, by omega⟩

/-- Invariant rule (partial correctness). -/
theorem RunsIn.invariant {S R : Type*} {step : S → Except PyErr (Ctl S R)}
    (Inv : S → Prop) (Post : R → Prop)
    (hstep : ∀ s s', Inv s → step s = .ok (.next s') → Inv s')
    (hbrk : ∀ s r, Inv s → step s = .ok (.brk r) → Post r)
    {s : S} {n : ℕ} {r : R} (h : RunsIn step s n (.ok r)) (h0 : Inv s) : Post r := by
  generalize hr : (Except.ok r : Except PyErr R) = r' at h
  induction h with
  | brk hs => cases hr; exact hbrk _ _ h0 hs
  | err hs => cases hr
  | next hs _ ih => exact ih (hstep _ _ h0 hs) hr

theorem Runs.invariant {S R : Type*} {step : S → Except PyErr (Ctl S R)}
    (Inv : S → Prop) (Post : R → Prop)
    (hstep : ∀ s s', Inv s → step s = .ok (.next s') → Inv s')
    (hbrk : ∀ s r, Inv s → step s = .ok (.brk r) → Post r)
    {s : S} {r : R} (h : Runs step s (.ok r)) (h0 : Inv s) : Post r := by
  obtain ⟨_, h⟩ := h
  exact h.invariant Inv Post hstep hbrk h0

end Verif
