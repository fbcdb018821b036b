/-
C03–C06: the line searchers.
-/
import Verif.Opt.Witness

namespace Verif.Opt
open PyNum

variable {F P E : Type*} [PyNum F]

/-! ## Specification -/

/-- The point tried with step `a`: `retraction(x, a * d)`. -/
def trialPoint (M : Mfd F P E) (x : P) (d : E) (a : F) : P := M.retraction x (M.smul a d)

/-- The sufficient decrease condition is violated by step `a`:
`f(retraction(x, a*d)) > f0 + c*a*df0`. -/
def Violates (obj : P → F) (M : Mfd F P E) (x : P) (d : E) (f0 df0 c a : F) : Prop :=
  lt (add f0 (mul (mul c a) df0)) (obj (trialPoint M x d a)) = true

/-- What a back-tracking search with first step `a0`, contraction `next` and evaluation budget
`max + 1` may do: it evaluates the cost at the trial points of `a0, next a0, next (next a0), …`
(`n` of them), every one but the last violates the condition, and the last does not unless the
budget is exhausted. -/
def BackTracks (obj : P → F) (M : Mfd F P E) (x : P) (d : E) (f0 df0 c : F) (next : F → F)
    (max : ℤ) (a0 : F) (n : ℕ) (evals : List P) : Prop :=
  1 ≤ n ∧ n ≤ max.toNat + 1 ∧
  evals = (List.range n).map (fun k => trialPoint M x d (next^[k] a0)) ∧
  (∀ k, k + 1 < n → Violates obj M x d f0 df0 c (next^[k] a0)) ∧
  (n < max.toNat + 1 → ¬ Violates obj M x d f0 df0 c (next^[n - 1] a0))

/-! ## The loop -/

theorem btLoop_spec (obj : P → F) (M : Mfd F P E) (x : P) (d : E) (f0 df0 c : F) (next : F → F)
    (n : ℕ) (s : BTState F P) (hx : s.newx = trialPoint M x d s.alpha)
    (hf : s.newf = obj s.newx) :
    ∃ k ≤ n,
      (btLoop obj M x d f0 df0 c next n s).alpha = next^[k] s.alpha ∧
      (btLoop obj M x d f0 df0 c next n s).newx = trialPoint M x d (next^[k] s.alpha) ∧
      (btLoop obj M x d f0 df0 c next n s).newf = obj (trialPoint M x d (next^[k] s.alpha)) ∧
      (btLoop obj M x d f0 df0 c next n s).count = s.count + k ∧
      (btLoop obj M x d f0 df0 c next n s).evals = s.evals ++
        (List.range k).map (fun i => trialPoint M x d (next^[i + 1] s.alpha)) ∧
      (∀ i < k, Violates obj M x d f0 df0 c (next^[i] s.alpha)) ∧
      (k < n → ¬ Violates obj M x d f0 df0 c (next^[k] s.alpha)) := by
  induction n generalizing s with
  | zero => exact ⟨0, le_refl _, by simp [btLoop, hx, hf]⟩
  | succ n ih =>
    unfold btLoop
    split
    · rename_i hv
      obtain ⟨k, hk, h1, h2, h3, h4, h5, h6, h7⟩ :=
        ih (trial obj M x d (next s.alpha) (s.count + 1) s.evals) rfl rfl
      refine ⟨k + 1, by omega, ?_, ?_, ?_, ?_, ?_, ?_, ?_⟩
      · rw [h1]; rfl
      · rw [h2]; rfl
      · rw [h3]; rfl
      · rw [h4]; simp [trial]; ring
      · rw [h5, List.range_succ_eq_map]
        simp [trial, trialPoint, List.map_map, Function.comp_def]
      · intro i hi
        rcases i with _ | i
        · rw [hf, hx] at hv
          exact hv
        · exact h6 i (by omega)
      · intro hlt
        exact h7 (by omega)
    · rename_i hv
      refine ⟨0, by omega, rfl, hx, by rw [hf, hx]; rfl, by simp, by simp, by simp, ?_⟩
      intro _ hv'
      apply hv
      rw [hf, hx]
      exact hv'

/-- The loop as run by both searchers, from the first trial on. -/
theorem btLoop_backTracks (obj : P → F) (M : Mfd F P E) (x : P) (d : E) (f0 df0 c : F)
    (next : F → F) (max : ℤ) (a0 : F) :
    ∃ n, BackTracks obj M x d f0 df0 c next max a0 n
        (btLoop obj M x d f0 df0 c next max.toNat (trial obj M x d a0 1 [])).evals ∧
      (btLoop obj M x d f0 df0 c next max.toNat (trial obj M x d a0 1 [])).alpha
        = next^[n - 1] a0 ∧
      (btLoop obj M x d f0 df0 c next max.toNat (trial obj M x d a0 1 [])).newx
        = trialPoint M x d (next^[n - 1] a0) ∧
      (btLoop obj M x d f0 df0 c next max.toNat (trial obj M x d a0 1 [])).newf
        = obj (trialPoint M x d (next^[n - 1] a0)) ∧
      (btLoop obj M x d f0 df0 c next max.toNat (trial obj M x d a0 1 [])).count = n := by
  obtain ⟨k, hk, h1, h2, h3, h4, h5, h6, h7⟩ :=
    btLoop_spec obj M x d f0 df0 c next max.toNat (trial obj M x d a0 1 []) rfl rfl
  refine ⟨k + 1, ⟨by omega, by omega, ?_, fun i hi => h6 i (by omega), fun h => h7 (by omega)⟩,
    h1, h2, h3, ?_⟩
  · rw [h5, List.range_succ_eq_map]
    simp [trial, trialPoint, List.map_map, Function.comp_def]
  · rw [h4]
    simp [trial]
    ring

theorem backTracking_trace {c : BackTrackingCfg F} {mem : Option F} {obj : P → F}
    {M : Mfd F P E} {x : P} {d : E} {f0 df0 : F} {o : SearchOut F P (Option F)}
    (h : (backTracking P E c).search mem obj M x d f0 df0 = .ok o) :
    ∃ a0 n, backTrackingInit c mem f0 df0 (M.norm x d) = .ok a0 ∧
      BackTracks obj M x d f0 df0 c.sufficientDecrease (fun a => mul c.contractionFactor a)
        c.maxIterations a0 n o.evals ∧
      o.mem = some f0 ∧
      ((lt f0 (obj (trialPoint M x d ((fun a => mul c.contractionFactor a)^[n - 1] a0))) = true ∧
          o.newx = x ∧ o.stepSize = mul (lit 0) (M.norm x d)) ∨
        (lt f0 (obj (trialPoint M x d ((fun a => mul c.contractionFactor a)^[n - 1] a0))) = false ∧
          o.newx = trialPoint M x d ((fun a => mul c.contractionFactor a)^[n - 1] a0) ∧
          o.stepSize = mul ((fun a => mul c.contractionFactor a)^[n - 1] a0) (M.norm x d))) := by
  change backTrackingSearch c mem obj M x d f0 df0 = .ok o at h
  unfold backTrackingSearch at h
  simp only at h
  split at h
  · cases h
  · rename_i a0 ha0
    obtain ⟨n, hb, h1, h2, h3, h4⟩ := btLoop_backTracks obj M x d f0 df0 c.sufficientDecrease
      (fun a => mul c.contractionFactor a) c.maxIterations a0
    refine ⟨a0, n, ha0, ?_⟩
    split at h
    · rename_i hlt
      cases h
      exact ⟨hb, rfl, Or.inl ⟨by rw [← h3]; exact hlt, rfl, rfl⟩⟩
    · rename_i hlt
      cases h
      exact ⟨hb, rfl, Or.inr ⟨by rw [← h3]; simpa using hlt, h2, by simp only; rw [h1]⟩⟩

theorem adaptive_trace {c : AdaptiveCfg F} {mem : Option F} {obj : P → F}
    {M : Mfd F P E} {x : P} {d : E} {f0 df0 : F} {o : SearchOut F P (Option F)}
    (h : (adaptive P E c).search mem obj M x d f0 df0 = .ok o) :
    ∃ a0 n, adaptiveInit c mem (M.norm x d) = .ok a0 ∧
      BackTracks obj M x d f0 df0 c.sufficientDecrease (fun a => mul a c.contractionFactor)
        c.maxIterations a0 n o.evals ∧
      ((lt f0 (obj (trialPoint M x d ((fun a => mul a c.contractionFactor)^[n - 1] a0))) = true ∧
          o.newx = x ∧ o.stepSize = mul (lit 0) (M.norm x d) ∧
          o.mem = some (if n = 2 then lit 0 else mul (lit 2) (lit 0))) ∨
        (lt f0 (obj (trialPoint M x d ((fun a => mul a c.contractionFactor)^[n - 1] a0))) = false ∧
          o.newx = trialPoint M x d ((fun a => mul a c.contractionFactor)^[n - 1] a0) ∧
          o.stepSize = mul ((fun a => mul a c.contractionFactor)^[n - 1] a0) (M.norm x d) ∧
          o.mem = some (if n = 2 then (fun a => mul a c.contractionFactor)^[n - 1] a0
            else mul (lit 2) ((fun a => mul a c.contractionFactor)^[n - 1] a0)))) := by
  change adaptiveSearch c mem obj M x d f0 df0 = .ok o at h
  unfold adaptiveSearch at h
  simp only at h
  split at h
  · cases h
  · rename_i a0 ha0
    obtain ⟨n, hb, h1, h2, h3, h4⟩ := btLoop_backTracks obj M x d f0 df0 c.sufficientDecrease
      (fun a => mul a c.contractionFactor) c.maxIterations a0
    refine ⟨a0, n, ha0, ?_⟩
    have hn : ((n : ℤ) = 2) = (n = 2) := by
      apply propext
      omega
    rw [h3, h4, h1, h2] at h
    cases h
    by_cases hlt : lt f0 (obj (trialPoint M x d
        ((fun a => mul a c.contractionFactor)^[n - 1] a0))) = true
    · simp only [if_pos hlt, hn]
      exact ⟨hb, Or.inl ⟨hlt, trivial, trivial, trivial⟩⟩
    · simp only [if_neg hlt, hn]
      exact ⟨hb, Or.inr ⟨by simpa using hlt, trivial, trivial, trivial⟩⟩

/-! ## C03 -/

/-- **C03** for `BackTrackingLineSearcher`. -/
theorem C03_backTracking {c : BackTrackingCfg F} {mem : Option F} {obj : P → F}
    {M : Mfd F P E} {x : P} {d : E} {f0 df0 : F} {o : SearchOut F P (Option F)}
    (h : (backTracking P E c).search mem obj M x d f0 df0 = .ok o) :
    1 ≤ o.evals.length ∧ (o.evals.length : ℤ) ≤ max 1 (c.maxIterations + 1) := by
  obtain ⟨a0, n, -, ⟨h1, h2, h3, -⟩, -⟩ := backTracking_trace h
  rw [h3]
  simp only [List.length_map, List.length_range]
  exact ⟨h1, by omega⟩

/-- **C03** for `AdaptiveLineSearcher`. -/
theorem C03_adaptive {c : AdaptiveCfg F} {mem : Option F} {obj : P → F}
    {M : Mfd F P E} {x : P} {d : E} {f0 df0 : F} {o : SearchOut F P (Option F)}
    (h : (adaptive P E c).search mem obj M x d f0 df0 = .ok o) :
    1 ≤ o.evals.length ∧ (o.evals.length : ℤ) ≤ max 1 (c.maxIterations + 1) := by
  obtain ⟨a0, n, -, ⟨h1, h2, h3, -⟩, -⟩ := adaptive_trace h
  rw [h3]
  simp only [List.length_map, List.length_range]
  exact ⟨h1, by omega⟩

/-! ## C04 -/

/-- Outcome of a search in which the last evaluated point decides: if its cost compares
greater than `f0` the starting point is returned with step size `0 * norm(d)`, otherwise
that point is returned. -/
def Safeguarded (obj : P → F) (M : Mfd F P E) (x : P) (d : E) (f0 : F) {S : Type*}
    (o : SearchOut F P S) : Prop :=
  ∃ last, o.evals.getLast? = some last ∧
    ((lt f0 (obj last) = true ∧ o.newx = x ∧ o.stepSize = mul (lit 0) (M.norm x d)) ∨
      (lt f0 (obj last) = false ∧ o.newx = last))

theorem BackTracks.getLast? {obj : P → F} {M : Mfd F P E} {x : P} {d : E} {f0 df0 c : F}
    {next : F → F} {max : ℤ} {a0 : F} {n : ℕ} {evals : List P}
    (h : BackTracks obj M x d f0 df0 c next max a0 n evals) :
    evals.getLast? = some (trialPoint M x d (next^[n - 1] a0)) := by
  obtain ⟨h1, -, h3, -, -⟩ := h
  obtain ⟨m, rfl⟩ : ∃ m, n = m + 1 := ⟨n - 1, by omega⟩
  rw [h3, List.range_succ]
  simp

/-- **C04** for `BackTrackingLineSearcher`: the returned point never compares greater than
`f0` (where `f0` is the cost at the start, or anything the start does not exceed), and the
safeguard applies exactly if the last trial compares greater. -/
theorem C04_backTracking {c : BackTrackingCfg F} {mem : Option F} {obj : P → F}
    {M : Mfd F P E} {x : P} {d : E} {f0 df0 : F} {o : SearchOut F P (Option F)}
    (hf : lt f0 (obj x) = false)
    (h : (backTracking P E c).search mem obj M x d f0 df0 = .ok o) :
    lt f0 (obj o.newx) = false ∧ Safeguarded obj M x d f0 o := by
  obtain ⟨a0, n, -, hb, -, h4⟩ := backTracking_trace h
  refine ⟨?_, _, hb.getLast?, ?_⟩
  · rcases h4 with ⟨-, h5, -⟩ | ⟨h5, h6, -⟩
    · rw [h5, hf]
    · rw [h6, h5]
  · rcases h4 with ⟨h5, h6, h7⟩ | ⟨h5, h6, -⟩
    · exact Or.inl ⟨h5, h6, h7⟩
    · exact Or.inr ⟨h5, h6⟩

/-- **C04** for `AdaptiveLineSearcher`. -/
theorem C04_adaptive {c : AdaptiveCfg F} {mem : Option F} {obj : P → F}
    {M : Mfd F P E} {x : P} {d : E} {f0 df0 : F} {o : SearchOut F P (Option F)}
    (hf : lt f0 (obj x) = false)
    (h : (adaptive P E c).search mem obj M x d f0 df0 = .ok o) :
    lt f0 (obj o.newx) = false ∧ Safeguarded obj M x d f0 o := by
  obtain ⟨a0, n, -, hb, h4⟩ := adaptive_trace h
  refine ⟨?_, _, hb.getLast?, ?_⟩
  · rcases h4 with ⟨-, h5, -⟩ | ⟨h5, h6, -⟩
    · rw [h5, hf]
    · rw [h6, h5]
  · rcases h4 with ⟨h5, h6, h7, -⟩ | ⟨h5, h6, -⟩
    · exact Or.inl ⟨h5, h6, h7⟩
    · exact Or.inr ⟨h5, h6⟩

/-! ## C05 -/

/-- **C05** for `BackTrackingLineSearcher`: the evaluated points are the trial points of
`a0, r*a0, r*(r*a0), …` with `r` the contraction factor; all but the last violate sufficient
decrease, and the last does not unless the budget of `max_iterations + 1` evaluations is
exhausted; an accepted search returns the last of them with step size `alpha * norm(d)`. -/
theorem C05_backTracking {c : BackTrackingCfg F} {mem : Option F} {obj : P → F}
    {M : Mfd F P E} {x : P} {d : E} {f0 df0 : F} {o : SearchOut F P (Option F)}
    (h : (backTracking P E c).search mem obj M x d f0 df0 = .ok o) :
    ∃ a0, BackTracks obj M x d f0 df0 c.sufficientDecrease (fun a => mul c.contractionFactor a)
        c.maxIterations a0 o.evals.length o.evals ∧
      (lt f0 (obj (trialPoint M x d
          ((fun a => mul c.contractionFactor a)^[o.evals.length - 1] a0))) = false →
        o.newx = trialPoint M x d
          ((fun a => mul c.contractionFactor a)^[o.evals.length - 1] a0) ∧
        o.stepSize = mul ((fun a => mul c.contractionFactor a)^[o.evals.length - 1] a0)
          (M.norm x d)) := by
  obtain ⟨a0, n, -, hb, -, h4⟩ := backTracking_trace h
  have hn : o.evals.length = n := by rw [hb.2.2.1]; simp
  rw [hn]
  refine ⟨a0, hb, fun hlt => ?_⟩
  rcases h4 with ⟨h5, -⟩ | ⟨-, h6⟩
  · rw [h5] at hlt
    cases hlt
  · exact h6

/-- **C05** for `AdaptiveLineSearcher`. -/
theorem C05_adaptive {c : AdaptiveCfg F} {mem : Option F} {obj : P → F}
    {M : Mfd F P E} {x : P} {d : E} {f0 df0 : F} {o : SearchOut F P (Option F)}
    (h : (adaptive P E c).search mem obj M x d f0 df0 = .ok o) :
    ∃ a0, BackTracks obj M x d f0 df0 c.sufficientDecrease (fun a => mul a c.contractionFactor)
        c.maxIterations a0 o.evals.length o.evals ∧
      (lt f0 (obj (trialPoint M x d
          ((fun a => mul a c.contractionFactor)^[o.evals.length - 1] a0))) = false →
        o.newx = trialPoint M x d
          ((fun a => mul a c.contractionFactor)^[o.evals.length - 1] a0) ∧
        o.stepSize = mul ((fun a => mul a c.contractionFactor)^[o.evals.length - 1] a0)
          (M.norm x d)) := by
  obtain ⟨a0, n, -, hb, h4⟩ := adaptive_trace h
  have hn : o.evals.length = n := by rw [hb.2.2.1]; simp
  rw [hn]
  refine ⟨a0, hb, fun hlt => ?_⟩
  rcases h4 with ⟨h5, -⟩ | ⟨-, h6, h7, -⟩
  · rw [h5] at hlt
    cases hlt
  · exact ⟨h6, h7⟩

/-! ## C06 -/

/-- **C06** for `BackTrackingLineSearcher`: the first point tried by a new searcher is that of
step `initial_step_size / norm(d)`; by a searcher whose previous call (whatever happened in
it) was given cost `f0'`, that of `optimism * 2 * (f0 - f0') / df0`. -/
theorem C06_backTracking (c : BackTrackingCfg F) (obj : P → F) (M : Mfd F P E) (x : P) (d : E)
    (f0 df0 : F) :
    (∀ o, (backTracking P E c).search none obj M x d f0 df0 = .ok o →
      ∃ a, div c.initialStepSize (M.norm x d) = .ok a ∧
        o.evals.head? = some (trialPoint M x d (toFloat a))) ∧
    (∀ mem obj' (M' : Mfd F P E) x' d' f0' df0' o' o,
      (backTracking P E c).search mem obj' M' x' d' f0' df0' = .ok o' →
      (backTracking P E c).search o'.mem obj M x d f0 df0 = .ok o →
      ∃ a, div (mul (lit 2) (sub f0 f0')) df0 = .ok a ∧
        o.evals.head? = some (trialPoint M x d (toFloat (mul a c.optimism)))) := by
  constructor
  · intro o h
    obtain ⟨a0, n, ha, hb, -⟩ := backTracking_trace h
    unfold backTrackingInit at ha
    simp only at ha
    split at ha
    · cases ha
    · rename_i a haa
      cases ha
      refine ⟨a, haa, ?_⟩
      obtain ⟨m, rfl⟩ : ∃ m, n = m + 1 := ⟨n - 1, by have := hb.1; omega⟩
      rw [hb.2.2.1, List.range_succ_eq_map]
      rfl
  · intro mem obj' M' x' d' f0' df0' o' o h' h
    obtain ⟨-, -, -, -, hm, -⟩ := backTracking_trace h'
    rw [hm] at h
    obtain ⟨a0, n, ha, hb, -⟩ := backTracking_trace h
    unfold backTrackingInit at ha
    simp only at ha
    split at ha
    · cases ha
    · rename_i a haa
      cases ha
      refine ⟨a, haa, ?_⟩
      obtain ⟨m, rfl⟩ : ∃ m, n = m + 1 := ⟨n - 1, by have := hb.1; omega⟩
      rw [hb.2.2.1, List.range_succ_eq_map]
      rfl

/-- **C06** for `AdaptiveLineSearcher`: the first point tried by a new searcher is that of step
`initial_step_size / norm(d)`.  After a call with first step `a0` that used `n` evaluations,
the next call starts with the last step `a0 * r * … * r` of that call if `n = 2` and twice
that otherwise; if that call rejected its last trial, with `0` or `2 * 0` instead. -/
theorem C06_adaptive (c : AdaptiveCfg F) (obj : P → F) (M : Mfd F P E) (x : P) (d : E)
    (f0 df0 : F) :
    (∀ o, (adaptive P E c).search none obj M x d f0 df0 = .ok o →
      ∃ a, div c.initialStepSize (M.norm x d) = .ok a ∧
        o.evals.head? = some (trialPoint M x d (toFloat a))) ∧
    (∀ mem obj' (M' : Mfd F P E) x' d' f0' df0' o' o,
      (adaptive P E c).search mem obj' M' x' d' f0' df0' = .ok o' →
      (adaptive P E c).search o'.mem obj M x d f0 df0 = .ok o →
      ∃ a0 last,
        o'.evals.head? = some (trialPoint M' x' d' a0) ∧
        o'.evals.getLast? = some (trialPoint M' x' d' last) ∧
        last = (fun a => mul a c.contractionFactor)^[o'.evals.length - 1] a0 ∧
        (lt f0' (obj' (trialPoint M' x' d' last)) = false →
          o.evals.head? = some (trialPoint M x d
            (toFloat (if o'.evals.length = 2 then last else mul (lit 2) last)))) ∧
        (lt f0' (obj' (trialPoint M' x' d' last)) = true →
          o.evals.head? = some (trialPoint M x d
            (toFloat (if o'.evals.length = 2 then lit 0 else mul (lit 2) (lit 0)))))) := by
  have head : ∀ {obj : P → F} {M : Mfd F P E} {x d f0 df0 a0 n evals},
      BackTracks obj M x d f0 df0 c.sufficientDecrease (fun a => mul a c.contractionFactor)
        c.maxIterations a0 n evals → evals.head? = some (trialPoint M x d a0) := by
    intro obj M x d f0 df0 a0 n evals hb
    obtain ⟨m, rfl⟩ : ∃ m, n = m + 1 := ⟨n - 1, by have := hb.1; omega⟩
    rw [hb.2.2.1, List.range_succ_eq_map]
    rfl
  constructor
  · intro o h
    obtain ⟨a0, n, ha, hb, -⟩ := adaptive_trace h
    unfold adaptiveInit at ha
    simp only at ha
    split at ha
    · cases ha
    · rename_i a haa
      cases ha
      exact ⟨a, haa, head hb⟩
  · intro mem obj' M' x' d' f0' df0' o' o h' h
    obtain ⟨a0, n, -, hb', h4⟩ := adaptive_trace h'
    have hn : o'.evals.length = n := by rw [hb'.2.2.1]; simp
    rw [hn]
    refine ⟨a0, _, head hb', hb'.getLast?, rfl, ?_, ?_⟩
    · intro hlt
      rcases h4 with ⟨h5, -⟩ | ⟨-, -, -, hm⟩
      · rw [h5] at hlt
        cases hlt
      · rw [hm] at h
        obtain ⟨a1, n1, ha, hb, -⟩ := adaptive_trace h
        unfold adaptiveInit at ha
        cases ha
        exact head hb
    · intro hlt
      rcases h4 with ⟨-, -, -, hm⟩ | ⟨h5, -⟩
      · rw [hm] at h
        obtain ⟨a1, n1, ha, hb, -⟩ := adaptive_trace h
        unfold adaptiveInit at ha
        cases ha
        exact head hb
      · rw [h5] at hlt
        cases hlt

/-! ## Concrete searches -/

/-- Back-tracking from `x = 1` along `-8` with slope `-16` on `x ** 2`: four evaluations
(steps `1`, `1/2`, `1/4`, `1/8`), accepted. -/
example : ((backTracking Q Q { defaultBackTracking with initialStepSize := .py 8 }).search none
    squareProb.cost lineMfd (.npy 1) (.npy (-8)) (.npy 1) (.py (-16))).map
      (fun o => (o.evals, o.newx, o.stepSize, o.mem)) =
    .ok ([.npy (-7), .npy (-3), .npy (-1), .npy 0], .npy 0, .npy 1, some (.npy 1)) := by
  decide +kernel

/-- An ascent direction handed over as a descent direction: the adaptive searcher exhausts its
budget of `2 + 1` evaluations, rejects and proposes `0` next. -/
example : ((adaptive Q Q { defaultAdaptive with maxIterations := 2 }).search none
    squareProb.cost lineMfd (.npy 1) (.npy 2) (.npy 1) (.py (-4))).map
      (fun o => (o.evals, o.newx, o.stepSize, o.mem)) =
    .ok ([.npy 2, .npy (3 / 2), .npy (5 / 4)], .npy 1, .npy 0, some (.py 0)) := by
  decide +kernel

end Verif.Opt
