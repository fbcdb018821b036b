/-
C168: what the checks of derivatives and retractions plot.
-/
import Verif.Core.Model.DiagnosticsPlot
import Verif.Core.Props.DiagnosticsText

namespace Verif.Core
open Verif

variable {P E : Type*} [AddCommGroup E] [Module ℝ E]

/-! ## Specification -/

/-- Between any two points that appear on logarithmic axes the line has slope `s`. -/
def HasSlope (s : ℝ) (c : Curve) : Prop :=
  ∀ (i j : ℕ) (x y x' y' : ℝ), c.xs[i]? = some x → c.ys[i]? = some y → c.xs[j]? = some x' →
    c.ys[j]? = some y' → 0 < y → 0 < y' →
    Real.logb 10 y' - Real.logb 10 y = s * (Real.logb 10 x' - Real.logb 10 x)

/-- The line goes along eleven or more consecutive abscissas of the other one and has slope `s`. -/
def RunsAlong (s : ℝ) (c solid : Curve) : Prop :=
  c.style = .thick ∧ 11 ≤ c.xs.length ∧ c.ys.length = c.xs.length ∧ (∀ y ∈ c.ys, 0 < y) ∧
    HasSlope s c ∧ ∃ a, ∀ i, i < c.xs.length → ∃ t, c.xs[i]? = some t ∧ solid.xs[a + i]? = some t

/-- A reference line of slope `s`. -/
def IsReference (style : LineStyle) (s : ℝ) (c : Curve) : Prop :=
  c.style = style ∧ c.xs.length = 2 ∧ c.ys.length = 2 ∧ HasSlope s c ∧ (∀ x ∈ c.xs, 0 < x) ∧
    (∀ y ∈ c.ys, 0 < y) ∧ c.xs.Nodup

/-! ## Lemmas -/

theorem logb_pow10 (n : ℕ) : Real.logb 10 ((10 : ℝ) ^ n) = n := by
  rw [Real.logb_pow, Real.logb_self_eq_one (by norm_num), mul_one]

theorem logb_inv_pow10 (n : ℕ) : Real.logb 10 (1 / (10 : ℝ) ^ n) = -n := by
  rw [one_div, Real.logb_inv, logb_pow10]

theorem isReference {style : LineStyle} {s x y y' : ℝ} (hx : 0 < x) (hx1 : x ≠ 1) (hy : 0 < y)
    (hy' : 0 < y') (h1 : Real.logb 10 y' - Real.logb 10 y = s * -Real.logb 10 x) :
    IsReference style s { style := style, xs := [x, 1], ys := [y, y'] } := by
  refine ⟨rfl, rfl, rfl, ?_, by simp [hx], by simp [hy, hy'], by simp [hx1]⟩
  intro i j u v u' v' hu hv hu' hv' _ _
  rcases i with _ | _ | i <;> rcases j with _ | _ | j <;> simp at hu hv hu' hv' <;> subst_vars
  · ring
  · rw [h1, Real.logb_one]; ring
  · rw [Real.logb_one]; linarith
  · ring

theorem logb_rpow10 (z : ℝ) : Real.logb 10 ((10 : ℝ) ^ z) = z := by
  rw [Real.logb_rpow (by norm_num) (by norm_num)]

theorem pick_range' {h : List ℝ} {a n : ℕ} (hn : a + n ≤ h.length) :
    (pick h (List.range' a n)).length = n ∧
      ∀ i, i < n → (pick h (List.range' a n))[i]? = h[a + i]? := by
  have e : pick h (List.range' a n) = (h.drop a).take n := by
    unfold pick
    induction n generalizing a with
    | zero => simp
    | succ n ih =>
      have ha : a < h.length := by omega
      rw [List.range'_succ, List.filterMap_cons, List.getElem?_eq_getElem ha,
        List.drop_eq_getElem_cons ha, List.take_succ_cons]
      simp only
      rw [ih (by omega)]
  rw [e]
  refine ⟨by simp; omega, fun i hi => ?_⟩
  rw [List.getElem?_take_of_lt hi, List.getElem?_drop]

theorem runsAlong_thick {h ys : List ℝ} {a n : ℕ} (hn : a + n ≤ h.length) (h11 : 11 ≤ n)
    (poly : ℝ × ℝ) (style : LineStyle) :
    RunsAlong poly.1 (thickLine h (List.range' a n) poly) { style := style, xs := h, ys := ys } := by
  obtain ⟨h1, h2⟩ := pick_range' hn
  refine ⟨rfl, by rw [thickLine]; simpa only [h1] using h11, by simp [thickLine], ?_, ?_, a, ?_⟩
  · intro y hy
    simp only [thickLine, List.mem_map] at hy
    obtain ⟨t, -, rfl⟩ := hy
    positivity
  · intro i j x y x' y' hx hy hx' hy' _ _
    simp only [thickLine, List.getElem?_map] at hx hy hx' hy'
    rw [hx] at hy
    rw [hx'] at hy'
    simp only [Option.map_some, Option.some.injEq] at hy hy'
    rw [← hy, ← hy', logb_rpow10, logb_rpow10, polyval2, polyval2]
    ring
  · intro i hi
    simp only [thickLine, h1] at hi ⊢
    rw [h2 i hi]
    have hai : a + i < h.length := by omega
    exact ⟨h[a + i], List.getElem?_eq_getElem hai, List.getElem?_eq_getElem hai⟩

theorem identify_segment {Q R : Type*} [LT R] [DecidableLT R] {fit : ℕ → Q × List R} {root : R → R}
    {n w : ℕ} {segment : List ℕ} {poly : Q}
    (h : identifyLinearPiece fit root n w = .ok (segment, poly)) :
    ∃ a, segment = List.range' a (w + 1) := by
  unfold identifyLinearPiece at h
  split at h
  · cases h
  · split at h
    · cases h
    · split at h
      · cases h
      · split at h
        · cases h
        · cases h
          exact ⟨_, rfl⟩

theorem identify_segment' {Q : Type*} {fit : ℕ → Q × List ℝ} {root : ℝ → ℝ}
    {n w : ℕ} {segment : List ℕ} {poly : Q}
    (h : identifyLinearPiece fit root n w = .ok (segment, poly)) :
    ∃ a, segment = List.range' a (w + 1) ∧ a + (w + 1) ≤ n := by
  obtain ⟨a, rfl⟩ := identify_segment h
  obtain ⟨_, _, -, -, -, h4, -⟩ := C49_best_window fit root n w _ poly h
  have := h4 (a + w) (by simp [List.mem_range'])
  exact ⟨a, rfl, by omega⟩

theorem slopeEstimate_segment {polyfit : PolyFit} {h error : List ℝ} (hl : 11 ≤ h.length)
    {out : DiagOut} (ho : slopeEstimate polyfit h error = .ok out) :
    ∃ a n, out.segment = List.range' a n ∧ a + n ≤ h.length ∧ 11 ≤ n := by
  unfold slopeEstimate at ho
  simp only at ho
  split at ho
  · cases ho
    exact ⟨0, h.length, List.range_eq_range', by omega, hl⟩
  · split at ho
    · cases ho
    · rename_i seg poly hs
      cases ho
      obtain ⟨a, h1, h2⟩ := identify_segment' hs
      exact ⟨a, 11, h1, h2, le_rfl⟩

theorem check_segment {polyfit : PolyFit} {pb : DiagProb P E} {x : P} {d : E} {quad : Bool}
    {out : DiagOut} (h : checkDirectionalDerivative polyfit pb (some x) (some d) quad = .ok out) :
    ∃ a n, out.segment = List.range' a n ∧ a + n ≤ out.h.length ∧ 11 ≤ n := by
  unfold checkDirectionalDerivative at h
  simp only [Option.getD_some] at h
  split at h
  · cases h
  · rw [(slopeEstimate_out h).1]
    exact slopeEstimate_segment (by simp [logspace]) h

/-! ## Theorems -/

section
variable {polyfit : PolyFit} {pb : DiagProb P E} {x : P} {d : E} {γ : E → P}

/-- **C168** A figure is shown exactly if the check of the derivative returns, in particular whenever
the check of the gradient or of the Hessian returns; arguments that are not given are drawn. -/
theorem C168_shown (polyfit : PolyFit) (pb : DiagProb P E) (x : P) (d : E) :
    ((gradientShows true polyfit pb (some x) (some d)).isSome ↔
      ∃ out, checkDirectionalDerivative polyfit pb (some x) (some d) false = .ok out) ∧
    ((hessianShows true polyfit pb (some x) (some d)).isSome ↔
      ∃ out, checkDirectionalDerivative polyfit pb (some x) (some d) true = .ok out) ∧
    (∀ r, checkGradient true polyfit pb (some x) (some d) = .ok r →
      (gradientShows true polyfit pb (some x) (some d)).isSome) ∧
    (∀ a b r, checkHessian true polyfit a b pb (some x) (some d) = .ok r →
      (hessianShows true polyfit pb (some x) (some d)).isSome) ∧
    (∀ plt, gradientShows plt polyfit pb (some x) none =
        gradientShows plt polyfit pb (some x) (some (pb.M.randomTangent 0 x)) ∧
      gradientShows plt polyfit pb none none = gradientShows plt polyfit pb
        (some pb.M.randomPoint) (some (pb.M.randomTangent 0 pb.M.randomPoint)) ∧
      hessianShows plt polyfit pb (some x) none =
        hessianShows plt polyfit pb (some x) (some (pb.M.randomTangent 0 x)) ∧
      hessianShows plt polyfit pb none none = hessianShows plt polyfit pb
        (some pb.M.randomPoint) (some (pb.M.randomTangent 0 pb.M.randomPoint))) := by
  refine ⟨?_, ?_, fun r h => ?_, fun a b r h => ?_, fun plt => ⟨rfl, rfl, rfl, rfl⟩⟩
  · simp only [gradientShows, Bool.not_true, Bool.false_eq_true, if_false, Option.getD_some]
    split <;> simp_all
  · simp only [hessianShows, Bool.not_true, Bool.false_eq_true, if_false, Option.getD_some]
    split <;> simp_all
  · simp only [checkGradient, Bool.not_true, Bool.false_eq_true, if_false, Option.getD_some] at h
    split at h
    · cases h
    · rename_i out ho
      simp [gradientShows, ho]
  · simp only [checkHessian, Bool.not_true, Bool.false_eq_true, if_false, Option.getD_some] at h
    split at h
    · cases h
    · rename_i out ho
      simp [hessianShows, ho]

/-- **C168**, gradients: the figure consists of the errors of the linear model at 51 step sizes from
`10 ^ -8` to `1`, a thick line along at least eleven of them, whose slope is the estimate that
`check_directional_derivative` returns, and a dashed line of slope 2. -/
theorem C168_gradient (hγ : Follows pb.M x γ) {cs : List Curve}
    (h : gradientShows true polyfit pb (some x) (some d) = some cs) :
    ∃ out solid thick dashed, checkDirectionalDerivative polyfit pb (some x) (some d) false = .ok out ∧
      cs = [solid, thick, dashed] ∧ solid.style = .solid ∧
      solid.xs.length = 51 ∧ solid.ys.length = 51 ∧
      (∀ k, k < 51 → solid.xs[k]? = some (stepSize 8 51 k) ∧
        solid.ys[k]? = some |pb.cost x + stepSize 8 51 k * pb.M.inner x (pb.grad x) d -
          pb.cost (γ (stepSize 8 51 k • d))|) ∧
      RunsAlong out.poly.1 thick solid ∧ IsReference .dashed 2 dashed := by
  simp only [gradientShows, Bool.not_true, Bool.false_eq_true, if_false, Option.getD_some] at h
  split at h
  · cases h
  · rename_i out ho
    cases h
    obtain ⟨h1, h2, h3⟩ := C116_errors hγ ho
    obtain ⟨a, n, h4, h5, h6⟩ := check_segment ho
    refine ⟨out, _, _, _, ho, rfl, rfl, h1, h2, fun k hk => ⟨(h3 k hk).1, ?_⟩, ?_, ?_⟩
    · simpa using (h3 k hk).2
    · rw [h4]
      exact runsAlong_thick h5 h6 _ _
    · refine isReference (by norm_num) (by norm_num) (by norm_num) (by norm_num) ?_
      rw [logb_pow10, logb_inv_pow10]
      norm_num

/-- **C168**, Hessians: the same with the errors of the quadratic model and slope 3. -/
theorem C168_hessian (hγ : Follows pb.M x γ) {cs : List Curve}
    (h : hessianShows true polyfit pb (some x) (some d) = some cs) :
    ∃ out solid thick dashed, checkDirectionalDerivative polyfit pb (some x) (some d) true = .ok out ∧
      cs = [solid, thick, dashed] ∧ solid.style = .solid ∧
      solid.xs.length = 51 ∧ solid.ys.length = 51 ∧
      (∀ k, k < 51 → solid.xs[k]? = some (stepSize 8 51 k) ∧
        solid.ys[k]? = some |pb.cost x + stepSize 8 51 k * pb.M.inner x (pb.grad x) d +
          stepSize 8 51 k ^ 2 / 2 * pb.M.inner x (pb.hess x d) d -
          pb.cost (γ (stepSize 8 51 k • d))|) ∧
      RunsAlong out.poly.1 thick solid ∧ IsReference .dashed 3 dashed := by
  simp only [hessianShows, Bool.not_true, Bool.false_eq_true, if_false, Option.getD_some] at h
  split at h
  · cases h
  · rename_i out ho
    cases h
    obtain ⟨h1, h2, h3⟩ := C116_errors hγ ho
    obtain ⟨a, n, h4, h5, h6⟩ := check_segment ho
    refine ⟨out, _, _, _, ho, rfl, rfl, h1, h2, fun k hk => ⟨(h3 k hk).1, ?_⟩, ?_, ?_⟩
    · simpa using (h3 k hk).2
    · rw [h4]
      exact runsAlong_thick h5 h6 _ _
    · refine isReference (by norm_num) (by norm_num) (by norm_num) (by norm_num) ?_
      rw [logb_pow10, logb_inv_pow10, logb_inv_pow10]
      norm_num

end

/-! ### What a right and a wrong derivative look like -/

theorem stepSize_injective {m : ℝ} (hm : 0 < m) {n : ℕ} (hn : 1 < n) {j k : ℕ}
    (h : stepSize m n j = stepSize m n k) : j = k := by
  have h1 := congrArg (Real.logb 10) h
  unfold stepSize at h1
  rw [logb_rpow10, logb_rpow10] at h1
  have hn' : (0 : ℝ) < (n : ℝ) - 1 := by
    have : (1 : ℝ) < n := by exact_mod_cast hn
    linarith
  have h2 : (j : ℝ) * (m / (n - 1)) = k * (m / (n - 1)) := by linarith
  exact_mod_cast mul_right_cancel₀ (div_pos hm hn').ne' h2

theorem abs_three {u v w : ℝ} (h1 : u ≠ v) (h2 : u ≠ w) (h3 : v ≠ w) (e1 : |u| = |v|)
    (e2 : |u| = |w|) : False := by
  rcases abs_eq_abs.1 e1 with h | h
  · exact h1 h
  · rcases abs_eq_abs.1 e2 with h' | h'
    · exact h2 h'
    · exact h3 (by linarith)

/-- Errors `|a t ^ m + c t ^ (m + 1)|` have slope `m + 1` exactly if `a` vanishes. -/
theorem slope_iff {c : Curve} {n m : ℕ} {μ a b : ℝ} (hμ : 0 < μ) (hn : 4 ≤ n)
    (hx : ∀ k, k < n → c.xs[k]? = some (stepSize μ n k))
    (hlen : c.xs.length = n)
    (hy : ∀ k, k < n → c.ys[k]? = some |a * stepSize μ n k ^ m + b * stepSize μ n k ^ (m + 1)|) :
    HasSlope (m + 1) c ↔ a = 0 := by
  have hpos := fun k => stepSize_pos μ n k
  constructor
  · intro hs
    by_contra ha
    set u : ℕ → ℝ := fun k => a / stepSize μ n k + b with hu
    have hval : ∀ k, |a * stepSize μ n k ^ m + b * stepSize μ n k ^ (m + 1)| =
        |u k| * stepSize μ n k ^ (m + 1) := by
      intro k
      have := (hpos k).ne'
      rw [← abs_of_pos (pow_pos (hpos k) (m + 1)), ← abs_mul, abs_of_pos (pow_pos (hpos k) (m + 1))]
      congr 1
      rw [hu]
      field_simp
      ring
    have hinj : ∀ j k, j ≠ k → u j ≠ u k := by
      intro j k hjk h
      have h1 : a / stepSize μ n j = a / stepSize μ n k := by simpa [hu] using h
      rw [div_eq_div_iff (hpos j).ne' (hpos k).ne'] at h1
      exact hjk (stepSize_injective hμ (by omega) (mul_left_cancel₀ ha h1).symm)
    have heq : ∀ j k, j < n → k < n → u j ≠ 0 → u k ≠ 0 → |u j| = |u k| := by
      intro j k hj hk uj uk
      have h1 := hs j k _ _ _ _ (hx j hj) (hy j hj) (hx k hk) (hy k hk)
        (by rw [hval]; exact mul_pos (abs_pos.2 uj) (pow_pos (hpos j) _))
        (by rw [hval]; exact mul_pos (abs_pos.2 uk) (pow_pos (hpos k) _))
      rw [hval, hval, Real.logb_mul (abs_pos.2 uk).ne' (pow_pos (hpos k) _).ne',
        Real.logb_mul (abs_pos.2 uj).ne' (pow_pos (hpos j) _).ne', Real.logb_pow, Real.logb_pow] at h1
      push_cast at h1
      have h2 : Real.logb 10 |u j| = Real.logb 10 |u k| := by linarith
      exact Real.logb_injOn_pos (by norm_num) (abs_pos.2 uj) (abs_pos.2 uk) h2
    have three : ∀ i j k, i < n → j < n → k < n → i ≠ j → i ≠ k → j ≠ k → u i ≠ 0 → u j ≠ 0 →
        u k ≠ 0 → False := fun i j k hi hj hk h1 h2 h3 ui uj uk =>
      abs_three (hinj i j h1) (hinj i k h2) (hinj j k h3) (heq i j hi hj ui uj) (heq i k hi hk ui uk)
    have one : ∀ i j, i ≠ j → u i = 0 → u j ≠ 0 := fun i j h hi hj => hinj i j h (hi.trans hj.symm)
    by_cases h0 : u 0 = 0
    · exact three 1 2 3 (by omega) (by omega) (by omega) (by omega) (by omega) (by omega)
        (one 0 1 (by omega) h0) (one 0 2 (by omega) h0) (one 0 3 (by omega) h0)
    · by_cases h1 : u 1 = 0
      · exact three 0 2 3 (by omega) (by omega) (by omega) (by omega) (by omega) (by omega)
          h0 (one 1 2 (by omega) h1) (one 1 3 (by omega) h1)
      · by_cases h2 : u 2 = 0
        · exact three 0 1 3 (by omega) (by omega) (by omega) (by omega) (by omega) (by omega)
            h0 h1 (one 2 3 (by omega) h2)
        · exact three 0 1 2 (by omega) (by omega) (by omega) (by omega) (by omega) (by omega)
            h0 h1 h2
  · rintro rfl i j x y x' y' hi hyi hj hyj hpy hpy'
    have hi' : i < n := by rw [← hlen]; exact (List.getElem?_eq_some_iff.1 hi).1
    have hj' : j < n := by rw [← hlen]; exact (List.getElem?_eq_some_iff.1 hj).1
    rw [hx i hi'] at hi
    rw [hx j hj'] at hj
    rw [hy i hi'] at hyi
    rw [hy j hj'] at hyj
    cases hi
    cases hj
    cases hyi
    cases hyj
    simp only [zero_mul, zero_add, abs_mul, abs_pow, abs_of_pos (hpos _)] at hpy hpy' ⊢
    have hb : |b| ≠ 0 := fun h => by rw [h, zero_mul] at hpy; exact lt_irrefl _ hpy
    rw [Real.logb_mul hb (pow_pos (hpos j) _).ne', Real.logb_mul hb (pow_pos (hpos i) _).ne',
      Real.logb_pow, Real.logb_pow]
    push_cast
    ring

section
variable {polyfit : PolyFit} {pb : DiagProb P E} {x : P} {d : E} {γ : E → P}

/-- **C168**, verdict about gradients: if the cost is quadratic along the curve then the line of the
errors is parallel to the dashed one exactly if the gradient gives the right derivative. -/
theorem C168_gradient_parallel (hγ : Follows pb.M x γ) {D c : ℝ}
    (hf : ∀ t, 0 < t → t ≤ 1 → pb.cost (γ (t • d)) = pb.cost x + t * D + c * t ^ 2)
    {solid thick dashed : Curve}
    (h : gradientShows true polyfit pb (some x) (some d) = some [solid, thick, dashed]) :
    HasSlope 2 solid ↔ pb.M.inner x (pb.grad x) d = D := by
  obtain ⟨out, s, t, r, -, he, -, h1, -, h3, -⟩ := C168_gradient hγ h
  cases he
  have key := slope_iff (c := solid) (n := 51) (m := 1) (μ := 8)
    (a := pb.M.inner x (pb.grad x) d - D) (b := -c) (by norm_num) (by norm_num)
    (fun k hk => (h3 k hk).1) h1 (fun k hk => by
      rw [(h3 k hk).2, hf _ (stepSize_pos 8 51 k) (stepSize_le_one (by norm_num) hk)]
      congr 2
      ring)
  rw [sub_eq_zero] at key
  rw [← key]
  norm_num

/-- **C168**, verdict about Hessians, for a right gradient and a cubic cost. -/
theorem C168_hessian_parallel (hγ : Follows pb.M x γ) {S c : ℝ}
    (hf : ∀ t, 0 < t → t ≤ 1 → pb.cost (γ (t • d)) =
      pb.cost x + t * pb.M.inner x (pb.grad x) d + t ^ 2 / 2 * S + c * t ^ 3)
    {solid thick dashed : Curve}
    (h : hessianShows true polyfit pb (some x) (some d) = some [solid, thick, dashed]) :
    HasSlope 3 solid ↔ pb.M.inner x (pb.hess x d) d = S := by
  obtain ⟨out, s, t, r, -, he, -, h1, -, h3, -⟩ := C168_hessian hγ h
  cases he
  have key := slope_iff (c := solid) (n := 51) (m := 2) (μ := 8)
    (a := (pb.M.inner x (pb.hess x d) d - S) / 2) (b := -c) (by norm_num) (by norm_num)
    (fun k hk => (h3 k hk).1) h1 (fun k hk => by
      rw [(h3 k hk).2, hf _ (stepSize_pos 8 51 k) (stepSize_le_one (by norm_num) hk)]
      congr 2
      ring)
  have e : (pb.M.inner x (pb.hess x d) d - S) / 2 = 0 ↔ pb.M.inner x (pb.hess x d) d = S := by
    rw [div_eq_zero_iff, sub_eq_zero]
    norm_num
  rw [← e, ← key]
  norm_num

end

/-- **C168**, retractions: the figure consists of the distances between exponential and retraction at
251 multiples of the vector, a dashed line of slope 3, a dotted one of slope 2 and a thick line along
at least eleven of the distances, whose slope is the one that is printed. -/
theorem C168_retraction {polyfit : PolyFit} {M : DiagMfd P E} {x : P} {v : E} {γ ρ : E → P}
    {δ : P → P → ℝ} (h1 : ∀ w, M.exp x w = .ok (γ w)) (h2 : ∀ w, M.retraction x w = .ok (ρ w))
    (h3 : ∀ y z, M.dist y z = .ok (δ y z)) {cs : List Curve}
    (h : retractionShows true polyfit M (some x) (some v) = some cs) :
    ∃ out solid dashed dotted thick,
      checkRetraction true polyfit M (some x) (some v) = .ok out ∧
      cs = [solid, dashed, dotted, thick] ∧ solid.style = .solid ∧
      solid.xs.length = 251 ∧ solid.ys.length = 251 ∧
      (∀ k, k < 251 → solid.xs[k]? = some (stepSize 12 251 k) ∧
        solid.ys[k]? = some (δ (γ (stepSize 12 251 k • v)) (ρ (stepSize 12 251 k • v)))) ∧
      IsReference .dashed 3 dashed ∧ IsReference .dotted 2 dotted ∧
      RunsAlong out.poly.1 thick solid := by
  unfold retractionShows at h
  split at h
  · cases h
  · rename_i out ho
    cases h
    obtain ⟨h4, h5⟩ := C117_retraction_errors h1 h2 h3 ho
    have hs : out.steps.length = 251 ∧ ∃ a, out.segment = List.range' a 11 ∧ a + 11 ≤ 251 := by
      simp only [checkRetraction, h1, h2, Bool.not_true, Bool.false_eq_true, if_false] at ho
      split at ho
      · cases ho
      · split at ho
        · cases ho
        · rename_i seg poly hseg
          cases ho
          obtain ⟨a, h6, h7⟩ := identify_segment' hseg
          exact ⟨by simp [logspace], a, h6, by simpa [logspace] using h7⟩
    obtain ⟨hl, a, hseg, ha⟩ := hs
    refine ⟨out, _, _, _, _, ho, rfl, rfl, hl, h4, h5, ?_, ?_, ?_⟩
    · refine isReference (by norm_num) (by norm_num) (by norm_num) (by norm_num) ?_
      rw [logb_pow10, logb_inv_pow10, logb_inv_pow10]
      norm_num
    · refine isReference (by norm_num) (by norm_num) (by norm_num) (by norm_num) ?_
      rw [logb_pow10, logb_inv_pow10, logb_inv_pow10]
      norm_num
    · rw [hseg]
      exact runsAlong_thick (by omega) le_rfl _ _

/-- **C168**, verdict about retractions: distances `|a t ^ 2 + b t ^ 3|` are parallel to the dashed
line exactly if they are of third order; distances `|a t + b t ^ 2|`, to the dotted line exactly if
they are of second order. -/
theorem C168_retraction_parallel {polyfit : PolyFit} {M : DiagMfd P E} {x : P} {v : E} {γ ρ : E → P}
    {δ : P → P → ℝ} (h1 : ∀ w, M.exp x w = .ok (γ w)) (h2 : ∀ w, M.retraction x w = .ok (ρ w))
    (h3 : ∀ y z, M.dist y z = .ok (δ y z)) {solid dashed dotted thick : Curve}
    (h : retractionShows true polyfit M (some x) (some v) = some [solid, dashed, dotted, thick])
    {a b : ℝ} :
    ((∀ t, 0 < t → t ≤ 1 → δ (γ (t • v)) (ρ (t • v)) = |a * t ^ 2 + b * t ^ 3|) →
      (HasSlope 3 solid ↔ a = 0)) ∧
    ((∀ t, 0 < t → t ≤ 1 → δ (γ (t • v)) (ρ (t • v)) = |a * t + b * t ^ 2|) →
      (HasSlope 2 solid ↔ a = 0)) := by
  obtain ⟨out, s, _, _, _, -, he, -, hl, -, h4, -⟩ := C168_retraction h1 h2 h3 h
  cases he
  constructor
  · intro hd
    have key := slope_iff (c := solid) (n := 251) (m := 2) (μ := 12) (a := a) (b := b) (by norm_num)
      (by norm_num) (fun k hk => (h4 k hk).1) hl (fun k hk => by
        rw [(h4 k hk).2, hd _ (stepSize_pos 12 251 k) (stepSize_le_one (by norm_num) hk)])
    rw [← key]
    norm_num
  · intro hd
    have key := slope_iff (c := solid) (n := 251) (m := 1) (μ := 12) (a := a) (b := b) (by norm_num)
      (by norm_num) (fun k hk => (h4 k hk).1) hl (fun k hk => by
        rw [(h4 k hk).2, hd _ (stepSize_pos 12 251 k) (stepSize_le_one (by norm_num) hk), pow_one])
    rw [← key]
    norm_num

/-- The real line with the cost `x ^ 2`, a right gradient, a wrong one and a wrong Hessian: figures
are shown, and the cost is as the theorems about parallel lines want it. -/
example : Follows lineDiag 1 (fun v : ℝ => 1 + v) ∧
    (∀ t : ℝ, (1 + t • (1 : ℝ)) ^ 2 = 1 ^ 2 + t * 2 + 1 * t ^ 2) ∧
    (∀ g h : ℝ → ℝ, (gradientShows true (fun _ _ => ((2, 0), [1]))
      ⟨lineDiag, fun x => x ^ 2, g, fun _ => h⟩ (some 1) (some 1)).isSome ∧
      (hessianShows true (fun _ _ => ((2, 0), [1]))
        ⟨lineDiag, fun x => x ^ 2, g, fun _ => h⟩ (some 1) (some 1)).isSome) := by
  have hγ : Follows lineDiag 1 (fun v : ℝ => 1 + v) := .inl fun v => rfl
  refine ⟨hγ, fun t => by simp only [smul_eq_mul]; ring, fun g h => ⟨?_, ?_⟩⟩
  · exact (C168_shown _ ⟨lineDiag, fun x => x ^ 2, g, fun _ => h⟩ 1 1).1.2
      (C116_returns (pb := ⟨lineDiag, fun x => x ^ 2, g, fun _ => h⟩) hγ fun _ _ _ _ => ⟨1, rfl⟩)
  · exact (C168_shown _ ⟨lineDiag, fun x => x ^ 2, g, fun _ => h⟩ 1 1).2.1.2
      (C116_returns (pb := ⟨lineDiag, fun x => x ^ 2, g, fun _ => h⟩) hγ fun _ _ _ _ => ⟨1, rfl⟩)

/-- The real line with the retraction `x + v + v ^ 2`: a figure is shown, of distances
`|0 t + 1 t ^ 2|`. -/
example : (∃ cs, retractionShows true (fun _ _ => ((2, 0), [1]))
      { lineDiag with retraction := fun x v => .ok (x + v + v ^ 2) } (some 1) (some 1) = some cs) ∧
    ∀ t : ℝ, 0 < t → t ≤ 1 →
      |(1 + t • (1 : ℝ)) - (1 + t • (1 : ℝ) + (t • (1 : ℝ)) ^ 2)| = |0 * t + 1 * t ^ 2| := by
  constructor
  · obtain ⟨out, h⟩ := check_line_retraction
    exact ⟨retractionFigure out, by rw [retractionShows, h]⟩
  · intro t _ _
    rw [← abs_neg]
    congr 1
    simp only [smul_eq_mul]
    ring

end Verif.Core
