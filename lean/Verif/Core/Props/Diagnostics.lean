/-
C116, C117: the derivative checks of `pymanopt.tools.diagnostics` and their arguments.
-/
import Verif.Core.Model.Diagnostics
import Verif.Core.Props.Tools
import Mathlib.Analysis.SpecialFunctions.Log.Deriv
import Mathlib.Topology.Algebra.Order.Field
import Mathlib.Tactic.Positivity
import Mathlib.Tactic.FieldSimp

namespace Verif.Core
open Verif Filter Topology

variable {P E : Type*} [AddCommGroup E] [Module ℝ E]

/-! ## Specification -/

/-- `γ` is the curve the checks follow: the exponential map where the manifold implements it, else the
retraction. -/
def Follows (M : DiagMfd P E) (x : P) (γ : E → P) : Prop :=
  (∀ v, M.exp x v = .ok (γ v)) ∨
    ∀ v, M.exp x v = .error .notImplemented ∧ M.retraction x v = .ok (γ v)

/-- Step size number `k` of `n` from `10 ^ -m` to `1`. -/
noncomputable def stepSize (m : ℝ) (n k : ℕ) : ℝ := (10 : ℝ) ^ (-m + k * (m / (n - 1)))

/-! ## Lemmas -/

omit [AddCommGroup E] [Module ℝ E] in
theorem expOrRetraction_of {M : DiagMfd P E} {x : P} {γ : E → P} (h : Follows M x γ) (v : E) :
    expOrRetraction M x v = .ok (γ v) := by
  unfold expOrRetraction
  rcases h with h | h
  · rw [h v]
  · rw [(h v).1]
    exact (h v).2

theorem curveValues_of {pb : DiagProb P E} {x : P} {d : E} {γ : E → P} (h : Follows pb.M x γ)
    (hs : List ℝ) : curveValues pb x d hs = .ok (hs.map fun t => pb.cost (γ (t • d))) := by
  induction hs with
  | nil => rfl
  | cons t ts ih => simp [curveValues, expOrRetraction_of h, ih]

theorem logspace_eq (m : ℝ) (n : ℕ) :
    logspace (-m) 0 n = (List.range n).map fun k => stepSize m n k := by
  unfold logspace stepSize
  refine List.map_congr_left fun k _ => ?_
  rw [zero_sub, neg_neg]

theorem stepSize_pos (m : ℝ) (n k : ℕ) : 0 < stepSize m n k := by
  unfold stepSize
  positivity

theorem stepSize_le_one {m : ℝ} {n k : ℕ} (hm : 0 ≤ m) (hk : k < n) : stepSize m n k ≤ 1 := by
  unfold stepSize
  refine Real.rpow_le_one_of_one_le_of_nonpos (by norm_num) ?_
  rcases Nat.lt_or_ge 1 n with hn | hn
  · have h1 : (0 : ℝ) < (n : ℝ) - 1 := by
      have : (1 : ℝ) < n := by exact_mod_cast hn
      linarith
    have h2 : (k : ℝ) ≤ n - 1 := by
      have : (k : ℝ) + 1 ≤ n := by exact_mod_cast hk
      linarith
    have h3 : (k : ℝ) * (m / (n - 1)) ≤ (n - 1) * (m / (n - 1)) :=
      mul_le_mul_of_nonneg_right h2 (div_nonneg hm h1.le)
    rw [mul_div_cancel₀ _ h1.ne'] at h3
    linarith
  · obtain rfl : n = 1 := by omega
    obtain rfl : k = 0 := by omega
    simpa using hm

theorem slopeEstimate_out {polyfit : PolyFit} {h error : List ℝ} {out : DiagOut}
    (ho : slopeEstimate polyfit h error = .ok out) : out.h = h ∧ out.error = error ∧
      (out.exact = true ↔ ∀ e ∈ error, e < 1 / 10 ^ 12) := by
  unfold slopeEstimate at ho
  simp only at ho
  split at ho
  · next hall =>
    cases ho
    simpa using hall
  · next hall =>
    split at ho
    · cases ho
    · cases ho
      simpa using hall

/-! ## C116 -/

section
variable {polyfit : PolyFit} {pb : DiagProb P E} {x : P} {d : E} {γ : E → P} {quad : Bool}
  {out : DiagOut}

/-- C116: the reported errors are those of the Taylor model at the step sizes
`10 ^ (-8 + 4 k / 25)`. -/
theorem C116_errors (hγ : Follows pb.M x γ)
    (h : checkDirectionalDerivative polyfit pb (some x) (some d) quad = .ok out) :
    out.h.length = 51 ∧ out.error.length = 51 ∧ ∀ k, k < 51 →
      out.h[k]? = some (stepSize 8 51 k) ∧
      out.error[k]? = some |pb.cost x + stepSize 8 51 k * pb.M.inner x (pb.grad x) d +
        (if quad then stepSize 8 51 k ^ 2 / 2 * pb.M.inner x (pb.hess x d) d else 0) -
        pb.cost (γ (stepSize 8 51 k • d))| := by
  unfold checkDirectionalDerivative at h
  simp only [Option.getD_some, logspace_eq, curveValues_of hγ] at h
  obtain ⟨h1, h2, -⟩ := slopeEstimate_out h
  rw [h1, h2]
  refine ⟨by simp, by simp, fun k hk => ⟨by simp [hk], ?_⟩⟩
  simp only [List.map_map, List.getElem?_zipWith, List.getElem?_map, List.getElem?_range hk,
    Option.map_some, Function.comp, Option.some.injEq]
  congr 2
  unfold taylorModel polyval2 polyval3
  cases quad
  · simp only [Bool.false_eq_true, if_false]
    ring
  · simp only [if_true]
    ring

/-- **C116** (gradient): for a cost with a second-order bound along the curve, whose derivative there is
`D`, every reported error is `|<grad, d> - D| h` up to `C h ^ 2`: with a right gradient the errors are
of second order, with a wrong one of first order. -/
theorem C116_gradient (hγ : Follows pb.M x γ)
    (h : checkDirectionalDerivative polyfit pb (some x) (some d) false = .ok out) {D C : ℝ}
    (hf : ∀ t, 0 < t → t ≤ 1 → |pb.cost (γ (t • d)) - (pb.cost x + t * D)| ≤ C * t ^ 2)
    {k : ℕ} {t e : ℝ} (ht : out.h[k]? = some t) (he : out.error[k]? = some e) :
    0 < t ∧ |e - |pb.M.inner x (pb.grad x) d - D| * t| ≤ C * t ^ 2 := by
  obtain ⟨h1, h2, h3⟩ := C116_errors hγ h
  have hk : k < 51 := by
    rw [← h1]
    exact (List.getElem?_eq_some_iff.1 ht).1
  obtain ⟨h4, h5⟩ := h3 k hk
  rw [ht] at h4
  rw [he] at h5
  obtain rfl := Option.some.inj h4
  obtain rfl := Option.some.inj h5
  have hp := stepSize_pos 8 51 k
  refine ⟨hp, ?_⟩
  have := hf _ hp (stepSize_le_one (by norm_num) hk)
  simp only [Bool.false_eq_true, if_false, add_zero]
  generalize stepSize 8 51 k = t at hp this
  rw [show |pb.M.inner x (pb.grad x) d - D| * t = |(pb.M.inner x (pb.grad x) d - D) * t| by
    rw [abs_mul, abs_of_pos hp]]
  refine (abs_abs_sub_abs_le _ _).trans ?_
  rw [abs_sub_comm] at this
  refine le_of_eq_of_le ?_ this
  congr 1
  ring

/-- **C116** (Hessian): for a cost with a third-order bound along the curve, whose derivatives there are
`D` and `S`, and a right gradient, every reported error is `|<hess d, d> - S| h ^ 2 / 2` up to
`C h ^ 3`. -/
theorem C116_hessian (hγ : Follows pb.M x γ)
    (h : checkDirectionalDerivative polyfit pb (some x) (some d) true = .ok out) {D S C : ℝ}
    (hD : pb.M.inner x (pb.grad x) d = D)
    (hf : ∀ t, 0 < t → t ≤ 1 →
      |pb.cost (γ (t • d)) - (pb.cost x + t * D + t ^ 2 / 2 * S)| ≤ C * t ^ 3)
    {k : ℕ} {t e : ℝ} (ht : out.h[k]? = some t) (he : out.error[k]? = some e) :
    0 < t ∧ |e - |pb.M.inner x (pb.hess x d) d - S| / 2 * t ^ 2| ≤ C * t ^ 3 := by
  obtain ⟨h1, h2, h3⟩ := C116_errors hγ h
  have hk : k < 51 := by
    rw [← h1]
    exact (List.getElem?_eq_some_iff.1 ht).1
  obtain ⟨h4, h5⟩ := h3 k hk
  rw [ht] at h4
  rw [he] at h5
  obtain rfl := Option.some.inj h4
  obtain rfl := Option.some.inj h5
  have hp := stepSize_pos 8 51 k
  refine ⟨hp, ?_⟩
  have := hf _ hp (stepSize_le_one (by norm_num) hk)
  simp only [if_true]
  generalize stepSize 8 51 k = t at hp this
  rw [show |pb.M.inner x (pb.hess x d) d - S| / 2 * t ^ 2 =
      |(pb.M.inner x (pb.hess x d) d - S) / 2 * t ^ 2| by
    rw [abs_mul, abs_div, abs_of_pos (show (0 : ℝ) < t ^ 2 by positivity),
      abs_of_pos (show (0 : ℝ) < 2 by norm_num)]]
  refine (abs_abs_sub_abs_le _ _).trans ?_
  rw [abs_sub_comm] at this
  refine le_of_eq_of_le ?_ this
  rw [hD]
  congr 1
  ring

/-- C116: `check_gradient` plots the errors of the linear model, so those of `C116_gradient`. -/
theorem C116_check_gradient (hγ : Follows pb.M x γ) {r : Option ℝ}
    (h : checkGradient true polyfit pb (some x) (some d) = .ok (out, r)) {D C : ℝ}
    (hf : ∀ t, 0 < t → t ≤ 1 → |pb.cost (γ (t • d)) - (pb.cost x + t * D)| ≤ C * t ^ 2)
    {k : ℕ} {t e : ℝ} (ht : out.h[k]? = some t) (he : out.error[k]? = some e) :
    0 < t ∧ |e - |pb.M.inner x (pb.grad x) d - D| * t| ≤ C * t ^ 2 := by
  simp only [checkGradient, Bool.not_true, Bool.false_eq_true, if_false, Option.getD_some] at h
  split at h
  · cases h
  · next o ho =>
    split at h
    · cases h
    · cases h
      exact C116_gradient hγ ho hf ht he

/-- C116: `check_hessian` plots the errors of the quadratic model, so those of `C116_hessian`. -/
theorem C116_check_hessian (hγ : Follows pb.M x γ) {a b : ℝ} {o : HessOut}
    (h : checkHessian true polyfit a b pb (some x) (some d) = .ok o) {D S C : ℝ}
    (hD : pb.M.inner x (pb.grad x) d = D)
    (hf : ∀ t, 0 < t → t ≤ 1 →
      |pb.cost (γ (t • d)) - (pb.cost x + t * D + t ^ 2 / 2 * S)| ≤ C * t ^ 3)
    {k : ℕ} {t e : ℝ} (ht : o.out.h[k]? = some t) (he : o.out.error[k]? = some e) :
    0 < t ∧ |e - |pb.M.inner x (pb.hess x d) d - S| / 2 * t ^ 2| ≤ C * t ^ 3 := by
  simp only [checkHessian, Bool.not_true, Bool.false_eq_true, if_false, Option.getD_some] at h
  split at h
  · cases h
  · next o' ho =>
    split at h
    · cases h
    · cases h
      exact C116_hessian hγ ho hD hf ht he

/-- C116: the model is reported as exact precisely if all errors are below `1e-12`. -/
theorem C116_exact (hx : checkDirectionalDerivative polyfit pb (some x) (some d) quad = .ok out) :
    out.exact = true ↔ ∀ e ∈ out.error, e < 1 / 10 ^ 12 := by
  unfold checkDirectionalDerivative at hx
  simp only [Option.getD_some] at hx
  split at hx
  · cases hx
  · obtain ⟨-, h2, h3⟩ := slopeEstimate_out hx
    rw [h2]
    exact h3

/-- C116: the check returns when the curve can be followed and `np.polyfit` gives a residual on eleven
data. -/
theorem C116_returns (hγ : Follows pb.M x γ)
    (hfit : ∀ X Y : List ℝ, X.length = 11 → Y.length = 11 → ∃ r, (polyfit X Y).2 = [r]) :
    ∃ out, checkDirectionalDerivative polyfit pb (some x) (some d) quad = .ok out := by
  unfold checkDirectionalDerivative
  simp only [Option.getD_some, logspace_eq, curveValues_of hγ]
  unfold slopeEstimate
  simp only
  split
  · exact ⟨_, rfl⟩
  · obtain ⟨⟨seg, poly⟩, hout⟩ := C49_succeeds
      (fun k => polyfit (((((List.range 51).map fun k => stepSize 8 51 k).map
          (Real.logb 10)).drop k).take 11)
        ((((List.zipWith (fun h v => |taylorModel pb x d quad h - v|)
          ((List.range 51).map fun k => stepSize 8 51 k)
          (((List.range 51).map fun k => stepSize 8 51 k).map fun t => pb.cost (γ (t • d)))).map
          fun e => Real.logb 10 (e + 1 / 2 ^ 52)).drop k).take 11)) Real.sqrt
      ((List.range 51).map fun k => stepSize 8 51 k).length 10 (by simp) (fun k hk => by
        simp only [List.length_map, List.length_range] at hk
        apply hfit
        · simp; omega
        · simp; omega)
    rw [hout]
    exact ⟨_, rfl⟩

end

/-- The problem with cost and derivatives multiplied by `s`. -/
def DiagProb.scale (s : ℝ) (pb : DiagProb P E) : DiagProb P E where
  M := pb.M
  cost x := s * pb.cost x
  grad x := s • pb.grad x
  hess x v := s • pb.hess x v

/-- C116: the threshold is absolute: every problem, its gradient right or wrong, has a positive multiple
for which the linear model is reported as exact. -/
theorem C116_scale {polyfit : PolyFit} {pb : DiagProb P E} {x : P} {d : E} {γ : E → P}
    (hγ : Follows pb.M x γ)
    (hin : ∀ (s : ℝ) v, pb.M.inner x (s • v) d = s * pb.M.inner x v d) :
    ∃ s > 0, ∀ out, checkDirectionalDerivative polyfit (pb.scale s) (some x) (some d) false = .ok out →
      out.exact = true := by
  obtain ⟨M, hM0, hM⟩ : ∃ M : ℝ, 0 < M ∧ ∀ k, k < 51 →
      |pb.cost x + stepSize 8 51 k * pb.M.inner x (pb.grad x) d -
        pb.cost (γ (stepSize 8 51 k • d))| ≤ M := by
    refine ⟨∑ k ∈ Finset.range 51, |pb.cost x + stepSize 8 51 k * pb.M.inner x (pb.grad x) d -
        pb.cost (γ (stepSize 8 51 k • d))| + 1,
      add_pos_of_nonneg_of_pos (Finset.sum_nonneg fun _ _ => abs_nonneg _) one_pos, fun k hk => ?_⟩
    have := Finset.single_le_sum (f := fun k => |pb.cost x + stepSize 8 51 k *
      pb.M.inner x (pb.grad x) d - pb.cost (γ (stepSize 8 51 k • d))|)
      (fun _ _ => abs_nonneg _) (Finset.mem_range.2 hk)
    linarith
  refine ⟨1 / (2 * 10 ^ 12 * M), by positivity, fun out hout => ?_⟩
  rw [C116_exact hout]
  obtain ⟨h1, h2, h3⟩ := C116_errors (pb := pb.scale (1 / (2 * 10 ^ 12 * M))) (γ := γ) hγ hout
  intro e he
  obtain ⟨k, hk, rfl⟩ := List.getElem_of_mem he
  obtain ⟨-, h4⟩ := h3 k (by rwa [h2] at hk)
  rw [List.getElem?_eq_getElem hk] at h4
  rw [Option.some.inj h4]
  have hb := hM k (by rwa [h2] at hk)
  simp only [DiagProb.scale, hin, Bool.false_eq_true, if_false, add_zero]
  have hs : 0 < 1 / (2 * 10 ^ 12 * M) := by positivity
  rw [show ∀ a b c s t : ℝ, |s * a + t * (s * b) - s * c| = |s * (a + t * b - c)| from
    fun a b c s t => by congr 1; ring, abs_mul, abs_of_pos hs]
  refine (mul_le_mul_of_nonneg_left hb hs.le).trans_lt ?_
  rw [show 1 / (2 * 10 ^ 12 * M) * M = 1 / (2 * 10 ^ 12) by field_simp]
  norm_num

/-- If `e(h) / h ^ p` tends to a positive limit then the slope of `log e` over `log h` tends to `p`. -/
theorem loglog_slope {e : ℝ → ℝ} {p : ℕ} {c : ℝ} (hc : 0 < c)
    (h : Tendsto (fun t => e t / t ^ p) (𝓝[>] 0) (𝓝 c)) :
    Tendsto (fun t => Real.logb 10 (e t) / Real.logb 10 t) (𝓝[>] 0) (𝓝 p) := by
  have hlog : Tendsto Real.log (𝓝[>] (0 : ℝ)) atBot := Real.tendsto_log_nhdsGT_zero
  have h1 : Tendsto (fun t => Real.log (e t / t ^ p) / Real.log t + p) (𝓝[>] 0) (𝓝 (0 + p)) := by
    refine Tendsto.add_const _ ?_
    have h2 := (h.log hc.ne').div_atBot hlog
    exact h2
  rw [zero_add] at h1
  refine h1.congr' ?_
  have hpos : ∀ᶠ t in 𝓝[>] (0 : ℝ), 0 < e t / t ^ p := h.eventually (lt_mem_nhds hc)
  have hlt : ∀ᶠ t in 𝓝[>] (0 : ℝ), t < 1 :=
    mem_nhdsWithin_of_mem_nhds (Iio_mem_nhds one_pos)
  filter_upwards [hpos, hlt, self_mem_nhdsWithin] with t h1 h2 h3
  have h3' : 0 < t := h3
  have hl : Real.log t ≠ 0 := (Real.log_neg h3' h2).ne
  have he : e t ≠ 0 := by
    intro h0
    rw [h0, zero_div] at h1
    exact lt_irrefl _ h1
  rw [Real.log_div he (by positivity), Real.log_pow, Real.logb, Real.logb,
    div_div_div_cancel_right₀ (Real.log_pos (by norm_num)).ne', sub_div, mul_div_cancel_right₀ _ hl]
  ring

/-- An error of exact order `p` has slope `p` at zero. -/
theorem slope_of_order {e : ℝ → ℝ} {p : ℕ} {c C : ℝ} (hc : 0 < c)
    (h : ∀ t, 0 < t → t ≤ 1 → |e t - c * t ^ p| ≤ C * t ^ (p + 1)) :
    Tendsto (fun t => Real.logb 10 (e t) / Real.logb 10 t) (𝓝[>] 0) (𝓝 p) := by
  refine loglog_slope hc ?_
  have hid : Tendsto (fun t : ℝ => C * t) (𝓝[>] 0) (𝓝 0) := by
    have : Tendsto (fun t : ℝ => C * t) (𝓝[>] 0) (𝓝 (C * 0)) :=
      (Continuous.tendsto (by fun_prop) 0).mono_left nhdsWithin_le_nhds
    rwa [mul_zero] at this
  rw [tendsto_iff_dist_tendsto_zero]
  refine squeeze_zero' (Eventually.of_forall fun _ => dist_nonneg) ?_ hid
  filter_upwards [mem_nhdsWithin_of_mem_nhds (Iio_mem_nhds (one_pos (α := ℝ))),
    self_mem_nhdsWithin] with t h1 h2
  have h2' : 0 < t := h2
  have hp : 0 < t ^ p := pow_pos h2' p
  rw [Real.dist_eq, show e t / t ^ p - c = (e t - c * t ^ p) / t ^ p by field_simp, abs_div,
    abs_of_pos hp, div_le_iff₀ hp]
  refine (h t h2' (le_of_lt h1)).trans_eq ?_
  ring

/-- C116 (slopes): as the step goes to zero, the error of the linear model has slope one on the
logarithmic plot if the gradient is wrong along the direction, and slope two, the one of the reference
line, if it is right and the second derivative `S` does not vanish; that of the quadratic model has slope
two if the Hessian is wrong along the direction, and slope three if it is right and the third
derivative `T` does not vanish. -/
theorem C116_slopes {f : ℝ → ℝ} {g s D S T C : ℝ} :
    ((∀ t, 0 < t → t ≤ 1 → |f t - (f 0 + t * D)| ≤ C * t ^ 2) → g ≠ D →
      Tendsto (fun t => Real.logb 10 |f 0 + t * g - f t| / Real.logb 10 t) (𝓝[>] 0) (𝓝 1)) ∧
    ((∀ t, 0 < t → t ≤ 1 → |f t - (f 0 + t * D + t ^ 2 / 2 * S)| ≤ C * t ^ 3) → S ≠ 0 →
      Tendsto (fun t => Real.logb 10 |f 0 + t * D - f t| / Real.logb 10 t) (𝓝[>] 0) (𝓝 2)) ∧
    ((∀ t, 0 < t → t ≤ 1 → |f t - (f 0 + t * D + t ^ 2 / 2 * S)| ≤ C * t ^ 3) → s ≠ S →
      Tendsto (fun t => Real.logb 10 |f 0 + t * D + t ^ 2 / 2 * s - f t| / Real.logb 10 t)
        (𝓝[>] 0) (𝓝 2)) ∧
    ((∀ t, 0 < t → t ≤ 1 →
        |f t - (f 0 + t * D + t ^ 2 / 2 * S + t ^ 3 / 6 * T)| ≤ C * t ^ 4) → T ≠ 0 →
      Tendsto (fun t => Real.logb 10 |f 0 + t * D + t ^ 2 / 2 * S - f t| / Real.logb 10 t)
        (𝓝[>] 0) (𝓝 3)) := by
  have key : ∀ (a : ℝ → ℝ) (p : ℕ) (c : ℝ), c ≠ 0 →
      (∀ t, 0 < t → t ≤ 1 → |a t - c * t ^ p| ≤ C * t ^ (p + 1)) →
      Tendsto (fun t => Real.logb 10 |a t| / Real.logb 10 t) (𝓝[>] 0) (𝓝 p) := by
    intro a p c hc h
    refine slope_of_order (abs_pos.2 hc) (C := C) fun t h0 h1 => ?_
    refine le_trans ?_ (h t h0 h1)
    rw [show |c| * t ^ p = |c * t ^ p| by rw [abs_mul, abs_of_pos (pow_pos h0 p)]]
    exact abs_abs_sub_abs_le _ _
  refine ⟨fun h hg => ?_, fun h hS => ?_, fun h hs => ?_, fun h hT => ?_⟩
  · have := key (fun t => f 0 + t * g - f t) 1 (g - D) (sub_ne_zero.2 hg) fun t h0 h1 => by
      refine le_of_eq_of_le ?_ (h t h0 h1)
      rw [abs_sub_comm]
      congr 1
      ring
    simpa using this
  · have := key (fun t => f 0 + t * D - f t) 2 (-(S / 2)) (by simpa using hS) fun t h0 h1 => by
      refine le_of_eq_of_le ?_ (h t h0 h1)
      rw [abs_sub_comm]
      congr 1
      ring
    simpa using this
  · have := key (fun t => f 0 + t * D + t ^ 2 / 2 * s - f t) 2 ((s - S) / 2)
      (div_ne_zero (sub_ne_zero.2 hs) (by norm_num)) fun t h0 h1 => by
      refine le_of_eq_of_le ?_ (h t h0 h1)
      rw [abs_sub_comm]
      congr 1
      ring
    simpa using this
  · have := key (fun t => f 0 + t * D + t ^ 2 / 2 * S - f t) 3 (-(T / 6))
      (by simpa using hT) fun t h0 h1 => by
      refine le_of_eq_of_le ?_ (h t h0 h1)
      rw [abs_sub_comm]
      congr 1
      ring
    simpa using this

/-! ## C117 -/

section
variable {polyfit : PolyFit} {pb : DiagProb P E} {M : DiagMfd P E}

/-- C117: a direction without a point is rejected, by all three derivative checks. -/
theorem C117_value_error_partial (d : E) (quad : Bool) (a b : ℝ) :
    checkDirectionalDerivative polyfit pb none (some d) quad = .error .valueError ∧
    checkGradient true polyfit pb none (some d) = .error .valueError ∧
    checkHessian true polyfit a b pb none (some d) = .error .valueError := ⟨rfl, rfl, rfl⟩

/-- C117: the plotting checks raise `RuntimeError` without matplotlib, whatever their arguments. -/
theorem C117_matplotlib (x : Option P) (d : Option E) (a b : ℝ) :
    checkGradient false polyfit pb x d = .error .runtime ∧
    checkHessian false polyfit a b pb x d = .error .runtime ∧
    checkRetraction false polyfit M x d = .error .runtime := ⟨rfl, rfl, rfl⟩

/-- C117: a point given alone is used, with a direction drawn there; with neither, the point is drawn
too. -/
theorem C117_defaults (x : P) (quad : Bool) :
    checkDirectionalDerivative polyfit pb (some x) none quad =
      checkDirectionalDerivative polyfit pb (some x) (some (pb.M.randomTangent 0 x)) quad ∧
    checkDirectionalDerivative polyfit pb none none quad =
      checkDirectionalDerivative polyfit pb (some pb.M.randomPoint) none quad := ⟨rfl, rfl⟩

/-- C117: likewise for the checks that plot. -/
theorem C117_defaults_plot (plt : Bool) (a b : ℝ) (x : P) :
    checkGradient plt polyfit pb (some x) none =
      checkGradient plt polyfit pb (some x) (some (pb.M.randomTangent 0 x)) ∧
    checkGradient plt polyfit pb none none =
      checkGradient plt polyfit pb (some pb.M.randomPoint) none ∧
    checkHessian plt polyfit a b pb (some x) none =
      checkHessian plt polyfit a b pb (some x) (some (pb.M.randomTangent 0 x)) ∧
    checkHessian plt polyfit a b pb none none =
      checkHessian plt polyfit a b pb (some pb.M.randomPoint) none ∧
    checkRetraction plt polyfit M (some x) none =
      checkRetraction plt polyfit M (some x) (some (M.randomTangent 0 x)) ∧
    checkRetraction plt polyfit M none none =
      checkRetraction plt polyfit M (some M.randomPoint) none := ⟨rfl, rfl, rfl, rfl, rfl, rfl⟩

/-- C117: where neither `exp` nor `retraction` is implemented the derivative checks raise
`NotImplementedError`. -/
theorem C117_not_implemented (x : P) (d : E) (quad : Bool)
    (h1 : ∀ v, pb.M.exp x v = .error .notImplemented)
    (h2 : ∀ v, pb.M.retraction x v = .error .notImplemented) :
    checkDirectionalDerivative polyfit pb (some x) (some d) quad = .error .notImplemented := by
  unfold checkDirectionalDerivative
  have : ∃ t ts, logspace (-8) 0 51 = t :: ts := by
    rw [logspace_eq]
    exact ⟨_, _, rfl⟩
  obtain ⟨t, ts, ht⟩ := this
  simp only [Option.getD_some, ht, curveValues, expOrRetraction, h1, h2]

/-- C117: `check_retraction` raises `RuntimeError` where `exp` or `retraction` is not implemented. -/
theorem C117_retraction_partial (x : P) (v : E) :
    (M.exp x v = .error .notImplemented →
      checkRetraction true polyfit M (some x) (some v) = .error .runtime) ∧
    (∀ y, M.exp x v = .ok y → M.retraction x v = .error .notImplemented →
      checkRetraction true polyfit M (some x) (some v) = .error .runtime) := by
  refine ⟨fun h => ?_, fun y h h' => ?_⟩
  · simp [checkRetraction, h]
  · simp [checkRetraction, h, h']

/-- C117 fails for `dist`: where it is not implemented the check raises `NotImplementedError`, as the
guard for it calls `retraction` again. -/
theorem C117_retraction_dist (x : P) (v : E) {γ ρ : E → P} (h1 : ∀ w, M.exp x w = .ok (γ w))
    (h2 : ∀ w, M.retraction x w = .ok (ρ w)) (h3 : ∀ y z, M.dist y z = .error .notImplemented) :
    checkRetraction true polyfit M (some x) (some v) = .error .notImplemented := by
  have : ∃ t ts, logspace (-12) 0 251 = t :: ts := by
    rw [logspace_eq]
    exact ⟨_, _, rfl⟩
  obtain ⟨t, ts, ht⟩ := this
  simp [checkRetraction, h1, h2, ht, retractionErrors, h3]

/-- C117 fails for `check_retraction`: a tangent vector given without a point is ignored rather than
rejected. -/
theorem C117_retraction_ignored (plt : Bool) (v : E) :
    checkRetraction plt polyfit M none (some v) = checkRetraction plt polyfit M none none := rfl

/-- C117: the errors `check_retraction` fits are the distances between the exponential map and the
retraction at the step sizes `10 ^ (-12 + 6 k / 125)`. -/
theorem C117_retraction_errors {x : P} {v : E} {γ ρ : E → P} {δ : P → P → ℝ}
    (h1 : ∀ w, M.exp x w = .ok (γ w)) (h2 : ∀ w, M.retraction x w = .ok (ρ w))
    (h3 : ∀ y z, M.dist y z = .ok (δ y z)) {out : RetrOut}
    (h : checkRetraction true polyfit M (some x) (some v) = .ok out) :
    out.errors.length = 251 ∧ ∀ k, k < 251 → out.steps[k]? = some (stepSize 12 251 k) ∧
      out.errors[k]? =
        some (δ (γ (stepSize 12 251 k • v)) (ρ (stepSize 12 251 k • v))) := by
  have hr : ∀ ts : List ℝ, retractionErrors M x v ts =
      .ok (ts.map fun t => δ (γ (t • v)) (ρ (t • v))) := by
    intro ts
    induction ts with
    | nil => rfl
    | cons t ts ih => simp [retractionErrors, h1, h2, h3, ih]
  simp only [checkRetraction, h1, h2, hr, logspace_eq, Bool.not_true, Bool.false_eq_true,
    if_false] at h
  split at h
  · cases h
  · cases h
    refine ⟨by simp, fun k hk => ⟨by simp [hk], by simp [hk]⟩⟩

/-! ## C118 -/

/-- C118: the residual printed for the gradient is the size of what `to_tangent_space` removes from it;
none is printed where that method is not implemented. -/
theorem C118_gradient {x : P} {d : E} {out : DiagOut} {r : Option ℝ}
    (h : checkGradient true polyfit pb (some x) (some d) = .ok (out, r)) :
    (∀ w, pb.M.toTangent x (pb.grad x) = .ok w → r = some (pb.M.norm x (pb.grad x - w))) ∧
    (pb.M.toTangent x (pb.grad x) = .error .notImplemented → r = none) := by
  simp only [checkGradient, Bool.not_true, Bool.false_eq_true, if_false, Option.getD_some] at h
  split at h
  · cases h
  · refine ⟨fun w hw => ?_, fun hw => ?_⟩
    · simp only [tangentResidual, hw] at h
      cases h
      rfl
    · simp only [tangentResidual, hw] at h
      cases h
      rfl

/-- C118: likewise for the Hessian; moreover, if the Hessian is linear and symmetric on the tangent
vectors drawn then the two numbers printed for these properties vanish. -/
theorem C118_hessian {x : P} {d : E} {a b : ℝ} {out : HessOut}
    (h : checkHessian true polyfit a b pb (some x) (some d) = .ok out) :
    (∀ w, pb.M.toTangent x (pb.hess x d) = .ok w →
      out.residual = some (pb.M.norm x (pb.hess x d - w))) ∧
    ∀ T : E → Prop, (∀ k, T (pb.M.randomTangent k x)) →
      (pb.M.norm x 0 = 0 →
        (∀ (a b : ℝ) u v, T u → T v →
          pb.hess x (a • u + b • v) = a • pb.hess x u + b • pb.hess x v) → out.linearity = 0) ∧
      ((∀ u v, T u → T v → pb.M.inner x u (pb.hess x v) = pb.M.inner x (pb.hess x u) v) →
        out.symmetry = 0) := by
  simp only [checkHessian, Bool.not_true, Bool.false_eq_true, if_false, Option.getD_some] at h
  split at h
  · cases h
  · split at h
    · cases h
    · next r hr =>
      cases h
      refine ⟨fun w hw => ?_, fun T hT => ⟨fun h0 hl => ?_, fun hs => ?_⟩⟩
      · simp only [tangentResidual, hw] at hr
        cases hr
        rfl
      · simp only [hl a b _ _ (hT 1) (hT 2), sub_self, h0]
      · simp only [hs _ _ (hT 1) (hT 2), sub_self]

/-- C118: a Hessian that is not symmetric on the vectors drawn, or not linear there with the weights
drawn, is reported with a nonzero number. -/
theorem C118_hessian_detects {x : P} {d : E} {a b : ℝ} {out : HessOut}
    (h : checkHessian true polyfit a b pb (some x) (some d) = .ok out) :
    (out.symmetry = 0 → pb.M.inner x (pb.M.randomTangent 1 x) (pb.hess x (pb.M.randomTangent 2 x)) =
      pb.M.inner x (pb.hess x (pb.M.randomTangent 1 x)) (pb.M.randomTangent 2 x)) ∧
    ((∀ v, pb.M.norm x v = 0 → v = 0) → out.linearity = 0 →
      pb.hess x (a • pb.M.randomTangent 1 x + b • pb.M.randomTangent 2 x) =
        a • pb.hess x (pb.M.randomTangent 1 x) + b • pb.hess x (pb.M.randomTangent 2 x)) := by
  simp only [checkHessian, Bool.not_true, Bool.false_eq_true, if_false, Option.getD_some] at h
  split at h
  · cases h
  · split at h
    · cases h
    · cases h
      exact ⟨fun h => sub_eq_zero.1 h, fun hn h => sub_eq_zero.1 (hn _ h)⟩

end

/-! ## The hypotheses are met -/

/-- The real line with cost `x ^ 3` at `1` along `1`: the curve can be followed, and the cubic bounds
hold with `D = 3`, `S = 6`, `T = 6`. -/
example : Follows (P := ℝ) (E := ℝ)
      ⟨fun x v => .ok (x + v), fun x v => .ok (x + v), fun x y => .ok |x - y|, fun _ v => .ok v,
        fun _ u v => u * v, fun _ v => |v|, 0, fun _ _ => 1⟩ 1 (fun v => 1 + v) ∧
    (∀ t : ℝ, 0 < t → t ≤ 1 → |(1 + t) ^ 3 - ((1 + 0) ^ 3 + t * 3)| ≤ 4 * t ^ 2) ∧
    (∀ t : ℝ, 0 < t → t ≤ 1 → |(1 + t) ^ 3 - ((1 + 0) ^ 3 + t * 3 + t ^ 2 / 2 * 6)| ≤ 1 * t ^ 3) ∧
    ∀ t : ℝ, 0 < t → t ≤ 1 →
      |(1 + t) ^ 3 - ((1 + 0) ^ 3 + t * 3 + t ^ 2 / 2 * 6 + t ^ 3 / 6 * 6)| ≤ 0 * t ^ 4 := by
  refine ⟨Or.inl fun _ => rfl, fun t h0 h1 => ?_, fun t h0 h1 => ?_, fun t h0 h1 => ?_⟩
  · rw [show (1 + t) ^ 3 - ((1 + 0) ^ 3 + t * 3) = t ^ 2 * (3 + t) by ring, abs_of_pos (by positivity)]
    nlinarith [sq_nonneg t]
  · rw [show (1 + t) ^ 3 - ((1 + 0) ^ 3 + t * 3 + t ^ 2 / 2 * 6) = t ^ 3 by ring,
      abs_of_pos (by positivity), one_mul]
  · rw [show (1 + t) ^ 3 - ((1 + 0) ^ 3 + t * 3 + t ^ 2 / 2 * 6 + t ^ 3 / 6 * 6) = 0 by ring]
    simp

/-- A regression that gives one residual: the check returns (`C116_returns`). -/
example : ∀ X Y : List ℝ, X.length = 11 → Y.length = 11 →
    ∃ r, ((fun _ _ => ((0, 0), [1])) X Y : (ℝ × ℝ) × List ℝ).2 = [r] := fun _ _ _ _ => ⟨1, rfl⟩

end Verif.Core
