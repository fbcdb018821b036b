/-
C146 on Euclidean space: costs whose Hessian is Lipschitz, near a nondegenerate minimiser.
-/
import Mathlib.Analysis.SpecialFunctions.Trigonometric.Deriv
import Mathlib.Analysis.SpecialFunctions.Trigonometric.Bounds
import Verif.Geo.Lemmas.Smooth
import Verif.Geo.Props.Newton

namespace Verif.Geo
open Verif.Opt

/-! ## Specification -/

/-- A cost on arrays with the Euclidean gradient `egrad` and the Euclidean Hessian `ehess`, which is
symmetric and Lipschitz with constant `L`; `B` is the Euclidean inner product. -/
structure HessLip {E : Type*} [AddCommGroup E] [Module ℝ E] (B : E → E → ℝ) (cost : E → ℝ)
    (egrad : E → E) (ehess : E → E → E) (L : ℝ) : Prop where
  nonneg : 0 ≤ L
  grad : ∀ x d, HasDerivAt (fun t : ℝ => cost (x + t • d)) (B (egrad x) d) 0
  hess : ∀ x d w, HasDerivAt (fun t : ℝ => B (egrad (x + t • d)) w) (B (ehess x d) w) 0
  symm : ∀ x u v, B u (ehess x v) = B (ehess x u) v
  lip : ∀ x y d, B (ehess y d - ehess x d) (ehess y d - ehess x d) ≤
    L ^ 2 * B (y - x) (y - x) * B d d

namespace HessLip
variable {E : Type*} [AddCommGroup E] [Module ℝ E] {B : E → E → ℝ} {cost : E → ℝ} {egrad : E → E}
  {ehess : E → E → E} {L : ℝ}

private theorem line {F : E → ℝ} {D : E → ℝ} {d : E}
    (hF : ∀ x, HasDerivAt (fun t : ℝ => F (x + t • d)) (D x) 0) (x : E) (t : ℝ) :
    HasDerivAt (fun s : ℝ => F (x + s • d)) (D (x + t • d)) t := by
  have h1 := hF (x + t • d)
  rw [← sub_self t] at h1
  have h2 := HasDerivAt.comp t (h₂ := fun s : ℝ => F (x + t • d + s • d))
    (h := fun s : ℝ => s - t) h1 ((hasDerivAt_id t).sub_const t)
  rw [mul_one] at h2
  refine h2.congr_of_eventuallyEq (Filter.Eventually.of_forall fun s => ?_)
  change F (x + s • d) = F (x + t • d + (s - t) • d)
  congr 1
  module

private theorem mean {φ φ' : ℝ → ℝ} {K t : ℝ} (ht0 : 0 ≤ t) (ht1 : t ≤ 1)
    (hφ : ∀ s, HasDerivAt φ (φ' s) s) (hK : ∀ s, 0 ≤ s → s ≤ 1 → |φ' s| ≤ K) :
    |φ t - φ 0| ≤ K * t := by
  have := Convex.norm_image_sub_le_of_norm_hasDerivWithin_le (f := φ) (f' := φ') (s := Set.Icc 0 t)
    (C := K) (x := 0) (y := t) (fun s _ => (hφ s).hasDerivWithinAt)
    (fun s hs => hK s hs.1 (hs.2.trans ht1)) (convex_Icc 0 t) (Set.left_mem_Icc.2 ht0)
    (Set.right_mem_Icc.2 ht0)
  simpa [abs_of_nonneg ht0] using this

/-- The error of the linear model of the gradient, in one direction. -/
private theorem grad_dir (hs : HessLip B cost egrad ehess L) (h : IsInner B) (x d w : E) {t : ℝ}
    (ht0 : 0 ≤ t) (ht1 : t ≤ 1) :
    |B (egrad (x + t • d)) w - B (egrad x) w - t * B (ehess x d) w| ≤
      L * B d d * √(B w w) * t := by
  have h0 := h.nonneg d
  have hφ : ∀ s : ℝ, HasDerivAt
      (fun s : ℝ => B (egrad (x + s • d)) w - s * B (ehess x d) w)
      (B (ehess (x + s • d) d) w - B (ehess x d) w) s := by
    intro s
    have h1 := (line (F := fun y => B (egrad y) w) (D := fun y => B (ehess y d) w)
      (fun y => hs.hess y d w) x s).sub
      ((hasDerivAt_id s).mul_const (B (ehess x d) w))
    rw [one_mul] at h1
    exact h1
  have := mean (K := L * B d d * √(B w w)) ht0 ht1 hφ fun s hs0 hs1 => by
    rw [← h.sub_left]
    refine h.abs_le (mul_nonneg hs.nonneg h0) (Real.sqrt_nonneg _) ?_
      (Real.sq_sqrt (h.nonneg w)).ge
    refine (hs.lip x (x + s • d) d).trans ?_
    rw [add_sub_cancel_left, h.smul_left, h.smul_right]
    have : s * s ≤ 1 := by nlinarith
    have hL : 0 ≤ L ^ 2 * (B d d * B d d) := by positivity
    calc L ^ 2 * (s * (s * B d d)) * B d d = L ^ 2 * (B d d * B d d) * (s * s) := by ring
      _ ≤ L ^ 2 * (B d d * B d d) * 1 := mul_le_mul_of_nonneg_left this hL
      _ = (L * B d d) ^ 2 := by ring
  simp only [zero_smul, add_zero, zero_mul, sub_zero] at this
  rw [sub_right_comm] at this
  exact this

/-- The error of the linear model of the gradient. -/
theorem grad_error (hs : HessLip B cost egrad ehess L) (h : IsInner B) (x d : E) :
    √(B (egrad (x + d) - (egrad x + ehess x d)) (egrad (x + d) - (egrad x + ehess x d))) ≤
      L * B d d := by
  obtain ⟨w, hw⟩ : ∃ w, w = egrad (x + d) - (egrad x + ehess x d) := ⟨_, rfl⟩
  have h1 := hs.grad_dir h x d w zero_le_one le_rfl
  rw [one_smul, one_mul, mul_one, ← h.sub_left, ← h.sub_left, sub_sub, ← hw,
    abs_of_nonneg (h.nonneg w)] at h1
  rw [← hw]
  rcases (Real.sqrt_nonneg (B w w)).eq_or_lt with h0 | h0
  · rw [← h0]
    exact mul_nonneg hs.nonneg (h.nonneg d)
  · refine le_of_mul_le_mul_right ?_ h0
    rw [Real.mul_self_sqrt (h.nonneg w)]
    exact h1

/-- The error of the quadratic model of the cost. -/
theorem cost_error (hs : HessLip B cost egrad ehess L) (h : IsInner B) (x d : E) :
    |cost (x + d) - (cost x + B (egrad x) d + 1 / 2 * B (ehess x d) d)| ≤ L * √(B d d) ^ 3 := by
  have h0 := h.nonneg d
  have hφ : ∀ t : ℝ, HasDerivAt
      (fun s : ℝ => cost (x + s • d) - s * B (egrad x) d - 1 / 2 * B (ehess x d) d * s ^ 2)
      (B (egrad (x + t • d)) d - B (egrad x) d - t * B (ehess x d) d) t := by
    intro t
    have h1 := ((line (fun y => hs.grad y d) x t).sub
      ((hasDerivAt_id t).mul_const (B (egrad x) d))).sub
      ((hasDerivAt_pow 2 t).const_mul (1 / 2 * B (ehess x d) d))
    refine h1.congr_deriv ?_
    simp only [one_mul, Nat.cast_ofNat, Nat.add_one_sub_one, pow_one]
    ring
  have hK : L * √(B d d) ^ 3 = L * B d d * √(B d d) := by
    rw [pow_succ, Real.sq_sqrt h0, mul_assoc]
  have := mean (K := L * √(B d d) ^ 3) zero_le_one le_rfl hφ fun t ht0 ht1 => by
    refine (hs.grad_dir h x d d ht0 ht1).trans ?_
    rw [hK]
    exact mul_le_of_le_one_right
      (mul_nonneg (mul_nonneg hs.nonneg h0) (Real.sqrt_nonneg _)) ht1
  simp only [one_smul, one_mul, one_pow, mul_one, zero_smul, add_zero, zero_mul, sub_zero, mul_zero,
    ne_eq, OfNat.ofNat_ne_zero, not_false_eq_true, zero_pow] at this
  refine le_trans (le_of_eq ?_) this
  congr 1
  ring

end HessLip

/-! ## Theorems -/

section
variable {ι : Type*} [Fintype ι] {cost : (ι → ℝ) → ℝ} {egrad : (ι → ℝ) → ι → ℝ}
  {ehess : (ι → ℝ) → (ι → ℝ) → ι → ℝ} {L mu K delta f0 : ℝ}

/-- **C146** (model, Euclidean) A cost with Lipschitz Hessian that lies between `mu` and `K` where the
cost is at most `f0`, in a set where the gradient is at most `delta`. -/
theorem C146_euclidean_model (dim : ℤ) (hs : HessLip tensordot cost egrad ehess L)
    (hlow : ∀ x v, cost x ≤ f0 → mu * tensordot v v ≤ tensordot v (ehess x v))
    (hup : ∀ x v, cost x ≤ f0 → tensordot v (ehess x v) ≤ K * tensordot v v)
    (hsmall : ∀ x, cost x ≤ f0 → npNorm (egrad x) ≤ delta) :
    NewtonModel (arrayProb (euclideanMfd dim) (subE2rg eucProj) eucE2rh (fun _ v => v) cost egrad
      ehess) (fun x => cost x ≤ f0) (fun _ _ => True) mu K L delta := by
  have hB : IsInner (E := ι → ℝ) tensordot := tensordot_inner
  let pb := arrayProb (euclideanMfd dim) (subE2rg eucProj) eucE2rh (fun _ v => v) cost egrad ehess
  have hin : ∀ x u v, pb.M.inner x u v = tensordot u v := fun x u v => retensordot_real u v
  have hlen : ∀ x v, tlen pb x v = √(tensordot v v) := fun x v => by rw [tlen, hin]
  have hlen' : ∀ x v, tlen pb x v = npNorm v := fun x v => by rw [hlen, npNorm_eq_sqrt]
  exact
    { closed := fun x v hx _ _ hle => le_trans hle hx
      tan := fun _ _ => trivial
      nonneg := fun x v _ _ => by rw [hin]; exact hB.nonneg v
      cauchy := fun x v _ _ => by
        rw [hin, hlen, hlen]
        exact hB.abs_le (Real.sqrt_nonneg _) (Real.sqrt_nonneg _)
          (Real.sq_sqrt (hB.nonneg _)).ge (Real.sq_sqrt (hB.nonneg _)).ge
      small := fun x hx => by rw [hlen']; exact hsmall x hx
      lower := fun x v hx _ => by rw [hin, hin]; exact hlow x v hx
      upper := fun x v hx _ => by rw [hin, hin]; exact hup x v hx
      cost := fun x v _ _ _ => by
        rw [hin, hin, hlen]
        have := hs.cost_error hB x v
        rw [hB.symm (ehess x v)] at this
        exact this
      grad := fun x v _ _ _ => by
        rw [hlen', hlen', hlen, Real.sq_sqrt (hB.nonneg v)]
        have h1 := hs.grad_error hB x v
        rw [← npNorm_eq_sqrt] at h1
        have h2 := npNorm_add_le (egrad x + ehess x v) (egrad (x + v) - (egrad x + ehess x v))
        rw [add_sub_cancel] at h2
        change npNorm (egrad (x + v)) ≤ npNorm (egrad x + ehess x v) + _
        linarith }

/-- **C146** (Euclidean) Quadratic convergence of trust regions to the minimiser of such a cost, with
the default `theta = 1` or a larger one. -/
theorem C146_euclidean_runs (dim : ℤ) (hs : HessLip tensordot cost egrad ehess L) (hmu : 0 < mu)
    (hmuK : mu ≤ K) (hlow : ∀ x v, cost x ≤ f0 → mu * tensordot v v ≤ tensordot v (ehess x v))
    (hup : ∀ x v, cost x ≤ f0 → tensordot v (ehess x v) ≤ K * tensordot v v)
    (hsmall : ∀ x, cost x ≤ f0 → npNorm (egrad x) ≤ delta) (hd : 64 * L * K * delta < mu ^ 3)
    {cfg : Cfg ℝ} {c : TRCfg ℝ} {clk : Clock ℝ} {eta0 : ℤ → ι → ℝ} {mininner maxinner : ℤ}
    {DeltaBar : ℝ} (hrand : c.useRand = false) (hk : 0 ≤ c.kappa) (hmin : mininner < eucDim ι)
    (hmax : (eucDim ι : ℤ) ≤ maxinner) (hrho : c.rhoPrime < 1 / 4)
    (hreg : 0 ≤ c.rhoRegularization) {ε : ℝ} (hε : 0 < ε) (hcfg : cfg.minGradientNorm = ε)
    {a : ℝ} (ha : a = 1 + L / mu ^ 2) (htt : 1 ≤ c.theta) {x : ι → ℝ} {Delta0 fmin ns : ℝ}
    (hx : cost x ≤ f0) (hD0 : 0 < Delta0) (hDB : Delta0 ≤ DeltaBar)
    (hfmin : ∀ y, cost y ≤ f0 → fmin ≤ cost y) (hx0 : ε ≤ npNorm (egrad x)) (hns : ε ≤ ns)
    (hnsD : 2 / mu * ns ≤ Delta0) (hnsA : a * ns < 1)
    {res : Result ℝ (ι → ℝ) × List ((ι → ℝ) × ℝ × ℝ)}
    (hres : Runs (trStep cfg c (arrayProb (euclideanMfd dim) (subE2rg eucProj) eucE2rh
      (fun _ v => v) cost egrad ehess) clk eta0 mininner maxinner DeltaBar)
      (trInit (arrayProb (euclideanMfd dim) (subE2rg eucProj) eucE2rh (fun _ v => v) cost egrad
        ehess) x Delta0) (.ok res)) :
    (res.1.iterations : ℝ) ≤ 8 * (cost x - fmin) / (ns * min Delta0 (ns / K)) +
      Real.logb 2 (Real.log (a * ε) / Real.log (a * ns)) + 1 ∧
    (8 * (cost x - fmin) / (ns * min Delta0 (ns / K)) +
        Real.logb 2 (Real.log (a * ε) / Real.log (a * ns)) + 1 < cfg.maxIterations →
      (∀ i, clk.check2 i 0 < clk.start + cfg.maxTime) → 0 ≤ cfg.maxCostEvaluations →
      npNorm (egrad res.1.point) < ε) := by
  have hsym : ∀ x u v, eucInner x u (ehess x v) = eucInner x (ehess x u) v := fun x u v => by
    change retensordot _ _ = retensordot _ _
    rw [retensordot_real, retensordot_real]
    exact hs.symm x u v
  have hm := (C146_iterations (clk := clk) (eta0 := eta0) (DeltaBar := DeltaBar) (tau := 1)
    (On := fun x => cost x ≤ f0)
    (tcgSound_mono (C115_euclidean dim cost egrad hsym) fun _ _ => trivial)
    (tcgNewton_mono (C146_euclidean dim cost egrad hsym) fun _ _ => trivial)
    (C146_euclidean_model dim hs hlow hup hsmall) hmu hmuK hs.nonneg hd hrand hk hmin hmax hrho hreg
    hε hcfg (fun y _ => ?_) ha one_pos le_rfl htt hx hD0 hDB hfmin ?_ hns hnsD
    (by rw [Real.rpow_one]; exact hnsA)).2 res hres
  · rw [Real.rpow_one, Real.rpow_one, one_add_one_eq_two] at hm
    exact hm
  · change npNorm _ = √(retensordot _ _)
    rw [retensordot_real, npNorm_eq_sqrt]
  · change _ ≤ √(retensordot _ _)
    rw [retensordot_real, ← npNorm_eq_sqrt]
    exact hx0

end

/-- Non-vacuity: the cost `∑ (xᵢ² + cos xᵢ)` in the plane. -/
theorem squareCos_hessLip : HessLip (E := Fin 2 → ℝ) tensordot
    (fun x => (x 0 ^ 2 + Real.cos (x 0)) + (x 1 ^ 2 + Real.cos (x 1)))
    (fun x i => 2 * x i - Real.sin (x i)) (fun x v i => (2 - Real.cos (x i)) * v i) 1 where
  nonneg := zero_le_one
  grad x d := by
    have h : ∀ i, HasDerivAt (fun t : ℝ => (x + t • d) i ^ 2 + Real.cos ((x + t • d) i))
        ((2 * x i - Real.sin (x i)) * d i) 0 := fun i => by
      have h1 : HasDerivAt (fun t : ℝ => x i + t * d i) (1 * d i) 0 :=
        ((hasDerivAt_id (0 : ℝ)).mul_const (d i)).const_add (x i)
      refine ((h1.pow 2).add h1.cos).congr_deriv ?_
      simp
      ring
    refine ((h 0).add (h 1)).congr_deriv ?_
    simp [tensordot, Fin.sum_univ_two]
  hess x d w := by
    have h : ∀ i, HasDerivAt
        (fun t : ℝ => (2 * (x + t • d) i - Real.sin ((x + t • d) i)) * w i)
        ((2 - Real.cos (x i)) * d i * w i) 0 := fun i => by
      have h1 : HasDerivAt (fun t : ℝ => x i + t * d i) (1 * d i) 0 :=
        ((hasDerivAt_id (0 : ℝ)).mul_const (d i)).const_add (x i)
      refine (((h1.const_mul 2).sub h1.sin).mul_const (w i)).congr_deriv ?_
      simp only [zero_mul, add_zero, one_mul]
      ring
    refine (((h 0).add (h 1)).congr_deriv ?_).congr_of_eventuallyEq
      (Filter.Eventually.of_forall fun t => ?_)
    · simp [tensordot, Fin.sum_univ_two]
    · simp [tensordot, Fin.sum_univ_two]
  symm x u v := by
    simp only [tensordot, Fin.sum_univ_two]
    ring
  lip x y d := by
    have h : ∀ i, (Real.cos (x i) - Real.cos (y i)) ^ 2 ≤ (y i - x i) ^ 2 := fun i => by
      refine sq_le_sq.2 ?_
      rw [abs_sub_comm (y i)]
      exact Real.abs_cos_sub_cos_le _ _
    have e : ∀ i, (2 - Real.cos (y i)) * d i - (2 - Real.cos (x i)) * d i =
        (Real.cos (x i) - Real.cos (y i)) * d i := fun i => by ring
    simp only [tensordot, Fin.sum_univ_two, Pi.sub_apply, e]
    have h0 := mul_le_mul_of_nonneg_right (h 0) (sq_nonneg (d 0))
    have h1 := mul_le_mul_of_nonneg_right (h 1) (sq_nonneg (d 1))
    nlinarith [mul_nonneg (sq_nonneg (y 0 - x 0)) (sq_nonneg (d 1)),
      mul_nonneg (sq_nonneg (y 1 - x 1)) (sq_nonneg (d 0))]

/-- Non-vacuity: a run for this cost from `(1/1000, 0)`, with a minimal gradient norm `1e-9`. -/
example {cfg : Cfg ℝ} {c : TRCfg ℝ} {clk : Clock ℝ} {eta0 : ℤ → Fin 2 → ℝ} {mininner maxinner : ℤ}
    {DeltaBar : ℝ} (hrand : c.useRand = false) (hk : c.kappa = 1 / 10) (ht : c.theta = 1)
    (hmin : mininner = 1) (hmax : maxinner = 2) (hrho : c.rhoPrime = 1 / 10)
    (hreg : c.rhoRegularization = 1000) (hcfg : cfg.minGradientNorm = 1 / 10 ^ 9)
    (hDB : 1 ≤ DeltaBar) {res : Result ℝ (Fin 2 → ℝ) × List ((Fin 2 → ℝ) × ℝ × ℝ)}
    (hres : Runs (trStep cfg c (arrayProb (euclideanMfd 2) (subE2rg eucProj) eucE2rh
      (fun _ v => v) (fun x => (x 0 ^ 2 + Real.cos (x 0)) + (x 1 ^ 2 + Real.cos (x 1)))
      (fun x i => 2 * x i - Real.sin (x i)) (fun x v i => (2 - Real.cos (x i)) * v i)) clk eta0
        mininner maxinner DeltaBar)
      (trInit (arrayProb (euclideanMfd 2) (subE2rg eucProj) eucE2rh
        (fun _ v => v) (fun x => (x 0 ^ 2 + Real.cos (x 0)) + (x 1 ^ 2 + Real.cos (x 1)))
        (fun x i => 2 * x i - Real.sin (x i)) (fun x v i => (2 - Real.cos (x i)) * v i))
        ![1 / 1000, 0] 1) (.ok res)) :
    (res.1.iterations : ℝ) ≤ 8 * ((((1 / 1000 : ℝ)) ^ 2 + Real.cos (1 / 1000) + (0 ^ 2 + Real.cos 0))
        - 2) / (1 / 4 * min 1 (1 / 4 / 3)) +
      Real.logb 2 (Real.log (2 * (1 / 10 ^ 9)) / Real.log (2 * (1 / 4))) + 1 := by
  have hlow : ∀ t : ℝ, 1 + t ^ 2 / 2 ≤ t ^ 2 + Real.cos t := fun t => by
    linarith [Real.one_sub_sq_div_two_le_cos (x := t)]
  refine (C146_euclidean_runs (f0 := 2 + 1 / 10 ^ 6) (fmin := 2) (mu := 1) (K := 3)
    (delta := 1 / 200) 2 squareCos_hessLip one_pos (by norm_num) ?_ ?_ ?_ (by norm_num) hrand
    (by rw [hk]; norm_num) (by rw [hmin]; decide) (by rw [hmax]; decide) (by rw [hrho]; norm_num)
    (by rw [hreg]; norm_num) (by norm_num) hcfg (by norm_num) ht.ge ?_ one_pos hDB ?_ ?_
    (by norm_num) (by norm_num) (by norm_num) hres).1
  · intro x v _
    simp only [tensordot, Fin.sum_univ_two]
    nlinarith [mul_nonneg (sub_nonneg.2 (Real.cos_le_one (x 0))) (sq_nonneg (v 0)),
      mul_nonneg (sub_nonneg.2 (Real.cos_le_one (x 1))) (sq_nonneg (v 1))]
  · intro x v _
    simp only [tensordot, Fin.sum_univ_two]
    nlinarith [mul_nonneg (by linarith [Real.neg_one_le_cos (x 0)] : 0 ≤ 1 + Real.cos (x 0))
      (sq_nonneg (v 0)), mul_nonneg (by linarith [Real.neg_one_le_cos (x 1)] :
        0 ≤ 1 + Real.cos (x 1)) (sq_nonneg (v 1))]
  · intro x hx
    rw [npNorm_eq_sqrt, Real.sqrt_le_left (by norm_num)]
    simp only [tensordot, Fin.sum_univ_two]
    have hsin : ∀ t : ℝ, (2 * t - Real.sin t) * (2 * t - Real.sin t) ≤ 9 * t ^ 2 := fun t => by
      have h1 : |Real.sin t| ≤ |t| := Real.abs_sin_le_abs
      have h2 : |2 * t - Real.sin t| ≤ 3 * |t| := by
        refine (abs_sub _ _).trans ?_
        rw [abs_mul, abs_two]
        linarith
      rw [← abs_mul_abs_self, ← sq_abs t]
      nlinarith [abs_nonneg (2 * t - Real.sin t), abs_nonneg t]
    have := hsin (x 0)
    have := hsin (x 1)
    have := hlow (x 0)
    have := hlow (x 1)
    norm_num
    linarith
  · simp
    have := Real.cos_le_one (1 / 1000)
    norm_num at this ⊢
    linarith
  · intro y _
    linarith [hlow (y 0), hlow (y 1), sq_nonneg (y 0), sq_nonneg (y 1)]
  · rw [npNorm_eq_sqrt]
    refine Real.le_sqrt_of_sq_le ?_
    have h1 : Real.sin (1 / 1000) ≤ 1 / 1000 := Real.sin_le (by norm_num)
    simp [tensordot, Fin.sum_univ_two]
    norm_num at h1 ⊢
    nlinarith

end Verif.Geo
