/-
C157 on Euclidean spaces: with the Hager–Zhang rule the directions of conjugate gradient are of sufficient
descent and comparable to the gradient if the cost is strongly convex and smooth, so that the method
converges linearly.
-/
import Verif.Geo.Props.CGDescent

namespace Verif.Geo
open Verif.Opt PyNum

variable {V : Type*} [AddCommGroup V] [Module ℝ V]

/-! ## Specification -/

/-- The problem of minimising a cost over a Euclidean space with inner product `B`, without a
preconditioner; the cost is strongly convex with constant `mu` and smooth with constant `L`. -/
structure FlatStrong (pb : Prob ℝ V V) (B : V → V → ℝ) (mu L : ℝ) : Prop where
  isInner : IsInner B
  inner (x a b : V) : pb.M.inner x a b = B a b
  norm (x a : V) : pb.M.norm x a = Real.sqrt (B a a)
  retraction (x v : V) : pb.M.retraction x v = x + v
  transport (x y v : V) : pb.M.transport x y v = v
  add (v w : V) : pb.M.add v w = v + w
  sub (v w : V) : pb.M.sub v w = v - w
  neg (v : V) : pb.M.neg v = -v
  smul (c : ℝ) (v : V) : pb.M.smul c v = c • v
  precon (x v : V) : pb.precon x v = v
  lower (x v : V) : pb.cost x + B (pb.grad x) v + mu / 2 * B v v ≤ pb.cost (x + v)
  upper (x v : V) : pb.cost (x + v) ≤ pb.cost x + B (pb.grad x) v + L / 2 * B v v

/-- The directions that descend sufficiently and are comparable to the gradient. -/
def GoodDir (pb : Prob ℝ V V) (B : V → V → ℝ) (K : ℝ) (y d : V) : Prop :=
  B (pb.grad y) d ≤ -(7 / 8) * B (pb.grad y) (pb.grad y) ∧
    Real.sqrt (B d d) ≤ K * Real.sqrt (B (pb.grad y) (pb.grad y))

/-! ## Smooth convex functions -/

section
variable {pb : Prob ℝ V V} {B : V → V → ℝ} {mu L : ℝ}

theorem IsInner.abs_le_sqrt (hB : IsInner B) (u v : V) : |B u v| ≤ √(B u u) * √(B v v) := by
  rw [← Real.sqrt_mul (hB.nonneg u)]
  exact Real.abs_le_sqrt (hB.cauchy u v)

theorem IsInner.sub_left' (hB : IsInner B) (u v w : V) : B (u - v) w = B u w - B v w := by
  rw [sub_eq_add_neg, hB.add_left, hB.neg_left]
  ring

/-- The gap of the tangent plane bounds the difference of the gradients. -/
theorem FlatStrong.gap (h : FlatStrong pb B mu L) (hmu : 0 ≤ mu) (hL : 0 < L) (x z : V) :
    1 / (2 * L) * B (pb.grad z - pb.grad x) (pb.grad z - pb.grad x) ≤
      pb.cost z - pb.cost x - B (pb.grad x) (z - x) := by
  have hB := h.isInner
  obtain ⟨y, hy⟩ : ∃ y, y = pb.grad z - pb.grad x := ⟨_, rfl⟩
  rw [← hy]
  have h1 := h.upper z (-(1 / L) • y)
  have h2 := h.lower x (z + -(1 / L) • y - x)
  have e : x + (z + -(1 / L) • y - x) = z + -(1 / L) • y := by abel
  rw [e] at h2
  have h3 : 0 ≤ mu / 2 * B (z + -(1 / L) • y - x) (z + -(1 / L) • y - x) :=
    mul_nonneg (by linarith) (hB.nonneg _)
  have h4 : B (pb.grad x) (z + -(1 / L) • y - x) = B (pb.grad x) (z - x) - 1 / L * B (pb.grad x) y := by
    rw [add_sub_right_comm, hB.add_right, hB.smul_right]
    ring
  have h5 : B (pb.grad z) y - B (pb.grad x) y = B y y := by
    rw [← hB.sub_left', ← hy]
  rw [hB.smul_right, hB.smul_left, hB.smul_right] at h1
  have h6 : L / 2 * (-(1 / L) * (-(1 / L) * B y y)) = 1 / (2 * L) * B y y := by field_simp
  have h7 : 1 / L * B y y = 2 * (1 / (2 * L) * B y y) := by field_simp
  have h8 : 1 / L * B (pb.grad z) y - 1 / L * B (pb.grad x) y = 1 / L * B y y := by
    rw [← h5]; ring
  linarith

/-- Cocoercivity of the gradient. -/
theorem FlatStrong.cocoercive (h : FlatStrong pb B mu L) (hmu : 0 ≤ mu) (hL : 0 < L) (x v : V) :
    B (pb.grad (x + v) - pb.grad x) (pb.grad (x + v) - pb.grad x) ≤
      L * B (pb.grad (x + v) - pb.grad x) v := by
  have hB := h.isInner
  have h1 := h.gap hmu hL x (x + v)
  have h2 := h.gap hmu hL (x + v) x
  have e1 : x + v - x = v := by abel
  have e2 : x - (x + v) = -v := by abel
  have e3 : pb.grad x - pb.grad (x + v) = -(pb.grad (x + v) - pb.grad x) := by abel
  rw [e1] at h1
  rw [e2, e3, hB.neg_left, hB.neg_right, hB.neg_right, neg_neg] at h2
  obtain ⟨y, hy⟩ : ∃ y, y = pb.grad (x + v) - pb.grad x := ⟨_, rfl⟩
  have h3 : B y v = B (pb.grad (x + v)) v - B (pb.grad x) v := by rw [hy, hB.sub_left']
  rw [← hy] at h1 h2 ⊢
  have h4 : 1 / (2 * L) * B y y * 2 ≤ B y v := by linarith
  have h5 := mul_le_mul_of_nonneg_left h4 hL.le
  have h6 : L * (1 / (2 * L) * B y y * 2) = B y y := by field_simp
  linarith

/-- Strong monotonicity of the gradient. -/
theorem FlatStrong.monotone (h : FlatStrong pb B mu L) (x v : V) :
    mu * B v v ≤ B (pb.grad (x + v) - pb.grad x) v := by
  have hB := h.isInner
  have h1 := h.lower x v
  have h2 := h.lower (x + v) (-v)
  rw [add_neg_cancel_right, hB.neg_left, hB.neg_right, hB.neg_right, neg_neg] at h2
  rw [hB.sub_left']
  linarith

/-- The gradient dominates the cost. -/
theorem FlatStrong.dominated (h : FlatStrong pb B mu L) (hmu : 0 < mu) (z : V) (f0 : ℝ) :
    GradDominated pb (fun _ => True) f0 (pb.cost z) mu := by
  intro y _ _
  have hB := h.isInner
  have h1 := h.lower y (z - y)
  rw [add_sub_cancel] at h1
  have h2 := hB.nonneg (pb.grad y + mu • (z - y))
  rw [hB.add_left, hB.add_right, hB.add_right, hB.smul_left, hB.smul_right, hB.smul_left, hB.smul_right,
    hB.symm (z - y)] at h2
  rw [h.norm, Real.sq_sqrt (hB.nonneg _)]
  nlinarith

/-- A minimiser bounds the gradient. -/
theorem FlatStrong.grad_le (h : FlatStrong pb B mu L) (hL : 0 < L) {z : V}
    (hz : ∀ y, pb.cost z ≤ pb.cost y) (y : V) :
    pb.M.norm y (pb.grad y) ^ 2 ≤ 2 * L * (pb.cost y - pb.cost z) := by
  have hB := h.isInner
  have h1 := (hz _).trans (h.upper y (-(1 / L) • pb.grad y))
  rw [hB.smul_right, hB.smul_left, hB.smul_right] at h1
  rw [h.norm, Real.sq_sqrt (hB.nonneg _)]
  have h2 : -(1 / L) * B (pb.grad y) (pb.grad y) +
      L / 2 * (-(1 / L) * (-(1 / L) * B (pb.grad y) (pb.grad y))) =
      -(1 / (2 * L) * B (pb.grad y) (pb.grad y)) := by
    field_simp
    ring
  have h3 : 1 / (2 * L) * B (pb.grad y) (pb.grad y) ≤ pb.cost y - pb.cost z := by linarith
  have h4 := mul_le_mul_of_nonneg_left h3 (by positivity : 0 ≤ 2 * L)
  have h5 : 2 * L * (1 / (2 * L) * B (pb.grad y) (pb.grad y)) = B (pb.grad y) (pb.grad y) := by
    field_simp
  linarith

/-! ## The size of the directions -/

/-- The estimate for the coefficient: `Y`, `D`, `G` are the norms of the difference of the gradients, of
the direction and of the new gradient. -/
theorem hz_size {t Y D G yg dg den : ℝ} (hmu : 0 < mu) (hL : 0 < L) (ht : 0 < t) (hY : 0 ≤ Y)
    (hD : 0 ≤ D) (hG : 0 ≤ G) (h1 : |yg| ≤ Y * G) (h2 : |dg| ≤ D * G) (h3 : |den| ≤ Y * D)
    (h4 : mu * t * D ^ 2 ≤ den) (h5 : Y ^ 2 ≤ L * t * den) :
    |(yg - 2 * Y ^ 2 * dg / den) / den| * D ≤ 3 * (L / mu) * G := by
  rcases hD.eq_or_lt with h0 | h0
  · rw [← h0, mul_zero]
    positivity
  have hden : 0 < den := lt_of_lt_of_le (by positivity) h4
  rw [abs_of_pos hden] at h3
  have hYD : Y ≤ L * t * D := by
    have hYpos : 0 < Y := by
      by_contra hc
      have : Y = 0 := le_antisymm (not_lt.1 hc) hY
      rw [this, zero_mul] at h3
      linarith
    have h6 : Y * Y ≤ L * t * D * Y := by
      have := mul_le_mul_of_nonneg_left h3 (by positivity : 0 ≤ L * t)
      nlinarith
    exact le_of_mul_le_mul_right h6 hYpos
  have h6 : |yg - 2 * Y ^ 2 * dg / den| ≤ 3 * L * t * D * G := by
    have h7 : |2 * Y ^ 2 * dg / den| ≤ 2 * L * t * (D * G) := by
      rw [abs_div, abs_mul, abs_of_pos hden, abs_of_nonneg (by positivity : 0 ≤ 2 * Y ^ 2),
        div_le_iff₀ hden]
      calc 2 * Y ^ 2 * |dg| ≤ 2 * (L * t * den) * (D * G) :=
            mul_le_mul (by linarith) h2 (abs_nonneg _) (by positivity)
        _ = _ := by ring
    have h8 : Y * G ≤ L * t * D * G := mul_le_mul_of_nonneg_right hYD hG
    have h9 := abs_sub yg (2 * Y ^ 2 * dg / den)
    linarith
  rw [abs_div, abs_of_pos hden, div_mul_eq_mul_div, div_le_iff₀ hden]
  calc |yg - 2 * Y ^ 2 * dg / den| * D ≤ 3 * L * t * D * G * D := mul_le_mul_of_nonneg_right h6 hD
    _ = 3 * (L / mu) * G * (mu * t * D ^ 2) := by field_simp
    _ ≤ _ := mul_le_mul_of_nonneg_left h4 (by positivity)

theorem abs_max_le {a b : ℝ} (hb : b ≤ 0) : |max a b| ≤ |a| := by
  rcases le_total a b with h | h
  · rw [max_eq_right h, abs_of_nonpos hb, abs_of_nonpos (h.trans hb)]
    linarith
  · rw [max_eq_left h]

/-- **C157** (directions): on a strongly convex, smooth cost over a Euclidean space the directions of the
Hager–Zhang rule after any step are of sufficient descent and at most `1 + 3 L / mu` times as long as the
gradient. -/
theorem C157_directions (h : FlatStrong pb B mu L) (hmu : 0 < mu) (hL : 0 < L) (orth : ℝ) :
    DescentDirs pb .hagerZhang orth (fun _ => True) (GoodDir pb B (1 + 3 * (L / mu))) (7 / 8)
      (1 + 3 * (L / mu)) L := by
  have hB := h.isInner
  have hneg : ∀ y, GoodDir pb B (1 + 3 * (L / mu)) y (-pb.grad y) := fun y => by
    refine ⟨?_, ?_⟩
    · rw [hB.neg_right]
      linarith [hB.nonneg (pb.grad y)]
    · rw [hB.neg_left, hB.neg_right, neg_neg]
      exact le_mul_of_one_le_left (Real.sqrt_nonneg _)
        (by have : 0 ≤ 3 * (L / mu) := by positivity
            linarith)
  refine ⟨fun _ _ _ _ _ _ => trivial, ?_, ?_, ?_, ?_, ?_, ?_, ?_⟩
  · intro y d t _ _ ht
    have h1 := h.upper y (t • d)
    rw [hB.smul_right, hB.smul_left, hB.smul_right] at h1
    rw [trialPoint, h.retraction, h.smul, h.inner, h.norm, Real.sq_sqrt (hB.nonneg _)]
    linarith
  · intro y d _ hd
    rw [h.inner, h.norm, Real.sq_sqrt (hB.nonneg _)]
    exact hd.1
  · intro y d _ hd
    rw [h.norm, h.norm]
    exact hd.2
  · intro y d _ _
    rw [h.inner, h.norm, h.norm]
    exact (neg_le_abs _).trans (hB.abs_le_sqrt _ _)
  · intro y v _
    rw [h.norm]
    exact Real.sqrt_nonneg _
  · intro y _
    rw [h.neg, h.precon]
    exact hneg y
  · intro y d t z nd _ _ ht hz hnd
    have hz' : z = y + t • d := by rw [hz, trialPoint, h.retraction, h.smul]
    simp only [cgDirection] at hnd
    split at hnd
    · cases hnd
    split at hnd
    · cases hnd
      rw [h.neg, h.precon]
      exact hneg z
    split at hnd
    · cases hnd
    rename_i beta hb
    cases hnd
    have hfm := (C11_formulas (name := "HagerZhang") rfl hb _ _ rfl rfl).2.2.2.1 rfl
    simp only [h.transport, h.inner, h.norm, h.sub, h.precon] at hfm
    have hco := h.cocoercive hmu.le hL y (t • d)
    have hmo := h.monotone y (t • d)
    rw [← hz'] at hco hmo
    obtain ⟨g, hg⟩ : ∃ g, g = pb.grad z := ⟨_, rfl⟩
    obtain ⟨w, hw⟩ : ∃ w, w = pb.grad z - pb.grad y := ⟨_, rfl⟩
    rw [← hw] at hfm hco hmo
    rw [← hg] at hfm
    rw [hB.smul_right] at hco
    rw [hB.smul_left, hB.smul_right, hB.smul_right] at hmo
    have heta : (-1 : ℝ) / (√(B d d) * min (1 / 100) √(B (pb.grad y) (pb.grad y))) ≤ 0 :=
      div_nonpos_of_nonpos_of_nonneg (by norm_num)
        (mul_nonneg (Real.sqrt_nonneg _) (le_min (by norm_num) (Real.sqrt_nonneg _)))
    have hmo' : mu * t * B d d ≤ B w d := by
      refine le_of_mul_le_mul_left ?_ ht
      linarith
    rw [h.add, h.neg, h.smul, h.precon, h.transport, GoodDir, ← hg]
    constructor
    · have hsemi : ∀ a : ℝ, 0 ≤ a ^ 2 * B w w - a / 2 * B w g + B g g / 16 := fun a => by
        have h1 := hB.nonneg (a • w + (-(1 / 4) : ℝ) • g)
        simp only [hB.add_left, hB.add_right, hB.smul_left, hB.smul_right, hB.symm g w] at h1
        linarith
      rw [hB.add_right, hB.neg_right, hB.smul_right, hfm, hB.symm d g]
      exact hz_slope hsemi heta (hB.nonneg g)
    · have hsize := hz_size (t := t) (Y := √(B w w)) (D := √(B d d)) (G := √(B g g)) (yg := B w g)
        (dg := B d g) (den := B w d) hmu hL ht (Real.sqrt_nonneg _) (Real.sqrt_nonneg _)
        (Real.sqrt_nonneg _) (hB.abs_le_sqrt _ _) (hB.abs_le_sqrt _ _) (hB.abs_le_sqrt _ _)
        (by rw [Real.sq_sqrt (hB.nonneg _)]; exact hmo')
        (by rw [Real.sq_sqrt (hB.nonneg _)]; linarith)
      rw [Real.sq_sqrt (hB.nonneg _)] at hsize
      refine (hB.sqrt_triangle _ _).trans ?_
      have e1 : B (-g) (-g) = B g g := by rw [hB.neg_left, hB.neg_right, neg_neg]
      have e2 : √(B (beta • d) (beta • d)) = |beta| * √(B d d) := by
        rw [hB.smul_left, hB.smul_right, ← mul_assoc, ← sq, Real.sqrt_mul (sq_nonneg _),
          Real.sqrt_sq_eq_abs]
      rw [e1, e2]
      have h1 : |beta| * √(B d d) ≤ 3 * (L / mu) * √(B g g) := by
        refine le_trans (mul_le_mul_of_nonneg_right ?_ (Real.sqrt_nonneg _)) hsize
        rw [hfm]
        exact abs_max_le heta
      linarith

end

/-! ## The Euclidean manifold -/

section
variable {ι : Type*} [Fintype ι] {cost : (ι → ℝ) → ℝ} {egrad : (ι → ℝ) → ι → ℝ} {mu L : ℝ}

/-- The `Euclidean` manifold with a strongly convex, smooth cost. -/
theorem C157_euclidean (dim : ℤ) (ehess : (ι → ℝ) → (ι → ℝ) → ι → ℝ)
    (hlo : ∀ x y, cost x + ∑ i, egrad x i * (y i - x i) + mu / 2 * ∑ i, (y i - x i) ^ 2 ≤ cost y)
    (hup : ∀ x y, cost y ≤ cost x + ∑ i, egrad x i * (y i - x i) + L / 2 * ∑ i, (y i - x i) ^ 2) :
    FlatStrong (arrayProb (euclideanMfd dim) (subE2rg eucProj) eucE2rh (fun _ v => v) cost egrad
      ehess) tensordot mu L where
  isInner := tensordot_inner
  inner _ u v := retensordot_real u v
  norm _ u := npNorm_eq_sqrt u
  retraction _ _ := rfl
  transport _ _ _ := rfl
  add _ _ := rfl
  sub _ _ := rfl
  neg _ := rfl
  smul _ _ := rfl
  precon _ _ := rfl
  lower x v := by
    have := hlo x (x + v)
    simp only [Pi.add_apply, add_sub_cancel_left] at this
    change cost x + tensordot (egrad x) v + mu / 2 * tensordot v v ≤ cost (x + v)
    simpa [tensordot, sq] using this
  upper x v := by
    have := hup x (x + v)
    simp only [Pi.add_apply, add_sub_cancel_left] at this
    change cost (x + v) ≤ cost x + tensordot (egrad x) v + L / 2 * tensordot v v
    simpa [tensordot, sq] using this

/-- **C157** (`ConjugateGradient` with the Hager–Zhang rule and the `AdaptiveLineSearcher`, its default,
on the `Euclidean` manifold): for a cost that is strongly convex with constant `mu`, smooth with constant
`L` and has a minimiser `z`, every iteration reduces the distance of the cost to the minimum by the factor
`1 - q`, where `q` depends on the condition number `L / mu` and the parameters only. -/
theorem C157_strongly_convex (dim : ℤ) (ehess : (ι → ℝ) → (ι → ℝ) → ι → ℝ) (hmu : 0 < mu) (hL : 0 < L)
    (hlo : ∀ x y, cost x + ∑ i, egrad x i * (y i - x i) + mu / 2 * ∑ i, (y i - x i) ^ 2 ≤ cost y)
    (hup : ∀ x y, cost y ≤ cost x + ∑ i, egrad x i * (y i - x i) + L / 2 * ∑ i, (y i - x i) ^ 2)
    {z : ι → ℝ} (hz : ∀ y, cost z ≤ cost y) {ls : AdaptiveCfg ℝ} (hc0 : 0 < ls.sufficientDecrease)
    (hc : ls.sufficientDecrease < 1) (hr : 0 < ls.contractionFactor) (hr1 : ls.contractionFactor < 1)
    (hm : 0 ≤ ls.maxIterations) (hi : 0 < ls.initialStepSize) {x : ι → ℝ} {ε A T q σ : ℝ} (hε : 0 < ε)
    (hx0 : ε ≤ npNorm (egrad x)) (hA : A = ls.initialStepSize / npNorm (egrad x))
    (hT : T = 2 * (1 - ls.sufficientDecrease) * (7 / 8) / ((1 + 3 * (L / mu)) ^ 2 * L))
    (hq : q = 2 * mu * (7 / 8) * ls.sufficientDecrease * min A (ls.contractionFactor * T))
    (hσ : σ = min A (ls.contractionFactor * T) * (7 / 8 * ε))
    (hbudget : ls.contractionFactor ^ ls.maxIterations.toNat *
      max A (1 / (mu * (7 / 8) * ls.sufficientDecrease)) ≤ T)
    {cfg : Cfg ℝ} (hcfg : cfg.minGradientNorm = ε) {clk : Clock ℝ} {orth : ℝ}
    {res : Result ℝ (ι → ℝ)} {m : Option ℝ} {calls : List ((ι → ℝ) × (ι → ℝ) × ℝ)}
    (h : CGRuns cfg .hagerZhang orth (adaptive _ _ ls) (arrayProb (euclideanMfd dim) (subE2rg eucProj)
      eucE2rh (fun _ v => v) cost egrad ehess) clk x none (.ok (res, m, calls))) :
    (∃ k : ℕ, res.iterations = k + 1 ∧ cost res.point - cost z ≤ (1 - q) ^ k * (cost x - cost z)) ∧
    (res.iterations : ℝ) ≤ Real.log (2 * L * (cost x - cost z) / ε ^ 2) / q + 2 ∧
    (Real.log (2 * L * (cost x - cost z) / ε ^ 2) / q + 2 < cfg.maxIterations →
      (∀ i, clk.check2 i 0 < clk.start + cfg.maxTime) → 0 ≤ cfg.maxCostEvaluations →
      cfg.minStepSize ≤ σ → npNorm (egrad res.point) < ε ∧
        cost res.point - cost z < ε ^ 2 / (2 * mu)) := by
  have hF := C157_euclidean dim ehess hlo hup
  have hA' : A = ls.initialStepSize / npNorm (-egrad x) := by rw [npNorm_neg, hA]
  exact C157_adaptive (C157_directions hF hmu hL orth) (by norm_num) (by positivity) hL
    (fun y _ => hz y) (fun y _ => hF.grad_le hL hz y) hc0 hc hr hr1 hm hi trivial hmu
    (hF.dominated hmu z _) hε hx0 hA' hT hq hσ hbudget hcfg h

/-- Non-vacuity: `3 x₀² + x₁²` from `(1, 1)` with the default parameters of the `AdaptiveLineSearcher`
and the default minimal gradient norm. -/
example {ls : AdaptiveCfg ℝ} (hls : ls = ⟨1 / 2, 1 / 2, 10, 1⟩) {cfg : Cfg ℝ}
    (hcfg : cfg.minGradientNorm = 1 / 10 ^ 6) {clk : Clock ℝ} {res : Result ℝ (Fin 2 → ℝ)}
    {m : Option ℝ} {calls : List ((Fin 2 → ℝ) × (Fin 2 → ℝ) × ℝ)} {orth : ℝ}
    (h : CGRuns cfg .hagerZhang orth (adaptive _ _ ls) (arrayProb (euclideanMfd 2) (subE2rg eucProj)
      eucE2rh (fun _ v => v) (fun x : Fin 2 → ℝ => 3 * x 0 ^ 2 + x 1 ^ 2)
      (fun x => ![6 * x 0, 2 * x 1]) (fun _ v => ![6 * v 0, 2 * v 1])) clk ![1, 1] none
      (.ok (res, m, calls))) :
    ∃ k : ℕ, res.iterations = k + 1 ∧
      3 * res.point 0 ^ 2 + res.point 1 ^ 2 ≤ (1 - 49 / 38400) ^ k * 4 := by
  subst hls
  have hn : npNorm ![6 * (![1, 1] : Fin 2 → ℝ) 0, 2 * (![1, 1] : Fin 2 → ℝ) 1] = √40 := by
    rw [npNorm_eq_sqrt]
    norm_num [tensordot, Fin.sum_univ_two]
  have h6 : √(40 : ℝ) ≤ 7 := Real.sqrt_le_iff.2 ⟨by norm_num, by norm_num⟩
  have h7 : (6 : ℝ) ≤ √40 := Real.le_sqrt_of_sq_le (by norm_num)
  have h8 : (1 : ℝ) / 7 ≤ 1 / √40 := one_div_le_one_div_of_le (by linarith) h6
  have h9 : (1 : ℝ) / √40 ≤ 1 / 6 := one_div_le_one_div_of_le (by norm_num) h7
  obtain ⟨k, h1, h2⟩ := (C157_strongly_convex (mu := 2) (L := 6) (q := 49 / 38400) (z := fun _ => 0) 2 _
    two_pos (by norm_num) (fun x y => by
      simp [Fin.sum_univ_two]
      nlinarith [sq_nonneg (y 0 - x 0), sq_nonneg (y 1 - x 1)])
    (fun x y => by
      simp [Fin.sum_univ_two]
      nlinarith [sq_nonneg (y 0 - x 0), sq_nonneg (y 1 - x 1)])
    (fun y => by
      simp
      positivity)
    (by norm_num) (by norm_num) (by norm_num) (by norm_num) (by norm_num) (by norm_num)
    (by norm_num : (0 : ℝ) < 1 / 10 ^ 6) (by rw [hn]; linarith) rfl rfl (by
      simp only [hn]
      rw [min_eq_right]
      · norm_num
      · refine le_trans ?_ h8
        norm_num) rfl (by
      have e : (10 : ℤ).toNat = 10 := rfl
      simp only [e, hn]
      rw [max_eq_right]
      · norm_num
      · refine h9.trans ?_
        norm_num) hcfg h).1
  refine ⟨k, h1, ?_⟩
  norm_num at h2
  linarith

/-- Non-vacuity of `C157_backTracking`: the same problem with the default parameters of the
`BackTrackingLineSearcher` and a minimal gradient norm of `1 / 10`. -/
example {ls : BackTrackingCfg ℝ} (hls : ls = ⟨1 / 2, 2, 1 / 10 ^ 4, 25, 1⟩) {cfg : Cfg ℝ}
    (hcfg : cfg.minGradientNorm = 1 / 10) {clk : Clock ℝ} {res : Result ℝ (Fin 2 → ℝ)}
    {m : Option ℝ} {calls : List ((Fin 2 → ℝ) × (Fin 2 → ℝ) × ℝ)} {orth : ℝ}
    (h : CGRuns cfg .hagerZhang orth (backTracking _ _ ls) (arrayProb (euclideanMfd 2)
      (subE2rg eucProj) eucE2rh (fun _ v => v) (fun x : Fin 2 → ℝ => 3 * x 0 ^ 2 + x 1 ^ 2)
      (fun x => ![6 * x 0, 2 * x 1]) (fun _ v => ![6 * v 0, 2 * v 1])) clk ![1, 1] none
      (.ok (res, m, calls))) :
    ∃ k : ℕ, res.iterations = k + 1 ∧
      3 * res.point 0 ^ 2 + res.point 1 ^ 2 ≤ (1 - 163317 / 320000000000) ^ k * 4 := by
  subst hls
  have hn : npNorm (-![6 * (![1, 1] : Fin 2 → ℝ) 0, 2 * (![1, 1] : Fin 2 → ℝ) 1]) = √40 := by
    rw [npNorm_neg, npNorm_eq_sqrt]
    norm_num [tensordot, Fin.sum_univ_two]
  have h6 : √(40 : ℝ) ≤ 7 := Real.sqrt_le_iff.2 ⟨by norm_num, by norm_num⟩
  have h7 : (6 : ℝ) ≤ √40 := Real.le_sqrt_of_sq_le (by norm_num)
  have h8 : (1 : ℝ) / 7 ≤ 1 / √40 := one_div_le_one_div_of_le (by linarith) h6
  have h9 : (1 : ℝ) / √40 ≤ 1 / 6 := one_div_le_one_div_of_le (by norm_num) h7
  have hF := C157_euclidean (mu := 2) (L := 6) (cost := fun x : Fin 2 → ℝ => 3 * x 0 ^ 2 + x 1 ^ 2)
    (egrad := fun x => ![6 * x 0, 2 * x 1]) 2 (fun _ v => ![6 * v 0, 2 * v 1]) (fun x y => by
      simp [Fin.sum_univ_two]
      nlinarith [sq_nonneg (y 0 - x 0), sq_nonneg (y 1 - x 1)])
    (fun x y => by
      simp [Fin.sum_univ_two]
      nlinarith [sq_nonneg (y 0 - x 0), sq_nonneg (y 1 - x 1)])
  have hz : ∀ y : Fin 2 → ℝ, 3 * (0 : Fin 2 → ℝ) 0 ^ 2 + (0 : Fin 2 → ℝ) 1 ^ 2 ≤
      3 * y 0 ^ 2 + y 1 ^ 2 := fun y => by
    simp
    positivity
  obtain ⟨k, h1, h2⟩ := (C157_backTracking (fmin := 3 * (0 : Fin 2 → ℝ) 0 ^ 2 + (0 : Fin 2 → ℝ) 1 ^ 2)
    (q := 163317 / 320000000000) (C157_directions hF two_pos (by norm_num) orth)
    (by norm_num) (by norm_num) (by norm_num) (fun y _ => hz y)
    (fun y _ => hF.grad_le (by norm_num) hz y)
    (by norm_num) (by norm_num) (by norm_num) (by norm_num) (by norm_num) (by norm_num) (by norm_num)
    trivial two_pos (hF.dominated two_pos 0 _)
    (by norm_num : (0 : ℝ) < 1 / 10) (by
      change (1 : ℝ) / 10 ≤ npNorm ![6 * (![1, 1] : Fin 2 → ℝ) 0, 2 * (![1, 1] : Fin 2 → ℝ) 1]
      rw [← npNorm_neg, hn]; linarith) rfl rfl rfl (by
      change (163317 / 320000000000 : ℝ) = _ * min (1 / npNorm (-![6 * (![1, 1] : Fin 2 → ℝ) 0,
        2 * (![1, 1] : Fin 2 → ℝ) 1])) _
      rw [hn, min_eq_right]
      · norm_num
      · refine le_trans ?_ h8
        norm_num) rfl (by
      have e : (25 : ℤ).toNat = 25 := rfl
      change (1 / 2 : ℝ) ^ (25 : ℤ).toNat * max (1 / npNorm (-![6 * (![1, 1] : Fin 2 → ℝ) 0,
        2 * (![1, 1] : Fin 2 → ℝ) 1])) (2 * 2 * (3 * (![1, 1] : Fin 2 → ℝ) 0 ^ 2 +
          (![1, 1] : Fin 2 → ℝ) 1 ^ 2 - (3 * (0 : Fin 2 → ℝ) 0 ^ 2 + (0 : Fin 2 → ℝ) 1 ^ 2)) /
          (7 / 8 * (1 / 10) ^ 2)) ≤ _
      rw [e, hn, max_eq_right]
      · norm_num
      · refine h9.trans ?_
        norm_num) hcfg h).1
  refine ⟨k, h1, ?_⟩
  change 3 * res.point 0 ^ 2 + res.point 1 ^ 2 - (3 * (0 : Fin 2 → ℝ) 0 ^ 2 + (0 : Fin 2 → ℝ) 1 ^ 2) ≤
    _ * (3 * (![1, 1] : Fin 2 → ℝ) 0 ^ 2 + (![1, 1] : Fin 2 → ℝ) 1 ^ 2 -
      (3 * (0 : Fin 2 → ℝ) 0 ^ 2 + (0 : Fin 2 → ℝ) 1 ^ 2)) at h2
  norm_num at h2
  linarith

end

end Verif.Geo
