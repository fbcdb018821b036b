/-
C147 on manifolds: gradient domination for strongly convex costs, for linear regression and for
eigenvector problems, and the runs of steepest descent there.
-/
import Verif.Opt.Props.SDLinear
import Verif.Geo.Props.ExampleRuns
import Verif.Geo.Props.NewtonEuclidean

namespace Verif.Geo
open Verif.Opt Matrix Verif.Geo.Examples
open scoped InnerProductSpace

/-! ## Strongly convex costs -/

/-- **C147** (strong convexity) On Euclidean space the gradient dominates a cost that is strongly convex
with constant `mu` and has a minimiser `z`. -/
theorem C147_strongly_convex {ι : Type*} [Fintype ι] (dim : ℤ) {cost : (ι → ℝ) → ℝ}
    {egrad : (ι → ℝ) → ι → ℝ} (ehess : (ι → ℝ) → (ι → ℝ) → ι → ℝ) {mu : ℝ} (hmu : 0 < mu)
    (hc : ∀ x y, cost x + ∑ i, egrad x i * (y i - x i) + mu / 2 * ∑ i, (y i - x i) ^ 2 ≤ cost y)
    (z : ι → ℝ) (f0 : ℝ) :
    GradDominated (arrayProb (euclideanMfd dim) (subE2rg eucProj) eucE2rh (fun _ v => v) cost egrad
      ehess) (fun _ => True) f0 (cost z) mu := by
  intro y _ _
  change 2 * mu * (cost y - cost z) ≤ npNorm (egrad y) ^ 2
  rw [npNorm_sq_real]
  have h1 := hc y z
  have h2 : 0 ≤ ∑ i, (egrad y i + mu * (z i - y i)) ^ 2 := Finset.sum_nonneg fun i _ => sq_nonneg _
  have h3 : ∑ i, (egrad y i + mu * (z i - y i)) ^ 2 = tensordot (egrad y) (egrad y) +
      2 * mu * ∑ i, egrad y i * (z i - y i) + mu ^ 2 * ∑ i, (z i - y i) ^ 2 := by
    rw [tensordot, Finset.mul_sum, Finset.mul_sum, ← Finset.sum_add_distrib,
      ← Finset.sum_add_distrib]
    refine Finset.sum_congr rfl fun i _ => ?_
    ring
  rw [h3] at h2
  nlinarith

/-- Non-vacuity: `3 x₀² + x₁²`, with constant 2. -/
example (f0 : ℝ) : GradDominated (arrayProb (euclideanMfd 2) (subE2rg eucProj) eucE2rh (fun _ v => v)
    (fun x : Fin 2 → ℝ => 3 * x 0 ^ 2 + x 1 ^ 2) (fun x => ![6 * x 0, 2 * x 1])
    (fun _ v => ![6 * v 0, 2 * v 1])) (fun _ => True) f0 (3 * 0 ^ 2 + 0 ^ 2) 2 :=
  C147_strongly_convex 2 _ two_pos (fun x y => by
    simp [Fin.sum_univ_two]
    nlinarith [sq_nonneg (y 0 - x 0), sq_nonneg (y 1 - x 1)]) (fun _ => 0) f0

/-! ## multiple_linear_regression.py -/

/-- **C147** (multiple_linear_regression.py) The gradient dominates the cost, also if the columns of the
samples are dependent: `μ` is the smallest positive eigenvalue of `samples.T @ samples`. -/
theorem C147_regression {m n : Type*} [Fintype m] [Fintype n] {samples : Matrix m n ℝ}
    {targets : m → ℝ} {pinv : Matrix n m ℝ} (hp : IsPinv samples pinv) {μ : ℝ}
    (hl : ∀ u, μ * ∑ i, (samples *ᵥ u) i ^ 2 ≤ ∑ i, (samplesᵀ *ᵥ (samples *ᵥ u)) i ^ 2) (dim : ℤ)
    (f0 : ℝ) :
    GradDominated (regProb samples targets dim) (fun _ => True) f0
      (regCost samples targets (regSolution pinv targets)) (2 * μ) := by
  intro y _ _
  have hdot : ∀ u : n → ℝ, tensordot u u = ∑ i, u i ^ 2 := fun u =>
    Finset.sum_congr rfl fun i _ => (sq _).symm
  have hdotm : ∀ u : m → ℝ, tensordot u u = ∑ i, u i ^ 2 := fun u =>
    Finset.sum_congr rfl fun i _ => (sq _).symm
  change 2 * (2 * μ) * (regCost samples targets y - _) ≤ npNorm (regGrad samples targets y) ^ 2
  obtain ⟨d, hd⟩ : ∃ d, y - regSolution pinv targets = d := ⟨_, rfl⟩
  have hy : y = regSolution pinv targets + d := by rw [← hd, add_sub_cancel]
  have e2 : samplesᵀ *ᵥ (samples *ᵥ (pinv *ᵥ targets)) = samplesᵀ *ᵥ targets := by
    have e1 : samplesᵀ * (samples * pinv) = samplesᵀ := by
      rw [← hp.symm, ← transpose_mul, hp.mul_mul]
    rw [mulVec_mulVec, mulVec_mulVec, Matrix.mul_assoc, e1]
  have hg : regGrad samples targets y = (2 : ℝ) • samplesᵀ *ᵥ (samples *ᵥ d) := by
    rw [regGrad, hy, smul_mulVec, mulVec_sub, mulVec_add, mulVec_add, regSolution, e2]
    module
  obtain ⟨r, hr⟩ : ∃ r, targets - samples *ᵥ regSolution pinv targets = r := ⟨_, rfl⟩
  have hr0 : samplesᵀ *ᵥ r = 0 := by
    rw [← hr, mulVec_sub, regSolution, e2, sub_self]
  have hrd : tensordot r (samples *ᵥ d) = 0 := by
    change r ⬝ᵥ samples *ᵥ d = 0
    rw [dotProduct_mulVec, ← mulVec_transpose, hr0, zero_dotProduct]
  have hcost : regCost samples targets y - regCost samples targets (regSolution pinv targets) =
      tensordot (samples *ᵥ d) (samples *ᵥ d) := by
    have e3 : targets - samples *ᵥ y = r - samples *ᵥ d := by
      rw [hy, mulVec_add, ← hr]
      abel
    rw [regCost, regCost, e3, hr, npNorm_sq_real, npNorm_sq_real, tensordot_inner.sub_left,
      tensordot_inner.sub_right, tensordot_inner.sub_right, hrd,
      tensordot_inner.symm (samples *ᵥ d) r, hrd]
    ring
  rw [hcost, hg, npNorm_sq_real, tensordot_inner.smul_left, tensordot_inner.smul_right, hdot, hdotm]
  linarith [hl d]

/-- Non-vacuity: two equal samples with two equal features, where the minimisers form a line. -/
example (targets : Fin 2 → ℝ) (f0 : ℝ) :
    GradDominated (regProb !![1, 1; 1, 1] targets 2) (fun _ => True) f0
      (regCost !![1, 1; 1, 1] targets (regSolution !![1 / 4, 1 / 4; 1 / 4, 1 / 4] targets)) (2 * 4) :=
  C147_regression (by
    constructor <;> ext i j <;> fin_cases i <;> fin_cases j <;>
      simp [Matrix.mul_apply, Fin.sum_univ_two] <;> norm_num)
    (fun u => by
      simp [Fin.sum_univ_two, mulVec, dotProduct]
      nlinarith [sq_nonneg (u 0 + u 1)]) 2 f0

/-! ## dominant_eigenvector.py -/

section
variable {ι : Type*} [Fintype ι] {A : Matrix ι ι ℝ} {u : ι → ℝ} {lam gap K : ℝ}

theorem ray_smooth (h : SimpleLowest A u lam gap K) (eps : ℝ) :
    SmoothDescent (rayProb eps A) OnSphere (2 * K) := by
  have hs : SmoothCost tensordot (fun x => 1 / 2 * tensordot x (A *ᵥ x)) (fun x => A *ᵥ x)
      (fun _ v => A *ᵥ v) K := by
    have h1 := eigCost_smooth (A := (-(1 / 2) : ℝ) • A) (Λ := K / 2)
      (by rw [transpose_smul, h.symm.eq]) (by linarith [h.bound_nonneg]) (fun w => by
        have := h.bound w
        rw [smul_mulVec, tensordot_inner.smul_left, tensordot_inner.smul_right]
        simp only [tensordot, ← sq]
        nlinarith)
    have e1 : eigCost ((-(1 / 2) : ℝ) • A) = fun x => 1 / 2 * tensordot x (A *ᵥ x) := by
      funext x
      rw [eigCost_eq, smul_mulVec, tensordot_inner.smul_right]
      ring
    have e2 : (-2 : ℝ) • ((-(1 / 2) : ℝ) • A) = A := by rw [smul_smul]; norm_num
    have e3 : eigGrad ((-(1 / 2) : ℝ) • A) = fun x => A *ᵥ x := by
      funext x
      rw [eigGrad, e2]
    have e4 : eigHess ((-(1 / 2) : ℝ) • A) = fun _ v => A *ᵥ v := by
      funext x v
      rw [eigHess, e2]
    rw [e1, e3, e4, mul_div_cancel₀ _ two_ne_zero] at h1
    exact h1
  have h1 := (C127_sphere_constants eps hs).2
  have e : 2 * K + Real.sqrt (∑ i, (A *ᵥ (0 : ι → ℝ)) i ^ 2) = 2 * K := by
    rw [mulVec_zero]
    simp
  rw [e] at h1
  exact h1

variable [DecidableEq ι]

theorem ray_excess (h : SimpleLowest A u lam gap K) (eps : ℝ) {x : ι → ℝ} (hx : OnSphere x) :
    gap * (1 - (∑ i, u i * x i) ^ 2) ≤ 2 * ((rayProb eps A).cost x - 1 / 2 * lam) := by
  have h1 := ray_near (rayLin_symm h.symm) h.unit' h.eigen' h.gap'
    (x := WithLp.toLp 2 x) (by rw [toLp_inner, hx.dot])
    (e := ⟪WithLp.toLp 2 x, rayLin A (WithLp.toLp 2 x)⟫_ℝ - lam) (by linarith)
  rw [rayLin_apply, toLp_inner, toLp_inner] at h1
  change gap * (1 - tensordot u x ^ 2) ≤ 2 * (1 / 2 * tensordot x (A *ᵥ x) - _)
  linarith

/-- **C147** (eigenvectors) The gradient dominates `x.T @ A @ x / 2` on the sphere, where the quotient
is below the second eigenvalue. -/
theorem C147_eigenvector_domination (h : SimpleLowest A u lam gap K) (eps : ℝ) {e f0 : ℝ}
    (he : e < gap) (hf : 2 * f0 ≤ lam + e) :
    GradDominated (rayProb eps A) OnSphere f0 (1 / 2 * lam) (gap * (1 - e / gap) ^ 2) := by
  intro y hy hle
  have hg := h.gap_pos
  have h1 := ray_excess h eps hy
  have h2 := ray_lowest h eps hy
  have h3 := ray_domination (rayLin_symm h.symm) h.unit' h.eigen' h.gap' hg
    (x := WithLp.toLp 2 y) (by rw [toLp_inner, hy.dot])
  rw [← ray_gradient eps, toLp_norm, rayLin_apply, toLp_inner, toLp_inner] at h3
  refine le_trans ?_ h3
  have e1 : tensordot y (A *ᵥ y) - lam = 2 * ((rayProb eps A).cost y - 1 / 2 * lam) := by
    change _ = 2 * (1 / 2 * tensordot y (A *ᵥ y) - _)
    ring
  rw [e1]
  change gap * (1 - tensordot u y ^ 2) ≤ _ at h1
  have h4 : 1 - e / gap ≤ tensordot u y ^ 2 := by
    rw [sub_le_comm, le_div_iff₀ hg]
    linarith
  have h5 : 0 ≤ 1 - e / gap := by
    have := (div_lt_one hg).2 he
    linarith
  have h6 := pow_le_pow_left₀ h5 h4 2
  rw [← pow_mul] at h6
  have h7 := mul_le_mul_of_nonneg_right (mul_le_mul_of_nonneg_right h6 hg.le)
    (by linarith : 0 ≤ 2 * ((rayProb eps A).cost y - 1 / 2 * lam))
  linarith

theorem ray_grad_le (h : SimpleLowest A u lam gap K) (eps : ℝ) {x : ι → ℝ} (hx : OnSphere x) :
    (rayProb eps A).M.norm x ((rayProb eps A).grad x) ≤ K := by
  refine abs_le_of_sq_le_sq' ?_ h.bound_nonneg |>.2
  change npNorm ((rayProb eps A).grad x) ^ 2 ≤ _
  have h1 := rayPerp_sq (y := WithLp.toLp 2 x) (by rw [toLp_inner, hx.dot])
    (rayLin A (WithLp.toLp 2 x))
  rw [← ray_gradient eps, real_inner_self_eq_norm_sq, toLp_norm, real_inner_self_eq_norm_sq] at h1
  have h2 := pow_le_pow_left₀ (norm_nonneg _) (h.bound' (WithLp.toLp 2 x)) 2
  have h3 : ‖WithLp.toLp 2 x‖ ^ 2 = 1 := by
    rw [← real_inner_self_eq_norm_sq, toLp_inner, hx.dot]
  rw [mul_pow, h3, mul_one] at h2
  rw [h1]
  linarith [sq_nonneg ⟪WithLp.toLp 2 x, rayLin A (WithLp.toLp 2 x)⟫_ℝ]

/-- **C147** (eigenvectors) `SteepestDescent` with the default line searcher for `x.T @ A @ x / 2` on
the sphere, started where the quotient is at most `lam + e` and thus below the second eigenvalue, with
a minimal gradient norm `ε` that is not below the accuracy of the line searcher.  The square of the sine
of the angle to the eigenvector decreases at least like `(1 - q) ^ k`, the number of iterations is
logarithmic in `ε`, and unless another limit ends the run earlier the square of the sine is at the end
less than `(ε / (gap - e)) ^ 2`. -/
theorem C147_eigenvector (h : SimpleLowest A u lam gap K) (eps : ℝ) {e ε q : ℝ} (he : e < gap)
    {x : ι → ℝ} (hx : NearLowest A lam e x) (hε : 0 < ε)
    (hx0 : ε ≤ npNorm (sphereProj x (A *ᵥ x))) (hK1 : K ≤ 10 ^ 7 * ε) (hK2 : K * e ≤ 10 ^ 7 * ε ^ 2)
    (hq : q = 9999 / 10 ^ 8 * ((gap - e) ^ 2 / (gap * K))) {cfg : Cfg ℝ}
    (hcfg : cfg.minGradientNorm = ε) {clk : Clock ℝ} {res : Result ℝ (ι → ℝ)} {mem : Option ℝ}
    (hres : SDRuns cfg (backTracking _ _ defaultLineSearch) (rayProb eps A) clk x none
      (.ok (res, mem))) :
    (∃ k : ℕ, res.iterations = k + 1 ∧
      1 - (∑ i, u i * res.point i) ^ 2 ≤ (1 - q) ^ k * (e / gap)) ∧
    (res.iterations : ℝ) ≤ Real.log (2 * K * e / ε ^ 2) / q + 2 ∧
    (Real.log (2 * K * e / ε ^ 2) / q + 2 < cfg.maxIterations →
      (∀ i, clk.check2 i 0 < clk.start + cfg.maxTime) → 0 ≤ cfg.maxCostEvaluations →
      cfg.minStepSize ≤ q * ε / K →
      1 - (∑ i, u i * res.point i) ^ 2 < (ε / (gap - e)) ^ 2) := by
  have hg := h.gap_pos
  obtain ⟨g, hgd⟩ : ∃ g, (rayProb eps A).M.norm x ((rayProb eps A).grad x) = g := ⟨_, rfl⟩
  have hgK : g ≤ K := hgd ▸ ray_grad_le h eps hx.1
  have hgε : ε ≤ g := hgd ▸ hx0
  have hgpos : 0 < g := hε.trans_le hgε
  have hKpos : 0 < K := hgpos.trans_le hgK
  obtain ⟨F, hF⟩ : ∃ F, (rayProb eps A).cost x - 1 / 2 * lam = F := ⟨_, rfl⟩
  have hFe : 2 * F ≤ e := by
    have h1 : tensordot x (A *ᵥ x) ≤ lam + e := hx.2
    rw [← hF]
    change 2 * (1 / 2 * tensordot x (A *ᵥ x) - _) ≤ e
    linarith
  have hF0 : 0 ≤ F := by
    rw [← hF]
    linarith [ray_lowest h eps hx.1]
  obtain ⟨mu, hmu⟩ : ∃ mu, gap * (1 - e / gap) ^ 2 = mu := ⟨_, rfl⟩
  have hmu' : mu = (gap - e) ^ 2 / gap := by
    rw [← hmu]
    field_simp
  have hge : 0 < gap - e := by linarith
  have hmupos : 0 < mu := by rw [hmu']; positivity
  have hqpos : 0 < q := by rw [hq]; positivity
  have hpl := C147_eigenvector_domination h eps he (f0 := (rayProb eps A).cost x) (by linarith)
  rw [hmu] at hpl
  have hq' : q = 2 * mu * defaultLineSearch.sufficientDecrease * min
      (defaultLineSearch.initialStepSize / (rayProb eps A).M.norm x ((rayProb eps A).grad x))
      (min (2 * (1 - 1 / (2 * defaultLineSearch.optimism)) / (2 * K))
        (defaultLineSearch.contractionFactor *
          (2 * (1 - defaultLineSearch.sufficientDecrease) / (2 * K)))) := by
    rw [hgd]
    simp only [defaultLineSearch]
    have e1 : 2 * (1 - 1 / (2 * 2)) / (2 * K) = 3 / 4 * (1 / K) := by
      field_simp
      norm_num
    have e2 : 1 / 2 * (2 * (1 - 1 / 10 ^ 4) / (2 * K)) = 9999 / 20000 * (1 / K) := by
      field_simp
      norm_num
    have e3 : 1 / K ≤ 1 / g := one_div_le_one_div_of_le hgpos hgK
    have e4 : 0 < 1 / K := by positivity
    rw [e1, e2, min_eq_right (a := 3 / 4 * (1 / K)) (by linarith), min_eq_right (by linarith), hq,
      hmu']
    field_simp
    norm_num
  obtain ⟨h1, h2, h3⟩ := C147_backTracking (ray_smooth h eps) (by positivity)
    (fun y hy => ray_lowest h eps hy) (fun y _ => by
      change npNorm (-_) = npNorm _
      simp [npNorm]) (fun y _ => Real.sqrt_nonneg _) (ls := defaultLineSearch)
    (by norm_num [defaultLineSearch])
    (by norm_num [defaultLineSearch]) (by norm_num [defaultLineSearch])
    (by norm_num [defaultLineSearch]) (by norm_num [defaultLineSearch])
    (by norm_num [defaultLineSearch]) (by norm_num [defaultLineSearch]) hx.1 hmupos hpl hε
    (by rwa [hgd]) rfl rfl rfl hq' rfl (by
      have e25 : (defaultLineSearch.maxIterations).toNat = 25 := rfl
      rw [hgd, hF, e25]
      simp only [defaultLineSearch]
      rw [mul_max_of_nonneg _ _ (by positivity)]
      have e1 : 1 / g ≤ 10 ^ 7 * (1 / K) := by
        rw [mul_one_div, div_le_div_iff₀ hgpos hKpos]
        linarith
      have e2 : 2 * 2 * F / ε ^ 2 ≤ 2 * 10 ^ 7 * (1 / K) := by
        rw [mul_one_div, div_le_div_iff₀ (by positivity) hKpos]
        have := mul_le_mul_of_nonneg_left hFe hKpos.le
        linarith
      have e4 : 2 * (1 - 1 / 10 ^ 4) / (2 * K) = 9999 / 10000 * (1 / K) := by
        field_simp
        norm_num
      rw [e4]
      have e5 : (0 : ℝ) < 1 / K := by positivity
      refine max_le ?_ ?_
      · refine (mul_le_mul_of_nonneg_left e1 (by positivity)).trans ?_
        rw [← mul_assoc]
        exact mul_le_mul_of_nonneg_right (by norm_num) e5.le
      · refine (mul_le_mul_of_nonneg_left e2 (by positivity)).trans ?_
        rw [← mul_assoc]
        exact mul_le_mul_of_nonneg_right (by norm_num) e5.le) hcfg hres
  have hcl := (C109_sphere eps (fun x => 1 / 2 * tensordot x (A *ᵥ x)) (fun x => A *ᵥ x)
    fun _ v => A *ᵥ v).1
  have hon : OnSphere res.point := (C109_steepestDescent hcl.mfd hcl.grad
    (C109_backTracking hcl.mfd _) hx.1 hres).1
  have hsm := smooth_grad_le (ray_smooth h eps) (by positivity)
    (fun y hy => ray_lowest h eps hy) hx.1
  rw [hgd, hF] at hsm
  have hFpos : 0 < F := by
    have : 0 < 2 * (2 * K) * F := lt_of_lt_of_le (by positivity) hsm
    exact pos_of_mul_pos_right this (by positivity)
  have hmuK : mu ≤ 2 * K := by
    have h4 := hpl x hx.1 le_rfl
    rw [hgd, hF] at h4
    have h5 := le_of_mul_le_mul_right (h4.trans hsm) hFpos
    linarith
  have hqmu : q = 9999 / 10 ^ 8 * (mu / K) := by rw [hq, hmu', div_div]
  have hq4 : q ≤ 1 / 1000 := by
    have : mu / K ≤ 2 := by rw [div_le_iff₀ hKpos]; exact hmuK
    rw [hqmu]
    linarith
  have hend := ray_excess h eps hon
  have hlog : Real.log (2 * (2 * K) * ((rayProb eps A).cost x - 1 / 2 * lam) / ε ^ 2) ≤
      Real.log (2 * K * e / ε ^ 2) := by
    rw [hF]
    refine Real.log_le_log (by positivity) ?_
    refine div_le_div_of_nonneg_right ?_ (by positivity)
    have := mul_le_mul_of_nonneg_left hFe hKpos.le
    linarith
  have hlog' := div_le_div_of_nonneg_right hlog hqpos.le
  refine ⟨?_, by linarith, fun hm ht hc hst => ?_⟩
  · obtain ⟨k, h4, h5⟩ := h1
    refine ⟨k, h4, ?_⟩
    rw [hF] at h5
    rw [← mul_div_assoc, le_div_iff₀ hg]
    have h6 := mul_le_mul_of_nonneg_left hFe (pow_nonneg (by linarith : 0 ≤ 1 - q) k)
    linarith
  · have h4 := h3 (by linarith) ht hc (hst.trans ?_)
    · rw [lt_div_iff₀ (by positivity), hmu'] at h4
      rw [div_pow, lt_div_iff₀ (by positivity)]
      have h5 : gap * (1 - (∑ i, u i * res.point i) ^ 2) * ((gap - e) ^ 2 / gap) < ε ^ 2 :=
        lt_of_le_of_lt (mul_le_mul_of_nonneg_right hend (by positivity)) (by linarith)
      have h6 : gap * (1 - (∑ i, u i * res.point i) ^ 2) * ((gap - e) ^ 2 / gap) =
          (1 - (∑ i, u i * res.point i) ^ 2) * (gap - e) ^ 2 := by
        field_simp
      rwa [h6] at h5
    · simp only [defaultLineSearch]
      have e0 : ε / K ≤ 1 := (div_le_one hKpos).2 (hgε.trans hgK)
      have e1 : 0 < ε / K := by positivity
      have e2 : q * ε / K = q * (ε / K) := mul_div_assoc _ _ _
      have e3 : 2 * 2 * q * ε / (2 * (2 * K)) = q * (ε / K) := by
        rw [show 2 * 2 * q * ε = 4 * (q * ε) by ring, show 2 * (2 * K) = 4 * K by ring,
          mul_div_mul_left _ _ four_ne_zero, mul_div_assoc]
      have e4 : 1 / 2 * (2 * (1 - 1 / 10 ^ 4) / (2 * K)) * ε = 9999 / 20000 * (ε / K) := by
        field_simp
        norm_num
      rw [e2, e3, e4]
      refine le_min (le_min ?_ le_rfl) ?_
      · nlinarith
      · exact mul_le_mul_of_nonneg_right (by linarith) e1.le

end

/-- Non-vacuity: a start at a sine of 3/5, far from the eigenvector. -/
example {cfg : Cfg ℝ} (hcfg : cfg.minGradientNorm = 1 / 1000) {clk : Clock ℝ}
    {res : Result ℝ (Fin 3 → ℝ)} {mem : Option ℝ}
    (hres : SDRuns cfg (backTracking _ _ defaultLineSearch) (rayProb 0 (diagonal ![1, 2, 3])) clk
      ![4 / 5, 3 / 5, 0] none (.ok (res, mem))) :
    (res.iterations : ℝ) ≤ Real.log (2 * 3 * (9 / 25) / (1 / 1000) ^ 2) /
      (9999 / 10 ^ 8 * ((1 - 9 / 25) ^ 2 / (1 * 3))) + 2 := by
  refine (C147_eigenvector diag123 0 (e := 9 / 25) (by norm_num) ⟨?_, ?_⟩ (by norm_num) ?_ (by norm_num)
    (by norm_num) rfl hcfg hres).2.1
  · simp [OnSphere, Fin.sum_univ_three]
    norm_num
  · simp [Fin.sum_univ_three, mulVec_diagonal]
    norm_num
  · rw [npNorm_eq_sqrt]
    refine Real.le_sqrt_of_sq_le ?_
    simp [tensordot, sphereProj, sphereInner, Fin.sum_univ_three, mulVec_diagonal]
    norm_num

end Verif.Geo
