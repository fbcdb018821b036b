/-
C132: what the runs of the examples return.
-/
import Verif.Geo.Props.Examples
import Verif.Geo.Props.Rates
import Verif.Geo.Lemmas.Exists
import Verif.Opt.Props.SDRate
import Verif.Opt.Props.TCG

namespace Verif.Geo.Examples
open Matrix Verif.Opt
open scoped BigOperators

variable {n m : Type*}

/-! ## dominant_eigenvector.py -/

/-- A unit vector with a small residual has its Rayleigh quotient near an eigenvalue. -/
theorem near_eigenvalue [Fintype n] [DecidableEq n] {A : Matrix n n ℝ} (hA : Aᵀ = A) {y : n → ℝ}
    (hy : tensordot y y = 1) (q : ℝ) {η : ℝ} (hη : 0 ≤ η)
    (hr : tensordot (A *ᵥ y - q • y) (A *ᵥ y - q • y) ≤ η ^ 2) :
    ∃ (μ : ℝ) (v : n → ℝ), v ≠ 0 ∧ A *ᵥ v = μ • v ∧ |μ - q| ≤ η := by
  obtain ⟨w, V, hE⟩ := exists_isEigh (A := A) (by
    rw [IsHermitian, conjTranspose_eq_transpose_of_trivial, hA])
  have hV : Vᵀ * V = 1 := by rw [← conjTranspose_eq_transpose_of_trivial]; exact hE.orth
  have hV' : V * Vᵀ = 1 := mul_eq_one_comm.mp hV
  have hP : A = V * diagonal w * Vᵀ := by
    have := hE.prod
    rwa [conjTranspose_eq_transpose_of_trivial] at this
  have hAV : A * V = V * diagonal w := by
    rw [hP, Matrix.mul_assoc, hV, Matrix.mul_one]
  obtain ⟨z, hz⟩ : ∃ z, Vᵀ *ᵥ y = z := ⟨_, rfl⟩
  have hyz : y = V *ᵥ z := by rw [← hz, mulVec_mulVec, hV', one_mulVec]
  have hnorm : ∀ u, tensordot (V *ᵥ u) (V *ᵥ u) = tensordot u u := fun u => by
    change V *ᵥ u ⬝ᵥ V *ᵥ u = u ⬝ᵥ u
    rw [dotProduct_mulVec, ← mulVec_transpose, mulVec_mulVec, hV, one_mulVec]
  have hres : A *ᵥ y - q • y = V *ᵥ fun i => (w i - q) * z i := by
    rw [hyz, mulVec_mulVec, hAV, ← mulVec_mulVec, ← mulVec_smul, ← mulVec_sub]
    congr 1
    funext i
    simp [mulVec_diagonal]
    ring
  rw [hres, hnorm] at hr
  rw [hyz, hnorm] at hy
  by_contra hcon
  push Not at hcon
  have hcol : ∀ i, η < |w i - q| := fun i => by
    refine hcon (w i) (V *ᵥ Pi.single i 1) (fun h0 => ?_) ?_
    · have := hnorm (Pi.single i 1)
      rw [h0, tensordot_inner.zero_left] at this
      simp [tensordot, Pi.single_apply] at this
    · rw [mulVec_mulVec, hAV, ← mulVec_mulVec, ← mulVec_smul]
      congr 1
      funext j
      rw [mulVec_diagonal]
      rcases eq_or_ne j i with rfl | h
      · simp
      · simp [h]
  have hlt : η ^ 2 * tensordot z z < tensordot (fun i => (w i - q) * z i)
      fun i => (w i - q) * z i := by
    unfold tensordot at hy ⊢
    rw [Finset.mul_sum]
    have hle : ∀ i, η ^ 2 * (z i * z i) ≤ (w i - q) * z i * ((w i - q) * z i) := fun i => by
      have h1 : η ^ 2 ≤ (w i - q) ^ 2 := by
        rw [← sq_abs (w i - q)]
        exact pow_le_pow_left₀ hη (hcol i).le 2
      nlinarith [mul_self_nonneg (z i)]
    refine Finset.sum_lt_sum (fun i _ => hle i) ?_
    by_contra hz0
    push Not at hz0
    have h0 : ∀ i, z i = 0 := fun i => by
      by_contra hzi
      have h1 : η ^ 2 < (w i - q) ^ 2 := by
        rw [← sq_abs (w i - q)]
        exact pow_lt_pow_left₀ (hcol i) hη (by norm_num)
      have h2 := hz0 i (Finset.mem_univ i)
      have h3 : 0 < z i * z i := mul_self_pos.2 hzi
      nlinarith
    simp [h0] at hy
  rw [hy, mul_one] at hlt
  exact absurd hr hlt.not_ge

theorem eigCost_eq [Fintype n] (A : Matrix n n ℝ) (x : n → ℝ) :
    eigCost A x = -tensordot x (A *ᵥ x) := by
  rw [eigCost, neg_vecMul, neg_dotProduct, ← dotProduct_mulVec]
  rfl

/-- The cost of dominant_eigenvector.py for a symmetric matrix of norm at most `Λ`. -/
theorem eigCost_smooth [Fintype n] {A : Matrix n n ℝ} (hA : Aᵀ = A) {Λ : ℝ} (hΛ : 0 ≤ Λ)
    (hb : ∀ u, tensordot (A *ᵥ u) (A *ᵥ u) ≤ Λ ^ 2 * tensordot u u) :
    SmoothCost tensordot (eigCost A) (eigGrad A) (eigHess A) (2 * Λ) where
  nonneg := by positivity
  grad := (C128_eigenvector hA).1
  hess := (C128_eigenvector hA).2
  lip x y := by
    have e : eigGrad A y - eigGrad A x = (-2 : ℝ) • A *ᵥ (y - x) := by
      rw [eigGrad, eigGrad, ← mulVec_sub, smul_mulVec]
    rw [e, tensordot_inner.smul_left, tensordot_inner.smul_right]
    nlinarith [hb (y - x)]

/-- The problem of dominant_eigenvector.py (dominant_eigenvector.py:59-69). -/
noncomputable def eigProb [Fintype n] (A : Matrix n n ℝ) (eps : ℝ) : Prob ℝ (n → ℝ) (n → ℝ) :=
  arrayProb (sphereMfd eps) sphereE2rg sphereE2rh (fun _ v => v) (eigCost A) (eigGrad A) (eigHess A)

/-- The default `BackTrackingLineSearcher` (line_search.py:4-18). -/
noncomputable def defaultLineSearch : BackTrackingCfg ℝ :=
  { contractionFactor := 1 / 2, optimism := 2, sufficientDecrease := 1 / 10 ^ 4, maxIterations := 25,
    initialStepSize := 1 }

/-- The gradient norm is twice the residual. -/
theorem eigProb_norm [Fintype n] (A : Matrix n n ℝ) (eps : ℝ) (y : n → ℝ) :
    (eigProb A eps).M.norm y ((eigProb A eps).grad y) ^ 2 =
      4 * tensordot (A *ᵥ y - tensordot y (A *ᵥ y) • y) (A *ᵥ y - tensordot y (A *ᵥ y) • y) := by
  change npNorm (sphereE2rg y (eigGrad A y)) ^ 2 = _
  have hn : ∀ v : n → ℝ, npNorm v ^ 2 = tensordot v v := fun v => by
    rw [npNorm, Real.sq_sqrt (Finset.sum_nonneg fun i _ => sq_nonneg _), tensordot]
    refine Finset.sum_congr rfl fun i _ => ?_
    rw [Real.norm_eq_abs, sq_abs, sq]
  have e : sphereE2rg y (eigGrad A y) = (-2 : ℝ) • (A *ᵥ y - tensordot y (A *ᵥ y) • y) := by
    rw [eigGrad, smul_mulVec, smul_sub, smul_smul]
    change (-2 : ℝ) • A *ᵥ y - tensordot y ((-2 : ℝ) • A *ᵥ y) • y = _
    rw [tensordot_inner.smul_right]
  rw [hn, e, tensordot_inner.smul_left, tensordot_inner.smul_right]
  ring

theorem eig_residual [Fintype n] (A : Matrix n n ℝ) {y : n → ℝ} (hy : tensordot y y = 1) :
    tensordot (A *ᵥ y - tensordot y (A *ᵥ y) • y) (A *ᵥ y - tensordot y (A *ᵥ y) • y) =
      tensordot (A *ᵥ y) (A *ᵥ y) - tensordot y (A *ᵥ y) ^ 2 := by
  obtain ⟨q, hq⟩ : ∃ q, tensordot y (A *ᵥ y) = q := ⟨_, rfl⟩
  rw [hq, tensordot_inner.sub_left, tensordot_inner.sub_right, tensordot_inner.sub_right,
    tensordot_inner.smul_left, tensordot_inner.smul_left, tensordot_inner.smul_right,
    tensordot_inner.smul_right, tensordot_inner.symm (A *ᵥ y) y, hq, hy]
  ring

/-- **C132** (dominant_eigenvector.py): `SteepestDescent` with the default line searcher, started
anywhere on the sphere with a threshold `ε` of at least a thousandth of the norm bound `Λ` of the
symmetric matrix, makes at most `10^5 (Λ / ε) ^ 2 + 1` iterations; unless it is given less time, fewer
iterations or a larger minimal step size, the Rayleigh quotient of the returned point is at least that
of some eigenvector minus `ε / 2`. -/
theorem C132_eigenvector [Fintype n] [DecidableEq n] {A : Matrix n n ℝ} (hA : Aᵀ = A) {Λ ε : ℝ}
    (hΛ : 0 < Λ) (hb : ∀ u, ∑ i, (A *ᵥ u) i ^ 2 ≤ Λ ^ 2 * ∑ i, u i ^ 2) (hε : Λ / 1000 ≤ ε)
    (eps : ℝ) {x : n → ℝ} (hx : ∑ i, x i ^ 2 = 1) {cfg : Cfg ℝ} (hcfg : cfg.minGradientNorm = ε)
    {clk : Clock ℝ} {res : Result ℝ (n → ℝ)} {mem : Option ℝ}
    (h : SDRuns cfg (backTracking _ _ defaultLineSearch) (eigProb A eps) clk x none
      (.ok (res, mem))) :
    (res.iterations : ℝ) ≤ 10 ^ 5 * (Λ / ε) ^ 2 + 1 ∧
    (10 ^ 5 * (Λ / ε) ^ 2 + 1 < cfg.maxIterations →
      (∀ i, clk.check2 i 0 < clk.start + cfg.maxTime) → 0 ≤ cfg.maxCostEvaluations →
      cfg.minStepSize ≤ 2 / 10 ^ 5 * (ε / Λ) ^ 2 →
      ∃ (μ : ℝ) (v : n → ℝ), v ≠ 0 ∧ A *ᵥ v = μ • v ∧
        μ - ε / 2 ≤ ∑ i, res.point i * (A *ᵥ res.point) i) := by
  have hdot : ∀ u : n → ℝ, tensordot u u = ∑ i, u i ^ 2 := fun u =>
    Finset.sum_congr rfl fun i _ => (sq _).symm
  have hb' : ∀ u, tensordot (A *ᵥ u) (A *ᵥ u) ≤ Λ ^ 2 * tensordot u u := fun u => by
    rw [hdot, hdot]
    exact hb u
  have hεpos : 0 < ε := lt_of_lt_of_le (by positivity) hε
  have hxS : OnSphere x := hx
  have hq2 : ∀ y : n → ℝ, OnSphere y → tensordot y (A *ᵥ y) ^ 2 ≤ Λ ^ 2 ∧
      (eigProb A eps).M.norm y ((eigProb A eps).grad y) ≤ 2 * Λ := fun y hy => by
    have h1 := hb' y
    have h2 := eig_residual A hy.dot
    have h3 := tensordot_inner.nonneg (A *ᵥ y - tensordot y (A *ᵥ y) • y)
    rw [hy.dot, mul_one] at h1
    refine ⟨by linarith, ?_⟩
    refine abs_le_of_sq_le_sq' ?_ (by positivity) |>.2
    rw [eigProb_norm, h2]
    nlinarith [sq_nonneg (tensordot y (A *ᵥ y))]
  have hcost : ∀ y, OnSphere y → -Λ ≤ (eigProb A eps).cost y ∧ (eigProb A eps).cost y ≤ Λ :=
    fun y hy => by
      have := abs_le_of_sq_le_sq' (hq2 y hy).1 hΛ.le
      change -Λ ≤ eigCost A y ∧ eigCost A y ≤ Λ
      rw [eigCost_eq]
      constructor <;> linarith [this.1, this.2]
  have hfin : ∀ y, OnSphere y → (eigProb A eps).M.norm y ((eigProb A eps).grad y) < ε →
      (eigProb A eps).cost res.point ≤ (eigProb A eps).cost y →
      ∃ (μ : ℝ) (v : n → ℝ), v ≠ 0 ∧ A *ᵥ v = μ • v ∧
        μ - ε / 2 ≤ ∑ i, res.point i * (A *ᵥ res.point) i := fun y hy hg hc => by
    have hn0 : 0 ≤ (eigProb A eps).M.norm y ((eigProb A eps).grad y) := Real.sqrt_nonneg _
    have h1 := eigProb_norm A eps y
    have h2 := pow_le_pow_left₀ hn0 hg.le 2
    obtain ⟨μ, v, hv, hAv, hd⟩ := near_eigenvalue hA hy.dot (tensordot y (A *ᵥ y)) (η := ε / 2)
      (by positivity) (by rw [div_pow]; linarith)
    refine ⟨μ, v, hv, hAv, ?_⟩
    change eigCost A res.point ≤ eigCost A y at hc
    rw [eigCost_eq, eigCost_eq] at hc
    have h3 := (abs_le.1 hd).2
    change _ ≤ tensordot res.point (A *ᵥ res.point)
    linarith
  rcases lt_or_ge ((eigProb A eps).M.norm x ((eigProb A eps).grad x)) ε with hx0 | hx0
  · obtain ⟨h1, -, h2⟩ := C131_start (.inl ⟨_, rfl⟩) (hcfg ▸ hx0) h
    refine ⟨?_, fun _ _ _ _ => hfin x hxS hx0 h2⟩
    rw [h1]
    have : 0 ≤ 10 ^ 5 * (Λ / ε) ^ 2 := by positivity
    push_cast
    linarith
  have hS : SmoothDescent (eigProb A eps) OnSphere (4 * Λ) := by
    have h1 := (C127_sphere_constants eps (eigCost_smooth hA hΛ.le hb')).2
    have e : 2 * (2 * Λ) + Real.sqrt (∑ i, eigGrad A 0 i ^ 2) = 4 * Λ := by
      simp [eigGrad]
      ring
    rw [e] at h1
    exact h1
  obtain ⟨g, hg⟩ : ∃ g, (eigProb A eps).M.norm x ((eigProb A eps).grad x) = g := ⟨_, rfl⟩
  have hgΛ := (hq2 x hxS).2
  rw [hg] at hx0 hgΛ
  have hgpos : 0 < g := hεpos.trans_le hx0
  obtain ⟨F, hF⟩ : ∃ F, (eigProb A eps).cost x = F := ⟨_, rfl⟩
  have hFΛ := (hcost x hxS)
  rw [hF] at hFΛ
  have h1 := C131_backTracking hS (by positivity) (fun y hy => (hcost y hy).1)
    (fun y _ => by
      change npNorm (-_) = npNorm _
      simp [npNorm]) (ls := defaultLineSearch) (by norm_num [defaultLineSearch])
    (by norm_num [defaultLineSearch]) (by norm_num [defaultLineSearch])
    (by norm_num [defaultLineSearch]) (by norm_num [defaultLineSearch])
    (by norm_num [defaultLineSearch]) (by norm_num [defaultLineSearch]) hxS hεpos (by rwa [hg]) rfl rfl
    rfl rfl rfl (by
      have e25 : (defaultLineSearch.maxIterations).toNat = 25 := rfl
      rw [hg, hF, e25]
      simp only [defaultLineSearch]
      rw [mul_max_of_nonneg _ _ (by positivity)]
      have e1 : 1 / g ≤ 1000 * (1 / Λ) := by
        rw [mul_one_div, div_le_div_iff₀ hgpos hΛ]
        linarith
      have e2 : 2 * 2 * (F - -Λ) / ε ^ 2 ≤ 8 * 10 ^ 6 * (1 / Λ) := by
        rw [mul_one_div, div_le_div_iff₀ (by positivity) hΛ]
        have e3 : (Λ / 1000) ^ 2 ≤ ε ^ 2 := pow_le_pow_left₀ (by positivity) hε 2
        nlinarith
      have e4 : 2 * (1 - 1 / 10 ^ 4) / (4 * Λ) = 9999 / 20000 * (1 / Λ) := by
        field_simp
        norm_num
      rw [e4]
      have e5 : (0 : ℝ) < 1 / Λ := by positivity
      refine max_le ?_ ?_
      · refine (mul_le_mul_of_nonneg_left e1 (by positivity)).trans ?_
        rw [← mul_assoc]
        exact mul_le_mul_of_nonneg_right (by norm_num) e5.le
      · refine (mul_le_mul_of_nonneg_left e2 (by positivity)).trans ?_
        rw [← mul_assoc]
        exact mul_le_mul_of_nonneg_right (by norm_num) e5.le) hcfg h
  rw [hg, hF] at h1
  obtain ⟨δ, hδ⟩ : ∃ δ, defaultLineSearch.sufficientDecrease * min
      (defaultLineSearch.initialStepSize / g * g ^ 2)
      (min (2 * (1 - 1 / (2 * defaultLineSearch.optimism)) / (4 * Λ))
        (defaultLineSearch.contractionFactor *
          (2 * (1 - defaultLineSearch.sufficientDecrease) / (4 * Λ))) * ε ^ 2) = δ := ⟨_, rfl⟩
  rw [hδ] at h1
  have hδ1 : 24 / 10 ^ 6 * (ε ^ 2 / Λ) ≤ δ := by
    rw [← hδ]
    simp only [defaultLineSearch]
    have e1 : ε ^ 2 / Λ ≤ 2 * g := by
      rw [div_le_iff₀ hΛ]
      nlinarith
    have e0 : 0 < ε ^ 2 / Λ := by positivity
    have e2 : 2 * (1 - 1 / (2 * 2)) / (4 * Λ) * ε ^ 2 = 3 / 8 * (ε ^ 2 / Λ) := by
      field_simp
      norm_num
    have e3 : 1 / 2 * (2 * (1 - 1 / 10 ^ 4) / (4 * Λ)) * ε ^ 2 = 9999 / 40000 * (ε ^ 2 / Λ) := by
      field_simp
      norm_num
    have e4 : 1 / g * g ^ 2 = g := by field_simp
    rw [min_mul_of_nonneg _ _ (by positivity), e2, e3, e4]
    have e5 : 24 / 100 * (ε ^ 2 / Λ) ≤ min g (min (3 / 8 * (ε ^ 2 / Λ)) (9999 / 40000 * (ε ^ 2 / Λ))) :=
      le_min (by linarith) (le_min (by linarith) (by linarith))
    nlinarith
  have hδpos : 0 < δ := lt_of_lt_of_le (by positivity) hδ1
  have hN : (F - -Λ) / δ + 1 ≤ 10 ^ 5 * (Λ / ε) ^ 2 + 1 := by
    have e1 : (F - -Λ) / δ ≤ 2 * Λ / (24 / 10 ^ 6 * (ε ^ 2 / Λ)) :=
      div_le_div₀ (by positivity) (by linarith [hFΛ.2]) (by positivity) hδ1
    have e2 : 2 * Λ / (24 / 10 ^ 6 * (ε ^ 2 / Λ)) = 2 * 10 ^ 6 / 24 * (Λ / ε) ^ 2 := by
      field_simp
    have e3 : 0 ≤ (Λ / ε) ^ 2 := by positivity
    rw [e2] at e1
    nlinarith
  refine ⟨h1.1.trans hN, fun hm ht hc hs => ?_⟩
  obtain ⟨y, hy, -, hyg, hyc⟩ := h1.2 (lt_of_le_of_lt hN hm) ht hc (by
    refine hs.trans ?_
    have hr : ε / Λ ≤ 2 := by
      rw [div_le_iff₀ hΛ]
      linarith
    have hr0 : 0 < ε / Λ := by positivity
    simp only [defaultLineSearch]
    refine le_min (le_min ?_ ?_) ?_
    · nlinarith
    · have e1 : Real.sqrt (2 * (4 * Λ) * (F - -Λ)) ≤ 4 * Λ := by
        refine (Real.sqrt_le_left (by positivity)).2 ?_
        nlinarith [hFΛ.2]
      have e2 : 0 < Real.sqrt (2 * (4 * Λ) * (F - -Λ)) := by
        have := smooth_grad_le hS (by positivity) (fun y hy => (hcost y hy).1) hxS
        rw [hg, hF] at this
        exact Real.sqrt_pos.2 (lt_of_lt_of_le (by positivity) this)
      rw [le_div_iff₀ e2]
      refine (mul_le_mul_of_nonneg_left e1 (by positivity)).trans ?_
      have e3 : 2 / 10 ^ 5 * (ε / Λ) ^ 2 * (4 * Λ) = 8 / 10 ^ 5 * (ε ^ 2 / Λ) := by
        field_simp
        norm_num
      rw [e3]
      have e0 : 0 < ε ^ 2 / Λ := by positivity
      linarith
    · have e3 : 1 / 2 * (2 * (1 - 1 / 10 ^ 4) / (4 * Λ)) * ε = 9999 / 40000 * (ε / Λ) := by
        field_simp
        norm_num
      rw [e3]
      nlinarith)
  exact hfin y hy hyg hyc

/-! ## Trust regions with the default parameters -/

/-- The decrease that each successful iteration of `TrustRegions` with the default parameters is sure
to make while the gradient norm is at least `ε`. -/
noncomputable def trDecrease (L ε f0 fmin td : ℝ) : ℝ :=
  ε * min (td / 8) (3 * ε / (32 * L)) / 20 - 900 / 2 ^ 52 * max 1 (max |f0| |fmin|)

/-- The number of iterations of `TrustRegions` with the default parameters. -/
noncomputable def trIterations (L ε f0 fmin td : ℝ) : ℝ :=
  3 / 2 * ((f0 - fmin) / trDecrease L ε f0 fmin td) +
    Real.logb 4 (td / 8 / min (td / 8) (3 * ε / (32 * L))) + 1

/-- C114 for the default parameters (trust_regions.py:74-105) and radii. -/
theorem trustRegions_default {P E : Type*} {pb : Prob ℝ P E} {On : P → Prop} {Tan : P → E → Prop}
    {L ε fmin td : ℝ} (hS : TCGSound pb On Tan) (hM : SmoothModel pb On Tan L L) (hL : 0 < L)
    {x : P} (hx : On x) (htd : 0 < td) (hfmin : ∀ y, On y → fmin ≤ pb.cost y) (hε : 0 < ε)
    (hk : 0 < trDecrease L ε (pb.cost x) fmin td) {cfg : Cfg ℝ} (hcfg : cfg.minGradientNorm = ε)
    (hnorm : ∀ y, On y → pb.M.norm y (pb.grad y) ^ 2 = pb.M.inner y (pb.grad y) (pb.grad y))
    (hx0 : ε ≤ pb.M.norm x (pb.grad x)) {clk : Clock ℝ} {eta0 : ℤ → E} {res : Result ℝ P}
    {hist : List (P × ℝ × ℝ)}
    (h : TRRuns cfg realTR pb clk eta0 1 none (some td) none none x (.ok (res, hist))) :
    (res.iterations : ℝ) ≤ trIterations L ε (pb.cost x) fmin td ∧
    (trIterations L ε (pb.cost x) fmin td < cfg.maxIterations →
      (∀ i, clk.check2 i 0 < clk.start + cfg.maxTime) → 0 ≤ cfg.maxCostEvaluations →
      pb.M.norm res.point (pb.grad res.point) < ε) := by
  have hr : trRadii pb.M.dim (some td) none none = .ok (td, td / 8) := by
    simp [trRadii, PyNum.div, PyNum.lit]
  unfold TRRuns at h
  rw [hr] at h
  have hD : min (td / 8) (3 * ε / (32 * L)) = min (td / 8) (3 * ε / (16 * (L + L))) := by
    congr 2
    ring
  have hmin : min (min (td / 8) (3 * ε / (32 * L))) (ε / L) = min (td / 8) (3 * ε / (32 * L)) := by
    refine min_eq_left ((min_le_right _ _).trans ?_)
    rw [div_le_div_iff₀ (by positivity) hL]
    nlinarith [mul_pos hε hL]
  have hk' : trDecrease L ε (pb.cost x) fmin td = realTR.rhoPrime * (1 / 2 * ε *
      min (min (td / 8) (3 * ε / (32 * L))) (ε / L)) - (1 - realTR.rhoPrime) *
        (max 1 (max |pb.cost x| |fmin|) / 2 ^ 52 * realTR.rhoRegularization) := by
    rw [hmin, trDecrease]
    simp only [realTR]
    ring
  exact (C114_terminates hS hM hL.le hL rfl (by norm_num [realTR]) (by norm_num [realTR])
    (by norm_num [realTR]) hx (by positivity) (by linarith) hfmin hε hD hk' hk hcfg hnorm hx0).2 _ h

/-! ## multiple_linear_regression.py -/

/-- The problem of multiple_linear_regression.py (multiple_linear_regression.py:67-86). -/
noncomputable def regProb [Fintype m] [Fintype n] (samples : Matrix m n ℝ) (targets : m → ℝ)
    (dim : ℤ) : Prob ℝ (n → ℝ) (n → ℝ) :=
  arrayProb (euclideanMfd dim) (subE2rg eucProj) eucE2rh (fun _ v => v) (regCost samples targets)
    (regGrad samples targets) (regHess samples)

theorem regCost_smooth [Fintype m] [Fintype n] (samples : Matrix m n ℝ) (targets : m → ℝ) {Λ : ℝ}
    (hΛ : 0 ≤ Λ) (hb : ∀ u, tensordot (samplesᵀ *ᵥ (samples *ᵥ u)) (samplesᵀ *ᵥ (samples *ᵥ u)) ≤
      Λ ^ 2 * tensordot u u) :
    SmoothCost tensordot (regCost samples targets) (regGrad samples targets) (regHess samples)
      (2 * Λ) where
  nonneg := by positivity
  grad := (C128_regression samples targets).1
  hess := (C128_regression samples targets).2
  lip x y := by
    have e : regGrad samples targets y - regGrad samples targets x =
        (2 : ℝ) • samplesᵀ *ᵥ (samples *ᵥ (y - x)) := by
      have e1 : targets - samples *ᵥ y - (targets - samples *ᵥ x) = -(samples *ᵥ (y - x)) := by
        rw [mulVec_sub]
        abel
      rw [regGrad, regGrad, ← mulVec_sub, e1, mulVec_neg, smul_mulVec, neg_smul, neg_neg]
    rw [e, tensordot_inner.smul_left, tensordot_inner.smul_right]
    nlinarith [hb (y - x)]

/-- **C132** (multiple_linear_regression.py): `TrustRegions` with the default parameters ends within
`trIterations`, and unless another limit ends it earlier the returned weights are within
`ε / (2 μ)` of those computed with the pseudoinverse, if `μ` is the least eigenvalue of
`samples.T @ samples`. -/
theorem C132_regression [Fintype m] [Fintype n] {samples : Matrix m n ℝ} {targets : m → ℝ}
    {pinv : Matrix n m ℝ} (hp : IsPinv samples pinv) {Λ μ ε : ℝ} (hΛ : 0 < Λ) (hμ : 0 < μ)
    (hb : ∀ u, ∑ i, (samplesᵀ *ᵥ (samples *ᵥ u)) i ^ 2 ≤ Λ ^ 2 * ∑ i, u i ^ 2)
    (hl : ∀ u, μ * ∑ i, u i ^ 2 ≤ ∑ i, (samples *ᵥ u) i ^ 2) (dim : ℤ) {td : ℝ} (htd : 0 < td)
    {x : n → ℝ} (hε : 0 < ε) (hx0 : ε ^ 2 ≤ ∑ i, regGrad samples targets x i ^ 2)
    (hk : 0 < trDecrease (2 * Λ) ε (regCost samples targets x) 0 td) {cfg : Cfg ℝ}
    (hcfg : cfg.minGradientNorm = ε) {clk : Clock ℝ} {eta0 : ℤ → n → ℝ} {res : Result ℝ (n → ℝ)}
    {hist : List ((n → ℝ) × ℝ × ℝ)}
    (h : TRRuns cfg realTR (regProb samples targets dim) clk eta0 1 none (some td) none none x
      (.ok (res, hist))) :
    (res.iterations : ℝ) ≤ trIterations (2 * Λ) ε (regCost samples targets x) 0 td ∧
    (trIterations (2 * Λ) ε (regCost samples targets x) 0 td < cfg.maxIterations →
      (∀ i, clk.check2 i 0 < clk.start + cfg.maxTime) → 0 ≤ cfg.maxCostEvaluations →
      ∑ i, (res.point i - regSolution pinv targets i) ^ 2 < (ε / (2 * μ)) ^ 2) := by
  have hdot : ∀ u : n → ℝ, tensordot u u = ∑ i, u i ^ 2 := fun u =>
    Finset.sum_congr rfl fun i _ => (sq _).symm
  have hdotm : ∀ u : m → ℝ, tensordot u u = ∑ i, u i ^ 2 := fun u =>
    Finset.sum_congr rfl fun i _ => (sq _).symm
  have hn : ∀ y, (regProb samples targets dim).M.norm y ((regProb samples targets dim).grad y) ^ 2 =
      tensordot (regGrad samples targets y) (regGrad samples targets y) := fun y => by
    change npNorm (regGrad samples targets y) ^ 2 = _
    rw [npNorm, Real.sq_sqrt (Finset.sum_nonneg fun i _ => sq_nonneg _), tensordot]
    refine Finset.sum_congr rfl fun i _ => ?_
    rw [Real.norm_eq_abs, sq_abs, sq]
  have hn0 : ∀ y, 0 ≤ (regProb samples targets dim).M.norm y
      ((regProb samples targets dim).grad y) := fun y => Real.sqrt_nonneg _
  have hs : SmoothCost retensordot (regCost samples targets) (regGrad samples targets)
      (regHess samples) (2 * Λ) := by
    have e : (retensordot : (n → ℝ) → (n → ℝ) → ℝ) = tensordot := by
      funext u v
      exact retensordot_real u v
    rw [e]
    exact regCost_smooth samples targets hΛ.le fun u => by
      rw [hdot, hdot]
      exact hb u
  have h1 := trustRegions_default (pb := regProb samples targets dim) (On := fun _ => True)
    (Tan := fun _ _ => True) (fmin := 0) (ε := ε)
    (C115_euclidean dim _ _ fun y u v => by
      simp only [eucInner, retensordot_real, regHess]
      change u ⬝ᵥ _ = _ ⬝ᵥ v
      rw [dotProduct_mulVec, ← mulVec_transpose, transpose_mul, transpose_smul, transpose_transpose,
        Matrix.mul_smul, Matrix.smul_mul])
    (C127_flat (C127_euclidean dim) retensordot_inner hs).1 (by positivity) trivial htd
    (fun y _ => sq_nonneg _) hε hk hcfg (fun y _ => by
      rw [hn y]
      exact (retensordot_real _ _).symm)
    (abs_le_of_sq_le_sq' (by rw [hn, hdot]; exact hx0) (hn0 x)).2 h
  refine ⟨h1.1, fun hm ht hc => ?_⟩
  have h2 := h1.2 hm ht hc
  have h3 := pow_lt_pow_left₀ h2 (hn0 _) two_ne_zero
  rw [hn] at h3
  obtain ⟨d, hd⟩ : ∃ d, res.point - regSolution pinv targets = d := ⟨_, rfl⟩
  have hy : res.point = regSolution pinv targets + d := by rw [← hd, add_sub_cancel]
  have hg : regGrad samples targets res.point = (2 : ℝ) • samplesᵀ *ᵥ (samples *ᵥ d) := by
    have e1 : samplesᵀ * (samples * pinv) = samplesᵀ := by
      rw [← hp.symm, ← transpose_mul, hp.mul_mul]
    have e2 : samplesᵀ *ᵥ (samples *ᵥ (pinv *ᵥ targets)) = samplesᵀ *ᵥ targets := by
      rw [mulVec_mulVec, mulVec_mulVec, Matrix.mul_assoc, e1]
    rw [regGrad, hy, smul_mulVec, mulVec_sub, mulVec_add, mulVec_add, regSolution, e2]
    module
  rw [hg, tensordot_inner.smul_left, tensordot_inner.smul_right] at h3
  have e4 : ∑ i, (res.point i - regSolution pinv targets i) ^ 2 = tensordot d d := by
    rw [hdot, ← hd]
    rfl
  rw [e4]
  -- Cauchy–Schwarz
  have h5 : tensordot (samplesᵀ *ᵥ (samples *ᵥ d)) d = tensordot (samples *ᵥ d) (samples *ᵥ d) := by
    change samplesᵀ *ᵥ _ ⬝ᵥ d = _ ⬝ᵥ samples *ᵥ d
    rw [dotProduct_mulVec, mulVec_transpose]
  have h6 := tensordot_inner.cauchy (samplesᵀ *ᵥ (samples *ᵥ d)) d
  have h7 := hl d
  rw [← hdot, ← hdotm, ← h5] at h7
  rcases (tensordot_inner.nonneg d).eq_or_lt with h8 | h8
  · rw [← h8]
    positivity
  · have h9 : (μ * tensordot d d) ^ 2 ≤ tensordot (samplesᵀ *ᵥ (samples *ᵥ d))
        (samplesᵀ *ᵥ (samples *ᵥ d)) * tensordot d d :=
      (pow_le_pow_left₀ (by positivity) h7 2).trans h6
    have h10 : μ ^ 2 * tensordot d d ≤ tensordot (samplesᵀ *ᵥ (samples *ᵥ d))
        (samplesᵀ *ᵥ (samples *ᵥ d)) := by
      refine le_of_mul_le_mul_right ?_ h8
      linarith
    rw [div_pow, lt_div_iff₀ (by positivity)]
    nlinarith

/-! ## dominant_invariant_subspace.py, dominant_invariant_complex_subspace.py -/

section
variable {𝕜 : Type*} [RCLike 𝕜] [Fintype n] [DecidableEq n] {p : ℕ}

/-- The problem of dominant_invariant_subspace.py:69-96 and dominant_invariant_complex_subspace.py:73-98;
the point is a stack of one matrix. -/
noncomputable def subspaceProb (A : Matrix n n 𝕜) (dim : ℤ) (retraction log pairMean :
    Stack Unit n (Fin p) 𝕜 → Stack Unit n (Fin p) 𝕜 → Stack Unit n (Fin p) 𝕜) :
    Prob ℝ (Stack Unit n (Fin p) 𝕜) (Stack Unit n (Fin p) 𝕜) :=
  arrayProb (grassmannMfd dim retraction log pairMean) cgrProj cgrE2rh (fun _ v => v)
    (fun X => subspaceCost A (X ())) (fun X _ => subspaceGrad A (X ()))
    fun X V _ => subspaceHess A (X ()) (V ())

omit [DecidableEq n] in
theorem stackDot_unit {l : Type*} [Fintype l] (X Y : Stack Unit n l 𝕜) :
    stackDot X Y = trDot (X ()) (Y ()) := by
  rw [stackDot_eq, Fintype.sum_unique]

omit [DecidableEq n] in
/-- A bound on the norm of a matrix bounds its products. -/
theorem trDot_bound {A : Matrix n n 𝕜} {Λ : ℝ}
    (hb : ∀ u : n → 𝕜, ∑ i, ‖(A *ᵥ u) i‖ ^ 2 ≤ Λ ^ 2 * ∑ i, ‖u i‖ ^ 2) (U : Matrix n (Fin p) 𝕜) :
    trDot (A * U) (A * U) ≤ Λ ^ 2 * trDot U U := by
  have e : ∀ W : Matrix n (Fin p) 𝕜, trDot W W = ∑ j, ∑ i, ‖W i j‖ ^ 2 := fun W => by
    rw [trDot_self_eq, Finset.sum_comm]
  rw [e, e, Finset.mul_sum]
  exact Finset.sum_le_sum fun j _ => hb fun i => U i j

omit [DecidableEq n] in
theorem subspaceCost_smooth {A : Matrix n n 𝕜} (hA : Aᴴ = A) {Λ : ℝ} (hΛ : 0 ≤ Λ)
    (hb : ∀ u : n → 𝕜, ∑ i, ‖(A *ᵥ u) i‖ ^ 2 ≤ Λ ^ 2 * ∑ i, ‖u i‖ ^ 2) :
    SmoothCost (E := Stack Unit n (Fin p) 𝕜) stackDot (fun X => subspaceCost A (X ()))
      (fun X _ => subspaceGrad A (X ())) (fun X V _ => subspaceHess A (X ()) (V ())) (2 * Λ) where
  nonneg := by positivity
  grad x d := by
    rw [stackDot_unit]
    exact (C128_subspace hA).1 (x ()) (d ())
  hess x d w := by
    simp only [stackDot_unit]
    exact (C128_subspace hA).2 (x ()) (d ()) (w ())
  lip x y := by
    rw [stackDot_unit, stackDot_unit]
    have e : subspaceGrad A (y ()) - subspaceGrad A (x ()) = (-2 : ℝ) • (A * (y () - x ())) := by
      rw [subspaceGrad, subspaceGrad, ← Matrix.mul_sub, smul_mul]
    change trDot (subspaceGrad A (y ()) - subspaceGrad A (x ()))
      (subspaceGrad A (y ()) - subspaceGrad A (x ())) ≤ _ * trDot (y () - x ()) (y () - x ())
    rw [e, trDot_inner.smul_left, trDot_inner.smul_right]
    nlinarith [trDot_bound hb (y () - x ())]

/-- **C132** (dominant_invariant_subspace.py, dominant_invariant_complex_subspace.py): `TrustRegions`
with the default parameters ends within `trIterations`, and unless another limit ends it earlier the
columns of the returned point are orthonormal and span a subspace that is invariant up to a residual
of `ε / 2`. -/
theorem C132_subspace {A : Matrix n n 𝕜} (hA : Aᴴ = A) {Λ ε : ℝ} (hΛ : 0 < Λ)
    (hb : ∀ u : n → 𝕜, ∑ i, ‖(A *ᵥ u) i‖ ^ 2 ≤ Λ ^ 2 * ∑ i, ‖u i‖ ^ 2) (dim : ℤ)
    (retraction log pairMean :
      Stack Unit n (Fin p) 𝕜 → Stack Unit n (Fin p) 𝕜 → Stack Unit n (Fin p) 𝕜)
    (hr : ∀ X V, IsGrRetraction X V (retraction X V)) {td : ℝ} (htd : 0 < td)
    {X : Stack Unit n (Fin p) 𝕜} (hX : (X ())ᴴ * X () = 1) (hε : 0 < ε)
    (hx0 : (ε / 2) ^ 2 ≤ ∑ i, ∑ j, ‖(A * X () - X () * ((X ())ᴴ * A * X ())) i j‖ ^ 2)
    {L : ℝ} (hL : L = 2 * Λ * (1 + Real.sqrt p))
    (hk : 0 < trDecrease L ε (subspaceCost A (X ())) (-(Λ * p)) td) {cfg : Cfg ℝ}
    (hcfg : cfg.minGradientNorm = ε) {clk : Clock ℝ} {eta0 : ℤ → Stack Unit n (Fin p) 𝕜}
    {res : Result ℝ (Stack Unit n (Fin p) 𝕜)} {hist : List (Stack Unit n (Fin p) 𝕜 × ℝ × ℝ)}
    (h : TRRuns cfg realTR (subspaceProb A dim retraction log pairMean) clk eta0 1 none (some td) none
      none X (.ok (res, hist))) :
    (res.iterations : ℝ) ≤ trIterations L ε (subspaceCost A (X ())) (-(Λ * p)) td ∧
    (trIterations L ε (subspaceCost A (X ())) (-(Λ * p)) td < cfg.maxIterations →
      (∀ i, clk.check2 i 0 < clk.start + cfg.maxTime) → 0 ≤ cfg.maxCostEvaluations →
      let Y := res.point ()
      ∑ i, ∑ j, ‖(A * Y - Y * (Yᴴ * A * Y)) i j‖ ^ 2 < (ε / 2) ^ 2) := by
  set pb := subspaceProb A dim retraction log pairMean with hpb
  have hn : ∀ Y, pb.M.norm Y (pb.grad Y) ^ 2 = 4 * ∑ i, ∑ j,
      ‖(A * Y () - Y () * ((Y ())ᴴ * A * Y ())) i j‖ ^ 2 := fun Y => by
    change stackNorm (cgrProj Y fun _ => subspaceGrad A (Y ())) ^ 2 = _
    rw [stackNorm_sq, stackDot_unit, ← trDot_self_eq]
    have e : cgrProj Y (fun _ => subspaceGrad A (Y ())) () =
        (-2 : ℝ) • (A * Y () - Y () * ((Y ())ᴴ * A * Y ())) := by
      change subspaceGrad A (Y ()) - Y () * multihconj Y () * subspaceGrad A (Y ()) = _
      rw [show multihconj Y () = (Y ())ᴴ from rfl, subspaceGrad, smul_mul, Matrix.mul_smul, smul_sub,
        Matrix.mul_assoc, Matrix.mul_assoc]
    rw [e, trDot_inner.smul_left, trDot_inner.smul_right]
    ring
  have hn0 : ∀ Y, 0 ≤ pb.M.norm Y (pb.grad Y) := fun Y => stackNorm_nonneg _
  have hon : ∀ Y : Stack Unit n (Fin p) 𝕜, Orthonormal' Y → trDot (Y ()) (Y ()) = p := fun Y hY => by
    rw [trDot, orthonormal_iff.mp hY ()]
    simp
  have hsp : Real.sqrt p ^ 2 = p := Real.sq_sqrt (Nat.cast_nonneg p)
  have hXO : Orthonormal' X := orthonormal_iff.mpr fun _ => hX
  have hL' : 1 ^ 2 * (2 * Λ) + 2 * (1 / 2) * (2 * Λ * Real.sqrt p) = L := by rw [hL]; ring
  have hL'' : 2 * Λ + 1 * (2 * Λ * Real.sqrt p) = L := by rw [hL]; ring
  have hLpos : 0 < L := by rw [hL]; positivity
  have hsm := (C127_smooth (C127_grassmann dim retraction log pairMean hr) stackDot_inner
    (subspaceCost_smooth hA hΛ.le hb) (G := 2 * Λ * Real.sqrt p) (by positivity) (fun Y hY => by
      rw [stackDot_unit]
      rw [subspaceGrad, smul_mul, trDot_inner.smul_left, trDot_inner.smul_right]
      have h1 := trDot_bound hb (Y ())
      rw [hon Y hY] at h1
      rw [mul_pow, hsp]
      nlinarith) (by norm_num) zero_le_one).1
  rw [hL', hL''] at hsm
  have hS : TCGSound pb Orthonormal' GrHorizontal := by
    refine C115_grassmann dim retraction log pairMean _ (fun Y _ W hW => ?_) fun Y U V => ?_
    · rw [stackDot_unit]
      change trDot (subspaceGrad A (Y ())) (Y () * W ()) = 0
      rw [subspaceGrad, smul_mul, trDot_inner.smul_left, trDot_inner.symm, trDot_mul_left,
        trDot_inner.symm, ← Matrix.mul_assoc, trDot_herm_skew ?_ ((skewHermStack_iff W).mp hW ()),
        mul_zero]
      rw [conjTranspose_mul, conjTranspose_mul, conjTranspose_conjTranspose, hA, Matrix.mul_assoc]
    · rw [stackDot_unit, stackDot_unit]
      rw [subspaceHess, subspaceHess, smul_mul, smul_mul, trDot_inner.smul_left,
        trDot_inner.smul_right, trDot_mul_left, hA]
  have hfmin : ∀ Y : Stack Unit n (Fin p) 𝕜, Orthonormal' Y → -(Λ * p) ≤ pb.cost Y := fun Y hY => by
    change _ ≤ subspaceCost A (Y ())
    have h1 : subspaceCost A (Y ()) = -trDot (Y ()) (A * Y ()) := by
      rw [subspaceCost, trDot, Matrix.mul_assoc]
    have h2 := trDot_bound hb (Y ())
    rw [hon Y hY] at h2
    have h3 := (abs_le.1 (trDot_inner.abs_le (u := Y ()) (v := A * Y ()) (Real.sqrt_nonneg p)
      (mul_nonneg hΛ.le (Real.sqrt_nonneg p)) (by rw [hon Y hY, hsp])
      (by rw [mul_pow, hsp]; exact h2))).2
    rw [h1]
    nlinarith
  have h1 := trustRegions_default (ε := ε) hS hsm hLpos hXO htd hfmin hε hk hcfg (fun Y _ => by
      change stackNorm (pb.grad Y) ^ 2 = stackDot (pb.grad Y) (pb.grad Y)
      rw [stackNorm_sq])
    (abs_le_of_sq_le_sq' (by rw [hn]; linarith) (hn0 X)).2 h
  refine ⟨h1.1, fun hm ht hc => ?_⟩
  have h3 := pow_lt_pow_left₀ (h1.2 hm ht hc) (hn0 _) two_ne_zero
  rw [hn] at h3
  simp only
  linarith

end

/-! ## The hypotheses are met -/

/-- dominant_eigenvector.py with the eigenvalues 2 and 1, from `(3/5, 4/5)`. -/
example : (!![2, 0; 0, 1] : Matrix (Fin 2) (Fin 2) ℝ)ᵀ = !![2, 0; 0, 1] ∧
    (∀ u : Fin 2 → ℝ, ∑ i, ((!![2, 0; 0, 1] : Matrix (Fin 2) (Fin 2) ℝ) *ᵥ u) i ^ 2 ≤
      2 ^ 2 * ∑ i, u i ^ 2) ∧ (2 : ℝ) / 1000 ≤ 1 / 100 ∧ ∑ i, (![3 / 5, 4 / 5] : Fin 2 → ℝ) i ^ 2 = 1 ∧
    (2 : ℝ) / 10 ^ 5 * (1 / 100 / 2) ^ 2 ≥ 1 / 10 ^ 10 := by
  refine ⟨by ext i j; fin_cases i <;> fin_cases j <;> rfl, fun u => ?_, by norm_num, ?_, by norm_num⟩
  · simp [Fin.sum_univ_two, mulVec, dotProduct]
    nlinarith [sq_nonneg (u 0), sq_nonneg (u 1)]
  · norm_num [Fin.sum_univ_two]

/-- multiple_linear_regression.py with two samples of one variable, from zero. -/
example : IsPinv (!![1; 2] : Matrix (Fin 2) (Fin 1) ℝ) !![1 / 5, 2 / 5] ∧
    (∀ u : Fin 1 → ℝ, ∑ i, ((!![1; 2] : Matrix (Fin 2) (Fin 1) ℝ)ᵀ *ᵥ
      ((!![1; 2] : Matrix (Fin 2) (Fin 1) ℝ) *ᵥ u)) i ^ 2 ≤ 5 ^ 2 * ∑ i, u i ^ 2) ∧
    (∀ u : Fin 1 → ℝ, 5 * ∑ i, u i ^ 2 ≤ ∑ i, ((!![1; 2] : Matrix (Fin 2) (Fin 1) ℝ) *ᵥ u) i ^ 2) ∧
    (1 / 10 : ℝ) ^ 2 ≤ ∑ i, regGrad (!![1; 2] : Matrix (Fin 2) (Fin 1) ℝ) ![1, 1] 0 i ^ 2 ∧
    0 < trDecrease (2 * 5) (1 / 10) (regCost (!![1; 2] : Matrix (Fin 2) (Fin 1) ℝ) ![1, 1] 0) 0 1 := by
  refine ⟨⟨?_, ?_, ?_, ?_⟩, fun u => ?_, fun u => ?_, ?_, ?_⟩
  iterate 4
    ext i j
    fin_cases i <;> fin_cases j <;> norm_num [Matrix.mul_apply, Fin.sum_univ_two]
  · simp [Fin.sum_univ_two, mulVec, dotProduct]
    nlinarith [sq_nonneg (u 0)]
  · simp [Fin.sum_univ_two, mulVec, dotProduct]
    nlinarith [sq_nonneg (u 0)]
  · norm_num [regGrad, Fin.sum_univ_two, mulVec, dotProduct]
  · have e : regCost (!![1; 2] : Matrix (Fin 2) (Fin 1) ℝ) ![1, 1] 0 = 2 := by
      rw [regCost, npNorm, Real.sq_sqrt (by positivity)]
      norm_num [Fin.sum_univ_two]
    rw [e, trDecrease]
    have e1 : min ((1 : ℝ) / 8) (3 * (1 / 10) / (32 * (2 * 5))) = 3 / 3200 := by
      rw [min_eq_right (by norm_num)]
      norm_num
    have e2 : max (1 : ℝ) (max |2| |0|) = 2 := by norm_num
    rw [e1, e2]
    norm_num

/-- dominant_invariant_subspace.py with the eigenvalues 2 and 1, from the line through `(3, 4)`. -/
example (A : Matrix (Fin 2) (Fin 2) ℝ) (hA : A = !![2, 0; 0, 1]) (X : Matrix (Fin 2) (Fin 1) ℝ)
    (hX : X = !![3 / 5; 4 / 5]) : Xᴴ * X = 1 ∧
    (1 / 10 / 2 : ℝ) ^ 2 ≤ ∑ i, ∑ j, ‖(A * X - X * (Xᴴ * A * X)) i j‖ ^ 2 ∧
    0 < trDecrease (2 * 2 * (1 + Real.sqrt (1 : ℕ))) (1 / 10) (subspaceCost A X) (-(2 * (1 : ℕ))) 1 := by
  subst hA hX
  refine ⟨?_, ?_, ?_⟩
  · ext i j
    fin_cases i; fin_cases j
    norm_num [Matrix.mul_apply, Fin.sum_univ_two]
  · norm_num [Matrix.mul_apply, Fin.sum_univ_two, vecMul, dotProduct]
  · have e : subspaceCost (!![2, 0; 0, 1] : Matrix (Fin 2) (Fin 2) ℝ)
        (!![3 / 5; 4 / 5] : Matrix (Fin 2) (Fin 1) ℝ) = -34 / 25 := by
      norm_num [subspaceCost, Matrix.trace, Matrix.mul_apply, Fin.sum_univ_two]
    have e1 : Real.sqrt ((1 : ℕ) : ℝ) = 1 := by simp
    rw [e, e1, trDecrease]
    have e2 : min ((1 : ℝ) / 8) (3 * (1 / 10) / (32 * (2 * 2 * (1 + 1)))) = 3 / 2560 := by
      rw [min_eq_right (by norm_num)]
      norm_num
    have e3 : max (1 : ℝ) (max |-34 / 25| |-(2 * ((1 : ℕ) : ℝ))|) = 2 := by
      rw [abs_of_nonpos (by norm_num), abs_of_nonpos (by norm_num)]
      norm_num
    rw [e2, e3]
    norm_num

end Verif.Geo.Examples
