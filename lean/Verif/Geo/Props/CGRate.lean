/-
C153: how fast conjugate gradient and steepest descent with an exact line search minimise a strictly
convex quadratic function.
-/
import Verif.Opt.Model.SD
import Verif.Geo.Lemmas.SpectralPoly
import Verif.Geo.Props.CGFinite

namespace Verif.Geo
open Verif.Opt PyNum Polynomial

variable {V S : Type*} [AddCommGroup V] [Module ℝ V]

/-! ### Specification -/

/-- The eigenvalues of the preconditioned Hessian `W H` lie between `a` and `b`, in terms of
quadratic forms. -/
def PreconBounds (B : V → V → ℝ) (H W : V →ₗ[ℝ] V) (a b : ℝ) : Prop :=
  ∀ v, a * B v (H v) ≤ B (H v) (W (H v)) ∧ B (H v) (W (H v)) ≤ b * B v (H v)

/-- `y` minimises the cost. -/
def IsMinimiser (pb : Prob ℝ V V) (y : V) : Prop := ∀ z, pb.cost y ≤ pb.cost z

section
variable {pb : Prob ℝ V V} {B : V → V → ℝ} {H W : V →ₗ[ℝ] V}

theorem IsInner.cauchy_schwarz {B : V → V → ℝ} (hB : IsInner B) (u v : V) :
    B u v ^ 2 ≤ B u u * B v v := by
  by_cases hv : v = 0
  · subst hv
    have h0 : ∀ w, B w (0 : V) = 0 := fun w => by simpa using hB.smul_right 0 w 0
    simp [h0]
  · have hp : 0 < B v v := (hB.nonneg v).lt_of_ne fun h => hv (hB.definite v h.symm)
    have h := hB.nonneg (B v v • u + (-B u v) • v)
    simp only [hB.add_left, hB.add_right, hB.smul_left, hB.smul_right, hB.symm v u] at h
    have h2 : 0 ≤ B v v * (B u u * B v v - B u v ^ 2) := by nlinarith
    have := (mul_nonneg_iff_of_pos_left hp).1 h2
    linarith

/-- The inner product given by the Hessian. -/
theorem FlatQuadratic.hessInner (hq : FlatQuadratic pb B H W) : IsInner fun u v => B (H u) v where
  add_left u v w := by rw [map_add, hq.isInner.add_left]
  smul_left c u v := by rw [map_smul, hq.isInner.smul_left]
  symm u v := by rw [hq.H_symm, hq.isInner.symm]
  nonneg u := by
    rw [hq.isInner.symm]
    by_cases h : u = 0
    · subst h
      have := hq.isInner.smul_left 0 (0 : V) (H 0)
      rw [zero_smul, zero_mul] at this
      exact this.ge
    · exact (hq.H_pos u h).le
  definite u h := by
    by_contra hu
    have := hq.H_pos u hu
    rw [hq.isInner.symm, h] at this
    exact lt_irrefl _ this

/-- The cost above that of a critical point. -/
theorem FlatQuadratic.gap (hq : FlatQuadratic pb B H W) {y : V} (hy : pb.grad y = 0) (x : V) :
    pb.cost x - pb.cost y = 1 / 2 * B (H (x - y)) (x - y) := by
  have e : x = y + (x - y) := by abel
  have h0 : B (0 : V) (x - y) = 0 := by simpa using hq.isInner.smul_left 0 0 (x - y)
  have := hq.cost y (x - y)
  rw [← e, hy, h0] at this
  rw [this, hq.isInner.symm (H _)]
  ring

theorem FlatQuadratic.injective (hq : FlatQuadratic pb B H W) : Function.Injective H := by
  rw [← LinearMap.ker_eq_bot, LinearMap.ker_eq_bot']
  intro v hv
  refine hq.hessInner.definite v ?_
  rw [hv]
  simpa using hq.isInner.smul_left 0 0 v

theorem FlatQuadratic.exists_critical [FiniteDimensional ℝ V] (hq : FlatQuadratic pb B H W) :
    ∃ y, pb.grad y = 0 := by
  obtain ⟨v, hv⟩ := (LinearMap.injective_iff_surjective.1 hq.injective) (-pb.grad 0)
  refine ⟨0 + v, ?_⟩
  rw [hq.grad, hv, add_neg_cancel]

/-- The minimiser is the critical point. -/
theorem FlatQuadratic.critical [FiniteDimensional ℝ V] (hq : FlatQuadratic pb B H W) {y : V}
    (hy : IsMinimiser pb y) : pb.grad y = 0 := by
  obtain ⟨z, hz⟩ := hq.exists_critical
  have h1 := hq.gap hz y
  have h2 := hy z
  have h3 : 0 ≤ B (H (y - z)) (y - z) := hq.hessInner.nonneg _
  have h4 : B (H (y - z)) (y - z) = 0 := by linarith
  have := hq.hessInner.definite _ h4
  rw [sub_eq_zero.1 this, hz]

theorem mem_flatKrylov_aeval {g : V} {k : ℕ} {q : ℝ[X]} (hq : q.natDegree < k) :
    aeval (W ∘ₗ H) q (W g) ∈ flatKrylov g H W k := by
  rw [aeval_eq_sum_range' hq, LinearMap.sum_apply]
  refine Submodule.sum_mem _ fun i hi => ?_
  rw [LinearMap.smul_apply]
  refine Submodule.smul_mem _ _ (Submodule.subset_span ⟨i, Finset.mem_range.1 hi, ?_⟩)
  rw [Module.End.pow_apply]
  rfl

/-- The error after `k` steps is at most that of any polynomial of degree `k` in the preconditioned
Hessian. -/
theorem CGState.Exact.poly (hq : FlatQuadratic pb B H W) {x0 y : V} (hy : pb.grad y = 0)
    {s : CGState ℝ V V S} {g d : ℕ → V} {k : ℕ} (hs : CGState.Exact pb B H W x0 s g d k) {p : ℝ[X]}
    (hp : p.natDegree ≤ k) (hp0 : p.eval 0 = 1) :
    pb.cost s.x - pb.cost y ≤
      1 / 2 * B (H (aeval (W ∘ₗ H) p (x0 - y))) (aeval (W ∘ₗ H) p (x0 - y)) := by
  have hg : pb.grad x0 = H (x0 - y) := by
    have := hq.grad y (x0 - y)
    rwa [add_sub_cancel, hy, zero_add] at this
  have hpe : p = divX p * X + 1 := by
    conv_lhs => rw [← divX_mul_X_add p, coeff_zero_eq_eval_zero, hp0, map_one]
  have hap : aeval (W ∘ₗ H) p (x0 - y) = x0 + aeval (W ∘ₗ H) (divX p) (W (pb.grad x0)) - y := by
    conv_lhs => rw [hpe]
    rw [map_add, map_mul, aeval_X, map_one, LinearMap.add_apply, Module.End.mul_apply,
      Module.End.one_apply, hg, LinearMap.comp_apply]
    abel
  have hmem : aeval (W ∘ₗ H) (divX p) (W (pb.grad x0)) ∈ flatKrylov (pb.grad x0) H W k := by
    rcases Nat.eq_zero_or_pos k with rfl | hk
    · have : divX p = 0 := by
        rw [divX_eq_zero_iff]
        exact eq_C_of_natDegree_eq_zero (Nat.le_zero.1 hp)
      rw [this, map_zero, LinearMap.zero_apply]
      exact Submodule.zero_mem _
    · refine mem_flatKrylov_aeval ?_
      rw [natDegree_divX_eq_natDegree_tsub_one]
      omega
  rw [hap, ← hq.gap hy]
  linarith [hs.minimal hq hmem]

theorem FlatQuadratic.precon_symm (hq : FlatQuadratic pb B H W) (u v : V) :
    B (H ((W ∘ₗ H) u)) v = B (H u) ((W ∘ₗ H) v) := by
  simp only [LinearMap.comp_apply]
  rw [hq.H_symm, hq.W_symm]

/-- The error after `k` steps in terms of the extreme eigenvalues. -/
theorem CGState.Exact.rate [FiniteDimensional ℝ V] (hq : FlatQuadratic pb B H W) {a b : ℝ}
    (ha : 0 < a) (hab : a ≤ b) (hw : PreconBounds B H W a b) {x0 y : V} (hy : pb.grad y = 0)
    {s : CGState ℝ V V S} {g d : ℕ → V} {k : ℕ} (hs : CGState.Exact pb B H W x0 s g d k) :
    pb.cost s.x - pb.cost y ≤ 4 * chebRate a b ^ (2 * k) * (pb.cost x0 - pb.cost y) := by
  obtain ⟨p, hp, hp0, hpM⟩ := exists_chebyshev ha hab k
  have h1 := hs.poly hq hy hp hp0
  have h2 := hq.hessInner.aeval_le (T := W ∘ₗ H) hq.precon_symm (a := a) (b := b)
    (fun v => by
      have := (hw v).1
      rwa [hq.isInner.symm v] at this)
    (fun v => by
      have := (hw v).2
      rwa [hq.isInner.symm v] at this) hpM (x0 - y)
  rw [hq.gap hy x0]
  have e : (2 * chebRate a b ^ k) ^ 2 = 4 * chebRate a b ^ (2 * k) := by
    rw [mul_pow, ← pow_mul, mul_comm k]
    norm_num
  rw [e] at h2
  linarith

omit [AddCommGroup V] [Module ℝ V] in
/-- The condition on the gradient in a pass of the loop that is not stopped. -/
theorem cgStop_norm {cfg : Cfg ℝ} {clk : Clock ℝ} {s : CGState ℝ V V S}
    (hc : cgStop cfg clk s = none) : cfg.minGradientNorm ≤ s.gradientNorm := by
  unfold cgStop checkStop at hc
  by_contra hn
  rw [not_le] at hn
  simp only [Option.any_some, PyNum.lt, decide_eq_true_eq, hn, if_true] at hc
  split at hc
  · cases hc
  · split at hc <;> cases hc

/-- **C153** (rate): the cost of the point that conjugate gradient with an exact line search returns
after `k + 1` iterations exceeds the minimum by at most `4 ((√b - √a) / (√b + √a)) ^ (2 k)` times the
excess of the starting point, where `a` and `b` bound the eigenvalues of the preconditioned Hessian;
if the run went on after the first check, the square of the threshold for the gradient is at most
`8 c` times the excess one iteration before. -/
theorem C153_rate [FiniteDimensional ℝ V] (hq : FlatQuadratic pb B H W)
    {ls : LineSearcher ℝ V V S} (hls : ExactSearch ls pb B) {cfg : Cfg ℝ}
    (hε : 0 < cfg.minGradientNorm) {clk : Clock ℝ} {x y : V} (hy : IsMinimiser pb y) {mem : S}
    {rule : BetaRule} {orth : ℝ} (ho : 0 < orth) {a b : ℝ} (ha : 0 < a) (hab : a ≤ b)
    (hw : PreconBounds B H W a b) {res : Result ℝ V} {m : S} {t : List (V × V × ℝ)}
    (h : CGRuns cfg rule orth ls pb clk x mem (.ok (res, m, t))) :
    ∃ k : ℕ, res.iterations = k + 1 ∧
      pb.cost res.point - pb.cost y ≤ 4 * chebRate a b ^ (2 * k) * (pb.cost x - pb.cost y) ∧
      ∀ c, (∀ v, B (H v) (H v) ≤ c * B v (H v)) → 0 ≤ c → ∀ j, k = j + 1 →
        cfg.minGradientNorm ^ 2 ≤
          8 * c * chebRate a b ^ (2 * j) * (pb.cost x - pb.cost y) := by
  have hB := hq.isInner
  replace hy := hq.critical hy
  unfold CGRuns at h
  split at h
  · cases h
  refine Runs.invariant
    (fun s => ∃ g d k, CGState.Exact pb B H W x s g d k ∧
      ∀ c, (∀ v, B (H v) (H v) ≤ c * B v (H v)) → 0 ≤ c → ∀ j, k = j + 1 →
        cfg.minGradientNorm ^ 2 ≤
          8 * c * chebRate a b ^ (2 * j) * (pb.cost x - pb.cost y))
    (fun r : Result ℝ V × S × List (V × V × ℝ) => ∃ k : ℕ, r.1.iterations = k + 1 ∧
      pb.cost r.1.point - pb.cost y ≤ 4 * chebRate a b ^ (2 * k) * (pb.cost x - pb.cost y) ∧
      ∀ c, (∀ v, B (H v) (H v) ≤ c * B v (H v)) → 0 ≤ c → ∀ j, k = j + 1 →
        cfg.minGradientNorm ^ 2 ≤
          8 * c * chebRate a b ^ (2 * j) * (pb.cost x - pb.cost y))
    ?_ ?_ h ?_
  · rintro s s' ⟨g, d, k, hs, -⟩ hstep
    obtain ⟨-, g', d', h2⟩ := cgStep_next hq hls hε ho hs hstep
    refine ⟨g', d', k + 1, h2, ?_⟩
    rintro c hc hc0 j hj
    obtain rfl : k = j := by omega
    cases hst : cgStop cfg clk s with
    | some reason => rw [cgStep_stop hst] at hstep; cases hstep
    | none =>
      have h3 := cgStop_norm hst
      have h4 := hs.rate hq ha hab hw hy
      have hgx : pb.grad s.x = H (s.x - y) := by
        have := hq.grad y (s.x - y)
        rwa [add_sub_cancel, hy, zero_add] at this
      have h5 : s.gradientNorm ^ 2 = B (H (s.x - y)) (H (s.x - y)) := by
        rw [hs.norm, Real.sq_sqrt (hB.nonneg _), ← hs.grad, hs.gradx, hgx]
      have h6 := hc (s.x - y)
      rw [hB.symm (s.x - y)] at h6
      have h7 := hq.gap hy s.x
      calc cfg.minGradientNorm ^ 2 ≤ s.gradientNorm ^ 2 := pow_le_pow_left₀ hε.le h3 2
        _ ≤ c * (2 * (pb.cost s.x - pb.cost y)) := by rw [h5, h7]; linarith
        _ ≤ c * (2 * (4 * chebRate a b ^ (2 * k) * (pb.cost x - pb.cost y))) := by gcongr
        _ = _ := by ring
  · rintro s r ⟨g, d, k, hs, hk⟩ hstep
    cases hc : cgStop cfg clk s with
    | none =>
      obtain ⟨-, o, -, hz, hnz⟩ := cgStep_exact hq hls hε hs hc
      by_cases h0 : pb.grad o.newx = 0
      · rw [hz h0] at hstep; cases hstep
      · obtain ⟨t, -, h1, -⟩ := hnz h0
        rw [h1 rule orth ho] at hstep
        cases hstep
    | some reason =>
      rw [cgStep_stop hc] at hstep
      cases hstep
      exact ⟨k, by simp only [hs.iteration], hs.rate hq ha hab hw hy, hk⟩
  · obtain ⟨g, d, h0⟩ := cgInit_exact hq cfg x mem
    exact ⟨g, d, 0, h0, fun c _ _ j hj => by omega⟩

/-- **C153** (number of iterations): a run that makes more than one iteration makes at most
`2 + √(b/a)/4 · log (8 c E / ε²)` of them, where `E` is the excess of the cost at the start, `ε` the
threshold for the norm of the gradient and `c` bounds the eigenvalues of the Hessian.  The dimension
does not enter. -/
theorem C153_iterations [FiniteDimensional ℝ V] (hq : FlatQuadratic pb B H W)
    {ls : LineSearcher ℝ V V S} (hls : ExactSearch ls pb B) {cfg : Cfg ℝ}
    (hε : 0 < cfg.minGradientNorm) {clk : Clock ℝ} {x y : V} (hy : IsMinimiser pb y) {mem : S}
    {rule : BetaRule} {orth : ℝ} (ho : 0 < orth) {a b c : ℝ} (ha : 0 < a) (hab : a ≤ b)
    (hw : PreconBounds B H W a b) (hc : ∀ v, B (H v) (H v) ≤ c * B v (H v)) (hc0 : 0 ≤ c)
    {res : Result ℝ V} {m : S} {t : List (V × V × ℝ)}
    (h : CGRuns cfg rule orth ls pb clk x mem (.ok (res, m, t))) (h1 : 1 < res.iterations) :
    (res.iterations : ℝ) ≤
      2 + √(b / a) / 4 * Real.log (8 * c * (pb.cost x - pb.cost y) / cfg.minGradientNorm ^ 2) := by
  obtain ⟨k, hk, -, h2⟩ := C153_rate hq hls hε hy ho ha hab hw h
  obtain ⟨j, rfl⟩ : ∃ j, k = j + 1 := ⟨k - 1, by omega⟩
  have h3 := h2 c hc hc0 j rfl
  have hb := ha.trans_le hab
  set E := pb.cost x - pb.cost y with hE
  have hε2 : 0 < cfg.minGradientNorm ^ 2 := by positivity
  have hE0 : 0 ≤ E := sub_nonneg.2 (hy x)
  have hρ := chebRate_nonneg hab
  have hcE : 0 < 8 * c * E := by
    rcases (show 0 ≤ 8 * c * E by positivity).eq_or_lt with h0 | h0
    · have : 8 * c * chebRate a b ^ (2 * j) * E = 0 := by
        calc _ = 8 * c * E * chebRate a b ^ (2 * j) := by ring
          _ = 0 := by rw [← h0, zero_mul]
      linarith
    · exact h0
  have h4 : chebRate a b ^ (2 * j) ≤ Real.exp (-(4 * j * √(a / b))) := by
    calc _ ≤ Real.exp (-(2 * √(a / b))) ^ (2 * j) :=
          pow_le_pow_left₀ hρ (chebRate_le_exp ha hab) _
      _ = _ := by
        rw [← Real.exp_nat_mul]
        congr 1
        push_cast
        ring
  have h5 : Real.exp (4 * j * √(a / b)) ≤ 8 * c * E / cfg.minGradientNorm ^ 2 := by
    rw [le_div_iff₀ hε2]
    calc Real.exp (4 * j * √(a / b)) * cfg.minGradientNorm ^ 2 ≤
          Real.exp (4 * j * √(a / b)) * (8 * c * chebRate a b ^ (2 * j) * E) := by gcongr
      _ ≤ Real.exp (4 * j * √(a / b)) * (8 * c * Real.exp (-(4 * j * √(a / b))) * E) := by gcongr
      _ = 8 * c * E * (Real.exp (4 * j * √(a / b)) * Real.exp (-(4 * j * √(a / b)))) := by ring
      _ = 8 * c * E := by rw [← Real.exp_add, add_neg_cancel, Real.exp_zero, mul_one]
  have h6 : 4 * j * √(a / b) ≤ Real.log (8 * c * E / cfg.minGradientNorm ^ 2) := by
    rw [Real.le_log_iff_exp_le (by positivity)]
    exact h5
  have h7 : √(b / a) * √(a / b) = 1 := by
    rw [← Real.sqrt_mul (by positivity), div_mul_div_cancel₀ ha.ne', div_self hb.ne', Real.sqrt_one]
  have h8 : (j : ℝ) ≤ √(b / a) / 4 * Real.log (8 * c * E / cfg.minGradientNorm ^ 2) := by
    calc (j : ℝ) = √(b / a) / 4 * (4 * j * √(a / b)) := by linear_combination (-(j : ℝ)) * h7
      _ ≤ _ := by gcongr
  rw [hk]
  push_cast
  linarith

/-- **C153** (few eigenvalues): a run makes at most as many iterations as the preconditioned Hessian
has different eigenvalues (and at least one). -/
theorem C153_eigenvalues [FiniteDimensional ℝ V] (hq : FlatQuadratic pb B H W)
    {ls : LineSearcher ℝ V V S} (hls : ExactSearch ls pb B) {cfg : Cfg ℝ}
    (hε : 0 < cfg.minGradientNorm) {clk : Clock ℝ} {x : V} {mem : S} {rule : BetaRule} {orth : ℝ}
    (ho : 0 < orth) {Λ : Finset ℝ}
    (hΛ : ∀ c v, v ≠ 0 → W (H v) = c • v → c ∈ Λ) {res : Result ℝ V} {m : S} {t : List (V × V × ℝ)}
    (h : CGRuns cfg rule orth ls pb clk x mem (.ok (res, m, t))) :
    res.iterations ≤ max 1 (Λ.card : ℤ) := by
  obtain ⟨y, hy⟩ := hq.exists_critical
  set Λ' := Λ.erase 0 with hΛ'
  have hne : ∀ c ∈ Λ', c ≠ 0 := fun c hc => (Finset.mem_erase.1 hc).1
  set P : ℝ[X] := ∏ c ∈ Λ', (1 - C c⁻¹ * X) with hP
  have hP0 : P.eval 0 = 1 := by simp [hP, eval_prod]
  have hPd : P.natDegree ≤ Λ.card := by
    refine (natDegree_prod_le _ _).trans ?_
    calc ∑ c ∈ Λ', (1 - C c⁻¹ * X : ℝ[X]).natDegree ≤ ∑ c ∈ Λ', 1 := by
          refine Finset.sum_le_sum fun c _ => (natDegree_sub_le _ _).trans ?_
          have := natDegree_C_mul_X_pow_le c⁻¹ 1
          rw [pow_one] at this
          rw [natDegree_one]
          omega
      _ = Λ'.card := by simp
      _ ≤ Λ.card := Finset.card_le_card (Finset.erase_subset _ _)
  have hPT : aeval (W ∘ₗ H) P = 0 := by
    refine hq.hessInner.aeval_eq_zero hq.precon_symm fun c hc => ?_
    obtain ⟨v, hv⟩ := hc.exists_hasEigenvector
    have hv1 : W (H v) = c • v := hv.apply_eq_smul
    have hc0 : c ≠ 0 := by
      rintro rfl
      rw [zero_smul] at hv1
      have hHv : H v ≠ 0 := fun h0 => hv.2 (hq.injective (by rw [h0, map_zero]))
      have := hq.W_pos _ hHv
      rw [hv1] at this
      have h0 : B (H v) 0 = 0 := by simpa using hq.isInner.smul_right 0 (H v) 0
      linarith
    have hcm : c ∈ Λ' := Finset.mem_erase.2 ⟨hc0, hΛ c v hv.2 hv1⟩
    rw [hP, eval_prod]
    refine Finset.prod_eq_zero hcm ?_
    simp [hc0]
  have hlt : ∀ {s : CGState ℝ V V S} {g d k}, CGState.Exact pb B H W x s g d k →
      pb.grad s.x ≠ 0 → k < Λ.card := by
    intro s g d k hs hg
    by_contra hk
    rw [not_lt] at hk
    have h1 := hs.poly hq hy (hPd.trans hk) hP0
    have h0 : B (0 : V) 0 = 0 := by simpa using hq.isInner.smul_left 0 0 0
    rw [hPT, LinearMap.zero_apply, map_zero, h0, mul_zero] at h1
    have h2 : IsMinimiser pb s.x := fun z => by linarith [hq.minimum hy z]
    exact hg (hq.critical h2)
  unfold CGRuns at h
  split at h
  · cases h
  refine Runs.invariant
    (fun s => ∃ g d k, CGState.Exact pb B H W x s g d k ∧ (0 < k → k < Λ.card))
    (fun r : Result ℝ V × S × List (V × V × ℝ) => r.1.iterations ≤ max 1 (Λ.card : ℤ))
    ?_ ?_ h ?_
  · rintro s s' ⟨g, d, k, hs, hk⟩ hstep
    cases hc : cgStop cfg clk s with
    | some reason => rw [cgStep_stop hc] at hstep; cases hstep
    | none =>
      obtain ⟨hgk, o, -, hz, hnz⟩ := cgStep_exact hq hls hε hs hc
      by_cases h0 : pb.grad o.newx = 0
      · rw [hz h0] at hstep; cases hstep
      · obtain ⟨t, htx, h1, g', d', h2⟩ := hnz h0
        have h1' := h1 rule orth ho
        rw [hstep] at h1'
        cases h1'
        exact ⟨g', d', k + 1, h2, fun _ => hlt h2 (by rw [htx]; exact h0)⟩
  · rintro s r ⟨g, d, k, hs, hk⟩ hstep
    cases hc : cgStop cfg clk s with
    | none =>
      obtain ⟨-, o, -, hz, hnz⟩ := cgStep_exact hq hls hε hs hc
      by_cases h0 : pb.grad o.newx = 0
      · rw [hz h0] at hstep; cases hstep
      · obtain ⟨t, -, h1, -⟩ := hnz h0
        rw [h1 rule orth ho] at hstep
        cases hstep
    | some reason =>
      rw [cgStep_stop hc] at hstep
      cases hstep
      simp only [hs.iteration]
      rcases Nat.eq_zero_or_pos k with rfl | hk0
      · simp
      · refine le_max_of_le_right ?_
        have := hk hk0
        omega
  · obtain ⟨g, d, h0⟩ := cgInit_exact hq cfg x mem
    exact ⟨g, d, 0, h0, fun h => absurd h (lt_irrefl 0)⟩

/-- Without preconditioner the bounds are those of the Hessian. -/
theorem FlatQuadratic.preconBounds (hq : FlatQuadratic pb B H LinearMap.id) {a b : ℝ} (ha : 0 < a)
    (hH : ∀ v, a * B v v ≤ B v (H v) ∧ B v (H v) ≤ b * B v v) :
    PreconBounds B H LinearMap.id a b := by
  have hB := hq.isInner
  intro v
  by_cases hv : v = 0
  · have h0 : ∀ w : V, B (0 : V) w = 0 := fun w => by simpa using hB.smul_left 0 0 w
    simp [hv, h0]
  have hp := hq.H_pos v hv
  simp only [LinearMap.id_apply]
  have h1 := hB.cauchy_schwarz v (H v)
  have h2 := hq.hessInner.cauchy_schwarz v (H v)
  have hn := hB.nonneg (H v)
  constructor
  · have h3 := (hH v).1
    have h4 : B v v * a * B (H v) (H v) ≤ B v (H v) * B (H v) (H v) :=
      mul_le_mul_of_nonneg_right (by linarith) hn
    have h5 : a * B v (H v) ^ 2 ≤ B v (H v) * B (H v) (H v) := by
      nlinarith [mul_le_mul_of_nonneg_left h1 ha.le]
    nlinarith
  · have h3 := (hH (H v)).2
    rw [hq.H_symm (H v), hB.symm (H v) v] at h2
    have h4 : B (H v) (H v) ^ 2 ≤ B v (H v) * (b * B (H v) (H v)) :=
      h2.trans (mul_le_mul_of_nonneg_left h3 hp.le)
    have hHv : H v ≠ 0 := fun h0 => hv (hq.injective (by rw [h0, map_zero]))
    have hpos : 0 < B (H v) (H v) := hn.lt_of_ne fun h0 => hHv (hB.definite _ h0.symm)
    nlinarith

/-- **C153** (steepest descent): with an exact line search every iteration of steepest descent
multiplies the excess of the cost by at most `((b - a) / (b + a)) ^ 2`. -/
theorem C153_steepest [FiniteDimensional ℝ V] (hq : FlatQuadratic pb B H W)
    {ls : LineSearcher ℝ V V S} (hls : ExactSearch ls pb B)
    (hz : ∀ mem x o, pb.grad x = 0 →
      ls.search mem pb.cost pb.M x 0 (pb.cost x) 0 = .ok o → o.newx = x)
    {cfg : Cfg ℝ} {clk : Clock ℝ} {x y : V} (hy : IsMinimiser pb y) {mem : S} {a b : ℝ} (ha : 0 < a)
    (hab : a ≤ b) (hH : ∀ v, a * B v v ≤ B v (H v) ∧ B v (H v) ≤ b * B v v) {res : Result ℝ V}
    {m : S} (h : SDRuns cfg ls pb clk x mem (.ok (res, m))) :
    ∃ k : ℕ, res.iterations = k ∧ 0 < k ∧
      pb.cost res.point - pb.cost y ≤ ((b - a) / (b + a)) ^ (2 * k) * (pb.cost x - pb.cost y) := by
  have hB := hq.isInner
  replace hy := hq.critical hy
  have hq' : FlatQuadratic { pb with precon := fun _ v => v } B H LinearMap.id :=
    { hq with
      precon := fun _ _ => rfl
      W_symm := fun _ _ => rfl
      W_pos := fun v hv => (hB.nonneg v).lt_of_ne fun h => hv (hB.definite v h.symm) }
  have hw := hq'.preconBounds ha hH
  have hstep : ∀ mem x o, ls.search mem pb.cost pb.M x (-pb.grad x) (pb.cost x)
      (B (pb.grad x) (-pb.grad x)) = .ok o →
      pb.cost o.newx - pb.cost y ≤ ((b - a) / (b + a)) ^ 2 * (pb.cost x - pb.cost y) := by
    intro mem x o ho
    by_cases hg : pb.grad x = 0
    · have h0 : B (0 : V) 0 = 0 := by simpa using hB.smul_left 0 0 0
      rw [hg, neg_zero, h0] at ho
      rw [hz mem x o hg ho]
      have h1 := hq.minimum hg y
      have h2 := hq.minimum hy x
      rw [le_antisymm h1 h2, sub_self, mul_zero]
    · have hneg : B (pb.grad x) (-pb.grad x) < 0 := by
        rw [hB.neg_right]
        have : 0 < B (pb.grad x) (pb.grad x) :=
          (hB.nonneg _).lt_of_ne fun h => hg (hB.definite _ h.symm)
        linarith
      obtain ⟨o', ho', t, ht, hperp⟩ := hls mem x _ hneg
      rw [ho] at ho'
      cases ho'
      -- the point at step `2 / (a + b)` is no better
      have hle : pb.cost o.newx ≤ pb.cost (x + (2 / (b + a)) • (-pb.grad x)) := by
        have e : x + (2 / (b + a)) • (-pb.grad x) =
            o.newx + (2 / (b + a) - t) • (-pb.grad x) := by
          rw [ht, sub_smul]; abel
        rw [e, hq.cost, hB.smul_right, hperp, mul_zero, hB.symm _ (H _)]
        have := hq.hessInner.nonneg ((2 / (b + a) - t) • (-pb.grad x))
        linarith
      have hgx : pb.grad x = H (x - y) := by
        have := hq.grad y (x - y)
        rwa [add_sub_cancel, hy, zero_add] at this
      have h2 := hq'.hessInner.aeval_le (T := LinearMap.id ∘ₗ H) hq'.precon_symm (a := a) (b := b)
        (M := (b - a) / (b + a)) (p := 1 - C (2 / (b + a)) * X)
        (fun v => by
          have := (hw v).1
          rwa [hB.symm v] at this)
        (fun v => by
          have := (hw v).2
          rwa [hB.symm v] at this)
        (fun z h1 h2 => by
          simp only [eval_sub, eval_one, eval_mul, eval_C, eval_X]
          have hs : 0 < b + a := by linarith
          have e : 1 - 2 / (b + a) * z = (b + a - 2 * z) / (b + a) := by field_simp
          rw [e, abs_div, abs_of_pos hs]
          gcongr
          rw [abs_le]
          constructor <;> linarith) (x - y)
      have e2 : aeval (LinearMap.id ∘ₗ H) (1 - C (2 / (b + a)) * X : ℝ[X]) (x - y) =
          x + (2 / (b + a)) • (-pb.grad x) - y := by
        rw [map_sub (aeval _), map_mul, map_one, aeval_X, aeval_C, LinearMap.sub_apply, Module.End.one_apply,
          Module.End.mul_apply, Module.algebraMap_end_apply, LinearMap.comp_apply,
          LinearMap.id_apply, hgx, smul_neg]
        abel
      rw [e2] at h2
      have h3 := hq.gap hy (x + (2 / (b + a)) • (-pb.grad x))
      have h4 := hq.gap hy x
      rw [h4]
      linarith
  unfold SDRuns at h
  split at h
  · cases h
  have hρ : 0 ≤ ((b - a) / (b + a)) ^ 2 := sq_nonneg _
  have hslope : ∀ s : SDState ℝ V S, PyNum.neg (PyNum.pow (pb.M.norm s.x (pb.grad s.x)) (lit 2)) =
      B (pb.grad s.x) (-pb.grad s.x) := by
    intro s
    simp only [PyNum.neg, PyNum.pow, PyNum.lit, hq.norm]
    rw [hB.neg_right]
    norm_num
    exact Real.sq_sqrt (hB.nonneg _)
  refine Runs.invariant
    (fun s : SDState ℝ V S => ∃ k : ℕ, s.iteration = k ∧
      pb.cost s.x - pb.cost y ≤ ((b - a) / (b + a)) ^ (2 * k) * (pb.cost x - pb.cost y))
    (fun r : Result ℝ V × S => ∃ k : ℕ, r.1.iterations = k ∧ 0 < k ∧
      pb.cost r.1.point - pb.cost y ≤ ((b - a) / (b + a)) ^ (2 * k) * (pb.cost x - pb.cost y))
    ?_ ?_ h ⟨0, rfl, by simp [sdInit]⟩
  · rintro s s' ⟨k, hk, hs⟩ hst
    unfold sdStep at hst
    simp only [hslope, hq.neg] at hst
    split at hst
    · cases hst
    · rename_i o ho
      split at hst
      · cases hst
        refine ⟨k + 1, by simp [hk], (hstep _ _ _ ho).trans ?_⟩
        rw [Nat.mul_succ, pow_add, mul_comm (_ ^ (2 * k)), mul_assoc]
        exact mul_le_mul_of_nonneg_left hs hρ
      · cases hst
  · rintro s r ⟨k, hk, hs⟩ hst
    unfold sdStep at hst
    simp only [hslope, hq.neg] at hst
    split at hst
    · cases hst
    · rename_i o ho
      split at hst
      · cases hst
      · cases hst
        refine ⟨k + 1, by simp [hk], by omega, (hstep _ _ _ ho).trans ?_⟩
        rw [Nat.mul_succ, pow_add, mul_comm (_ ^ (2 * k)), mul_assoc]
        exact mul_le_mul_of_nonneg_left hs hρ

end

/-! ### Quadratic functions on the Euclidean manifold -/

section
variable {ι : Type*} [Fintype ι]

/-- **C153** (Euclidean): the rate for `x ↦ ½ ⟨x, A x⟩ - ⟨b, x⟩` with a symmetric matrix `A` with
eigenvalues between `lo > 0` and `hi`, where `y` solves `A y = b`. -/
theorem C153_euclidean (dim : ℤ) {A : Matrix ι ι ℝ} (b : ι → ℝ) (hsymm : A.transpose = A)
    {lo hi : ℝ} (hlo : 0 < lo) (hlohi : lo ≤ hi)
    (hA : ∀ v : ι → ℝ, lo * tensordot v v ≤ tensordot v (A.mulVec v) ∧
      tensordot v (A.mulVec v) ≤ hi * tensordot v v)
    {cfg : Cfg ℝ} (hε : 0 < cfg.minGradientNorm) {clk : Clock ℝ} {x y : ι → ℝ} (hy : A.mulVec y = b)
    {rule : BetaRule} {orth : ℝ} (ho : 0 < orth) {res : Result ℝ (ι → ℝ)}
    {t : List ((ι → ℝ) × (ι → ℝ) × ℝ)}
    (h : CGRuns cfg rule orth (quadSearch A) (quadProb dim A b) clk x () (.ok (res, (), t))) :
    (∃ k : ℕ, res.iterations = k + 1 ∧
      tensordot (res.point - y) (A.mulVec (res.point - y)) ≤
        4 * ((√hi - √lo) / (√hi + √lo)) ^ (2 * k) * tensordot (x - y) (A.mulVec (x - y))) ∧
    (1 < res.iterations → (res.iterations : ℝ) ≤ 2 + √(hi / lo) / 4 *
      Real.log (4 * hi * tensordot (x - y) (A.mulVec (x - y)) / cfg.minGradientNorm ^ 2)) := by
  have hB : IsInner (E := ι → ℝ) tensordot := tensordot_inner
  have hpos : ∀ v : ι → ℝ, v ≠ 0 → 0 < tensordot v (A.mulVec v) := by
    intro v hv
    have : 0 < tensordot v v := (hB.nonneg v).lt_of_ne fun h => hv (hB.definite v h.symm)
    exact lt_of_lt_of_le (mul_pos hlo this) (hA v).1
  have hq := C149_euclidean dim b hsymm hpos
  have hls := C149_euclidean_search dim b hsymm hpos
  have hy0 : (quadProb dim A b).grad y = 0 := by
    change A.mulVec y - b = 0
    rw [hy, sub_self]
  have hmin : IsMinimiser (quadProb dim A b) y := fun z => hq.minimum hy0 z
  have hw := hq.preconBounds hlo hA
  have hgap : ∀ z, tensordot (z - y) (A.mulVec (z - y)) =
      2 * ((quadProb dim A b).cost z - (quadProb dim A b).cost y) := by
    intro z
    rw [hq.gap hy0, hB.symm]
    change tensordot (A.mulVec (z - y)) (z - y) = 2 * (1 / 2 * tensordot (A.mulVec (z - y)) (z - y))
    ring
  refine ⟨?_, fun h1 => ?_⟩
  · obtain ⟨k, hk, h1, -⟩ := C153_rate hq hls hε hmin ho hlo hlohi hw h
    refine ⟨k, hk, ?_⟩
    rw [hgap, hgap]
    unfold chebRate at h1
    linarith
  · have := C153_iterations hq hls hε hmin ho hlo hlohi hw (c := hi)
      (fun v => (hw v).2) (hlo.trans_le hlohi).le h h1
    rw [hgap]
    convert this using 5
    ring

/-- The hypotheses hold for a diagonal matrix with three different entries; with a constant diagonal
the preconditioned Hessian has one eigenvalue. -/
example :
    (∀ v : Fin 3 → ℝ, 1 * tensordot v v ≤ tensordot v ((Matrix.diagonal ![(1 : ℝ), 2, 4]).mulVec v) ∧
      tensordot v ((Matrix.diagonal ![(1 : ℝ), 2, 4]).mulVec v) ≤ 4 * tensordot v v) ∧
    (Matrix.diagonal ![(1 : ℝ), 2, 4]).transpose = Matrix.diagonal ![1, 2, 4] ∧
    (√4 - √1) / (√4 + √1) = (1 / 3 : ℝ) := by
  refine ⟨fun v => ?_, Matrix.diagonal_transpose _, ?_⟩
  · have h1 : tensordot v v = v 0 ^ 2 + v 1 ^ 2 + v 2 ^ 2 := by
      simp [tensordot, Fin.sum_univ_three]
      ring
    have h2 : tensordot v ((Matrix.diagonal ![(1 : ℝ), 2, 4]).mulVec v) =
        v 0 ^ 2 + 2 * v 1 ^ 2 + 4 * v 2 ^ 2 := by
      simp [tensordot, Matrix.mulVec_diagonal, Fin.sum_univ_three]
      ring
    rw [h1, h2]
    constructor <;> nlinarith [sq_nonneg (v 0), sq_nonneg (v 1), sq_nonneg (v 2)]
  · have : √(4 : ℝ) = 2 := by
      rw [show (4 : ℝ) = 2 ^ 2 by norm_num]
      exact Real.sqrt_sq (by norm_num)
    rw [this, Real.sqrt_one]
    norm_num

/-- The hypotheses of `C153_eigenvalues` and `C153_steepest` hold for a multiple of the identity and
for the exact line search. -/
example :
    (∀ c (v : Fin 3 → ℝ), v ≠ 0 →
      (LinearMap.id : (Fin 3 → ℝ) →ₗ[ℝ] Fin 3 → ℝ)
        ((Matrix.diagonal fun _ : Fin 3 => (2 : ℝ)).mulVecLin v) = c • v →
      c ∈ ({2} : Finset ℝ)) ∧
    ∀ (A : Matrix ι ι ℝ) (b : ι → ℝ) mem x o, (quadProb 3 A b).grad x = 0 →
      (quadSearch A).search mem (quadProb 3 A b).cost (quadProb 3 A b).M x 0
        ((quadProb 3 A b).cost x) 0 = .ok o → o.newx = x := by
  refine ⟨fun c v hv h => ?_, fun A b mem x o _ h => ?_⟩
  · obtain ⟨i, hi⟩ := Function.ne_iff.1 hv
    have := congrFun h i
    simp only [LinearMap.id_apply, Matrix.mulVecLin_apply, Matrix.mulVec_diagonal, Pi.smul_apply,
      smul_eq_mul] at this
    simpa using (mul_right_cancel₀ hi this).symm
  · cases h
    change x + _ • (0 : ι → ℝ) = x
    rw [smul_zero, add_zero]

end

end Verif.Geo
